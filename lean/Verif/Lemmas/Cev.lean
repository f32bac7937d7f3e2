import Verif.Lemmas.Ncx2
import Verif.Model.Cev
import Mathlib.Analysis.SpecialFunctions.ExpDeriv

/-!
# The CEV call value as a function of forward, strike and variance
-/

namespace PyFENG

open Real Filter Topology Set

/-! ### `exprel` -/

lemma exprel_pos (x : ℝ) : 0 < exprel x := by
  unfold exprel
  split_ifs with h
  · exact one_pos
  · rcases lt_or_gt_of_ne h with h | h
    · exact div_pos_of_neg_of_neg (by linarith [exp_lt_one_iff.2 h]) h
    · exact div_pos (by linarith [add_one_lt_exp h.ne']) h

/-- `T * exprel(c T)` is the integral of `exp(c t)`; its derivative is `exp(c T)`. -/
lemma hasDerivAt_mul_exprel (c T : ℝ) : HasDerivAt (fun t => t * exprel (c * t)) (exp (c * T)) T := by
  by_cases hc : c = 0
  · subst hc
    have : (fun t : ℝ => t * exprel (0 * t)) = fun t => t := by ext t; simp [exprel]
    rw [this]
    simpa using hasDerivAt_id' T
  · have : (fun t : ℝ => t * exprel (c * t)) = fun t => (exp (c * t) - 1) / c := by
      ext t
      unfold exprel
      split_ifs with h
      · have : t = 0 := by simpa [hc] using h
        subst this; simp
      · have ht : t ≠ 0 := fun h0 => h (by rw [h0, mul_zero])
        field_simp
    rw [this]
    have h := ((((hasDerivAt_id' T).const_mul c).exp).sub_const 1).div_const c
    refine h.congr_deriv ?_
    field_simp

/-! ### Core call values -/

/-- Undiscounted call for `beta < 1` in half variables. -/
noncomputable def cevLt (nu F K y0 yK : ℝ) : ℝ := F * (1 - ncP (nu + 1) yK y0) - K * ncP nu y0 yK

/-- Undiscounted call for `beta > 1` in half variables. -/
noncomputable def cevGt (nu F K y0 yK : ℝ) : ℝ := F * (1 - ncP nu y0 yK) - K * ncP (nu + 1) yK y0

lemma hasDerivAt_cevLt {nu : ℝ} (hnu : 0 < nu) {F K y0 yK : ℝ → ℝ} {F' K' y0' yK' t : ℝ} (hF : HasDerivAt F F' t)
    (hK : HasDerivAt K K' t) (h0 : HasDerivAt y0 y0' t) (hKy : HasDerivAt yK yK' t) (p0 : 0 < y0 t) (pK : 0 < yK t)
    (hrel : y0 t ^ nu * K t = yK t ^ nu * F t) :
    HasDerivAt (fun t => cevLt nu (F t) (K t) (y0 t) (yK t))
      (F' * (1 - ncP (nu + 1) (yK t) (y0 t)) - K' * ncP nu (y0 t) (yK t)
        - nu * F t * (y0' / y0 t) * ncG (nu + 1) (yK t) (y0 t)) t := by
  have d1 := hasDerivAt_ncP (a := nu + 1) (by linarith) hKy h0 pK
  have d2 := hasDerivAt_ncP hnu h0 hKy p0
  have h := (hF.mul (d1.const_sub 1)).sub (hK.mul d2)
  refine h.congr_deriv ?_
  have p0n := rpow_pos_of_pos p0 nu
  have pKn := rpow_pos_of_pos pK nu
  have ex := ncG_exchange (a := nu + 1) (by linarith) pK p0
  have ct := ncG_contig hnu pK p0
  rw [add_sub_cancel_right] at ex
  rw [show nu + 1 + 1 = nu + 2 by ring]
  have hKt : K t = yK t ^ nu * F t / y0 t ^ nu := by field_simp; linarith
  rw [hKt]
  generalize ncG (nu + 1) (yK t) (y0 t) = g1 at *
  generalize ncG (nu + 1) (y0 t) (yK t) = g2 at *
  generalize ncG (nu + 2) (yK t) (y0 t) = g3 at *
  generalize ncG nu (y0 t) (yK t) = g4 at *
  generalize y0 t ^ nu = A at *
  generalize yK t ^ nu = B at *
  generalize y0 t = c at *
  generalize F t = f at *
  have e1 : B * g2 / A = g1 := by field_simp; linarith
  have e2 : g3 - B * g4 / A = -nu * g1 / c := by
    field_simp
    linarith
  have : f * (-(g1 * yK' - g3 * y0')) - B * f / A * (g4 * y0' - g2 * yK')
      = f * y0' * (g3 - B * g4 / A) + f * yK' * (B * g2 / A - g1) := by ring
  rw [e1, e2] at this
  linear_combination this

lemma hasDerivAt_cevGt {nu : ℝ} (hnu : 0 < nu) {F K y0 yK : ℝ → ℝ} {F' K' y0' yK' t : ℝ} (hF : HasDerivAt F F' t)
    (hK : HasDerivAt K K' t) (h0 : HasDerivAt y0 y0' t) (hKy : HasDerivAt yK yK' t) (p0 : 0 < y0 t) (pK : 0 < yK t)
    (hrel : yK t ^ nu * K t = y0 t ^ nu * F t) :
    HasDerivAt (fun t => cevGt nu (F t) (K t) (y0 t) (yK t))
      (F' * (1 - ncP nu (y0 t) (yK t)) - K' * ncP (nu + 1) (yK t) (y0 t)
        - nu * F t * (y0' / y0 t) * ncG (nu + 1) (y0 t) (yK t)) t := by
  have d1 := hasDerivAt_ncP (a := nu + 1) (by linarith) hKy h0 pK
  have d2 := hasDerivAt_ncP hnu h0 hKy p0
  have h := (hF.mul (d2.const_sub 1)).sub (hK.mul d1)
  refine h.congr_deriv ?_
  have p0n := rpow_pos_of_pos p0 nu
  have pKn := rpow_pos_of_pos pK nu
  have ex := ncG_exchange (a := nu + 1) (by linarith) pK p0
  have ct := ncG_contig hnu pK p0
  rw [add_sub_cancel_right] at ex
  rw [show nu + 1 + 1 = nu + 2 by ring]
  have hKt : K t = y0 t ^ nu * F t / yK t ^ nu := by field_simp; linarith
  rw [hKt]
  generalize ncG (nu + 1) (yK t) (y0 t) = g1 at *
  generalize ncG (nu + 1) (y0 t) (yK t) = g2 at *
  generalize ncG (nu + 2) (yK t) (y0 t) = g3 at *
  generalize ncG nu (y0 t) (yK t) = g4 at *
  generalize y0 t ^ nu = A at *
  generalize yK t ^ nu = B at *
  generalize y0 t = c at *
  generalize F t = f at *
  have e1 : A * g1 / B = g2 := by field_simp; linarith
  have e2 : A * g3 / B - g4 = -nu * g2 / c := by
    rw [← e1]
    field_simp
    linarith
  have : f * (-(g4 * y0' - g2 * yK')) - A * f / B * (g1 * yK' - g3 * y0')
      = f * y0' * (A * g3 / B - g4) + f * yK' * (g2 - A * g1 / B) := by ring
  rw [e1, e2] at this
  linear_combination this

/-- Half of the noncentral chi-squared argument at level `x`. -/
noncomputable def cevLev (b V x : ℝ) : ℝ := x ^ (2 * b) / (2 * V)

lemma cevLev_pos {b V x : ℝ} (hV : 0 < V) (hx : 0 < x) : 0 < cevLev b V x := by unfold cevLev; positivity

lemma hasDerivAt_cevLev {b : ℝ} {V x : ℝ → ℝ} {V' x' t : ℝ} (hV : HasDerivAt V V' t) (hx : HasDerivAt x x' t) (pV : 0 < V t)
    (px : 0 < x t) :
    HasDerivAt (fun t => cevLev b (V t) (x t)) (cevLev b (V t) (x t) * (2 * b * x' / x t - V' / V t)) t := by
  unfold cevLev
  have h := (hx.rpow_const (p := 2 * b) (Or.inl px.ne')).div (hV.const_mul 2) (by positivity)
  refine h.congr_deriv ?_
  rw [rpow_sub_one px.ne']
  field_simp

lemma cevLev_rpow {b V x : ℝ} (hb : b ≠ 0) (hV : 0 < V) (hx : 0 < x) : cevLev b V x ^ (1 / (2 * b)) = x / (2 * V) ^ (1 / (2 * b)) := by
  unfold cevLev
  rw [div_rpow (by positivity) (by positivity), ← rpow_mul hx.le, mul_one_div_cancel (by simpa using hb), rpow_one]

lemma cevLev_rpow_neg {b V x : ℝ} (hb : b ≠ 0) (hV : 0 < V) (hx : 0 < x) :
    cevLev b V x ^ (-1 / (2 * b)) = (2 * V) ^ (1 / (2 * b)) / x := by
  rw [neg_div, rpow_neg (cevLev_pos hV hx).le, cevLev_rpow hb hV hx, inv_div]

/-- Derivative of the undiscounted call along any path, `beta < 1`. -/
lemma hasDerivAt_coreLt {b : ℝ} (hb : 0 < b) {F K V : ℝ → ℝ} {F' K' V' t : ℝ} (hF : HasDerivAt F F' t) (hK : HasDerivAt K K' t)
    (hV : HasDerivAt V V' t) (pF : 0 < F t) (pK : 0 < K t) (pV : 0 < V t) :
    HasDerivAt (fun t => cevLt (1 / (2 * b)) (F t) (K t) (cevLev b (V t) (F t)) (cevLev b (V t) (K t)))
      (F' * (1 - ncP (1 / (2 * b)) (cevLev b (V t) (K t)) (cevLev b (V t) (F t)))
        - K' * ncP (1 / (2 * b)) (cevLev b (V t) (F t)) (cevLev b (V t) (K t))
        + F t / (2 * b) * (V' / V t) * ncG (1 / (2 * b) + 1) (cevLev b (V t) (K t)) (cevLev b (V t) (F t))) t := by
  have hnu : 0 < 1 / (2 * b) := by positivity
  have h0 := hasDerivAt_cevLev (b := b) hV hF pV pF
  have hy := hasDerivAt_cevLev (b := b) hV hK pV pK
  have p0 := cevLev_pos (b := b) pV pF
  have pKy := cevLev_pos (b := b) pV pK
  have hrel : cevLev b (V t) (F t) ^ (1 / (2 * b)) * K t = cevLev b (V t) (K t) ^ (1 / (2 * b)) * F t := by
    rw [cevLev_rpow hb.ne' pV pF, cevLev_rpow hb.ne' pV pK]; ring
  have h := hasDerivAt_cevLt hnu hF hK h0 hy p0 pKy hrel
  refine h.congr_deriv ?_
  have hs := ncP_succ hnu pKy.le (cevLev b (V t) (F t))
  generalize ncG (1 / (2 * b) + 1) (cevLev b (V t) (K t)) (cevLev b (V t) (F t)) = g at *
  have e : cevLev b (V t) (F t) * (2 * b * F' / F t - V' / V t) / cevLev b (V t) (F t) = 2 * b * F' / F t - V' / V t :=
    mul_div_cancel_left₀ _ p0.ne'
  rw [e]
  rw [show ncP (1 / (2 * b)) (cevLev b (V t) (K t)) (cevLev b (V t) (F t))
    = g + ncP (1 / (2 * b) + 1) (cevLev b (V t) (K t)) (cevLev b (V t) (F t)) by linarith]
  field_simp
  ring

/-- Derivative of the undiscounted call along any path, `beta > 1`. -/
lemma hasDerivAt_coreGt {b : ℝ} (hb : b < 0) {F K V : ℝ → ℝ} {F' K' V' t : ℝ} (hF : HasDerivAt F F' t) (hK : HasDerivAt K K' t)
    (hV : HasDerivAt V V' t) (pF : 0 < F t) (pK : 0 < K t) (pV : 0 < V t) :
    HasDerivAt (fun t => cevGt (-1 / (2 * b)) (F t) (K t) (cevLev b (V t) (F t)) (cevLev b (V t) (K t)))
      (F' * (1 - ncP (-1 / (2 * b) + 1) (cevLev b (V t) (F t)) (cevLev b (V t) (K t)))
        - K' * ncP (-1 / (2 * b) + 1) (cevLev b (V t) (K t)) (cevLev b (V t) (F t))
        - F t / (2 * b) * (V' / V t) * ncG (-1 / (2 * b) + 1) (cevLev b (V t) (F t)) (cevLev b (V t) (K t))) t := by
  have hnu : 0 < -1 / (2 * b) := div_pos_of_neg_of_neg (by norm_num) (by linarith)
  have h0 := hasDerivAt_cevLev (b := b) hV hF pV pF
  have hy := hasDerivAt_cevLev (b := b) hV hK pV pK
  have p0 := cevLev_pos (b := b) pV pF
  have pKy := cevLev_pos (b := b) pV pK
  have hrel : cevLev b (V t) (K t) ^ (-1 / (2 * b)) * K t = cevLev b (V t) (F t) ^ (-1 / (2 * b)) * F t := by
    rw [cevLev_rpow_neg hb.ne pV pF, cevLev_rpow_neg hb.ne pV pK]
    field_simp
  have h := hasDerivAt_cevGt hnu hF hK h0 hy p0 pKy hrel
  refine h.congr_deriv ?_
  have hs := ncP_succ hnu p0.le (cevLev b (V t) (K t))
  generalize ncG (-1 / (2 * b) + 1) (cevLev b (V t) (F t)) (cevLev b (V t) (K t)) = g at *
  have e : cevLev b (V t) (F t) * (2 * b * F' / F t - V' / V t) / cevLev b (V t) (F t) = 2 * b * F' / F t - V' / V t :=
    mul_div_cancel_left₀ _ p0.ne'
  rw [e]
  rw [show ncP (-1 / (2 * b)) (cevLev b (V t) (F t)) (cevLev b (V t) (K t))
    = g + ncP (-1 / (2 * b) + 1) (cevLev b (V t) (F t)) (cevLev b (V t) (K t)) by linarith]
  have hb' := hb.ne
  field_simp
  ring

end PyFENG
