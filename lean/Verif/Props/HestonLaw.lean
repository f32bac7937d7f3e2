import Verif.Props.HestonEta
import Verif.Props.HestonMgf
import Verif.Lemmas.Subord

/-!
# Laws produced by the gamma expansion (`pyfeng/heston_mc.py`)
-/

namespace PyFENG

open Real Set Filter Topology Spec MeasureTheory

namespace Heston

/-- The square root `γ(s)/2` in the transforms of the average variance. -/
noncomputable def Spec.halfGamma (m : Heston) (dt s : ℝ) : ℝ := √((m.mr * dt / 2) ^ 2 - m.vov2dt dt * s / 2)

/-- `log E exp(s X1)` per unit of `V_0 + V_T`. -/
noncomputable def Spec.x1Exponent (m : Heston) (dt s : ℝ) : ℝ :=
  2 / m.vov2dt dt * (m.mr * dt / 2 * (cosh (m.mr * dt / 2) / sinh (m.mr * dt / 2)) - Spec.halfGamma m dt s * (cosh (Spec.halfGamma m dt s) / sinh (Spec.halfGamma m dt s)))

/-- `E exp(s X2)` for shape 1. -/
noncomputable def Spec.x2Ratio (m : Heston) (dt s : ℝ) : ℝ :=
  (Spec.halfGamma m dt s / sinh (Spec.halfGamma m dt s)) / ((m.mr * dt / 2) / sinh (m.mr * dt / 2))

/-! ### Transforms of sums of draws -/

lemma gamma0_exp {a s : ℝ} (ha : 0 ≤ a) (hs : s < 1) : Ex.gamma0 a (fun g => exp (s * g)) = (1 - s) ^ (-a) := by
  unfold Ex.gamma0
  split_ifs with h
  · rw [h]; simp
  · exact Ex.gamma_exp (lt_of_le_of_ne ha (Ne.symm h)) hs

lemma gamma0_smul (a k : ℝ) (f : ℝ → ℝ) : Ex.gamma0 a (fun g => k * f g) = k * Ex.gamma0 a f := by
  unfold Ex.gamma0
  split_ifs with h
  · rfl
  · exact Ex.gamma_smul a k f

/-- Transforms multiply over independent draws. -/
lemma sumDraws_exp {s : ℝ} : ∀ {l : List (Ex ℝ × ℝ)} (_ : ∀ p ∈ l, ∀ c, p.1 (fun x => c * exp (s * x)) = c * p.2) (acc c : ℝ),
    sumDraws (l.map Prod.fst) acc (fun x => c * exp (s * x)) = c * exp (s * acc) * (l.map Prod.snd).prod
  | [], _, acc, c => by
    show c * exp (s * acc) = _
    simp
  | p :: l, h, acc, c => by
    show p.1 (fun x => sumDraws (l.map Prod.fst) (acc + x) (fun y => c * exp (s * y))) = _
    have ih := fun x => sumDraws_exp (s := s) (l := l) (fun q hq => h q (by simp [hq])) (acc + x) c
    simp only [ih]
    have e : (fun x => c * exp (s * (acc + x)) * (l.map Prod.snd).prod) = fun x => (c * exp (s * acc) * (l.map Prod.snd).prod) * exp (s * x) := by
      ext x; rw [mul_add, exp_add]; ring
    rw [e, h p (by simp)]
    simp only [List.map_cons, List.prod_cons]
    ring

lemma prod_range_list (f : ℕ → ℝ) (n : ℕ) : ((List.range n).map f).prod = ∏ i ∈ Finset.range n, f i := by
  induction n with
  | zero => simp
  | succ n ih => rw [List.range_succ, List.map_append, List.prod_append, ih, Finset.prod_range_succ]; simp

lemma sumDraws_range_exp {s : ℝ} {D : ℕ → Ex ℝ} {M : ℕ → ℝ} (h : ∀ n c, D n (fun x => c * exp (s * x)) = c * M n) (kk : ℕ) (c : ℝ) :
    sumDraws ((List.range kk).map D) 0 (fun x => c * exp (s * x)) = c * ∏ n ∈ Finset.range kk, M n := by
  have := sumDraws_exp (s := s) (l := (List.range kk).map fun n => (D n, M n)) (by
    intro p hp
    obtain ⟨n, -, rfl⟩ := List.mem_map.1 hp
    exact h n) 0 c
  rw [List.map_map, List.map_map] at this
  refine this.trans ?_
  rw [mul_zero, exp_zero, mul_one]
  exact congrArg (fun y => c * y) (prod_range_list M kk)

section Limits

variable {m : Heston} {dt s : ℝ}

lemma halfGamma_pos (hs : m.vov2dt dt * s / 2 < (m.mr * dt / 2) ^ 2) : 0 < Spec.halfGamma m dt s ∧ Spec.halfGamma m dt s ^ 2 = (m.mr * dt / 2) ^ 2 - m.vov2dt dt * s / 2 :=
  ⟨sqrt_pos.2 (by linarith), sq_sqrt (by linarith)⟩

lemma factor_eq (hv : 0 < m.vov2dt dt) (hs : m.vov2dt dt * s / 2 < (m.mr * dt / 2) ^ 2) (n : ℕ) :
    1 - s / m.gammaN dt n = (1 + Spec.halfGamma m dt s ^ 2 / Coth.pole n) / (1 + (m.mr * dt / 2) ^ 2 / Coth.pole n) ∧ 0 < 1 - s / m.gammaN dt n := by
  have hp := Coth.pole_pos n
  have hb := (halfGamma_pos hs).2
  have e : 1 - s / m.gammaN dt n = (1 + Spec.halfGamma m dt s ^ 2 / Coth.pole n) / (1 + (m.mr * dt / 2) ^ 2 / Coth.pole n) := by
    rw [hb, gammaN_eq]
    have h1 : 0 < (m.mr * dt / 2) ^ 2 + Coth.pole n := by positivity
    generalize (m.mr * dt / 2) ^ 2 = x at *
    have h2 : 1 + x / Coth.pole n ≠ 0 := by
      have : 1 + x / Coth.pole n = (x + Coth.pole n) / Coth.pole n := by field_simp; ring
      rw [this]; positivity
    have h3 : Coth.pole n + x ≠ 0 := by linarith
    have h4 : x + Coth.pole n ≠ 0 := by linarith
    rw [eq_div_iff h2]
    field_simp
    ring
  refine ⟨e, ?_⟩
  rw [e]
  have := (halfGamma_pos hs).1
  positivity

/-- Euler's product: the transform of `Σ Exp(1)/γ_n`. -/
lemma tendsto_x2 (hv : 0 < m.vov2dt dt) (ha : m.mr * dt ≠ 0) (hs : m.vov2dt dt * s / 2 < (m.mr * dt / 2) ^ 2) (h : ℝ) :
    Tendsto (fun kk => ∏ n ∈ Finset.range kk, (1 - s / m.gammaN dt n) ^ (-h)) atTop (𝓝 (Spec.x2Ratio m dt s ^ h)) := by
  have ha' : m.mr * dt / 2 ≠ 0 := by positivity
  obtain ⟨hb, hb2⟩ := halfGamma_pos hs
  have h1 := Coth.sinh_prod hb.ne'
  have h2 := Coth.sinh_prod ha'
  have hsh : sinh (m.mr * dt / 2) ≠ 0 := by rw [Ne, ← sinh_zero, sinh_inj]; exact ha'
  have hsh' : 0 < sinh (m.mr * dt / 2) / (m.mr * dt / 2) := by
    rcases lt_or_gt_of_ne ha' with h | h
    · exact div_pos_of_neg_of_neg (sinh_neg_iff.2 h) h
    · exact div_pos (sinh_pos_iff.2 h) h
  have hbs : 0 < sinh (Spec.halfGamma m dt s) := sinh_pos_iff.2 hb
  have h3 := h1.div h2 hsh'.ne'
  have h4 : Tendsto (fun kk => ∏ n ∈ Finset.range kk, (1 - s / m.gammaN dt n)) atTop (𝓝 (sinh (Spec.halfGamma m dt s) / Spec.halfGamma m dt s / (sinh (m.mr * dt / 2) / (m.mr * dt / 2)))) := by
    refine h3.congr fun kk => ?_
    rw [Pi.div_apply, ← Finset.prod_div_distrib]
    exact Finset.prod_congr rfl fun n _ => ((factor_eq hv hs n).1).symm
  have h5 := h4.rpow_const (p := -h) (Or.inl (by positivity))
  have e : (sinh (Spec.halfGamma m dt s) / Spec.halfGamma m dt s / (sinh (m.mr * dt / 2) / (m.mr * dt / 2))) ^ (-h) = Spec.x2Ratio m dt s ^ h := by
    rw [rpow_neg (by positivity), ← inv_rpow (by positivity)]
    congr 1
    unfold Spec.x2Ratio
    field_simp
  rw [e] at h5
  refine h5.congr fun kk => ?_
  rw [← Real.finsetProd_rpow]
  exact fun n _ => ((factor_eq hv hs n).2).le

/-- The exponent of the compound Poisson part. -/
lemma tendsto_x1 (hv : 0 < m.vov2dt dt) (ha : m.mr * dt ≠ 0) (hs : m.vov2dt dt * s / 2 < (m.mr * dt / 2) ^ 2) :
    Tendsto (fun kk => ∑ n ∈ Finset.range kk, m.lambdaN dt n * ((1 - s / m.gammaN dt n)⁻¹ - 1)) atTop (𝓝 (Spec.x1Exponent m dt s)) := by
  have ha' : m.mr * dt / 2 ≠ 0 := by positivity
  obtain ⟨hb, hb2⟩ := halfGamma_pos hs
  have h1 := (((Coth.hasSum_one ha').mul_left ((m.mr * dt / 2) ^ 2)).sub ((Coth.hasSum_one hb.ne').mul_left (Spec.halfGamma m dt s ^ 2))).mul_left (4 / m.vov2dt dt)
  have e : 4 / m.vov2dt dt * ((m.mr * dt / 2) ^ 2 * ((m.mr * dt / 2 * (cosh (m.mr * dt / 2) / sinh (m.mr * dt / 2)) - 1) / (2 * (m.mr * dt / 2) ^ 2)) -
      Spec.halfGamma m dt s ^ 2 * ((Spec.halfGamma m dt s * (cosh (Spec.halfGamma m dt s) / sinh (Spec.halfGamma m dt s)) - 1) / (2 * Spec.halfGamma m dt s ^ 2))) = Spec.x1Exponent m dt s := by
    unfold Spec.x1Exponent
    generalize cosh (m.mr * dt / 2) / sinh (m.mr * dt / 2) = c1
    generalize cosh (Spec.halfGamma m dt s) / sinh (Spec.halfGamma m dt s) = c2
    generalize m.mr * dt / 2 = a at *
    field_simp
    ring
  rw [e] at h1
  refine h1.tendsto_sum_nat.congr fun kk => Finset.sum_congr rfl fun n _ => ?_
  have hp := Coth.pole_pos n
  rw [(factor_eq hv hs n).1, lambdaN_eq]
  generalize m.mr * dt / 2 = a at *
  generalize Spec.halfGamma m dt s = b at *
  obtain ⟨D, hD⟩ : ∃ D, D = a ^ 2 + Coth.pole n := ⟨_, rfl⟩
  obtain ⟨E, hE⟩ : ∃ E, E = b ^ 2 + Coth.pole n := ⟨_, rfl⟩
  have hD0 : 0 < D := by rw [hD]; positivity
  have hE0 : 0 < E := by rw [hE]; positivity
  have e1 : 1 + a ^ 2 / Coth.pole n = D / Coth.pole n := by rw [hD]; field_simp; ring
  have e2 : 1 + b ^ 2 / Coth.pole n = E / Coth.pole n := by rw [hE]; field_simp; ring
  rw [e1, e2, ← hD, ← hE]
  field_simp
  rw [hD, hE]
  ring

/-- Transform of one term of `draw_x123` (`h = 0`: of `draw_x1`). -/
lemma term_exp (hv : 0 < m.vov2dt dt) (hs : m.vov2dt dt * s / 2 < (m.mr * dt / 2) ^ 2) {vs h : ℝ} (hh : 0 ≤ h) (n : ℕ) (c : ℝ) :
    (do let pois ← rngEx.poisson (vs * m.lambdaN dt n); let g ← rngEx.gamma ((pois : ℝ) + h); pure (g / m.gammaN dt n) : Ex ℝ) (fun x => c * exp (s * x)) =
      c * ((1 - s / m.gammaN dt n) ^ (-h) * exp (vs * (m.lambdaN dt n * ((1 - s / m.gammaN dt n)⁻¹ - 1)))) := by
  obtain ⟨-, hf⟩ := factor_eq hv hs n
  show Ex.poisson (vs * m.lambdaN dt n) (fun k => Ex.gamma0 ((k : ℝ) + h) (fun g => c * exp (s * (g / m.gammaN dt n)))) = _
  have e : ∀ k : ℕ, Ex.gamma0 ((k : ℝ) + h) (fun g => c * exp (s * (g / m.gammaN dt n))) = c * (1 - s / m.gammaN dt n) ^ (-h) * ((1 - s / m.gammaN dt n)⁻¹) ^ k := by
    intro k
    have e1 : ∀ g : ℝ, s * (g / m.gammaN dt n) = s / m.gammaN dt n * g := fun g => by ring
    simp only [e1]
    rw [gamma0_smul, gamma0_exp (by positivity) (by linarith), mul_assoc, neg_add, rpow_add hf, rpow_neg hf.le (k : ℝ), rpow_natCast, inv_pow]
    ring
  simp only [e]
  rw [Ex.poisson_smul, Ex.poisson_pow]
  ring_nf

/-- **C108.** The gamma expansion is exact: the transform of the first `kk` terms of `draw_x123` converges to the closed form. -/
theorem x123_series_law (hv : 0 < m.vov2dt dt) (ha : m.mr * dt ≠ 0) (hs : m.vov2dt dt * s / 2 < (m.mr * dt / 2) ^ 2) {vs h : ℝ} (hh : 0 ≤ h) :
    Tendsto (fun kk => sumDraws ((List.range kk).map fun n => (do
      let pois ← rngEx.poisson (vs * m.lambdaN dt n)
      let g ← rngEx.gamma ((pois : ℝ) + h)
      pure (g / m.gammaN dt n) : Ex ℝ)) 0 (fun x => exp (s * x))) atTop (𝓝 (exp (vs * Spec.x1Exponent m dt s) * Spec.x2Ratio m dt s ^ h)) := by
  have h1 := (tendsto_x2 hv ha hs h).mul (((continuous_exp.tendsto _).comp ((tendsto_x1 hv ha hs).const_mul vs)))
  rw [mul_comm (exp _)]
  refine h1.congr fun kk => ?_
  have h2 := sumDraws_range_exp (s := s) (fun n c => term_exp (vs := vs) hv hs hh n c) kk 1
  simp only [one_mul] at h2
  rw [h2, Finset.prod_mul_distrib, ← exp_sum, ← Finset.mul_sum]
  rfl

lemma phi_eq (hxi : m.vov ≠ 0) (hdt : 0 < dt) (ha : 0 < m.mr) : (m.cir.phiExp dt).1 = 4 * (m.mr * dt / 2) / (m.vov2dt dt * sinh (m.mr * dt / 2)) := by
  have ha' : 0 < m.mr * dt / 2 := by positivity
  have hsa : 0 < sinh (m.mr * dt / 2) := sinh_pos_iff.2 ha'
  unfold Cir.phiExp cir vov2dt
  simp only
  rw [show -m.mr * dt / 2 = -(m.mr * dt / 2) by ring, exp_neg, one_div, inv_inv, sinh_eq, exp_neg]
  have : exp (m.mr * dt / 2) - (exp (m.mr * dt / 2))⁻¹ ≠ 0 := by
    rw [sinh_eq, exp_neg] at hsa; linarith
  generalize exp (m.mr * dt / 2) - (exp (m.mr * dt / 2))⁻¹ = y at *
  field_simp

/-- **C108.** `x2_avgvar_mgf` is the transform of `X2`. -/
theorem x2_avgvar_mgf_correct (hxi : m.vov ≠ 0) (hdt : 0 < dt) (ha : 0 < m.mr) (hs : m.vov2dt dt * s / 2 < (m.mr * dt / 2) ^ 2) {h : ℝ} :
    m.x2AvgvarMgf s dt h = Spec.x2Ratio m dt s ^ h ∧
    (0 ≤ h → Tendsto (fun kk => sumDraws ((List.range kk).map fun n => (do let g ← rngEx.gamma h; pure (g / m.gammaN dt n) : Ex ℝ)) 0 (fun x => exp (s * x))) atTop (𝓝 (m.x2AvgvarMgf s dt h))) := by
  have hv : 0 < m.vov2dt dt := by unfold vov2dt; positivity
  have ha' : 0 < m.mr * dt / 2 := by positivity
  obtain ⟨hb, hb2⟩ := halfGamma_pos hs
  have hg : √((m.mr * dt) ^ 2 - 2 * m.vov2dt dt * s) = 2 * Spec.halfGamma m dt s := by
    rw [show (m.mr * dt) ^ 2 - 2 * m.vov2dt dt * s = (2 * Spec.halfGamma m dt s) ^ 2 by linear_combination (-4) * hb2]
    exact sqrt_sq (by positivity)
  have hsa : 0 < sinh (m.mr * dt / 2) := sinh_pos_iff.2 ha'
  have hsb : 0 < sinh (Spec.halfGamma m dt s) := sinh_pos_iff.2 hb
  have hphi := phi_eq hxi hdt ha
  have hr : 0 < Spec.x2Ratio m dt s := by unfold Spec.x2Ratio; positivity
  have e : m.x2AvgvarMgf s dt h = Spec.x2Ratio m dt s ^ h := by
    unfold x2AvgvarMgf
    simp only
    rw [hg, hphi]
    have e1 : log (4 * (2 * Spec.halfGamma m dt s) / m.vov2dt dt / (1 - exp (-(2 * Spec.halfGamma m dt s))) / (4 * (m.mr * dt / 2) / (m.vov2dt dt * sinh (m.mr * dt / 2)))) - 2 * Spec.halfGamma m dt s / 2 = log (Spec.x2Ratio m dt s) := by
      have h1 : 1 - exp (-(2 * Spec.halfGamma m dt s)) = 2 * sinh (Spec.halfGamma m dt s) * exp (-Spec.halfGamma m dt s) := by
        rw [sinh_eq, show -(2 * Spec.halfGamma m dt s) = -Spec.halfGamma m dt s + -Spec.halfGamma m dt s by ring, exp_add, exp_neg]
        field_simp
      rw [h1]
      have h2 : 4 * (2 * Spec.halfGamma m dt s) / m.vov2dt dt / (2 * sinh (Spec.halfGamma m dt s) * exp (-Spec.halfGamma m dt s)) / (4 * (m.mr * dt / 2) / (m.vov2dt dt * sinh (m.mr * dt / 2))) =
          Spec.x2Ratio m dt s * exp (Spec.halfGamma m dt s) := by
        unfold Spec.x2Ratio
        rw [exp_neg]
        generalize m.mr * dt / 2 = a at *
        field_simp
      rw [h2, log_mul hr.ne' (exp_pos _).ne', log_exp]
      ring
    rw [e1, mul_comm, ← rpow_def_of_pos hr]
  refine ⟨e, fun hh => ?_⟩
  rw [e]
  refine (tendsto_x2 hv (by positivity) hs h).congr fun kk => ?_
  have h2 := sumDraws_range_exp (s := s) (D := fun n => (do let g ← rngEx.gamma h; pure (g / m.gammaN dt n) : Ex ℝ)) (M := fun n => (1 - s / m.gammaN dt n) ^ (-h)) (fun n c => by
    show Ex.gamma0 h (fun g => c * exp (s * (g / m.gammaN dt n))) = _
    have e1 : ∀ g : ℝ, s * (g / m.gammaN dt n) = s / m.gammaN dt n * g := fun g => by ring
    simp only [e1]
    rw [gamma0_smul, gamma0_exp hh (by linarith [(factor_eq hv hs n).2])]) kk 1
  simp only [one_mul] at h2
  exact h2.symm

lemma x2Ratio_pos (hdt : 0 < dt) (ha : 0 < m.mr) (hs : m.vov2dt dt * s / 2 < (m.mr * dt / 2) ^ 2) : 0 < Spec.x2Ratio m dt s := by
  have ha' : 0 < m.mr * dt / 2 := by positivity
  obtain ⟨hb, hb2⟩ := halfGamma_pos hs
  have hsa : 0 < sinh (m.mr * dt / 2) := sinh_pos_iff.2 ha'
  have hsb : 0 < sinh (Spec.halfGamma m dt s) := sinh_pos_iff.2 hb
  unfold Spec.x2Ratio
  positivity

/-- **C108.** `cond_avgvar_mgf` (the Broadie-Kaya transform) is the transform of the gamma expansion: mixing the transforms given `eta` over the Bessel law gives the returned value. -/
theorem cond_avgvar_mgf_correct (hxi : m.vov ≠ 0) (hdt : 0 < dt) (ha : 0 < m.mr) (hd : 0 < m.cir.chiDim) (hs : m.vov2dt dt * s / 2 < (m.mr * dt / 2) ^ 2) {v0 vT : ℝ} (h0 : 0 < v0) (hT : 0 < vT) :
    HasSum (fun k : ℕ => m.etaProb besselIe dt v0 vT k * (exp ((v0 + vT) * Spec.x1Exponent m dt s) * Spec.x2Ratio m dt s ^ (m.cir.chiDim / 2 + 2 * (k : ℝ)))) (m.condAvgvarMgf besselI s dt v0 vT) := by
  have hv : 0 < m.vov2dt dt := by unfold vov2dt; positivity
  have ha' : 0 < m.mr * dt / 2 := by positivity
  obtain ⟨hb, hb2⟩ := halfGamma_pos hs
  have hg : √((m.mr * dt) ^ 2 - 2 * m.vov2dt dt * s) = 2 * Spec.halfGamma m dt s := by
    rw [show (m.mr * dt) ^ 2 - 2 * m.vov2dt dt * s = (2 * Spec.halfGamma m dt s) ^ 2 by linear_combination (-4) * hb2]
    exact sqrt_sq (by positivity)
  have hsa : 0 < sinh (m.mr * dt / 2) := sinh_pos_iff.2 ha'
  have hsb : 0 < sinh (Spec.halfGamma m dt s) := sinh_pos_iff.2 hb
  have hphi := phi_eq hxi hdt ha
  have hr := x2Ratio_pos hdt ha hs
  have hphi0 : 0 < (m.cir.phiExp dt).1 := by rw [hphi]; positivity
  have hz : 0 < m.besselArg dt v0 vT := by unfold besselArg; positivity
  have hν := ivIndex_gt hd
  have hphiG : 4 * (2 * Spec.halfGamma m dt s) / m.vov2dt dt * exp (-(2 * Spec.halfGamma m dt s) / 2) / (1 - exp (-(2 * Spec.halfGamma m dt s) / 2) ^ 2) = (m.cir.phiExp dt).1 * Spec.x2Ratio m dt s := by
    rw [hphi]
    unfold Spec.x2Ratio
    rw [show -(2 * Spec.halfGamma m dt s) / 2 = -Spec.halfGamma m dt s by ring]
    have h1 : 1 - exp (-Spec.halfGamma m dt s) ^ 2 = 2 * sinh (Spec.halfGamma m dt s) * exp (-Spec.halfGamma m dt s) := by
      rw [sinh_eq, exp_neg]
      field_simp
    rw [h1]
    generalize m.mr * dt / 2 = a at *
    have := exp_pos (-Spec.halfGamma m dt s)
    field_simp
  have e : m.condAvgvarMgf besselI s dt v0 vT = Spec.x2Ratio m dt s * exp ((v0 + vT) * Spec.x1Exponent m dt s) * (besselI m.ivIndex (m.besselArg dt v0 vT * Spec.x2Ratio m dt s) / besselI m.ivIndex (m.besselArg dt v0 vT)) := by
    unfold condAvgvarMgf
    simp only
    rw [hg, hphiG]
    congr 1
    · congr 1
      · field_simp
      · congr 1
        have hc : (exp (-(2 * Spec.halfGamma m dt s) / 2) + 1 / exp (-(2 * Spec.halfGamma m dt s) / 2)) / 2 = cosh (Spec.halfGamma m dt s) := by
          rw [show -(2 * Spec.halfGamma m dt s) / 2 = -Spec.halfGamma m dt s by ring, cosh_eq, exp_neg]
          field_simp
          ring
        rw [hc, hphi]
        unfold Spec.x2Ratio Spec.x1Exponent
        generalize m.mr * dt / 2 = a at *
        field_simp
        ring
    · unfold besselArg
      rw [mul_assoc]
  rw [e]
  have hterm : ∀ k : ℕ, besselTerm m.ivIndex (m.besselArg dt v0 vT * Spec.x2Ratio m dt s) k = Spec.x2Ratio m dt s ^ (m.ivIndex + 2 * (k : ℝ)) * besselTerm m.ivIndex (m.besselArg dt v0 vT) k := by
    intro k
    unfold besselTerm
    rw [show m.besselArg dt v0 vT * Spec.x2Ratio m dt s / 2 = Spec.x2Ratio m dt s * (m.besselArg dt v0 vT / 2) by ring, mul_rpow hr.le (by positivity), mul_div_assoc]
  have h1 : HasSum (besselTerm m.ivIndex (m.besselArg dt v0 vT * Spec.x2Ratio m dt s)) (besselI m.ivIndex (m.besselArg dt v0 vT * Spec.x2Ratio m dt s)) :=
    (summable_bessel hν (mul_pos hz hr)).hasSum
  have h2 := (h1.div_const (besselI m.ivIndex (m.besselArg dt v0 vT))).mul_left (Spec.x2Ratio m dt s * exp ((v0 + vT) * Spec.x1Exponent m dt s))
  refine h2.congr_fun fun k => ?_
  rw [etaProb_eq hd hz, hterm]
  have e3 : m.cir.chiDim / 2 + 2 * (k : ℝ) = 1 + (m.ivIndex + 2 * (k : ℝ)) := by
    unfold ivIndex
    norm_num
    ring
  rw [e3, rpow_add hr, rpow_one]
  ring

/-! ### The Poisson-conditioned scheme -/

/-- Transform of the inverse Gaussian remainder. -/
noncomputable def waldFactor (M V s : ℝ) : ℝ := exp (1 / (V / M ^ 2) * (1 - √(1 - 2 * M * (V / M ^ 2) * s)))

lemma wald_exp {M V s : ℝ} (hM : 0 < M) (hV : 0 < V) (hs : s ≤ 0) (c : ℝ) : Ex.wald M (M / (V / M ^ 2)) (fun t => c * exp (s * t)) = c * waldFactor M V s := by
  have hl : 0 < M / (V / M ^ 2) := by positivity
  have h := (ig_mgf hM hl (t := s) (lt_of_le_of_lt hs (by positivity))).2
  unfold Ex.wald
  rw [integral_const_mul]
  unfold ProbabilityTheory.mgf at h
  simp only [id] at h
  rw [h]
  unfold waldFactor
  rw [show M / (V / M ^ 2) / M = 1 / (V / M ^ 2) by field_simp, show 2 * M ^ 2 * s / (M / (V / M ^ 2)) = 2 * M * (V / M ^ 2) * s by field_simp]

lemma waldFactor_bounds {M V s : ℝ} (hM : 0 < M) (hV : 0 < V) (hs : s ≤ 0) : exp (M * s) ≤ waldFactor M V s ∧ waldFactor M V s ≤ 1 := by
  unfold waldFactor
  have hc : 0 < V / M ^ 2 := by positivity
  generalize V / M ^ 2 = c at hc
  have hy : 0 ≤ -(2 * M * c * s) := by
    have : 0 ≤ 2 * M * c * (-s) := mul_nonneg (by positivity) (by linarith)
    linarith
  have h1 : 1 ≤ √(1 - 2 * M * c * s) := by rw [one_le_sqrt]; linarith
  have h2 : √(1 - 2 * M * c * s) ≤ 1 - M * c * s := by
    rw [sqrt_le_left (by nlinarith)]
    nlinarith [sq_nonneg (M * c * s)]
  constructor
  · refine exp_le_exp.2 ?_
    rw [one_div, ← div_eq_inv_mul, le_div_iff₀ hc]
    nlinarith
  · rw [exp_le_one_iff]
    exact mul_nonpos_of_nonneg_of_nonpos (by positivity) (by linarith)

lemma factor_ge_one (hv : 0 < m.vov2dt dt) (hs : s ≤ 0) (n : ℕ) : 1 ≤ 1 - s / m.gammaN dt n := by
  have := div_nonpos_of_nonpos_of_nonneg hs (m.gammaN_pos hv n).le
  linarith

lemma neg_valid (ha : m.mr * dt ≠ 0) (hv : 0 < m.vov2dt dt) (hs : s ≤ 0) : m.vov2dt dt * s / 2 < (m.mr * dt / 2) ^ 2 := by
  have h1 : 0 < (m.mr * dt / 2) ^ 2 := by positivity
  have := mul_nonpos_of_nonneg_of_nonpos hv.le hs
  linarith

/-- The transform of `draw_x123`. -/
lemma draw_x123_exp (hv : 0 < m.vov2dt dt) (ha : 0.1 ≤ |m.mr * dt / 2|) (hs : s ≤ 0) {vs h : ℝ} (hvs : 0 ≤ vs) (hh : 0 < h) (kk : ℕ) (c : ℝ) :
    m.drawX123 rngEx kk dt vs h (fun x => c * exp (s * x)) = c *
      (waldFactor ((m.x1star dt kk).1 * vs + (m.x2star dt kk).1 * h) ((m.x1star dt kk).2 * (m.x1star dt kk).1 ^ 2 * vs + (m.x2star dt kk).2 * (m.x2star dt kk).1 ^ 2 * h) s *
      ((∏ n ∈ Finset.range kk, (1 - s / m.gammaN dt n) ^ (-h)) * exp (vs * ∑ n ∈ Finset.range kk, m.lambdaN dt n * ((1 - s / m.gammaN dt n)⁻¹ - 1)))) := by
  have ha0 : m.mr * dt ≠ 0 := by
    intro h; rw [h] at ha; norm_num at ha
  have hs' := neg_valid ha0 hv hs
  obtain ⟨p1, p2⟩ := m.x1star_pos hv kk
  obtain ⟨r1, r2⟩ := m.x2star_pos hv (kk := kk) (Or.inl ha)
  obtain ⟨M, hM⟩ : ∃ M, M = (m.x1star dt kk).1 * vs + (m.x2star dt kk).1 * h := ⟨_, rfl⟩
  obtain ⟨V, hV⟩ : ∃ V, V = (m.x1star dt kk).2 * (m.x1star dt kk).1 ^ 2 * vs + (m.x2star dt kk).2 * (m.x2star dt kk).1 ^ 2 * h := ⟨_, rfl⟩
  have hM0 : 0 < M := by rw [hM]; positivity
  have hV0 : 0 < V := by rw [hV]; positivity
  rw [← hM, ← hV]
  have h2 := sumDraws_range_exp (s := s) (fun n c => term_exp (vs := vs) hv hs' hh.le n c) kk (c * waldFactor M V s)
  rw [Finset.prod_mul_distrib, ← exp_sum, ← Finset.mul_sum] at h2
  refine Eq.trans ?_ (h2.trans (by ring))
  show sumDraws ((List.range kk).map fun n => (do
      let pois ← rngEx.poisson (vs * m.lambdaN dt n)
      let g ← rngEx.gamma ((pois : ℝ) + h)
      pure (g / m.gammaN dt n) : Ex ℝ)) 0 (fun x => Ex.wald ((m.x1star dt kk).1 * vs + (m.x2star dt kk).1 * h) (((m.x1star dt kk).1 * vs + (m.x2star dt kk).1 * h) / (((m.x1star dt kk).2 * (m.x1star dt kk).1 ^ 2 * vs + (m.x2star dt kk).2 * (m.x2star dt kk).1 ^ 2 * h) / ((m.x1star dt kk).1 * vs + (m.x2star dt kk).1 * h) ^ 2)) (fun t => c * exp (s * (x + t)))) = _
  rw [← hM, ← hV]
  refine congrArg _ (funext fun x => ?_)
  have e : (fun t => c * exp (s * (x + t))) = fun t => (c * exp (s * x)) * exp (s * t) := by ext t; rw [mul_add, exp_add]; ring
  rw [e, wald_exp hM0 hV0 hs]
  ring

/-- **C108.** As the truncation level grows the whole draw `draw_x123` (including its inverse Gaussian remainder) converges in law to the exact average variance given `V_T` and the Poisson variable: its Laplace transform
converges. -/
theorem draw_x123_law (hv : 0 < m.vov2dt dt) (ha : 0.1 ≤ |m.mr * dt / 2|) (hs : s ≤ 0) {vs h : ℝ} (hvs : 0 ≤ vs) (hh : 0 < h) :
    Tendsto (fun kk => m.drawX123 rngEx kk dt vs h (fun x => exp (s * x))) atTop (𝓝 (exp (vs * Spec.x1Exponent m dt s) * Spec.x2Ratio m dt s ^ h)) := by
  have ha0 : m.mr * dt ≠ 0 := by
    intro h; rw [h] at ha; norm_num at ha
  have hs' := neg_valid ha0 hv hs
  have h1 := (tendsto_x2 hv ha0 hs' h).mul (((continuous_exp.tendsto _).comp ((tendsto_x1 hv ha0 hs').const_mul vs)))
  have t1 : Tendsto (fun kk => (m.x1star dt kk).1) atTop (𝓝 0) := by
    simp only [fun kk => (m.x1star_correct hv ha kk).1]
    exact tendsto_sum_nat_add fun n => m.lambdaN dt n / m.gammaN dt n
  have t2 : Tendsto (fun kk => (m.x2star dt kk).1) atTop (𝓝 0) := by
    simp only [fun kk => (m.x2star_correct hv ha kk).1]
    exact tendsto_sum_nat_add fun n => 1 / m.gammaN dt n
  have t3 : Tendsto (fun kk => exp (((m.x1star dt kk).1 * vs + (m.x2star dt kk).1 * h) * s)) atTop (𝓝 1) := by
    have := (continuous_exp.tendsto _).comp (((t1.mul_const vs).add (t2.mul_const h)).mul_const s)
    simp only [zero_mul, add_zero, exp_zero] at this
    exact this
  have hb : ∀ kk, exp (((m.x1star dt kk).1 * vs + (m.x2star dt kk).1 * h) * s) ≤ waldFactor ((m.x1star dt kk).1 * vs + (m.x2star dt kk).1 * h) ((m.x1star dt kk).2 * (m.x1star dt kk).1 ^ 2 * vs + (m.x2star dt kk).2 * (m.x2star dt kk).1 ^ 2 * h) s ∧
      waldFactor ((m.x1star dt kk).1 * vs + (m.x2star dt kk).1 * h) ((m.x1star dt kk).2 * (m.x1star dt kk).1 ^ 2 * vs + (m.x2star dt kk).2 * (m.x2star dt kk).1 ^ 2 * h) s ≤ 1 := by
    intro kk
    obtain ⟨p1, p2⟩ := m.x1star_pos hv kk
    obtain ⟨r1, r2⟩ := m.x2star_pos hv (kk := kk) (Or.inl ha)
    exact waldFactor_bounds (by positivity) (by positivity) hs
  have t4 := tendsto_of_tendsto_of_tendsto_of_le_of_le t3 tendsto_const_nhds (fun kk => (hb kk).1) (fun kk => (hb kk).2)
  have t5 := t4.mul h1
  rw [one_mul, mul_comm] at t5
  refine t5.congr fun kk => ?_
  have := draw_x123_exp hv ha hs hvs hh kk 1
  simp only [one_mul] at this
  rw [this]
  rfl

end Limits

/-! ### Limits under the draws of `V_T` -/

lemma gamma_one {a : ℝ} (ha : 0 < a) : IntegrableOn (fun g => gammaPdf a g) (Ioi 0) ∧ ∫ g in Ioi 0, gammaPdf a g = 1 := by
  have h0 : Ex.gamma a (fun _ => 1) = 1 := by
    have := Ex.gamma_exp ha (s := 0) (by norm_num)
    simpa using this
  unfold Ex.gamma at h0
  simp only [mul_one] at h0
  exact ⟨integrable_of_integral_ne (by rw [h0]; exact one_ne_zero), h0⟩

lemma gammaPdf_nonneg {a g : ℝ} (ha : 0 < a) (hg : 0 < g) : 0 ≤ gammaPdf a g := by
  unfold gammaPdf
  have := Gamma_pos_of_pos ha
  positivity

lemma measurable_gammaPdf (a : ℝ) : Measurable (gammaPdf a) := by
  unfold gammaPdf
  fun_prop

lemma gamma_dct {a : ℝ} (ha : 0 < a) {F : ℕ → ℝ → ℝ} {G : ℝ → ℝ} (hm : ∀ k, Measurable (F k)) (hb : ∀ k g, 0 < g → |F k g| ≤ 1)
    (ht : ∀ g, 0 < g → Tendsto (fun k => F k g) atTop (𝓝 (G g))) : Tendsto (fun k => Ex.gamma a (F k)) atTop (𝓝 (Ex.gamma a G)) := by
  unfold Ex.gamma
  refine tendsto_integral_of_dominated_convergence (fun g => gammaPdf a g) (fun k => ((measurable_gammaPdf a).mul (hm k)).aestronglyMeasurable) (gamma_one ha).1 (fun k => ?_) ?_
  · refine (ae_restrict_iff' measurableSet_Ioi).2 (Eventually.of_forall fun g hg => ?_)
    rw [norm_mul, Real.norm_eq_abs, Real.norm_eq_abs, abs_of_nonneg (gammaPdf_nonneg ha hg)]
    exact mul_le_of_le_one_right (gammaPdf_nonneg ha hg) (hb k g hg)
  · refine (ae_restrict_iff' measurableSet_Ioi).2 (Eventually.of_forall fun g hg => ?_)
    exact (ht g hg).const_mul _

lemma gamma_abs_le {a : ℝ} (ha : 0 < a) {F : ℝ → ℝ} (hb : ∀ g, 0 < g → |F g| ≤ 1) : |Ex.gamma a F| ≤ 1 := by
  unfold Ex.gamma
  rw [← Real.norm_eq_abs]
  refine (norm_integral_le_of_norm_le (gamma_one ha).1 ?_).trans (gamma_one ha).2.le
  refine (ae_restrict_iff' measurableSet_Ioi).2 (Eventually.of_forall fun g hg => ?_)
  rw [norm_mul, Real.norm_eq_abs, Real.norm_eq_abs, abs_of_nonneg (gammaPdf_nonneg ha hg)]
  exact mul_le_of_le_one_right (gammaPdf_nonneg ha hg) (hb g hg)

lemma poisson_dct {mu : ℝ} (hmu : 0 ≤ mu) {F : ℕ → ℕ → ℝ} {G : ℕ → ℝ} (hb : ∀ k n, |F k n| ≤ 1) (ht : ∀ n, Tendsto (fun k => F k n) atTop (𝓝 (G n))) :
    Tendsto (fun k => Ex.poisson mu (F k)) atTop (𝓝 (Ex.poisson mu G)) := by
  unfold Ex.poisson poisMix
  refine Tendsto.const_mul _ ?_
  refine tendsto_tsum_of_dominated_convergence (hasSum_pois0 mu).summable (fun n => (ht n).const_mul _) (Eventually.of_forall fun k n => ?_)
  rw [norm_mul, Real.norm_eq_abs, Real.norm_eq_abs, abs_of_nonneg (by positivity)]
  exact mul_le_of_le_one_right (by positivity) (hb k n)

section Law

variable {m : Heston} {dt s u v0 : ℝ}

lemma measurable_waldFactor {f g : ℝ → ℝ} (hf : Measurable f) (hg : Measurable g) (s : ℝ) : Measurable fun x => waldFactor (f x) (g x) s := by
  unfold waldFactor
  fun_prop

lemma x1Exponent_nonpos (hv : 0 < m.vov2dt dt) (ha : m.mr * dt ≠ 0) (hs : s ≤ 0) : Spec.x1Exponent m dt s ≤ 0 := by
  refine le_of_tendsto' (tendsto_x1 hv ha (neg_valid ha hv hs)) fun kk => ?_
  refine Finset.sum_nonpos fun n _ => mul_nonpos_of_nonneg_of_nonpos (m.lambdaN_pos hv n).le ?_
  have := inv_le_one_of_one_le₀ (factor_ge_one hv hs n)
  linarith

/-- The joint transform of the Poisson-conditioned step, with the exact conditional law of the average variance. -/
noncomputable def exactJoint (m : Heston) (dt u s v0 : ℝ) : ℝ :=
  Ex.poisson (v0 * (m.cir.phiExp dt).2 * (m.cir.phiExp dt).1 / 2) fun n => Ex.gamma (m.cir.chiDim / 2 + n) fun g =>
    exp (u * ((m.cir.phiExp dt).2 / (m.cir.phiExp dt).1 * 2 * g)) *
      (exp ((v0 + (m.cir.phiExp dt).2 / (m.cir.phiExp dt).1 * 2 * g) * Spec.x1Exponent m dt s) * Spec.x2Ratio m dt s ^ (0.5 * m.cir.chiDim + 2 * (n : ℝ)))

lemma scale_pos (hxi : m.vov ≠ 0) (hdt : 0 < dt) (hk : 0 < m.mr) : 0 < (m.cir.phiExp dt).1 ∧ 0 < (m.cir.phiExp dt).2 := by
  have hsa : 0 < sinh (m.mr * dt / 2) := sinh_pos_iff.2 (by positivity)
  have hv : 0 < m.vov2dt dt := by unfold vov2dt; positivity
  refine ⟨?_, exp_pos _⟩
  rw [phi_eq hxi hdt hk]
  positivity

lemma pois_ge_limit (hxi : m.vov ≠ 0) (hdt : 0 < dt) (hk : 0 < m.mr) (hd : 0 < m.cir.chiDim) (ha : 0.2 ≤ m.mr * dt) (hs : s ≤ 0) (hu : u ≤ 0) (hv0 : 0 ≤ v0) :
    Tendsto (fun kk => m.stepPoisGe rngEx kk dt v0 (fun r => exp (u * r.1 + s * r.2.1))) atTop (𝓝 (exactJoint m dt u s v0)) := by
  have hv : 0 < m.vov2dt dt := by unfold vov2dt; positivity
  have ha1 : 0.1 ≤ |m.mr * dt / 2| := by
    rw [abs_of_pos (by positivity)]
    norm_num at ha ⊢
    linarith
  obtain ⟨hp1, hp2⟩ := scale_pos hxi hdt hk
  obtain ⟨c, hc⟩ : ∃ c, c = (m.cir.phiExp dt).2 / (m.cir.phiExp dt).1 * 2 := ⟨_, rfl⟩
  have hc0 : 0 < c := by rw [hc]; positivity
  have h05 : (0.5 : ℝ) = 1 / 2 := by norm_num
  have hh : ∀ n : ℕ, 0 < 0.5 * m.cir.chiDim + 2 * (n : ℝ) := fun n => by rw [h05]; positivity
  have hsh : ∀ n : ℕ, 0 < m.cir.chiDim / 2 + (n : ℝ) := fun n => by positivity
  unfold exactJoint
  rw [← hc]
  have hstep : ∀ kk, m.stepPoisGe rngEx kk dt v0 (fun r => exp (u * r.1 + s * r.2.1)) =
      Ex.poisson (v0 * (m.cir.phiExp dt).2 * (m.cir.phiExp dt).1 / 2) (fun n => Ex.gamma (m.cir.chiDim / 2 + n) (fun g => m.drawX123 rngEx kk dt (v0 + c * g) (0.5 * m.cir.chiDim + 2 * (n : ℝ)) (fun x => exp (u * (c * g)) * exp (s * x)))) := by
    intro kk
    show Ex.poisson (v0 * (m.cir.phiExp dt).2 * (m.cir.phiExp dt).1 / 2) (fun n => Ex.gamma0 (4 * m.cir.mr * m.cir.theta / m.cir.sigma ^ 2 / 2 + n) (fun g => m.drawX123 rngEx kk dt (v0 + (m.cir.phiExp dt).2 / (m.cir.phiExp dt).1 * 2 * g) (0.5 * m.cir.chiDim + 2 * (n : ℝ)) (fun x => exp (u * ((m.cir.phiExp dt).2 / (m.cir.phiExp dt).1 * 2 * g) + s * x)))) = _
    rw [← hc]
    refine congrArg _ (funext fun n => ?_)
    have e : 4 * m.cir.mr * m.cir.theta / m.cir.sigma ^ 2 / 2 + (n : ℝ) = m.cir.chiDim / 2 + n := by unfold Cir.chiDim; ring
    rw [e]
    unfold Ex.gamma0
    rw [if_neg (hsh n).ne']
    simp only [exp_add]
  simp only [hstep]
  have hbound : ∀ kk (n : ℕ) g, 0 < g → |m.drawX123 rngEx kk dt (v0 + c * g) (0.5 * m.cir.chiDim + 2 * (n : ℝ)) (fun x => exp (u * (c * g)) * exp (s * x))| ≤ 1 := by
    intro kk n g hg
    have hvs : 0 ≤ v0 + c * g := by positivity
    rw [draw_x123_exp hv ha1 hs hvs (hh n) kk]
    obtain ⟨p1, p2⟩ := m.x1star_pos hv kk
    obtain ⟨r1, r2⟩ := m.x2star_pos hv (kk := kk) (Or.inl ha1)
    have hhn := hh n
    have hW := (waldFactor_bounds (M := (m.x1star dt kk).1 * (v0 + c * g) + (m.x2star dt kk).1 * (0.5 * m.cir.chiDim + 2 * (n : ℝ))) (V := (m.x1star dt kk).2 * (m.x1star dt kk).1 ^ 2 * (v0 + c * g) + (m.x2star dt kk).2 * (m.x2star dt kk).1 ^ 2 * (0.5 * m.cir.chiDim + 2 * (n : ℝ))) (by positivity) (by positivity) hs)
    have hW0 := (exp_pos _).le.trans hW.1
    have hP0 : 0 ≤ ∏ i ∈ Finset.range kk, (1 - s / m.gammaN dt i) ^ (-(0.5 * m.cir.chiDim + 2 * (n : ℝ))) :=
      Finset.prod_nonneg fun i _ => rpow_nonneg (by linarith [factor_ge_one hv hs i]) _
    have hP1 : ∏ i ∈ Finset.range kk, (1 - s / m.gammaN dt i) ^ (-(0.5 * m.cir.chiDim + 2 * (n : ℝ))) ≤ 1 := by
      refine Finset.prod_le_one (fun i _ => rpow_nonneg (by linarith [factor_ge_one hv hs i]) _) fun i _ => ?_
      exact rpow_le_one_of_one_le_of_nonpos (factor_ge_one hv hs i) (by linarith)
    have hE : exp ((v0 + c * g) * ∑ i ∈ Finset.range kk, m.lambdaN dt i * ((1 - s / m.gammaN dt i)⁻¹ - 1)) ≤ 1 := by
      rw [exp_le_one_iff]
      refine mul_nonpos_of_nonneg_of_nonpos hvs ?_
      refine Finset.sum_nonpos fun i _ => mul_nonpos_of_nonneg_of_nonpos (m.lambdaN_pos hv i).le ?_
      have := inv_le_one_of_one_le₀ (factor_ge_one hv hs i)
      linarith
    have hU : exp (u * (c * g)) ≤ 1 := by
      rw [exp_le_one_iff]
      exact mul_nonpos_of_nonpos_of_nonneg hu (by positivity)
    rw [abs_of_nonneg (mul_nonneg (exp_pos _).le (mul_nonneg hW0 (mul_nonneg hP0 (exp_pos _).le)))]
    exact mul_le_one₀ hU (mul_nonneg hW0 (mul_nonneg hP0 (exp_pos _).le)) (mul_le_one₀ hW.2 (mul_nonneg hP0 (exp_pos _).le) (mul_le_one₀ hP1 (exp_pos _).le hE))
  refine poisson_dct (by positivity) (fun kk n => gamma_abs_le (hsh n) fun g hg => hbound kk n g hg) fun n => ?_
  -- the integrand agrees with a measurable function for positive `g`
  have hF : ∀ kk, Ex.gamma (m.cir.chiDim / 2 + n) (fun g => m.drawX123 rngEx kk dt (v0 + c * g) (0.5 * m.cir.chiDim + 2 * (n : ℝ)) (fun x => exp (u * (c * g)) * exp (s * x))) =
      Ex.gamma (m.cir.chiDim / 2 + n) (fun g => exp (u * (c * g)) *
      (waldFactor ((m.x1star dt kk).1 * (v0 + c * g) + (m.x2star dt kk).1 * (0.5 * m.cir.chiDim + 2 * (n : ℝ))) ((m.x1star dt kk).2 * (m.x1star dt kk).1 ^ 2 * (v0 + c * g) + (m.x2star dt kk).2 * (m.x2star dt kk).1 ^ 2 * (0.5 * m.cir.chiDim + 2 * (n : ℝ))) s *
      ((∏ i ∈ Finset.range kk, (1 - s / m.gammaN dt i) ^ (-(0.5 * m.cir.chiDim + 2 * (n : ℝ)))) * exp ((v0 + c * g) * ∑ i ∈ Finset.range kk, m.lambdaN dt i * ((1 - s / m.gammaN dt i)⁻¹ - 1))))) := by
    intro kk
    unfold Ex.gamma
    refine setIntegral_congr_fun measurableSet_Ioi fun g hg => ?_
    have hg : 0 < g := hg
    beta_reduce
    rw [draw_x123_exp hv ha1 hs (by positivity) (hh n) kk]
  simp only [hF]
  refine gamma_dct (hsh n) (fun kk => ?_) (fun kk g hg => ?_) fun g hg => ?_
  · exact (by fun_prop : Measurable fun g => exp (u * (c * g))).mul ((measurable_waldFactor (by fun_prop) (by fun_prop) s).mul (by fun_prop))
  · have := hbound kk n g hg
    rwa [draw_x123_exp hv ha1 hs (by positivity) (hh n) kk] at this
  · have h1 := (draw_x123_law hv ha1 hs (vs := v0 + c * g) (by positivity) (hh n)).const_mul (exp (u * (c * g)))
    refine h1.congr fun kk => ?_
    have := draw_x123_exp hv ha1 hs (vs := v0 + c * g) (by positivity) (hh n) kk 1
    simp only [one_mul] at this
    rw [this]

/-- The joint transform in closed form. -/
lemma exactJoint_eq (hxi : m.vov ≠ 0) (hdt : 0 < dt) (hk : 0 < m.mr) (hd : 0 < m.cir.chiDim) (hs : s ≤ 0) (hu : u ≤ 0) :
    let a := m.mr * dt / 2
    let b := Spec.halfGamma m dt s
    let D := a + b * (cosh b / sinh b) - m.vov2dt dt * u / 2
    0 < D ∧ exactJoint m dt u s v0 = (b * exp a / (sinh b * D)) ^ (m.cir.chiDim / 2) * exp (v0 * ((s - u * (a - b * (cosh b / sinh b))) / D)) := by
  intro a b D
  have hv : 0 < m.vov2dt dt := by unfold vov2dt; positivity
  have ha0 : m.mr * dt ≠ 0 := by positivity
  have hs' := neg_valid ha0 hv hs
  obtain ⟨hb, hb2⟩ := halfGamma_pos hs'
  have ha : 0 < a := by positivity
  have hsa : 0 < sinh a := sinh_pos_iff.2 ha
  have hsb : 0 < sinh b := sinh_pos_iff.2 hb
  have hcb : 0 < cosh b := cosh_pos b
  have hD : 0 < D := by
    have h1 : 0 < b * (cosh b / sinh b) := by positivity
    have h2 : m.vov2dt dt * u ≤ 0 := mul_nonpos_of_nonneg_of_nonpos hv.le hu
    simp only [D]
    linarith
  refine ⟨hD, ?_⟩
  obtain ⟨e, he⟩ : ∃ e, e = exp (-a) := ⟨_, rfl⟩
  have he0 : 0 < e := by rw [he]; exact exp_pos _
  have hee : e * exp a = 1 := by rw [he, ← exp_add]; simp
  have hsa' : e * sinh a = (1 - e ^ 2) / 2 := by rw [sinh_eq, ← he, mul_div_assoc', mul_sub, hee]; ring
  have hca' : e * cosh a = (1 + e ^ 2) / 2 := by rw [cosh_eq, ← he, mul_div_assoc', mul_add, hee]; ring
  have hphi : (m.cir.phiExp dt).1 = 4 * a / (m.vov2dt dt * sinh a) := phi_eq hxi hdt hk
  have hphi2 : (m.cir.phiExp dt).2 = e := by
    rw [he]
    show exp (-m.mr * dt / 2) = _
    congr 1
    simp only [a]
    ring
  have hc : (m.cir.phiExp dt).2 / (m.cir.phiExp dt).1 * 2 = m.vov2dt dt * (e * sinh a) / (2 * a) := by
    rw [hphi, hphi2]; field_simp; norm_num
  have hmu : v0 * (m.cir.phiExp dt).2 * (m.cir.phiExp dt).1 / 2 = v0 * (2 * a * e / (m.vov2dt dt * sinh a)) := by
    rw [hphi, hphi2]; field_simp; norm_num
  obtain ⟨E, hE⟩ : ∃ E, E = Spec.x1Exponent m dt s := ⟨_, rfl⟩
  have hE' : E = 2 / m.vov2dt dt * (a * (cosh a / sinh a) - b * (cosh b / sinh b)) := hE
  obtain ⟨r, hr⟩ : ∃ r, r = Spec.x2Ratio m dt s := ⟨_, rfl⟩
  have hr' : r = (b / sinh b) / (a / sinh a) := hr
  have hr0 : 0 < r := by rw [hr']; positivity
  have hEn : E ≤ 0 := by rw [hE]; exact x1Exponent_nonpos hv ha0 hs
  obtain ⟨c, hcdef⟩ : ∃ c, c = m.vov2dt dt * (e * sinh a) / (2 * a) := ⟨_, rfl⟩
  have hc0 : 0 < c := by rw [hcdef]; positivity
  have hq0 : 0 < 1 - c * (u + E) := by
    have : c * (u + E) ≤ 0 := mul_nonpos_of_nonneg_of_nonpos hc0.le (by linarith)
    linarith
  have hq : 1 - c * (u + E) = e * sinh a / a * D := by
    rw [hcdef, hE']
    simp only [D]
    generalize b * (cosh b / sinh b) = B
    have h1 : 1 - e * cosh a = e * sinh a := by rw [hsa', hca']; ring
    have h2 : m.vov2dt dt * (e * sinh a) / (2 * a) * (u + 2 / m.vov2dt dt * (a * (cosh a / sinh a) - B)) = m.vov2dt dt * (e * sinh a) / (2 * a) * u + e * cosh a - e * sinh a / a * B := by
      field_simp
      ring
    rw [h2, show 1 - (m.vov2dt dt * (e * sinh a) / (2 * a) * u + e * cosh a - e * sinh a / a * B) = (1 - e * cosh a) - m.vov2dt dt * (e * sinh a) / (2 * a) * u + e * sinh a / a * B by ring, h1]
    field_simp
    ring
  unfold exactJoint
  rw [hc, hmu, ← hE, ← hr, ← hcdef]
  obtain ⟨q, hqd⟩ : ∃ q, q = 1 - c * (u + E) := ⟨_, rfl⟩
  rw [← hqd] at hq hq0
  have hgam : ∀ n : ℕ, Ex.gamma (m.cir.chiDim / 2 + n) (fun g => exp (u * (c * g)) * (exp ((v0 + c * g) * E) * r ^ (0.5 * m.cir.chiDim + 2 * (n : ℝ)))) =
      (exp (v0 * E) * (r / q) ^ (m.cir.chiDim / 2)) * (r ^ 2 / q) ^ n := by
    intro n
    have e1 : (fun g => exp (u * (c * g)) * (exp ((v0 + c * g) * E) * r ^ (0.5 * m.cir.chiDim + 2 * (n : ℝ)))) = fun g => (exp (v0 * E) * r ^ (m.cir.chiDim / 2 + 2 * (n : ℝ))) * exp (c * (u + E) * g) := by
      ext g
      rw [show (0.5 : ℝ) * m.cir.chiDim = m.cir.chiDim / 2 by norm_num; ring]
      rw [show exp ((v0 + c * g) * E) = exp (v0 * E) * exp (c * g * E) by rw [← exp_add]; ring_nf, show exp (c * (u + E) * g) = exp (u * (c * g)) * exp (c * g * E) by rw [← exp_add]; ring_nf]
      ring
    rw [e1, Ex.gamma_smul, Ex.gamma_exp (by positivity) (by linarith), ← hqd, rpow_neg hq0.le, rpow_add hq0, rpow_natCast, rpow_add hr0, div_rpow hr0.le hq0.le, div_pow]
    rw [show r ^ (2 * (n : ℝ)) = (r ^ 2) ^ n by rw [← rpow_natCast (r ^ 2), ← rpow_natCast r 2, ← rpow_mul hr0.le]; norm_num]
    have := rpow_pos_of_pos hq0 (m.cir.chiDim / 2)
    field_simp
  simp only [hgam]
  rw [Ex.poisson_smul, Ex.poisson_pow]
  have hrq : r / q = b * exp a / (sinh b * D) := by
    rw [hq, hr', div_eq_div_iff (by positivity) (by positivity)]
    have : exp a = 1 / e := by rw [eq_div_iff he0.ne', mul_comm]; exact hee
    rw [this]
    field_simp
  rw [hrq, mul_right_comm, ← exp_add, mul_comm]
  congr 1
  congr 1
  have hr2 : r ^ 2 / q = b ^ 2 * sinh a / (a * e * sinh b ^ 2 * D) := by
    rw [hq, hr']
    field_simp
  rw [hr2, hE']
  have key : 2 / m.vov2dt dt * (a * (cosh a / sinh a) - b * (cosh b / sinh b)) + 2 * a * e / (m.vov2dt dt * sinh a) * (b ^ 2 * sinh a / (a * e * sinh b ^ 2 * D) - 1) = (s - u * (a - b * (cosh b / sinh b))) / D := by
    have h1 : a * (cosh a / sinh a) - a * e / sinh a = a := by
      have : cosh a - e = sinh a := by rw [cosh_eq, sinh_eq, ← he]; ring
      rw [mul_div_assoc', ← sub_div, ← mul_sub, this]
      field_simp
    have h2 : b ^ 2 * (cosh b / sinh b) ^ 2 - b ^ 2 / sinh b ^ 2 = b ^ 2 := by
      rw [div_pow, mul_div_assoc', ← sub_div, div_eq_iff (by positivity), cosh_sq]
      ring
    have h3 : 2 * a * e / (m.vov2dt dt * sinh a) * (b ^ 2 * sinh a / (a * e * sinh b ^ 2 * D) - 1) = 2 / m.vov2dt dt * (b ^ 2 / (sinh b ^ 2 * D) - a * e / sinh a) := by
      field_simp
    rw [h3, ← mul_add, show a * (cosh a / sinh a) - b * (cosh b / sinh b) + (b ^ 2 / (sinh b ^ 2 * D) - a * e / sinh a) = (a * (cosh a / sinh a) - a * e / sinh a) - b * (cosh b / sinh b) + b ^ 2 / sinh b ^ 2 / D by rw [div_div]; ring, h1]
    have h4 : b ^ 2 = a ^ 2 - m.vov2dt dt * s / 2 := hb2
    have hDd : D = a + b * (cosh b / sinh b) - m.vov2dt dt * u / 2 := rfl
    have h5 : b ^ 2 / sinh b ^ 2 = (b * (cosh b / sinh b)) ^ 2 - b ^ 2 := by rw [mul_pow]; linarith
    rw [h5]
    generalize b * (cosh b / sinh b) = B at *
    rw [eq_div_iff hD.ne']
    have h6 : 2 / m.vov2dt dt * (a - B + (B ^ 2 - b ^ 2) / D) * D = 2 / m.vov2dt dt * ((a - B) * D + (B ^ 2 - b ^ 2)) := by field_simp
    rw [h6, h4, hDd]
    field_simp
    ring
  rw [← key]
  ring

/-- **C108.** The Poisson-conditioned gamma expansion (`HestonMcChoiKwok2023PoisGe`) reproduces the law of the average variance: as `kk` grows, the Laplace transform of the drawn average variance converges to the CIR transform
(`CirModel.mgf`, which C42/C86 link to the Feynman-Kac equation). -/
theorem pois_ge_avgvar_law (hxi : m.vov ≠ 0) (hdt : 0 < dt) (hk : 0 < m.mr) (hd : 0 < m.cir.chiDim) (ha : 0.2 ≤ m.mr * dt) (hs : s ≤ 0) (hv0 : 0 ≤ v0) :
    Tendsto (fun kk => m.stepPoisGe rngEx kk dt v0 (fun r => exp (s * r.2.1))) atTop (𝓝 (m.cir.mgf (s / dt) dt v0)) := by
  have h := pois_ge_limit hxi hdt hk hd ha hs le_rfl hv0
  simp only [zero_mul, zero_add] at h
  have hv : 0 < m.vov2dt dt := by unfold vov2dt; positivity
  have ha0 : m.mr * dt ≠ 0 := by positivity
  obtain ⟨hb, hb2⟩ := halfGamma_pos (neg_valid ha0 hv hs)
  obtain ⟨hD, e⟩ := exactJoint_eq (v0 := v0) hxi hdt hk hd hs le_rfl
  rw [e] at h
  simp only [mul_zero, zero_div, sub_zero, zero_mul] at h hD
  convert h using 2
  unfold Cir.mgf Cir.logMgf
  simp only
  have hg : √(m.cir.mr ^ 2 - 2 * (s / dt) * m.cir.sigma ^ 2) = 2 * Spec.halfGamma m dt s / dt := by
    rw [show m.cir.mr ^ 2 - 2 * (s / dt) * m.cir.sigma ^ 2 = (2 * Spec.halfGamma m dt s / dt) ^ 2 by
      rw [div_pow, mul_pow, hb2]
      unfold cir vov2dt
      simp only
      field_simp]
    exact sqrt_sq (by positivity)
  rw [hg]
  have hsb : 0 < sinh (Spec.halfGamma m dt s) := sinh_pos_iff.2 hb
  have hcb := cosh_pos (Spec.halfGamma m dt s)
  have hexp : exp (2 * Spec.halfGamma m dt s / dt * dt) - 1 = 2 * exp (Spec.halfGamma m dt s) * sinh (Spec.halfGamma m dt s) := by
    rw [show 2 * Spec.halfGamma m dt s / dt * dt = Spec.halfGamma m dt s + Spec.halfGamma m dt s by field_simp; ring, exp_add, sinh_eq, exp_neg]
    field_simp
  have hmr : m.cir.mr = 2 * (m.mr * dt / 2) / dt := by unfold cir; field_simp
  have hd2 : m.cir.mr * m.cir.theta / m.cir.sigma ^ 2 = m.cir.chiDim / 4 := by unfold Cir.chiDim; ring
  rw [hexp, hd2, hmr]
  have haa : 0 < m.mr * dt / 2 := by positivity
  generalize m.mr * dt / 2 = a at *
  generalize Spec.halfGamma m dt s = b at *
  have hce : b * cosh b = b * exp b - b * sinh b := by rw [cosh_eq, sinh_eq]; ring
  have hbe : 1 + (2 * a / dt + 2 * b / dt) / (2 * (2 * b / dt)) * (2 * exp b * sinh b) = exp b * (b * cosh b + a * sinh b) / b := by
    have h1 : exp b * cosh b = 1 + exp b * sinh b := by
      rw [cosh_eq, sinh_eq, exp_neg]; field_simp; ring
    have h2 : exp b * (b * cosh b + a * sinh b) = b * (exp b * cosh b) + a * (exp b * sinh b) := by ring
    rw [h2, h1]
    field_simp
    ring
  rw [hbe]
  have hX : 0 < b * cosh b + a * sinh b := by positivity
  have hS : sinh b * (a + b * (cosh b / sinh b)) = b * cosh b + a * sinh b := by field_simp; ring
  rw [hS, log_div (by positivity) hb.ne', log_mul (exp_pos _).ne' hX.ne', log_exp, rpow_def_of_pos (by positivity), ← exp_add, log_div (by positivity) hX.ne', log_mul hb.ne' (exp_pos _).ne', log_exp]
  congr 1
  have hB : 2 * (s / dt) * (2 * exp b * sinh b) / (2 * (2 * b / dt) + (2 * a / dt + 2 * b / dt) * (2 * exp b * sinh b)) = s / (a + b * (cosh b / sinh b)) := by
    have h1 : 2 * (2 * b / dt) + (2 * a / dt + 2 * b / dt) * (2 * exp b * sinh b) = 4 * exp b * (b * cosh b + a * sinh b) / dt := by
      have h1 : exp b * cosh b = 1 + exp b * sinh b := by
        rw [cosh_eq, sinh_eq, exp_neg]; field_simp; ring
      have h2 : 4 * exp b * (b * cosh b + a * sinh b) = 4 * (b * (exp b * cosh b) + a * (exp b * sinh b)) := by ring
      rw [h2, h1]
      field_simp
      ring
    rw [h1, ← hS]
    field_simp
    ring
  rw [hB]
  field_simp
  ring

/-! ### The log price -/

/-- A draw with nonnegative values: expectations only depend on the values at nonnegative numbers. -/
def NonnegDraw (D : Ex ℝ) : Prop := ∀ F G : ℝ → ℝ, (∀ x, 0 ≤ x → F x = G x) → D F = D G

lemma nonneg_gamma (a : ℝ) : NonnegDraw (Ex.gamma a) := fun F G h =>
  setIntegral_congr_fun measurableSet_Ioi fun g hg => by
    have hg : 0 < g := hg
    rw [h g hg.le]

lemma nonneg_gamma0 (a : ℝ) : NonnegDraw (Ex.gamma0 a) := fun F G h => by
  unfold Ex.gamma0
  split_ifs
  · exact h 0 le_rfl
  · exact nonneg_gamma a F G h

lemma nonneg_wald (mu lam : ℝ) : NonnegDraw (Ex.wald mu lam) := fun F G h => by
  unfold Ex.wald
  have hac : Spec.igMeasure mu lam ≪ volume.restrict (Set.Ioi 0) := withDensity_absolutelyContinuous _ _
  have h0 : ∀ᵐ w ∂(Spec.igMeasure mu lam), 0 ≤ w :=
    hac.ae_le ((ae_restrict_iff' measurableSet_Ioi).2 (Eventually.of_forall fun x hx => le_of_lt hx))
  refine integral_congr_ae ?_
  filter_upwards [h0] with x hx
  exact h x hx

lemma nonneg_sumDraws : ∀ (l : List (Ex ℝ)) (_ : ∀ D ∈ l, NonnegDraw D) (acc : ℝ), 0 ≤ acc → NonnegDraw (sumDraws l acc)
  | [], _, acc, h, F, G, hFG => hFG acc h
  | D :: l, hl, acc, h, F, G, hFG => by
    show D (fun x => sumDraws l (acc + x) F) = D (fun x => sumDraws l (acc + x) G)
    exact hl D (by simp) _ _ fun x hx => nonneg_sumDraws l (fun E hE => hl E (by simp [hE])) (acc + x) (by linarith) F G hFG

lemma nonneg_x123 (hv : 0 < m.vov2dt dt) (kk : ℕ) (vs h : ℝ) : NonnegDraw (m.drawX123 rngEx kk dt vs h) := by
  intro F G hFG
  show sumDraws (M := Ex) _ 0 (fun x => Ex.wald _ _ (fun t => F (x + t))) = sumDraws (M := Ex) _ 0 (fun x => Ex.wald _ _ (fun t => G (x + t)))
  refine nonneg_sumDraws _ ?_ 0 le_rfl _ _ fun x hx => nonneg_wald _ _ _ _ fun t ht => hFG _ (by linarith)
  intro D hD
  obtain ⟨n, -, rfl⟩ := List.mem_map.1 hD
  intro F G hFG
  show Ex.poisson _ (fun k => Ex.gamma0 _ (fun g => F (g / m.gammaN dt n))) = Ex.poisson _ (fun k => Ex.gamma0 _ (fun g => G (g / m.gammaN dt n)))
  refine congrArg _ (funext fun k => nonneg_gamma0 _ _ _ fun g hg => hFG _ (div_nonneg hg (m.gammaN_pos hv n).le))

lemma nonneg_poisGe (hv : 0 < m.vov2dt dt) (kk : ℕ) {F G : ℝ × ℝ × HestonMcExtra → ℝ} (h : ∀ r : ℝ × ℝ × HestonMcExtra, 0 ≤ r.2.1 → F r = G r) :
    m.stepPoisGe rngEx kk dt v0 F = m.stepPoisGe rngEx kk dt v0 G := by
  show Ex.poisson _ (fun n => Ex.gamma0 _ (fun g => m.drawX123 rngEx kk dt _ _ (fun x => F (_, x, {})))) = Ex.poisson _ (fun n => Ex.gamma0 _ (fun g => m.drawX123 rngEx kk dt _ _ (fun x => G (_, x, {}))))
  exact congrArg _ (funext fun n => congrArg _ (funext fun g => nonneg_x123 hv kk _ _ _ _ fun x hx => h _ hx))

lemma poisGe_smul (kk : ℕ) (hv : 0 < m.vov2dt dt) (hs : s ≤ 0) (ha : 0.2 ≤ m.mr * dt) (hk : 0 < m.mr) (hdt : 0 < dt) (hd : 0 < m.cir.chiDim) (hxi : m.vov ≠ 0) (hv0 : 0 ≤ v0) (c : ℝ) :
    m.stepPoisGe rngEx kk dt v0 (fun r => c * exp (u * r.1 + s * r.2.1)) = c * m.stepPoisGe rngEx kk dt v0 (fun r => exp (u * r.1 + s * r.2.1)) := by
  have ha1 : 0.1 ≤ |m.mr * dt / 2| := by
    rw [abs_of_pos (by positivity)]
    norm_num at ha ⊢
    linarith
  obtain ⟨hp1, hp2⟩ := scale_pos hxi hdt hk
  have h05 : (0.5 : ℝ) = 1 / 2 := by norm_num
  have hh : ∀ n : ℕ, 0 < 0.5 * m.cir.chiDim + 2 * (n : ℝ) := fun n => by rw [h05]; positivity
  have e : ∀ c : ℝ, m.stepPoisGe rngEx kk dt v0 (fun r => c * exp (u * r.1 + s * r.2.1)) =
      Ex.poisson (v0 * (m.cir.phiExp dt).2 * (m.cir.phiExp dt).1 / 2) (fun n => Ex.gamma0 (4 * m.cir.mr * m.cir.theta / m.cir.sigma ^ 2 / 2 + n) (fun g => c * m.drawX123 rngEx kk dt (v0 + (m.cir.phiExp dt).2 / (m.cir.phiExp dt).1 * 2 * g) (0.5 * m.cir.chiDim + 2 * (n : ℝ)) (fun x => exp (u * ((m.cir.phiExp dt).2 / (m.cir.phiExp dt).1 * 2 * g)) * exp (s * x)))) := by
    intro c
    show Ex.poisson (v0 * (m.cir.phiExp dt).2 * (m.cir.phiExp dt).1 / 2) (fun n => Ex.gamma0 (4 * m.cir.mr * m.cir.theta / m.cir.sigma ^ 2 / 2 + n) (fun g => m.drawX123 rngEx kk dt (v0 + (m.cir.phiExp dt).2 / (m.cir.phiExp dt).1 * 2 * g) (0.5 * m.cir.chiDim + 2 * (n : ℝ)) (fun x => c * exp (u * ((m.cir.phiExp dt).2 / (m.cir.phiExp dt).1 * 2 * g) + s * x)))) = _
    refine congrArg _ (funext fun n => nonneg_gamma0 _ _ _ fun g hg => ?_)
    have e1 : (fun x => c * exp (u * ((m.cir.phiExp dt).2 / (m.cir.phiExp dt).1 * 2 * g) + s * x)) = fun x => (c * exp (u * ((m.cir.phiExp dt).2 / (m.cir.phiExp dt).1 * 2 * g))) * exp (s * x) := by
      ext x; rw [exp_add]; ring
    rw [e1, draw_x123_exp hv ha1 hs (by positivity) (hh n) kk, draw_x123_exp hv ha1 hs (by positivity) (hh n) kk]
    ring
  have e1 := e 1
  simp only [one_mul] at e1
  rw [e c, e1]
  simp only [gamma0_smul, Ex.poisson_smul]

/-- **C109.** One step of the Poisson-conditioned scheme followed by the drawn log return has, as `kk` grows, exactly the moment generating function documented for the Heston log price (`logp_mgf`), for `rho <= 0` and
every argument `p` between 0 and 1. -/
theorem pois_ge_logp_law (hxi : 0 < m.vov) (hdt : 0 < dt) (hk : 0 < m.mr) (hd : 0 < m.cir.chiDim) (ha : 0.2 ≤ m.mr * dt) (hv0 : 0 ≤ v0) (hr : m.rho ≤ 0) (hr1 : -1 ≤ m.rho) {p : ℝ} (hp : 0 ≤ p) (hp1 : p ≤ 1) :
    Tendsto (fun kk => ((m.stepPoisGe rngEx kk dt v0 (fun r => m.drawLogReturn rngEx dt v0 r.1 r.2.1 (fun x => exp (p * (x - (m.intr - m.divr) * dt)))) : ℝ) : ℂ)) atTop
      (𝓝 (Heston.logpMgf { m with sigma := v0 } (p : ℂ) dt)) := by
  have hv : 0 < m.vov2dt dt := by unfold vov2dt; positivity
  have ha0 : m.mr * dt ≠ 0 := by positivity
  obtain ⟨u, hu⟩ : ∃ u, u = p * m.rho / m.vov := ⟨_, rfl⟩
  obtain ⟨s, hs⟩ : ∃ s, s = dt * (p * m.rho * m.mr / m.vov - p / 2 + p ^ 2 * (1 - m.rho ^ 2) / 2) := ⟨_, rfl⟩
  have hu0 : u ≤ 0 := by
    rw [hu]
    exact div_nonpos_of_nonpos_of_nonneg (mul_nonpos_of_nonneg_of_nonpos hp hr) hxi.le
  have hpr : p * m.rho ≤ 0 := mul_nonpos_of_nonneg_of_nonpos hp hr
  have hs0 : s ≤ 0 := by
    rw [hs]
    refine mul_nonpos_of_nonneg_of_nonpos hdt.le ?_
    have h1 : p * m.rho * m.mr / m.vov ≤ 0 := div_nonpos_of_nonpos_of_nonneg (mul_nonpos_of_nonpos_of_nonneg hpr hk.le) hxi.le
    have h2 : p ^ 2 * (1 - m.rho ^ 2) ≤ p := by nlinarith [sq_nonneg (p * m.rho), mul_nonneg hp (sub_nonneg.2 hp1)]
    linarith
  have hrr : m.rho ^ 2 ≤ 1 := by nlinarith
  -- the conditional expectation over the log return
  have hstep : ∀ kk, m.stepPoisGe rngEx kk dt v0 (fun r => m.drawLogReturn rngEx dt v0 r.1 r.2.1 (fun x => exp (p * (x - (m.intr - m.divr) * dt)))) =
      exp (-(u * v0) - p * m.rho / m.vov * m.mr * dt * m.theta) * m.stepPoisGe rngEx kk dt v0 (fun r => exp (u * r.1 + s * r.2.1)) := by
    intro kk
    rw [← poisGe_smul kk hv hs0 ha hk hdt hd hxi.ne' hv0]
    refine nonneg_poisGe hv kk fun r hr0 => ?_
    show Spec.gaussE (fun z => exp (p * (m.lnMean dt v0 r.1 r.2.1 + √((1.0 - m.rho ^ 2) * dt * r.2.1) * z - (m.intr - m.divr) * dt))) = _
    have e : (fun z => exp (p * (m.lnMean dt v0 r.1 r.2.1 + √((1.0 - m.rho ^ 2) * dt * r.2.1) * z - (m.intr - m.divr) * dt))) =
        fun z => exp ((p * √((1.0 - m.rho ^ 2) * dt * r.2.1)) * z + p * (m.lnMean dt v0 r.1 r.2.1 - (m.intr - m.divr) * dt)) := by
      ext z; congr 1; ring
    have h1 : (1.0 : ℝ) = 1 := by norm_num
    rw [e, gaussE_exp_lin, mul_pow, h1, sq_sqrt (by have : 0 ≤ 1 - m.rho ^ 2 := by linarith
                                                    positivity), ← exp_add]
    congr 1
    unfold lnMean
    rw [hu, hs]
    norm_num
    ring
  simp only [hstep]
  have hlim := ((pois_ge_limit hxi.ne' hdt hk hd ha hs0 hu0 hv0).const_mul (exp (-(u * v0) - p * m.rho / m.vov * m.mr * dt * m.theta)))
  obtain ⟨hb, hb2⟩ := halfGamma_pos (neg_valid ha0 hv hs0)
  obtain ⟨hD, eJ⟩ := exactJoint_eq (v0 := v0) hxi.ne' hdt hk hd hs0 hu0
  rw [eJ] at hlim
  have hlimC := (Complex.continuous_ofReal.tendsto _).comp hlim
  refine Eq.subst (motive := fun y => Tendsto _ atTop (𝓝 y)) (Eq.symm ?_) hlimC
  -- closed forms
  obtain ⟨b, hbd⟩ : ∃ b, b = Spec.halfGamma m dt s := ⟨_, rfl⟩
  obtain ⟨a, had⟩ : ∃ a, a = m.mr * dt / 2 := ⟨_, rfl⟩
  rw [← hbd, ← had] at hb2 hD ⊢
  rw [← hbd] at hb
  have haa : 0 < a := by rw [had]; positivity
  have hsb : 0 < sinh b := sinh_pos_iff.2 hb
  have hcb := cosh_pos b
  obtain ⟨D, hDd⟩ : ∃ D, D = a + b * (cosh b / sinh b) - m.vov2dt dt * u / 2 := ⟨_, rfl⟩
  rw [← hDd] at hD ⊢
  have hbeta0 : 0 < m.mr - m.vov * m.rho * p := by
    have : m.vov * (p * m.rho) ≤ 0 := mul_nonpos_of_nonneg_of_nonpos hxi.le hpr
    have e : m.vov * m.rho * p = m.vov * (p * m.rho) := by ring
    rw [e]
    linarith
  have hvu : m.vov2dt dt * u / 2 = m.vov * m.rho * p * dt / 2 := by
    rw [hu]; unfold vov2dt; field_simp
  have hbeta : m.mr - m.vov * m.rho * p = 2 / dt * (a - m.vov2dt dt * u / 2) := by rw [hvu, had]; field_simp
  have hdd : (m.mr - m.vov * m.rho * p) ^ 2 + m.vov ^ 2 * p * (1 - p) = (2 * b / dt) ^ 2 := by
    rw [div_pow, mul_pow, hb2, had, hs]
    unfold vov2dt
    field_simp
    ring
  unfold Heston.logpMgf Heston.logpMgfExpo
  simp only
  have e1 : ((m.mr : ℂ) - m.vov * m.rho * p) = ((m.mr - m.vov * m.rho * p : ℝ) : ℂ) := by push_cast; ring
  have e2 : ((m.mr - m.vov * m.rho * p : ℝ) : ℂ) ^ 2 + (m.vov : ℂ) ^ 2 * p * (1 - p) = (((2 * b / dt) ^ 2 : ℝ) : ℂ) := by rw [← hdd]; push_cast; ring
  have e3 : (((2 * b / dt) ^ 2 : ℝ) : ℂ) ^ (1 / 2 : ℂ) = ((2 * b / dt : ℝ) : ℂ) := by
    rw [show (1 / 2 : ℂ) = (((1 / 2 : ℝ)) : ℂ) by push_cast; rfl, ← Complex.ofReal_cpow (by positivity), ← sqrt_eq_rpow, sqrt_sq (by positivity)]
  rw [e1, e2, e3]
  obtain ⟨β, hβ⟩ : ∃ β, β = m.mr - m.vov * m.rho * p := ⟨_, rfl⟩
  obtain ⟨d, hdd'⟩ : ∃ d, d = 2 * b / dt := ⟨_, rfl⟩
  rw [← hβ, ← hdd']
  have hd0 : 0 < d := by rw [hdd']; positivity
  have hβ0 : 0 < β := by rw [hβ]; exact hbeta0
  have e4 : (1 - ((β : ℂ) - d) / (β + d) * Complex.exp (-(d : ℂ) * dt)) = ((1 - (β - d) / (β + d) * exp (-d * dt) : ℝ) : ℂ) := by push_cast; ring
  have e5 : (1 - ((β : ℂ) - d) / (β + d)) = ((1 - (β - d) / (β + d) : ℝ) : ℂ) := by push_cast; ring
  have hg1 : 1 - (β - d) / (β + d) = 2 * d / (β + d) := by field_simp; ring
  have hE : exp (-d * dt) = exp (-b) * exp (-b) := by
    rw [← exp_add, hdd']; congr 1; field_simp; ring
  have hS1 : 1 - exp (-b) * exp (-b) = 2 * exp (-b) * sinh b := by rw [sinh_eq, exp_neg]; field_simp
  have hC1 : 1 + exp (-b) * exp (-b) = 2 * exp (-b) * cosh b := by rw [cosh_eq, exp_neg]; field_simp
  have hg2 : 1 - (β - d) / (β + d) * exp (-d * dt) = 4 * exp (-b) * (sinh b * D) / dt / (β + d) := by
    rw [hE]
    have h1 : 1 - (β - d) / (β + d) * (exp (-b) * exp (-b)) = (β * (1 - exp (-b) * exp (-b)) + d * (1 + exp (-b) * exp (-b))) / (β + d) := by field_simp; ring
    rw [h1, hS1, hC1, hβ, hbeta, hdd', hDd]
    congr 1
    field_simp
    ring
  have hratio : (1 - (β - d) / (β + d) * exp (-d * dt)) / (1 - (β - d) / (β + d)) = exp (-b) * (sinh b * D) / b := by
    rw [hg1, hg2, hdd']
    have : 0 < β + 2 * b / dt := by positivity
    generalize β + 2 * b / dt = y at *
    field_simp
    norm_num
  have hrpos : 0 < exp (-b) * (sinh b * D) / b := by positivity
  rw [e4, e5, ← Complex.ofReal_div, hratio, ← Complex.ofReal_log hrpos.le]
  have e6 : (1 - Complex.exp (-(d : ℂ) * dt)) = ((1 - exp (-d * dt) : ℝ) : ℂ) := by push_cast; ring
  rw [e6]
  norm_cast
  rw [hE, hS1, ← hE, hg2]
  rw [rpow_def_of_pos (by positivity), ← exp_add, ← exp_add]
  congr 1
  have hlog : log (b * exp a / (sinh b * D)) = -log (exp (-b) * (sinh b * D) / b) + a - b := by
    rw [log_div (by positivity) (by positivity), log_mul hb.ne' (exp_pos _).ne', log_exp, log_div (by positivity) hb.ne', log_mul (exp_pos _).ne' (by positivity), log_exp]
    ring
  rw [hlog]
  generalize log (exp (-b) * (sinh b * D) / b) = L
  have hchi : m.cir.chiDim = 4 * m.theta * m.mr / m.vov ^ 2 := rfl
  have hB : v0 * (β - d) * (2 * exp (-b) * sinh b) / (4 * exp (-b) * (sinh b * D) / dt / (β + d)) = v0 * (β ^ 2 - d ^ 2) * dt / (2 * D) := by
    have : 0 < β + d := by positivity
    have h9 : β ^ 2 - d ^ 2 = (β - d) * (β + d) := by ring
    rw [h9]
    generalize β + d = y at *
    generalize β - d = w at *
    have := exp_pos (-b)
    field_simp
    norm_num
  rw [hB]
  have hbd2 : β ^ 2 - d ^ 2 = -(m.vov ^ 2 * p * (1 - p)) := by rw [hβ, hdd']; linarith
  have hsum : -(u * v0) + v0 * ((s - u * (a - b * (cosh b / sinh b))) / D) = v0 * (-(p * (1 - p)) * dt / (2 * D)) := by
    have h1 : -(u * v0) + v0 * ((s - u * (a - b * (cosh b / sinh b))) / D) = v0 * ((s - u * (a - b * (cosh b / sinh b)) - u * D) / D) := by field_simp; ring
    rw [h1]
    congr 1
    have h2 : s - u * (a - b * (cosh b / sinh b)) - u * D = -(p * (1 - p)) * dt / 2 := by
      rw [hDd, hu, hs, had]
      unfold vov2dt
      field_simp
      ring
    rw [h2]
    field_simp
  have hfin : ∀ X : ℝ, -(u * v0) - X + ((-L + a - b) * (m.cir.chiDim / 2) + v0 * ((s - u * (a - b * (cosh b / sinh b))) / D)) = v0 * (-(p * (1 - p)) * dt / (2 * D)) + ((-L + a - b) * (m.cir.chiDim / 2) - X) := by
    intro X; rw [← hsum]; ring
  rw [hfin, hbd2, hchi]
  have hβd : (β - d) * dt = 2 * (a - m.vov * m.rho * p * dt / 2) - 2 * b := by
    rw [hβ, hbeta, hdd', hvu]; field_simp
  rw [hβd]
  field_simp
  ring

/-- A concrete model (Feller condition violated, strong correlation) meets the hypotheses of the laws above. -/
example : Tendsto (fun kk => (((⟨0.04, 1, -0.9, 0.5, 0.04, 0, 0, false⟩ : Heston).stepPoisGe rngEx kk 2 0.05
      (fun r => (⟨0.04, 1, -0.9, 0.5, 0.04, 0, 0, false⟩ : Heston).drawLogReturn rngEx 2 0.05 r.1 r.2.1 (fun x => exp (1 / 2 * (x - (0 - 0) * 2)))) : ℝ) : ℂ)) atTop
    (𝓝 (Heston.logpMgf ⟨0.05, 1, -0.9, 0.5, 0.04, 0, 0, false⟩ ((1 / 2 : ℝ) : ℂ) 2)) :=
  pois_ge_logp_law (m := ⟨0.04, 1, -0.9, 0.5, 0.04, 0, 0, false⟩) (by norm_num) (by norm_num) (by norm_num) (by simp only [cir, Cir.chiDim]; norm_num) (by norm_num) (by norm_num) (by norm_num) (by norm_num)
    (by norm_num) (by norm_num)

end Law

end Heston

end PyFENG
