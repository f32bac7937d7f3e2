import Verif.Props.Levy
import Verif.Props.Bsm
import Verif.Lemmas.Mellin

/-!
# C33 (CGMY, GARCH), C69, C70, C71
-/

namespace PyFENG

open Real MeasureTheory Set

/-! ## CGMY -/

/-- Specification: the CGMY Lévy density of the class docstring. -/
noncomputable def Spec.cgmyDensity (C G M Y x : ℝ) : ℝ :=
  if 0 < x then C * exp (-M * x) / x ^ (1 + Y) else if x < 0 then C * exp (G * x) / |x| ^ (1 + Y) else 0

namespace Cgmy

lemma init_ok {C G M Y : ℝ} {m : CgmyParams} (h : init C G M Y = .ok m) :
    0 < C ∧ 0 < G ∧ 1 < M ∧ Y < 2 ∧
    m = ⟨C, G, M, Y, Real.Gamma (-Y) * C, M ^ Y, G ^ Y, (M - 1) ^ Y - M ^ Y + (G + 1) ^ Y - G ^ Y⟩ := by
  unfold init at h
  split_ifs at h with h1 h2 h3 h4
  exact ⟨not_le.1 h1, not_le.1 h2, not_le.1 h3, not_le.1 h4, by injection h with h; exact h.symm⟩

/-- One side of the Lévy-Khintchine integral. -/
lemma side {Y M : ℝ} (hY : Y < 2) (hY0 : Y ≠ 0) (hY1 : Y ≠ 1) {u e : ℂ}
    (hM : 0 < M) (hMu : 0 < M - u.re) (hMe : 0 < M - e.re) (c d : ℂ) (h0 : 1 + c + d = 0)
    (h1 : (M - u) + c * M + d * (M - e) = 0) :
    IntegrableOn (fun x : ℝ => ((x ^ (-Y - 1) : ℝ) : ℂ) *
      (Complex.exp (-(M - u) * x) + c * Complex.exp (-(M : ℂ) * x) + d * Complex.exp (-(M - e) * x))) (Ioi 0) ∧
    ∫ x in Ioi (0 : ℝ), ((x ^ (-Y - 1) : ℝ) : ℂ) *
      (Complex.exp (-(M - u) * x) + c * Complex.exp (-(M : ℂ) * x) + d * Complex.exp (-(M - e) * x)) =
    (Real.Gamma (-Y) : ℂ) * (((M : ℂ) - u) ^ (Y : ℂ) + c * (M : ℂ) ^ (Y : ℂ) + d * ((M : ℂ) - e) ^ (Y : ℂ)) := by
  have h := mellin_two (ι := Fin 3) (s := -Y) (by linarith) (by simpa using hY0) (fun h => hY1 (by linarith))
    (a := ![1, c, d]) (r := ![(M : ℂ) - u, M, M - e]) ?_ ?_ ?_
  · unfold MellinExp at h
    have e1 : -((M : ℂ) - u) = u - M := by ring
    have e2 : -((M : ℂ) - e) = e - M := by ring
    simpa [Fin.sum_univ_three, e1, e2, ← neg_mul] using h
  · intro i
    fin_cases i <;> simp <;> linarith
  · simpa [Fin.sum_univ_three] using h0
  · simpa [Fin.sum_univ_three] using h1

/-- **C33 (CGMY).** Lévy-Khintchine: for every accepted model (`Y ≠ 0, 1`, where the code's `Γ(-Y)` has its poles) and
every complex `u` in the strip `-G < Re u < M` (which contains `0 ≤ Re u ≤ 1`), `logp_mgf(u, T)` is the exponential of `T` times the integral of
`e^{ux} - 1 - u(e^x - 1)` against the documented Lévy density: the log price is the pure-jump CGMY process with the
martingale drift.  The integral converges. -/
theorem logpMgf_levy_khintchine {C G M Y : ℝ} {m : CgmyParams} (h : init C G M Y = .ok m) (hY0 : Y ≠ 0) (hY1 : Y ≠ 1)
    {u : ℂ} (hu0 : -G < u.re) (hu1 : u.re < M) (T : ℝ) :
    Integrable (fun x : ℝ => (Complex.exp (u * x) - 1 - u * (Complex.exp x - 1)) * Spec.cgmyDensity C G M Y x) ∧
    logpMgf m u T = Complex.exp (T *
      ∫ x : ℝ, (Complex.exp (u * x) - 1 - u * (Complex.exp x - 1)) * Spec.cgmyDensity C G M Y x) := by
  obtain ⟨hC, hG, hM, hY, rfl⟩ := init_ok h
  obtain ⟨i1, v1⟩ := side hY hY0 hY1 (M := M) (u := u) (e := 1) (by linarith) (by linarith) (by simpa using hM)
    (u - 1) (-u) (by ring) (by ring)
  obtain ⟨i2, v2⟩ := side hY hY0 hY1 (M := G) (u := -u) (e := -1) hG (by simp; linarith) (by simp; linarith)
    (u - 1) (-u) (by ring) (by ring)
  set F : ℝ → ℂ := fun x => (Complex.exp (u * x) - 1 - u * (Complex.exp x - 1)) * Spec.cgmyDensity C G M Y x with hF
  have e1 : EqOn F (fun x : ℝ => (C : ℂ) * (((x ^ (-Y - 1) : ℝ) : ℂ) *
      (Complex.exp (-(M - u) * x) + (u - 1) * Complex.exp (-(M : ℂ) * x) + (-u) * Complex.exp (-(M - 1) * x)))) (Ioi 0) := by
    intro x hx
    have hx' : (0 : ℝ) < x := hx
    simp only [hF, Spec.cgmyDensity, if_pos hx']
    rw [show -Y - 1 = -(1 + Y) by ring, rpow_neg hx'.le]
    have hp : ((x ^ (1 + Y) : ℝ) : ℂ) ≠ 0 := by exact_mod_cast (rpow_pos_of_pos hx' _).ne'
    rw [show -((M : ℂ) - u) * x = u * x + -M * x by ring, show -((M : ℂ) - 1) * x = x + -M * x by ring,
      Complex.exp_add, Complex.exp_add]
    push_cast
    field_simp
    ring
  have e2 : EqOn (fun x => F (-x)) (fun x : ℝ => (C : ℂ) * (((x ^ (-Y - 1) : ℝ) : ℂ) *
      (Complex.exp (-(G - -u) * x) + (u - 1) * Complex.exp (-(G : ℂ) * x) + (-u) * Complex.exp (-(G - -1) * x)))) (Ioi 0) := by
    intro x hx
    have hx' : (0 : ℝ) < x := hx
    simp only [hF, Spec.cgmyDensity, if_neg (show ¬ (0 : ℝ) < -x by linarith), if_pos (show -x < 0 by linarith)]
    rw [abs_neg, abs_of_pos hx', show -Y - 1 = -(1 + Y) by ring, rpow_neg hx'.le]
    have hp : ((x ^ (1 + Y) : ℝ) : ℂ) ≠ 0 := by exact_mod_cast (rpow_pos_of_pos hx' _).ne'
    rw [show -((G : ℂ) - -u) * x = u * -x + -G * x by ring, show -((G : ℂ) - -1) * x = -x + -G * x by ring,
      Complex.exp_add, Complex.exp_add]
    push_cast
    rw [show (G : ℂ) * -x = -G * x by ring]
    field_simp
    ring
  have j1 : IntegrableOn F (Ioi 0) := (integrableOn_congr_fun e1 measurableSet_Ioi).2 (i1.const_mul _)
  have j2 : IntegrableOn (fun x => F (-x)) (Ioi 0) := (integrableOn_congr_fun e2 measurableSet_Ioi).2 (i2.const_mul _)
  have j2' : IntegrableOn F (Iic 0) := by
    have hmp := Measure.measurePreserving_neg (volume : Measure ℝ)
    have hpre : (fun x : ℝ => -x) ⁻¹' (Iio 0) = Ioi 0 := by ext x; simp
    have := (hmp.integrableOn_comp_preimage (Homeomorph.neg ℝ).measurableEmbedding (f := F) (s := Iio 0)).1
      (by rw [show (Neg.neg ⁻¹' (Iio (0 : ℝ))) = Ioi 0 from hpre]; exact j2)
    have h0 : (Iic (0 : ℝ)) =ᵐ[volume] Iio 0 := Iio_ae_eq_Iic.symm
    exact this.congr_set_ae h0
  have hInt : Integrable F := by
    rw [← integrableOn_univ, ← Iic_union_Ioi (a := (0 : ℝ))]
    exact j2'.union j1
  refine ⟨hInt, ?_⟩
  have hsplit : ∫ x, F x = (∫ x in Ioi (0 : ℝ), F (-x)) + ∫ x in Ioi (0 : ℝ), F x := by
    rw [integral_comp_neg_Ioi, neg_zero, ← setIntegral_union _ measurableSet_Ioi j2' j1, Iic_union_Ioi,
      Measure.restrict_univ]
    exact Set.disjoint_left.2 fun x hx hx' => not_lt.2 (show x ≤ 0 from hx) hx'
  rw [hsplit, setIntegral_congr_fun measurableSet_Ioi e1, setIntegral_congr_fun measurableSet_Ioi e2,
    integral_const_mul, integral_const_mul, v1, v2]
  unfold logpMgf
  simp only
  congr 1
  have c1 : (((M - 1) ^ Y : ℝ) : ℂ) = ((M : ℂ) - 1) ^ (Y : ℂ) := by
    rw [Complex.ofReal_cpow (by linarith)]; push_cast; rfl
  have c2 : ((M ^ Y : ℝ) : ℂ) = (M : ℂ) ^ (Y : ℂ) := Complex.ofReal_cpow (by linarith) _
  have c3 : (((G + 1) ^ Y : ℝ) : ℂ) = ((G : ℂ) + 1) ^ (Y : ℂ) := by
    rw [Complex.ofReal_cpow (by linarith)]; push_cast; rfl
  have c4 : ((G ^ Y : ℝ) : ℂ) = (G : ℂ) ^ (Y : ℂ) := Complex.ofReal_cpow hG.le _
  rw [show (G : ℂ) - -u = G + u by ring, show (G : ℂ) - -1 = G + 1 by ring]
  push_cast
  rw [c1, c2, c3, c4]
  ring

/-- **C33 (CGMY).** Normalisation and the Lévy property. -/
theorem logpMgf_normalised {C G M Y : ℝ} {m : CgmyParams} (h : init C G M Y = .ok m) (T T1 T2 : ℝ) (u : ℂ) :
    logpMgf m 0 T = 1 ∧ logpMgf m 1 T = 1 ∧ logpMgf m u (T1 + T2) = logpMgf m u T1 * logpMgf m u T2 := by
  obtain ⟨hC, hG, hM, hY, rfl⟩ := init_ok h
  have c1 : (((M - 1) ^ Y : ℝ) : ℂ) = ((M : ℂ) - 1) ^ (Y : ℂ) := by
    rw [Complex.ofReal_cpow (by linarith)]; push_cast; rfl
  have c2 : ((M ^ Y : ℝ) : ℂ) = (M : ℂ) ^ (Y : ℂ) := Complex.ofReal_cpow (by linarith) _
  have c3 : (((G + 1) ^ Y : ℝ) : ℂ) = ((G : ℂ) + 1) ^ (Y : ℂ) := by
    rw [Complex.ofReal_cpow (by linarith)]; push_cast; rfl
  have c4 : ((G ^ Y : ℝ) : ℂ) = (G : ℂ) ^ (Y : ℂ) := Complex.ofReal_cpow hG.le _
  refine ⟨?_, ?_, ?_⟩
  · unfold logpMgf
    simp only
    rw [c2, c4]
    simp
  · unfold logpMgf
    simp only
    push_cast
    rw [c1, c2, c3, c4]
    rw [show ∀ x : ℂ, -x * 1 + x = 0 by intro x; ring]
    simp
  · unfold logpMgf
    simp only
    rw [← Complex.exp_add]
    congr 1
    push_cast
    ring

/-- Non-vacuity: the parameters of Carr, Geman, Madan and Yor. -/
example : ∃ m, init 0.1 5 5 0.5 = .ok m := by
  unfold init
  norm_num

end Cgmy

/-! ## GARCH diffusion -/

namespace Garch

/-- `g = mr - 3/2·ρ·vov·√θ·u` and `d = √(g² + 2 vov² θ (u - u²))` of Wu, Ma and Wang. -/
noncomputable def gg (m : GarchParams) (u : ℝ) : ℝ := m.mr - 3 / 2 * (m.rho * m.vov * √m.theta * u)
noncomputable def dd (m : GarchParams) (u : ℝ) : ℝ := √(gg m u ^ 2 + 2 * m.vov ^ 2 * m.theta * (u - u ^ 2))

/-- **C33 (GARCH).** Both versions are normalised: `mgf(0) = mgf(1) = 1` whenever `mr > 3/2·ρ·vov·√θ` (and `mr > 0`). -/
theorem logpMgf_normalised (m : GarchParams) (T : ℝ) (h0 : 0 < m.mr) (h1 : 0 < gg m 1) :
    logpMgfR m 0 T = 1 ∧ logpMgfR m 1 T = 1 ∧ logpMgfOldR m 0 T = 1 ∧ logpMgfOldR m 1 T = 1 := by
  unfold gg at h1
  have h1' : 0 < m.mr - 3 / 2 * m.rho * m.vov * √m.theta := by nlinarith
  refine ⟨?_, ?_, ?_, ?_⟩
  · unfold logpMgfR
    simp
  · unfold logpMgfR
    simp
  · unfold logpMgfOldR
    simp [sqrt_sq h0.le, h0.ne']
  · unfold logpMgfOldR
    simp [sqrt_sq h1'.le, h1'.ne']

/-- **C70 is false.** Exact discrepancy between the "refined" `logp_mgf` and the line-by-line `logp_mgf_old`: the refined
version multiplies one term by an extra factor `texp`. -/
theorem refined_vs_old (m : GarchParams) {u T : ℝ} (hv : m.vov ≠ 0) (hth : 0 < m.theta)
    (hd : 0 < gg m u ^ 2 + 2 * m.vov ^ 2 * m.theta * (u - u ^ 2)) (hdg : dd m u + gg m u ≠ 0)
    (hden : 2 * dd m u - (dd m u - gg m u) * (1 - exp (-dd m u * T)) ≠ 0) :
    logpMgfR m u T = logpMgfOldR m u T *
      exp ((T - 1) * (dd m u - gg m u) * dd m u * (1 - exp (-dd m u * T)) /
        (2 * m.vov ^ 2 * (2 * dd m u - (dd m u - gg m u) * (1 - exp (-dd m u * T))))) := by
  have hdd : dd m u ^ 2 = gg m u ^ 2 + 2 * m.vov ^ 2 * m.theta * (u - u ^ 2) := sq_sqrt hd.le
  have hd0 : 0 < dd m u := sqrt_pos.2 hd
  have hδ : 2 * m.vov ^ 2 * m.theta * (u - u ^ 2) / (dd m u + gg m u) = dd m u - gg m u := by
    rw [div_eq_iff hdg]; linarith
  have e1 : √((m.mr - 3 / 2 * (m.rho * m.vov * √m.theta * u)) ^ 2 + 2 * m.vov ^ 2 * m.theta * (u - u ^ 2)) = dd m u := rfl
  have e2 : m.mr - 3 / 2 * (m.rho * m.vov * √m.theta * u) = gg m u := rfl
  have e2' : m.mr - 3 / 2 * m.rho * m.vov * √m.theta * u = gg m u := by rw [← e2]; ring
  have e3 : √(gg m u ^ 2 - 4 * m.vov ^ 2 * (-0.5 * (u - u ^ 2)) * m.theta) = dd m u := by
    rw [← e1, e2]; congr 1; ring
  have e4 : m.theta ^ (3 / 2 : ℝ) = m.theta * √m.theta := by
    rw [sqrt_eq_rpow, show (3 / 2 : ℝ) = 1 + 1 / 2 by norm_num, rpow_add hth, rpow_one]
  have hlog : 1 - 0.5 * (dd m u - gg m u) * (-(exp (-dd m u * T) - 1) / dd m u) =
      (2 * dd m u - (dd m u - gg m u) * (1 - exp (-dd m u * T))) / (2 * dd m u) := by
    field_simp; ring
  unfold logpMgfR logpMgfOldR
  simp only
  rw [e1, e2, e2', e3, e4, hδ, hlog, ← exp_add]
  congr 1
  have eg : m.rho * m.vov * √m.theta * u = (m.mr - gg m u) * (2 / 3) := by rw [← e2]; ring
  have eg' : m.rho * m.vov * u * (m.theta * √m.theta) = m.theta * ((m.mr - gg m u) * (2 / 3)) := by rw [← eg]; ring
  rw [show 1 / 2 * m.rho * m.vov * u * (m.theta * √m.theta) = 1 / 2 * (m.rho * m.vov * u * (m.theta * √m.theta)) by ring,
    eg, eg']
  generalize log ((2 * dd m u - (dd m u - gg m u) * (1 - exp (-dd m u * T))) / (2 * dd m u)) = L
  have hz : 2 * m.vov ^ 2 * m.theta * (u - u ^ 2) = dd m u ^ 2 - gg m u ^ 2 := by linarith
  rw [hz]
  generalize exp (-dd m u * T) = E at *
  generalize dd m u = d at *
  generalize gg m u = g at *
  generalize hD : 2 * d - (d - g) * (1 - E) = D at *
  have hth' := hth.ne'
  field_simp
  ring

/-- For `0 < u < 1` all the side conditions of `refined_vs_old` hold. -/
lemma side_conditions (m : GarchParams) {u T : ℝ} (hv : m.vov ≠ 0) (hth : 0 < m.theta) (hu0 : 0 < u) (hu1 : u < 1)
    (hT : 0 < T) :
    0 < gg m u ^ 2 + 2 * m.vov ^ 2 * m.theta * (u - u ^ 2) ∧ 0 < dd m u + gg m u ∧ 0 < dd m u - gg m u ∧ 0 < dd m u ∧
    0 < 1 - exp (-dd m u * T) ∧ 0 < 2 * dd m u - (dd m u - gg m u) * (1 - exp (-dd m u * T)) := by
  have hz : 0 < 2 * m.vov ^ 2 * m.theta * (u - u ^ 2) := by
    have : 0 < u - u ^ 2 := by nlinarith
    positivity
  have h1 : 0 < gg m u ^ 2 + 2 * m.vov ^ 2 * m.theta * (u - u ^ 2) := by positivity
  have habs : |gg m u| < dd m u := by
    unfold dd
    rw [← sqrt_sq_eq_abs]
    exact sqrt_lt_sqrt (sq_nonneg _) (by linarith)
  obtain ⟨h2, h3⟩ := abs_lt.1 habs
  have h4 : 0 < dd m u := sqrt_pos.2 h1
  have h5 : exp (-dd m u * T) < 1 := by
    rw [exp_lt_one_iff]; nlinarith
  refine ⟨h1, by linarith, by linarith, h4, by linarith, ?_⟩
  have h6 := exp_pos (-dd m u * T)
  nlinarith

/-- **C70, partial.** At `texp = 1` the two versions agree. -/
theorem refined_eq_old_partial (m : GarchParams) {u : ℝ} (hv : m.vov ≠ 0) (hth : 0 < m.theta) (hu0 : 0 < u) (hu1 : u < 1) :
    logpMgfR m u 1 = logpMgfOldR m u 1 := by
  obtain ⟨h1, h2, h3, h4, h5, h6⟩ := side_conditions m hv hth hu0 hu1 one_pos
  rw [refined_vs_old m hv hth h1 h2.ne' h6.ne']
  simp

/-- **C70 is false at every other maturity**: the refined version is strictly above for `texp > 1` and strictly below for
`texp < 1`. -/
theorem refined_ne_old (m : GarchParams) {u T : ℝ} (hv : m.vov ≠ 0) (hth : 0 < m.theta) (hu0 : 0 < u) (hu1 : u < 1)
    (hT : 0 < T) :
    (1 < T → logpMgfOldR m u T < logpMgfR m u T) ∧ (T < 1 → logpMgfR m u T < logpMgfOldR m u T) := by
  obtain ⟨h1, h2, h3, h4, h5, h6⟩ := side_conditions m hv hth hu0 hu1 hT
  rw [refined_vs_old m hv hth h1 h2.ne' h6.ne']
  have hp : 0 < logpMgfOldR m u T := by unfold logpMgfOldR; exact exp_pos _
  have hk : 0 < (dd m u - gg m u) * dd m u * (1 - exp (-dd m u * T)) /
        (2 * m.vov ^ 2 * (2 * dd m u - (dd m u - gg m u) * (1 - exp (-dd m u * T)))) := by positivity
  have e : (T - 1) * (dd m u - gg m u) * dd m u * (1 - exp (-dd m u * T)) /
        (2 * m.vov ^ 2 * (2 * dd m u - (dd m u - gg m u) * (1 - exp (-dd m u * T)))) =
      (T - 1) * ((dd m u - gg m u) * dd m u * (1 - exp (-dd m u * T)) /
        (2 * m.vov ^ 2 * (2 * dd m u - (dd m u - gg m u) * (1 - exp (-dd m u * T))))) := by ring
  rw [e]
  constructor
  · intro h
    have : 1 < exp ((T - 1) * ((dd m u - gg m u) * dd m u * (1 - exp (-dd m u * T)) /
        (2 * m.vov ^ 2 * (2 * dd m u - (dd m u - gg m u) * (1 - exp (-dd m u * T)))))) :=
      one_lt_exp_iff.2 (mul_pos (by linarith) hk)
    nlinarith
  · intro h
    have : exp ((T - 1) * ((dd m u - gg m u) * dd m u * (1 - exp (-dd m u * T)) /
        (2 * m.vov ^ 2 * (2 * dd m u - (dd m u - gg m u) * (1 - exp (-dd m u * T)))))) < 1 :=
      exp_lt_one_iff.2 (mul_neg_of_neg_of_pos (by linarith) hk)
    nlinarith

end Garch

/-! ## C71: precomputed corrections and attribute assignment -/

/-- An assignment to a public field of a `VarGamma`/`NIG` object (the dataclasses are mutable; `vega_numeric`,
`pyfeng/opt_abc.py`, assigns `sigma`). -/
inductive SubAssign where
  | sigma (x : ℝ) | nu (x : ℝ) | theta (x : ℝ) | intr (x : ℝ) | divr (x : ℝ) | isFwd (b : Bool)

/-- Assignment changes the field and nothing else: `__post_init__` does not run again and `_mgf1_correction` keeps its
value. -/
def SubParams.assign (m : SubParams) : SubAssign → SubParams
  | .sigma x => { m with sigma := x }
  | .nu x => { m with nu := x }
  | .theta x => { m with theta := x }
  | .intr x => { m with intr := x }
  | .divr x => { m with divr := x }
  | .isFwd b => { m with isFwd := b }

/-- The constructor arguments that describe the current field values. -/
def SubParams.args (m : SubParams) : SubArgs := ⟨m.sigma, m.nu, m.theta, m.intr, m.divr, m.isFwd⟩

lemma SubParams.assign_mgf1 (m : SubParams) (l : List SubAssign) : (l.foldl SubParams.assign m).mgf1 = m.mgf1 := by
  induction l generalizing m with
  | nil => rfl
  | cons a l ih =>
    rw [List.foldl_cons, ih]
    cases a <;> rfl

namespace VarGamma

/-- **C71, law.** After any sequence of assignments, `logp_mgf(1, T)` is a power of the ratio between the constraint value at
construction and the current one: the martingale condition holds exactly if the two agree. -/
theorem stale_law {a : SubArgs} {m : SubParams} (h : init a = .ok m) (l : List SubAssign)
    (hpos : 0 < 1 - (l.foldl SubParams.assign m).theta * (l.foldl SubParams.assign m).nu
      - 0.5 * (l.foldl SubParams.assign m).sigma ^ 2 * (l.foldl SubParams.assign m).nu)
    (hnu : (l.foldl SubParams.assign m).nu ≠ 0) {T : ℝ} (hT : T ≠ 0) :
    logpMgfR (l.foldl SubParams.assign m) 1 T = 1 ↔
      1 - a.theta * a.nu - 0.5 * a.sigma ^ 2 * a.nu =
        1 - (l.foldl SubParams.assign m).theta * (l.foldl SubParams.assign m).nu
          - 0.5 * (l.foldl SubParams.assign m).sigma ^ 2 * (l.foldl SubParams.assign m).nu := by
  obtain ⟨hp, rfl⟩ := init_ok h
  have hm := SubParams.assign_mgf1 ⟨a.sigma, a.nu, a.theta, -log (1 - a.theta * a.nu - 0.5 * a.sigma ^ 2 * a.nu),
    a.intr, a.divr, a.isFwd⟩ l
  set m' := l.foldl SubParams.assign ⟨a.sigma, a.nu, a.theta, -log (1 - a.theta * a.nu - 0.5 * a.sigma ^ 2 * a.nu),
    a.intr, a.divr, a.isFwd⟩
  unfold logpMgfR
  simp only at hm ⊢
  rw [hm, exp_eq_one_iff]
  have hq : 1 + (-m'.theta * m'.nu - 0.5 * (m'.nu * m'.sigma ^ 2) * 1) * 1 =
      1 - m'.theta * m'.nu - 0.5 * m'.sigma ^ 2 * m'.nu := by ring
  rw [hq, neg_neg, mul_one, mul_eq_zero, or_iff_right (div_ne_zero hT hnu), sub_eq_zero]
  exact ⟨fun h => log_injOn_pos hp hpos h, fun h => by rw [h]⟩

/-- **C71 is false of the code**: assigning a new volatility (as `vega_numeric` does) breaks the martingale property. -/
theorem stale_sigma {a : SubArgs} {m : SubParams} (h : init a = .ok m) (hn : 0 < a.nu) {s : ℝ}
    (hs : s ^ 2 ≠ a.sigma ^ 2) (hpos : 0 < 1 - a.theta * a.nu - 0.5 * s ^ 2 * a.nu) {T : ℝ} (hT : T ≠ 0) :
    logpMgfR (m.assign (.sigma s)) 1 T ≠ 1 := by
  have h' := h
  obtain ⟨hp, rfl⟩ := init_ok h'
  have := (stale_law h [.sigma s] hpos hn.ne' hT).not
  refine this.2 fun he => hs ?_
  simp only [List.foldl, SubParams.assign] at he
  have : 0.5 * a.nu * (s ^ 2 - a.sigma ^ 2) = 0 := by linarith
  rcases mul_eq_zero.1 this with h1 | h1
  · exfalso; linarith
  · linarith

/-- **C71, partial.** Assigning rates or the forward flag is harmless: the object equals the one constructed with the new
values. -/
theorem assign_fresh_partial {a : SubArgs} {m : SubParams} (h : init a = .ok m) (x : ℝ) (b : Bool) :
    init (m.assign (.intr x)).args = .ok (m.assign (.intr x)) ∧ init (m.assign (.divr x)).args = .ok (m.assign (.divr x)) ∧
    init (m.assign (.isFwd b)).args = .ok (m.assign (.isFwd b)) := by
  obtain ⟨hp, rfl⟩ := init_ok h
  refine ⟨?_, ?_, ?_⟩ <;>
  · exact if_neg (not_le.2 hp)

end VarGamma

namespace Nig

/-- **C71 is false of the code** for NIG as well. -/
theorem stale_sigma {a : SubArgs} {m : SubParams} (h : init a = .ok m) (hn : 0 < a.nu) {s : ℝ}
    (hs : s ^ 2 ≠ a.sigma ^ 2) (hpos : 0 < 1 - 2 * a.theta * a.nu - s ^ 2 * a.nu) {T : ℝ} (hT : T ≠ 0) :
    logpMgfR (m.assign (.sigma s)) 1 T ≠ 1 := by
  obtain ⟨hp, rfl⟩ := init_ok h
  unfold logpMgfR SubParams.assign
  simp only
  rw [Ne, exp_eq_one_iff, mul_eq_zero, or_iff_right (div_ne_zero hT hn.ne')]
  intro he
  have e1 : 1 + (-2 * a.theta * a.nu - a.nu * s ^ 2 * 1) * 1 = 1 - 2 * a.theta * a.nu - s ^ 2 * a.nu := by ring
  rw [e1] at he
  have h2 : √(1 - 2 * a.theta * a.nu - a.sigma ^ 2 * a.nu) = √(1 - 2 * a.theta * a.nu - s ^ 2 * a.nu) := by linarith
  rw [sqrt_inj hp.le hpos.le] at h2
  have : a.nu * (s ^ 2 - a.sigma ^ 2) = 0 := by linarith
  rcases mul_eq_zero.1 this with h1 | h1
  · exact hn.ne' h1
  · exact hs (by linarith)

end Nig

/-- Non-vacuity of C71: a model and a new volatility. -/
example : ∃ m, VarGamma.init ⟨0.2, 0.3, -0.1, 0, 0, false⟩ = .ok m ∧ (0.3 : ℝ) ^ 2 ≠ 0.2 ^ 2 ∧
    (0 : ℝ) < 1 - (-0.1) * 0.3 - 0.5 * 0.3 ^ 2 * 0.3 := by
  unfold VarGamma.init
  norm_num

/-! ## C69: quadrature pricer -/

namespace SubParams

variable {ι : Type*} [Fintype ι]

lemma priceQuad_eq (m : SubParams) (var w : ι → ℝ) (strike spot texp cp : ℝ) :
    m.priceQuad var w strike spot texp cp =
      (⟨m.sigma, m.intr, m.divr, m.isFwd⟩ : MParams).df texp *
        ∑ k, w k * ((⟨m.sigma, m.intr, m.divr, m.isFwd⟩ : MParams).fwd spot texp *
          black cp (exp (-texp / m.nu * m.mgf1 + (m.theta + 0.5 * m.sigma ^ 2) * var k) /
            ∑ j, w j * exp (-texp / m.nu * m.mgf1 + (m.theta + 0.5 * m.sigma ^ 2) * var j))
            (strike / (⟨m.sigma, m.intr, m.divr, m.isFwd⟩ : MParams).fwd spot texp)
            (sigmaStd (m.sigma * √(var k / texp)) texp)) := by
  unfold priceQuad
  simp only
  congr 1
  refine Finset.sum_congr rfl fun k _ => ?_
  congr 2
  have := Bsm.price_eq_black ⟨m.sigma * √(var k / texp), 0, 0, false⟩
    (strike / (⟨m.sigma, m.intr, m.divr, m.isFwd⟩ : MParams).fwd spot texp)
    (exp (-texp / m.nu * m.mgf1 + (m.theta + 0.5 * m.sigma ^ 2) * var k) /
            ∑ j, w j * exp (-texp / m.nu * m.mgf1 + (m.theta + 0.5 * m.sigma ^ 2) * var j)) texp cp
  unfold Bsm.price at this
  rw [this]
  simp [MParams.df, MParams.fwd, MParams.divf]

/-- **C69.** Put-call parity of the quadrature pricer, exact for every node set whose weights sum to one. -/
theorem quad_parity {texp : ℝ} (m : SubParams) {var w : ι → ℝ} (hw : ∑ k, w k = 1)
    (hpos : ∑ j, w j * exp (-texp / m.nu * m.mgf1 + (m.theta + 0.5 * m.sigma ^ 2) * var j) ≠ 0)
    (strike : ℝ) {spot : ℝ} (hS : 0 < spot) :
    Spec.Parity (m.priceQuad var w strike spot texp 1) (m.priceQuad var w strike spot texp (-1))
      (Spec.discount m.intr texp) (Spec.forward m.isFwd m.intr m.divr spot texp) strike := by
  unfold Spec.Parity
  rw [priceQuad_eq, priceQuad_eq, ← mul_sub, ← Finset.sum_sub_distrib]
  set mp : MParams := ⟨m.sigma, m.intr, m.divr, m.isFwd⟩
  have hF := mp.fwd_pos hS texp
  have hd : mp.df texp = Spec.discount m.intr texp := mp.df_eq_spec texp
  have hf : mp.fwd spot texp = Spec.forward m.isFwd m.intr m.divr spot texp := by
    rw [mp.fwd_eq_forward, mp.forward_eq_spec]
  rw [← hd, ← hf]
  congr 1
  set D := ∑ j, w j * exp (-texp / m.nu * m.mgf1 + (m.theta + 0.5 * m.sigma ^ 2) * var j) with hD
  have e : ∀ k, w k * (mp.fwd spot texp * black 1 (exp (-texp / m.nu * m.mgf1 + (m.theta + 0.5 * m.sigma ^ 2) * var k) / D)
        (strike / mp.fwd spot texp) (sigmaStd (m.sigma * √(var k / texp)) texp)) -
      w k * (mp.fwd spot texp * black (-1) (exp (-texp / m.nu * m.mgf1 + (m.theta + 0.5 * m.sigma ^ 2) * var k) / D)
        (strike / mp.fwd spot texp) (sigmaStd (m.sigma * √(var k / texp)) texp)) =
      mp.fwd spot texp / D * (w k * exp (-texp / m.nu * m.mgf1 + (m.theta + 0.5 * m.sigma ^ 2) * var k)) - strike * w k := by
    intro k
    rw [← mul_sub, ← mul_sub, black_parity]
    field_simp
  rw [Finset.sum_congr rfl fun k _ => e k, Finset.sum_sub_distrib, ← Finset.mul_sum, ← Finset.mul_sum, hw, ← hD]
  field_simp

/-- **C69.** No-arbitrage bounds of the quadrature pricer for positive weights summing to one: strictly above the discounted
intrinsic value and below `df·F` (call) or `df·K` (put). -/
theorem quad_bounds {texp : ℝ} (m : SubParams) {var w : ι → ℝ} (hw : ∑ k, w k = 1) (hwp : ∀ k, 0 < w k)
    {strike spot cp : ℝ} (hcp : Spec.IsCp cp) (hK : 0 < strike) (hS : 0 < spot) :
    max (Spec.discount m.intr texp * (cp * (Spec.forward m.isFwd m.intr m.divr spot texp - strike))) 0
        < m.priceQuad var w strike spot texp cp ∧
    m.priceQuad var w strike spot texp cp < Spec.discount m.intr texp *
        (if cp = 1 then Spec.forward m.isFwd m.intr m.divr spot texp else strike) := by
  have hne : (Finset.univ : Finset ι).Nonempty := by
    by_contra h
    rw [Finset.not_nonempty_iff_eq_empty] at h
    rw [h] at hw
    simp at hw
  have hDp : 0 < ∑ j, w j * exp (-texp / m.nu * m.mgf1 + (m.theta + 0.5 * m.sigma ^ 2) * var j) :=
    Finset.sum_pos (fun i _ => mul_pos (hwp i) (exp_pos _)) hne
  have hpar := quad_parity m hw hDp.ne' strike hS (texp := texp)
  unfold Spec.Parity at hpar
  have hd : (⟨m.sigma, m.intr, m.divr, m.isFwd⟩ : MParams).df texp = Spec.discount m.intr texp :=
    MParams.df_eq_spec _ texp
  have hdp := MParams.df_pos ⟨m.sigma, m.intr, m.divr, m.isFwd⟩ texp
  have hF := MParams.fwd_pos ⟨m.sigma, m.intr, m.divr, m.isFwd⟩ hS texp
  have hf : (⟨m.sigma, m.intr, m.divr, m.isFwd⟩ : MParams).fwd spot texp = Spec.forward m.isFwd m.intr m.divr spot texp := by
    rw [MParams.fwd_eq_forward, MParams.forward_eq_spec]
  have hpos : ∀ c, Spec.IsCp c → 0 < m.priceQuad var w strike spot texp c := by
    intro c hc
    rw [priceQuad_eq]
    refine mul_pos hdp (Finset.sum_pos (fun k _ => mul_pos (hwp k) (mul_pos hF ?_)) hne)
    exact black_pos hc (div_pos (exp_pos _) hDp) (div_pos hK hF) (sigmaStd_pos _ _)
  have h1 := hpos 1 (Or.inl rfl)
  have h2 := hpos (-1) (Or.inr rfl)
  have hcall : m.priceQuad var w strike spot texp 1 < Spec.discount m.intr texp *
      Spec.forward m.isFwd m.intr m.divr spot texp := by
    rw [priceQuad_eq, ← hd, ← hf]
    refine mul_lt_mul_of_pos_left ?_ hdp
    set F := (⟨m.sigma, m.intr, m.divr, m.isFwd⟩ : MParams).fwd spot texp
    set D := ∑ j, w j * exp (-texp / m.nu * m.mgf1 + (m.theta + 0.5 * m.sigma ^ 2) * var j) with hD
    calc _ < ∑ k, F / D * (w k * exp (-texp / m.nu * m.mgf1 + (m.theta + 0.5 * m.sigma ^ 2) * var k)) := by
          refine Finset.sum_lt_sum_of_nonempty hne fun k _ => ?_
          have := black_call_lt (F := exp (-texp / m.nu * m.mgf1 + (m.theta + 0.5 * m.sigma ^ 2) * var k) / D)
            (K := strike / F) (s := sigmaStd (m.sigma * √(var k / texp)) texp)
            (div_pos (exp_pos _) hDp) (div_pos hK hF)
          have h3 := mul_lt_mul_of_pos_left this (mul_pos (hwp k) hF)
          calc _ = w k * F * black 1 (exp (-texp / m.nu * m.mgf1 + (m.theta + 0.5 * m.sigma ^ 2) * var k) / D)
                (strike / F) (sigmaStd (m.sigma * √(var k / texp)) texp) := by ring
            _ < _ := h3
            _ = _ := by ring
      _ = F := by
          rw [← Finset.mul_sum, ← hD]
          field_simp
  rcases hcp with rfl | rfl
  · refine ⟨max_lt (by linarith) h1, by simpa using hcall⟩
  · refine ⟨max_lt (by linarith) h2, ?_⟩
    rw [if_neg (by norm_num)]
    linarith

end SubParams

/-- **C69 (VarGammaQuad).** Parity of the actual pricer, for every positive Laguerre rule. -/
theorem VarGamma.quadPrice_parity {ι : Type*} [Fintype ι] (m : SubParams) (hn : 0 < m.nu) {texp : ℝ} (hT : 0 < texp)
    {n : ℕ} (hn1 : 0 < n) {x w : ι → ℝ} {wSum : ℝ} (h : Spec.IsLaguerreRule n (texp / m.nu - 1) x w wSum)
    (hw : ∀ i, 0 < w i) (strike : ℝ) {spot : ℝ} (hS : 0 < spot) :
    Spec.Parity (quadPrice m x w wSum strike spot texp 1) (quadPrice m x w wSum strike spot texp (-1))
      (Spec.discount m.intr texp) (Spec.forward m.isFwd m.intr m.divr spot texp) strike := by
  have hsh : 0 < texp / m.nu := by positivity
  have hws : 0 < wSum := by rw [h.wSum_eq]; exact Real.Gamma_pos_of_pos (by simpa using hsh)
  have h1 := (DistGamma.quad_normalised ⟨texp / m.nu, 1 / m.nu⟩ hsh (by positivity) n hn1 x w wSum h).1
  refine SubParams.quad_parity m h1 (ne_of_gt ?_) strike hS
  have hne : (Finset.univ : Finset ι).Nonempty := by
    by_contra h'
    rw [Finset.not_nonempty_iff_eq_empty] at h'
    rw [h'] at h1
    simp at h1
  exact Finset.sum_pos (fun i _ => mul_pos (div_pos (hw i) hws) (exp_pos _)) hne

/-- **C69 (ExpNigQuad).** Parity of the actual pricer, for every Hermite rule. -/
theorem Nig.quadPrice_parity {ι : Type*} [Fintype ι] (m : SubParams) (hn : 0 < m.nu) {texp : ℝ} (hT : 0 < texp)
    {n : ℕ} (hn1 : 0 < n) {z w : ι → ℝ} {wSum : ℝ} (h : Spec.IsHermiteRule n z w wSum) (strike : ℝ) {spot : ℝ}
    (hS : 0 < spot) :
    Spec.Parity (quadPrice m z w wSum strike spot texp 1) (quadPrice m z w wSum strike spot texp (-1))
      (Spec.discount m.intr texp) (Spec.forward m.isFwd m.intr m.divr spot texp) strike := by
  have hl : 0 < texp ^ 2 / m.nu := by positivity
  have h1 := (DistInvGauss.quad_normalised ⟨texp, texp ^ 2 / m.nu⟩ hT hl n hn1 z w wSum h).1
  refine SubParams.quad_parity m h1 (ne_of_gt ?_) strike hS
  have hne : (Finset.univ : Finset ι).Nonempty := by
    by_contra h'
    rw [Finset.not_nonempty_iff_eq_empty] at h'
    rw [h'] at h1
    simp at h1
  refine Finset.sum_pos (fun i _ => mul_pos (mul_pos (h.pos i) (div_pos two_pos (mul_pos h.wSum_pos ?_))) (exp_pos _)) hne
  have := DistInvGauss.quadRoot_pos (fac := 0.5 * texp / (texp ^ 2 / m.nu)) (by positivity) (z i)
  simp only
  linarith

end PyFENG
