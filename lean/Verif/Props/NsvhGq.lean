import Verif.Props.NsvhQuad
import Verif.Lemmas.GaussPolar
import Mathlib.MeasureTheory.Integral.ExpDecay

/-!
# C136: `NsvhGaussQuad` integrates the exact law of the simulated NSVh price
-/

namespace PyFENG

open MeasureTheory ProbabilityTheory Real Set
open scoped ENNReal

/-- The error of the rule with nodes and weights `zs` on the mean of `f` under the standard normal law. -/
noncomputable def Spec.hermiteErr (zs : List (ℝ × ℝ)) (f : ℝ → ℝ) : ℝ := (zs.map fun q => f q.1 * q.2).sum - Spec.gaussE f

/-- The error of the rule with nodes and weights `vs` on `∫₀^∞ x^a e^{-x} f(x) dx`. -/
noncomputable def Spec.laguerreErr (a : ℝ) (vs : List (ℝ × ℝ)) (f : ℝ → ℝ) : ℝ := (vs.map fun q => f q.1 * q.2).sum - ∫ x in Ioi (0:ℝ), x ^ a * exp (-x) * f x

namespace Nsvh

lemma lintegral_normal3 {f : ℝ × ℝ × ℝ → ℝ≥0∞} (hf : Measurable f) :
    ∫⁻ p, f p ∂Spec.normal3 = ∫⁻ z, (∫⁻ v in Ioi (0:ℝ), ENNReal.ofReal (exp (-v / 2) / (4 * π)) * ∫⁻ θ in Ioo (-π) π, f (√v * cos θ, √v * sin θ, z)) ∂(gaussianReal 0 1) := by
  have a1 := measurePreserving_prodAssoc (gaussianReal 0 1) (gaussianReal 0 1) (gaussianReal 0 1)
  unfold Spec.normal3
  have hg : Measurable fun q : (ℝ × ℝ) × ℝ => f (MeasurableEquiv.prodAssoc q) := hf.comp MeasurableEquiv.prodAssoc.measurable
  rw [← a1.lintegral_comp hf, lintegral_prod_symm' _ hg]
  refine lintegral_congr fun z => ?_
  exact lintegral_gauss2 (f := fun q : ℝ × ℝ => f (q.1, q.2, z)) (hf.comp (by fun_prop))

/-- Radius of the circle on which the (scaled) price lies given the squared radius `v` of the two normals. -/
noncomputable def circ (s u v : ℝ) : ℝ := √(2 * cosh (s * √(u ^ 2 + v)) - 2 * cosh (s * u))

lemma circ_pos {s u v : ℝ} (hs : 0 < s) (hv : 0 < v) : 0 < circ s u v := by
  unfold circ
  apply sqrt_pos.2
  have h1 : |s * u| < |s * √(u ^ 2 + v)| := by
    rw [abs_mul, abs_mul, abs_of_pos hs, abs_of_nonneg (sqrt_nonneg _)]
    apply mul_lt_mul_of_pos_left _ hs
    rw [← sqrt_sq_eq_abs]
    exact sqrt_lt_sqrt (sq_nonneg _) (by linarith)
  have := cosh_lt_cosh.2 h1
  linarith

lemma circ_le {s u v : ℝ} (hs : 0 ≤ s) (hv : 0 ≤ v) : circ s u v ≤ √2 * exp (s ^ 2 / 4 + u ^ 2 / 4) * exp (v / 4) := by
  unfold circ
  have hw : 0 ≤ u ^ 2 + v := by positivity
  have h1 : cosh (s * √(u ^ 2 + v)) ≤ exp (s * √(u ^ 2 + v)) := by
    rw [cosh_eq]
    have h0 : 0 ≤ s * √(u ^ 2 + v) := by positivity
    have : exp (-(s * √(u ^ 2 + v))) ≤ exp (s * √(u ^ 2 + v)) := exp_le_exp.2 (by linarith)
    linarith
  rw [mul_assoc, ← exp_add, sqrt_le_left (by positivity), mul_pow, sq_sqrt (by norm_num), ← exp_nat_mul]
  have h2 : exp (s * √(u ^ 2 + v)) ≤ exp ((2:ℕ) * (s ^ 2 / 4 + u ^ 2 / 4 + v / 4)) := by
    apply exp_le_exp.2
    push_cast
    nlinarith [sq_nonneg (√(u ^ 2 + v) - s), sq_sqrt hw]
  have := cosh_pos (s * u)
  linarith

lemma mcW_polar (s lam z θ : ℝ) {v : ℝ} (hv : 0 < v) :
    mcW s lam (√v * cos θ) (√v * sin θ) (z + s / 2) = exp (s * (z + 0.5 * lam * s) / 2) * (circ s (z + 0.5 * lam * s) v * cos θ) := by
  unfold mcW circ
  have h1 : (√v * cos θ) ^ 2 + (√v * sin θ) ^ 2 = v := by
    have := cos_sq_add_sin_sq θ
    rw [mul_pow, mul_pow, sq_sqrt hv.le]; linear_combination v * this
  have h2 : z + s / 2 + 0.5 * (lam - 1) * s = z + 0.5 * lam * s := by norm_num; ring
  rw [h1, h2, add_comm v]
  generalize z + 0.5 * lam * s = u
  have h3 : √(2 * cosh (s * √(u ^ 2 + v)) - 2 * cosh (s * u)) = √2 * √(cosh (√(u ^ 2 + v) * s) - cosh (u * s)) := by
    rw [← sqrt_mul (by norm_num)]; congr 1; rw [mul_comm s, mul_comm s]; ring
  have h4 : √v * √(2 / v) = √2 := by rw [← sqrt_mul hv.le]; congr 1; field_simp
  rw [h3, ← h4, show 0.5 * s * u = s * u / 2 by norm_num; ring]
  ring

/-- The simulated price around the strike, in polar coordinates. -/
lemma mcPrice_polar (m : Nsvh) (hs : m.sigma ≠ 0) (hv : 0 < m.vov) {T : ℝ} (hT : 0 ≤ T) (x z θ : ℝ) {v : ℝ} (hv0 : 0 < v) :
    (m.mcVolPrice T (√v * cos θ) (√v * sin θ) (z + m.vov * √T / 2)).2.1 - x
      = m.sigma / m.vov * exp (m.vov * √T * (z + 0.5 * m.lam * (m.vov * √T)) / 2)
        * (m.gqG (m.vov * √T) (m.vov / m.sigma * x) z + √(1 - m.rho ^ 2) * circ (m.vov * √T) (z + 0.5 * m.lam * (m.vov * √T)) v * cos θ) := by
  have h1 : √(m.vov ^ 2 * T) = m.vov * √T := by rw [sqrt_mul (sq_nonneg _), sqrt_sq hv.le]
  have h2 : m.vov ^ 2 * T = (m.vov * √T) ^ 2 := by rw [mul_pow, sq_sqrt hT]
  rw [(mcVolPrice_eq m T _ _ _).1, h1, h2, mcW_polar _ _ _ _ hv0]
  generalize m.vov * √T = s
  unfold gqG
  simp only
  have h3 : 0.5 * s * (z + s / 2 + 0.5 * (m.lam - 1) * s) = s * (z + 0.5 * m.lam * s) / 2 := by norm_num; ring
  rw [h3]
  generalize z + 0.5 * m.lam * s = u
  have he := (exp_pos (s * u / 2)).ne'
  generalize exp (s * u / 2) = e at *
  generalize exp (0.5 * m.lam * s ^ 2) = c
  generalize circ s u v = d
  generalize √(1 - m.rho ^ 2) = r
  have := hv.ne'
  field_simp
  ring

lemma cosh_temp (m : Nsvh) (s k z : ℝ) :
    let uHat := z + 0.5 * m.lam * s
    let expPlus := exp (s * uHat / 2)
    (expPlus ^ 2 + 1 / expPlus ^ 2) / 2 = cosh (s * uHat) := by
  intro uHat expPlus
  have : expPlus ^ 2 = exp (s * uHat) := by rw [← exp_nat_mul]; congr 1; push_cast; ring
  rw [this, cosh_eq, exp_neg, one_div]

lemma gqV0_spec (m : Nsvh) {s : ℝ} (hs : 0 < s) (hr : m.rho ∈ Ioo (-1) 1) (k z : ℝ) :
    0 ≤ m.gqV0 s k z ∧ 2 * cosh (s * √((z + 0.5 * m.lam * s) ^ 2 + m.gqV0 s k z)) - 2 * cosh (s * (z + 0.5 * m.lam * s)) = m.gqG s k z ^ 2 / (1 - m.rho ^ 2) := by
  have hr2 : 0 < 1 - m.rho ^ 2 := by nlinarith [hr.1, hr.2]
  unfold gqV0
  simp only
  have := cosh_temp m s k z
  simp only at this
  rw [this]
  generalize m.gqG s k z = g
  generalize z + 0.5 * m.lam * s = u
  have hq : 0 ≤ 0.5 * g ^ 2 / (1 - m.rho ^ 2) := by positivity
  have h1 : 1 ≤ cosh (s * u) + 0.5 * g ^ 2 / (1 - m.rho ^ 2) := by linarith [one_le_cosh (s * u)]
  have h2 : |s * u| ≤ arcosh (cosh (s * u) + 0.5 * g ^ 2 / (1 - m.rho ^ 2)) := by
    have h3 := arcosh_nonneg h1
    rw [← abs_of_nonneg h3]
    rw [← cosh_le_cosh, cosh_arcosh h1]; linarith
  constructor
  · have h3 : u ^ 2 = (|s * u| / s) ^ 2 := by rw [div_pow, sq_abs]; field_simp
    rw [h3, sub_nonneg]
    gcongr
  · rw [add_sub_cancel, sqrt_sq (div_nonneg (arcosh_nonneg h1) hs.le), mul_div_cancel₀ _ hs.ne', cosh_arcosh h1]
    norm_num; ring

/-- Inside the critical radius the circle does not reach the strike. -/
lemma circ_le_g (m : Nsvh) {s : ℝ} (hs : 0 < s) (hr : m.rho ∈ Ioo (-1) 1) (k z : ℝ) {v : ℝ} (hv0 : 0 ≤ v) (hv : v ≤ m.gqV0 s k z) :
    √(1 - m.rho ^ 2) * circ s (z + 0.5 * m.lam * s) v ≤ |m.gqG s k z| := by
  have hr2 : 0 < 1 - m.rho ^ 2 := by nlinarith [hr.1, hr.2]
  obtain ⟨-, h⟩ := gqV0_spec m hs hr k z
  generalize z + 0.5 * m.lam * s = u at *
  rw [circ, ← sqrt_mul hr2.le, ← sqrt_sq_eq_abs]
  apply sqrt_le_sqrt
  have h1 : cosh (s * √(u ^ 2 + v)) ≤ cosh (s * √(u ^ 2 + m.gqV0 s k z)) := by
    apply cosh_le_cosh.2
    rw [abs_of_nonneg (by positivity), abs_of_nonneg (by positivity)]
    gcongr
  have h2 : 2 * cosh (s * √(u ^ 2 + v)) - 2 * cosh (s * u) ≤ m.gqG s k z ^ 2 / (1 - m.rho ^ 2) := by linarith
  calc _ ≤ (1 - m.rho ^ 2) * (m.gqG s k z ^ 2 / (1 - m.rho ^ 2)) := by gcongr
    _ = _ := by field_simp

lemma gqH_eq (m : Nsvh) (s k y z : ℝ) : m.gqH s k y z = √(1 - m.rho ^ 2) * circ s (z + 0.5 * m.lam * s) (m.gqV0 s k z + y) := by
  unfold gqH circ; simp only; rw [add_assoc]

/-- Integral of an option payoff over the circle. -/
lemma circle_payoff {cp : ℝ} (hcp : Spec.IsCp cp) (g : ℝ) {h : ℝ} (hh : 0 < h) :
    0 ≤ max (cp * g) 0 + (√(h ^ 2 - g ^ 2) - |g| * arccos (|g| / h)) / π ∧
    ∫⁻ θ in Ioo (-π) π, ENNReal.ofReal (max (cp * (g + h * cos θ)) 0)
      = ENNReal.ofReal (2 * π * (max (cp * g) 0 + (√(h ^ 2 - g ^ 2) - |g| * arccos (|g| / h)) / π)) := by
  have hcont : Continuous fun θ => max (cp * (g + h * cos θ)) 0 := by fun_prop
  have key : ∫ θ in (-π)..π, max (cp * (g + h * cos θ)) 0 = 2 * π * (max (cp * g) 0 + (√(h ^ 2 - g ^ 2) - |g| * arccos (|g| / h)) / π) := by
    have h1 := integral_pos_cos (c := g) hh
    have hpi := pi_pos.ne'
    rcases hcp with rfl | rfl
    · simp only [one_mul]
      rw [h1]; field_simp
    · have e : ∀ x : ℝ, max (-1 * x) 0 = max x 0 - x := by
        intro x
        rcases le_total 0 x with h0 | h0
        · rw [max_eq_left h0, max_eq_right (by linarith)]; ring
        · rw [max_eq_right h0, max_eq_left (by linarith)]; ring
      simp only [e]
      rw [intervalIntegral.integral_sub ((by fun_prop : Continuous fun θ => max (g + h * cos θ) 0).intervalIntegrable _ _)
        ((by fun_prop : Continuous fun θ => g + h * cos θ).intervalIntegrable _ _), h1,
        intervalIntegral.integral_add (by simp) ((by fun_prop : Continuous fun θ => h * cos θ).intervalIntegrable _ _), intervalIntegral.integral_const,
        intervalIntegral.integral_const_mul, integral_cos]
      simp only [sin_pi, sin_neg, neg_zero, sub_zero, mul_zero, add_zero, smul_eq_mul]
      field_simp
      ring
  constructor
  · have h0 : 0 ≤ ∫ θ in (-π)..π, max (cp * (g + h * cos θ)) 0 := intervalIntegral.integral_nonneg (by linarith [pi_pos]) fun θ _ => le_max_right _ _
    rw [key] at h0
    exact nonneg_of_mul_nonneg_right h0 (by positivity)
  · rw [← ofReal_integral_eq_lintegral_ofReal, ← integral_Ioc_eq_integral_Ioo, ← intervalIntegral.integral_of_le (by linarith [pi_pos]), key]
    · exact (hcont.integrableOn_Icc (a := -π) (b := π)).mono_set Ioo_subset_Icc_self
    · exact Filter.Eventually.of_forall fun θ => le_max_right _ _

/-- The integral over the squared radius starts at the critical radius. -/
lemma radial {A : ℝ → ℝ} (hm : Measurable A) (M : ℝ) {V C : ℝ} (hV : 0 ≤ V) (hA : ∀ v ∈ Ioc 0 V, A v = 0) (hb : ∀ v, 0 < v → |A v| ≤ C * exp (v / 4)) :
    IntegrableOn (fun v => exp (-v / 2) / 2 * (M + A v / π)) (Ioi 0) ∧ IntegrableOn (fun y => A (V + y) * exp (-y / 2)) (Ioi 0) ∧
    ∫ v in Ioi (0:ℝ), exp (-v / 2) / 2 * (M + A v / π) = M + exp (-V / 2) * (1 / (2 * π) * ∫ y in Ioi (0:ℝ), A (V + y) * exp (-y / 2)) := by
  have hexp : ∀ b : ℝ, 0 < b → IntegrableOn (fun v : ℝ => exp (-b * v)) (Ioi 0) := fun b hb => exp_neg_integrableOn_Ioi 0 hb
  have h2 : IntegrableOn (fun v : ℝ => exp (-v / 2)) (Ioi 0) := by
    have := hexp (1 / 2) (by norm_num)
    refine this.congr_fun (fun v _ => ?_) measurableSet_Ioi
    simp only; congr 1; ring
  have h4 : IntegrableOn (fun v : ℝ => C * exp (-(1 / 4) * v)) (Ioi 0) := (hexp (1 / 4) (by norm_num)).const_mul C
  have hAi : IntegrableOn (fun v => A v * exp (-v / 2)) (Ioi 0) := by
    refine Integrable.mono' h4 (hm.mul (by fun_prop)).aestronglyMeasurable ?_
    refine (ae_restrict_iff' measurableSet_Ioi).2 (ae_of_all _ fun v hv => ?_)
    rw [norm_mul, norm_eq_abs, norm_of_nonneg (exp_pos _).le]
    calc |A v| * exp (-v / 2) ≤ C * exp (v / 4) * exp (-v / 2) := by gcongr; exact hb v hv
      _ = _ := by rw [mul_assoc, ← exp_add]; congr 2; ring
  have hshift : ∀ y : ℝ, A (V + y) * exp (-y / 2) = exp (V / 2) * (A (y + V) * exp (-(y + V) / 2)) := by
    intro y
    rw [mul_left_comm, ← exp_add, add_comm V]; congr 2; ring
  have hAV : IntegrableOn (fun v => A v * exp (-v / 2)) (Ioi V) := hAi.mono_set (Ioi_subset_Ioi hV)
  have hmp : MeasurePreserving (fun y : ℝ => y + V) (volume.restrict (Ioi 0)) (volume.restrict (Ioi V)) := by
    have := (measurePreserving_add_right (volume : Measure ℝ) V).restrict_preimage (s := Ioi V) measurableSet_Ioi
    have hp : (fun y : ℝ => y + V) ⁻¹' Ioi V = Ioi 0 := by ext y; simp
    rwa [hp] at this
  have hy : IntegrableOn (fun y => A (V + y) * exp (-y / 2)) (Ioi 0) := by
    simp only [hshift]
    refine Integrable.const_mul ?_ _
    exact hmp.integrable_comp_of_integrable hAV
  have hyv : ∫ y in Ioi (0:ℝ), A (V + y) * exp (-y / 2) = exp (V / 2) * ∫ v in Ioi (0:ℝ), A v * exp (-v / 2) := by
    simp only [hshift]
    rw [integral_const_mul]
    congr 1
    have h5 := hmp.integral_comp (measurableEmbedding_addRight V) (fun v => A v * exp (-v / 2))
    rw [h5]
    rw [← Ioc_union_Ioi_eq_Ioi hV, setIntegral_union (Ioc_disjoint_Ioi le_rfl) measurableSet_Ioi (hAi.mono_set Ioc_subset_Ioi_self) hAV]
    have h6 : ∫ v in Ioc 0 V, A v * exp (-v / 2) = 0 := by
      rw [setIntegral_congr_fun (g := fun _ => (0:ℝ)) measurableSet_Ioc fun v hv => by simp only; rw [hA v hv, zero_mul]]
      simp
    rw [h6, zero_add]
  have hsplit : ∀ v : ℝ, exp (-v / 2) / 2 * (M + A v / π) = M / 2 * exp (-v / 2) + 1 / (2 * π) * (A v * exp (-v / 2)) := by
    intro v; field_simp
  have hint : ∫ v in Ioi (0:ℝ), exp (-v / 2) = 2 := by
    have := integral_exp_mul_Ioi (a := -(1 / 2)) (by norm_num) 0
    rw [setIntegral_congr_fun (g := fun v : ℝ => exp (-(1 / 2) * v)) measurableSet_Ioi fun v _ => by simp only; congr 1; ring]
    rw [this]; norm_num
  refine ⟨?_, hy, ?_⟩
  · simp only [hsplit]; exact (h2.const_mul _).add (hAi.const_mul _)
  · simp only [hsplit]
    rw [integral_add (h2.const_mul _) (hAi.const_mul _), integral_const_mul, integral_const_mul, hint, hyv]
    generalize ∫ v in Ioi (0:ℝ), A v * exp (-v / 2) = I
    have : exp (-V / 2) * exp (V / 2) = 1 := by rw [← exp_add, exp_eq_one_iff]; ring
    linear_combination (-(1 / (2 * π) * I)) * this

/-- The inner integral over the squared radius of the price quadrature: `E[payoff | z]` up to the factor `(σ/ν) exp(ν√T û/2)`. -/
noncomputable def gqInner (m : Nsvh) (s k cp z : ℝ) : ℝ :=
  max (cp * m.gqG s k z) 0 + exp (-m.gqV0 s k z / 2) * (1 / (2 * π)
    * ∫ y in Ioi (0:ℝ), (√(m.gqH s k y z ^ 2 - m.gqG s k z ^ 2) - |m.gqG s k z| * arccos (|m.gqG s k z| / m.gqH s k y z)) * exp (-y / 2))

lemma measurable_circ (s u : ℝ) : Measurable fun v => circ s u v := by unfold circ; fun_prop

lemma inner_price (m : Nsvh) (hs : 0 < m.sigma) (hv : 0 < m.vov) (hr : m.rho ∈ Ioo (-1) 1) {T : ℝ} (hT : 0 < T) {cp : ℝ} (hcp : Spec.IsCp cp) (x z : ℝ) :
    0 ≤ m.gqInner (m.vov * √T) (m.vov / m.sigma * x) cp z ∧
    ∫⁻ v in Ioi (0:ℝ), ENNReal.ofReal (exp (-v / 2) / (4 * π)) * ∫⁻ θ in Ioo (-π) π,
        ENNReal.ofReal (max (cp * ((m.mcVolPrice T (√v * cos θ) (√v * sin θ) (z + m.vov * √T / 2)).2.1 - x)) 0)
      = ENNReal.ofReal (m.sigma / m.vov * exp (m.vov * √T * (z + 0.5 * m.lam * (m.vov * √T)) / 2) * m.gqInner (m.vov * √T) (m.vov / m.sigma * x) cp z) := by
  have hvn : 0 < m.vov * √T := mul_pos hv (sqrt_pos.2 hT)
  have e := fun θ v => fun h : 0 < v => mcPrice_polar m hs.ne' hv hT.le x z θ (v := v) h
  generalize hk : m.vov / m.sigma * x = k at *
  generalize hsdef : m.vov * √T = s at *
  have hr2 : 0 < √(1 - m.rho ^ 2) := sqrt_pos.2 (by nlinarith [hr.1, hr.2])
  have hle := fun v => circ_le_g m hvn hr k z (v := v)
  obtain ⟨hV0, -⟩ := gqV0_spec m hvn hr k z
  unfold gqInner
  simp only [gqH_eq]
  generalize z + 0.5 * m.lam * s = u at *
  generalize m.gqG s k z = g at *
  generalize m.gqV0 s k z = V at *
  generalize √(1 - m.rho ^ 2) = rc at *
  have hF : 0 < m.sigma / m.vov * exp (s * u / 2) := by positivity
  generalize m.sigma / m.vov * exp (s * u / 2) = F at *
  -- the function of the squared radius
  have hAm : Measurable fun v => √((rc * circ s u v) ^ 2 - g ^ 2) - |g| * arccos (|g| / (rc * circ s u v)) := by
    have h1 := measurable_circ s u
    have h2 : Measurable fun v => arccos (|g| / (rc * circ s u v)) := continuous_arccos.measurable.comp (by fun_prop)
    exact (by fun_prop : Measurable fun v => √((rc * circ s u v) ^ 2 - g ^ 2)).sub (h2.const_mul _)
  have hA0 : ∀ v ∈ Ioc 0 V, √((rc * circ s u v) ^ 2 - g ^ 2) - |g| * arccos (|g| / (rc * circ s u v)) = 0 := by
    intro v hv
    have h1 := hle v hv.1.le hv.2
    have h2 : 0 < rc * circ s u v := mul_pos hr2 (circ_pos hvn hv.1)
    rw [arccos_eq_zero.2 (by rw [le_div_iff₀ h2]; linarith), sqrt_eq_zero_of_nonpos (by rw [← sq_abs g]; nlinarith)]
    simp
  have hAb : ∀ v, 0 < v → |√((rc * circ s u v) ^ 2 - g ^ 2) - |g| * arccos (|g| / (rc * circ s u v))| ≤ (rc * (√2 * exp (s ^ 2 / 4 + u ^ 2 / 4)) + |g| * π) * exp (v / 4) := by
    intro v hv
    have h1 := circ_le hvn.le hv.le (u := u)
    have h2 : 0 < rc * circ s u v := mul_pos hr2 (circ_pos hvn hv)
    have h3 : √((rc * circ s u v) ^ 2 - g ^ 2) ≤ rc * circ s u v := by
      rw [sqrt_le_left h2.le]; nlinarith [sq_nonneg g]
    have h4 : 1 ≤ exp (v / 4) := one_le_exp (by positivity)
    have h5 : |g| * arccos (|g| / (rc * circ s u v)) ≤ |g| * π * exp (v / 4) := by
      calc _ ≤ |g| * π := by gcongr; exact arccos_le_pi _
        _ ≤ _ := le_mul_of_one_le_right (by positivity) h4
    have h6 : 0 ≤ |g| * arccos (|g| / (rc * circ s u v)) := mul_nonneg (abs_nonneg _) (arccos_nonneg _)
    have h7 : rc * circ s u v ≤ rc * (√2 * exp (s ^ 2 / 4 + u ^ 2 / 4)) * exp (v / 4) := by rw [mul_assoc]; exact mul_le_mul_of_nonneg_left h1 hr2.le
    have h8 : 0 ≤ rc * (√2 * exp (s ^ 2 / 4 + u ^ 2 / 4)) * exp (v / 4) := by positivity
    have h9 : 0 ≤ |g| * π * exp (v / 4) := by positivity
    rw [abs_le, add_mul]
    constructor
    · have := sqrt_nonneg ((rc * circ s u v) ^ 2 - g ^ 2)
      linarith
    · linarith
  obtain ⟨r1, -, r3⟩ := radial hAm (max (cp * g) 0) hV0 hA0 hAb
  have hcirc := fun v => fun h : 0 < v => circle_payoff hcp g (mul_pos hr2 (circ_pos (u := u) hvn h))
  have hpos : ∀ v ∈ Ioi (0:ℝ), 0 ≤ exp (-v / 2) / 2 * (max (cp * g) 0 + (√((rc * circ s u v) ^ 2 - g ^ 2) - |g| * arccos (|g| / (rc * circ s u v))) / π) :=
    fun v hv => mul_nonneg (by positivity) (hcirc v hv).1
  rw [← r3]
  refine ⟨setIntegral_nonneg measurableSet_Ioi hpos, ?_⟩
  rw [ENNReal.ofReal_mul hF.le, ofReal_integral_eq_lintegral_ofReal r1 ((ae_restrict_iff' measurableSet_Ioi).2 (ae_of_all _ hpos)), ← lintegral_const_mul' _ _ ENNReal.ofReal_ne_top]
  refine setLIntegral_congr_fun measurableSet_Ioi fun v hv => ?_
  have h1 : ∀ θ : ℝ, ENNReal.ofReal (max (cp * ((m.mcVolPrice T (√v * cos θ) (√v * sin θ) (z + s / 2)).2.1 - x)) 0)
      = ENNReal.ofReal F * ENNReal.ofReal (max (cp * (g + rc * circ s u v * cos θ)) 0) := by
    intro θ
    rw [e θ v hv, ← ENNReal.ofReal_mul hF.le, ← mul_left_comm, mul_max_of_nonneg _ _ hF.le, mul_zero]
  simp only [h1]
  rw [lintegral_const_mul' _ _ ENNReal.ofReal_ne_top, (hcirc v hv).2, mul_left_comm, ← ENNReal.ofReal_mul (by positivity)]
  congr 2
  field_simp
  norm_num

lemma measurable_inner {f : ℝ × ℝ × ℝ → ℝ≥0∞} (hf : Measurable f) :
    Measurable fun z : ℝ => ∫⁻ v in Ioi (0:ℝ), ENNReal.ofReal (exp (-v / 2) / (4 * π)) * ∫⁻ θ in Ioo (-π) π, f (√v * cos θ, √v * sin θ, z) := by
  have h1 : Measurable fun q : ℝ × ℝ => ∫⁻ θ in Ioo (-π) π, f (√q.2 * cos θ, √q.2 * sin θ, q.1) :=
    Measurable.lintegral_prod_right' (f := fun w : (ℝ × ℝ) × ℝ => f (√w.1.2 * cos w.2, √w.1.2 * sin w.2, w.1.1)) (hf.comp (by fun_prop))
  have h2 : Measurable fun q : ℝ × ℝ => ENNReal.ofReal (exp (-q.2 / 2) / (4 * π)) * ∫⁻ θ in Ioo (-π) π, f (√q.2 * cos θ, √q.2 * sin θ, q.1) :=
    (by fun_prop : Measurable fun q : ℝ × ℝ => ENNReal.ofReal (exp (-q.2 / 2) / (4 * π))).mul h1
  exact Measurable.lintegral_prod_right' h2

lemma measurable_mcVolPrice (m : Nsvh) (T : ℝ) : Measurable fun p : ℝ × ℝ × ℝ => (m.mcVolPrice T p.1 p.2.1 p.2.2).2.1 := by
  simp only [(mcVolPrice_eq m T _ _ _).1]
  unfold mcW
  fun_prop

/-- **C136.** The mean payoff of the simulated NSVh price (the law that `NsvhMc` samples) is the double integral which `NsvhGaussQuad.price` discretizes: a Gaussian
integral over `z` whose integrand is the critical-radius integral over `v`. -/
theorem gq_integral_exact (m : Nsvh) (hs : 0 < m.sigma) (hv : 0 < m.vov) (hr : m.rho ∈ Ioo (-1) 1) {T : ℝ} (hT : 0 < T) {cp : ℝ} (hcp : Spec.IsCp cp) (x : ℝ) :
    ∫ p : ℝ × ℝ × ℝ, max (cp * ((m.mcVolPrice T p.1 p.2.1 p.2.2).2.1 - x)) 0 ∂Spec.normal3
      = exp ((2 * m.lam - 1) / 8 * (m.vov * √T) ^ 2) * (m.sigma / m.vov) * Spec.gaussE (m.gqInner (m.vov * √T) (m.vov / m.sigma * x) cp) := by
  have hX := measurable_mcVolPrice m T
  have hpay : Measurable fun p : ℝ × ℝ × ℝ => max (cp * ((m.mcVolPrice T p.1 p.2.1 p.2.2).2.1 - x)) 0 := ((hX.sub_const x).const_mul cp).max measurable_const
  have hf : Measurable fun p : ℝ × ℝ × ℝ => ENNReal.ofReal (max (cp * ((m.mcVolPrice T p.1 p.2.1 p.2.2).2.1 - x)) 0) := hpay.ennreal_ofReal
  have hin := fun z => inner_price m hs hv hr hT hcp x z
  have hLm := measurable_inner hf
  have hn := lintegral_normal3 hf
  simp only at hn hLm
  have hvn : 0 < m.vov * √T := mul_pos hv (sqrt_pos.2 hT)
  rw [integral_eq_lintegral_of_nonneg_ae (f := fun p : ℝ × ℝ × ℝ => max (cp * ((m.mcVolPrice T p.1 p.2.1 p.2.2).2.1 - x)) 0) (ae_of_all _ fun p => le_max_right _ _)
    hpay.aestronglyMeasurable, hn]
  generalize m.vov / m.sigma * x = k at *
  generalize hsd : m.vov * √T = s at *
  obtain ⟨L, hL⟩ : ∃ L : ℝ → ℝ≥0∞, L = fun z => ∫⁻ v in Ioi (0:ℝ), ENNReal.ofReal (exp (-v / 2) / (4 * π)) * ∫⁻ θ in Ioo (-π) π,
    ENNReal.ofReal (max (cp * ((m.mcVolPrice T (√v * cos θ) (√v * sin θ) z).2.1 - x)) 0) := ⟨_, rfl⟩
  have hLz : ∀ z, L (z + s / 2) = ENNReal.ofReal (m.sigma / m.vov * exp (s * (z + 0.5 * m.lam * s) / 2) * m.gqInner s k cp z) := fun z => by rw [hL]; exact (hin z).2
  have hR0 : ∀ z, 0 ≤ m.gqInner s k cp z := fun z => (hin z).1
  rw [← hL] at hLm
  have hF : ∀ z, 0 < m.sigma / m.vov * exp (s * (z + 0.5 * m.lam * s) / 2) := fun z => by positivity
  have hRm : Measurable fun z => m.gqInner s k cp z := by
    have h1 : (fun z => m.gqInner s k cp z) = fun z => (L (z + s / 2)).toReal / (m.sigma / m.vov * exp (s * (z + 0.5 * m.lam * s) / 2)) := by
      ext z
      rw [hLz, ENNReal.toReal_ofReal (mul_nonneg (hF z).le (hR0 z)), mul_div_cancel_left₀ _ (hF z).ne']
    rw [h1]
    have h2 : Measurable fun z => (L (z + s / 2)).toReal := (hLm.comp (by fun_prop : Measurable fun z : ℝ => z + s / 2)).ennreal_toReal
    exact h2.div (by fun_prop)
  have h1 : ∀ z, L z = ENNReal.ofReal (exp (s / 2 * z)) * (ENNReal.ofReal (exp (-(s / 2 * z))) * L z) := by
    intro z
    rw [← mul_assoc, ← ENNReal.ofReal_mul (exp_pos _).le, ← exp_add, add_neg_cancel, exp_zero, ENNReal.ofReal_one, one_mul]
  have h2 : ∫⁻ z, L z ∂(gaussianReal 0 1) = ENNReal.ofReal (exp ((2 * m.lam - 1) / 8 * s ^ 2) * (m.sigma / m.vov)) * ∫⁻ z, ENNReal.ofReal (m.gqInner s k cp z) ∂(gaussianReal 0 1) := by
    conv_lhs => rw [lintegral_congr h1]
    rw [lintegral_gauss_tilt (s / 2) (f := fun z => ENNReal.ofReal (exp (-(s / 2 * z))) * L z) (((by fun_prop : Measurable fun z : ℝ => ENNReal.ofReal (exp (-(s / 2 * z))))).mul hLm), ← lintegral_const_mul' _ _ ENNReal.ofReal_ne_top,
      ← lintegral_const_mul' _ _ ENNReal.ofReal_ne_top]
    refine lintegral_congr fun z => ?_
    rw [hLz, ← ENNReal.ofReal_mul (exp_pos _).le, ← ENNReal.ofReal_mul (exp_pos _).le, ← ENNReal.ofReal_mul (by positivity)]
    congr 1
    have e : exp ((s / 2) ^ 2 / 2) * exp (-(s / 2 * (z + s / 2))) * exp (s * (z + 0.5 * m.lam * s) / 2) = exp ((2 * m.lam - 1) / 8 * s ^ 2) := by
      rw [← exp_add, ← exp_add]; congr 1; norm_num; ring
    rw [← e]; ring
  have hL' : ∀ z, (∫⁻ v in Ioi (0:ℝ), ENNReal.ofReal (exp (-v / 2) / (4 * π)) * ∫⁻ θ in Ioo (-π) π,
    ENNReal.ofReal (max (cp * ((m.mcVolPrice T (√v * cos θ) (√v * sin θ) z).2.1 - x)) 0)) = L z := fun z => by rw [hL]
  simp only [hL']
  rw [h2, ENNReal.toReal_mul, ENNReal.toReal_ofReal (by positivity), Spec.gaussE, integral_eq_lintegral_of_nonneg_ae (ae_of_all _ hR0) hRm.aestronglyMeasurable]

lemma laguerre_int (A : ℝ → ℝ) : ∫ x in Ioi (0:ℝ), x ^ (1 / 2 : ℝ) * exp (-x) * (A (2 * x) / (π * √x)) = 1 / (2 * π) * ∫ y in Ioi (0:ℝ), A y * exp (-y / 2) := by
  have h := integral_comp_mul_left_Ioi (fun y => A y * exp (-y / 2)) 0 (b := 2) (by norm_num)
  simp only [mul_zero, smul_eq_mul] at h
  have e : ∀ x ∈ Ioi (0:ℝ), x ^ (1 / 2 : ℝ) * exp (-x) * (A (2 * x) / (π * √x)) = 1 / π * (A (2 * x) * exp (-(2 * x) / 2)) := by
    intro x hx
    have hx0 : 0 < √x := sqrt_pos.2 hx
    rw [← sqrt_eq_rpow, show -(2 * x) / 2 = -x by ring]
    field_simp
  rw [setIntegral_congr_fun measurableSet_Ioi e, integral_const_mul, h]
  ring

/-- **C136.** `NsvhGaussQuad.price` is the discounted mean payoff of the simulated NSVh price plus an explicit combination of quadrature errors: the Gauss-Hermite error
on the exact conditional payoff, and the generalized Gauss-Laguerre (parameter `1/2`) errors at the Hermite nodes.  Where both rules are exact, so is the price. -/
theorem gq_price_error (m : Nsvh) (hs : 0 < m.sigma) (hv : 0 < m.vov) (hr : m.rho ∈ Ioo (-1) 1) {T : ℝ} (hT : eps ≤ T) {cp : ℝ} (hcp : Spec.IsCp cp) (zs vs : List (ℝ × ℝ))
    (K S : ℝ) :
    m.gqPrice zs vs K S T cp
      = m.mp.df T * (∫ p : ℝ × ℝ × ℝ, max (cp * ((m.mcVolPrice T p.1 p.2.1 p.2.2).2.1 - (K - m.mp.fwd S T))) 0 ∂Spec.normal3)
        + m.mp.df T * (exp ((2 * m.lam - 1) / 8 * (m.vov * √T) ^ 2) * (m.sigma / m.vov)) *
          (Spec.hermiteErr (zs.map fun q => (q.1, gqWeight (m.vov * √T) zs q.2)) (m.gqInner (m.vov * √T) (m.vov / m.sigma * (K - m.mp.fwd S T)) cp)
          + (zs.map fun q => gqWeight (m.vov * √T) zs q.2 * exp (-m.gqV0 (m.vov * √T) (m.vov / m.sigma * (K - m.mp.fwd S T)) q.1 / 2) *
              Spec.laguerreErr (1 / 2) vs (fun x =>
                (√(m.gqH (m.vov * √T) (m.vov / m.sigma * (K - m.mp.fwd S T)) (2 * x) q.1 ^ 2 - m.gqG (m.vov * √T) (m.vov / m.sigma * (K - m.mp.fwd S T)) q.1 ^ 2)
                  - |m.gqG (m.vov * √T) (m.vov / m.sigma * (K - m.mp.fwd S T)) q.1| * arccos (|m.gqG (m.vov * √T) (m.vov / m.sigma * (K - m.mp.fwd S T)) q.1|
                      / m.gqH (m.vov * √T) (m.vov / m.sigma * (K - m.mp.fwd S T)) (2 * x) q.1)) / (π * √x))).sum) := by
  have hT0 : 0 < T := lt_of_lt_of_le eps_pos hT
  rw [gq_integral_exact m hs hv hr hT0 hcp]
  unfold gqPrice Spec.hermiteErr Spec.laguerreErr
  simp only [max_eq_left hT, List.map_map, Function.comp_def]
  generalize m.vov / m.sigma * (K - m.mp.fwd S T) = k
  generalize m.vov * √T = s
  simp only [fun z => laguerre_int (fun y => √(m.gqH s k y z ^ 2 - m.gqG s k z ^ 2) - |m.gqG s k z| * arccos (|m.gqG s k z| / m.gqH s k y z))]
  have key : (zs.map fun q => m.gqInner s k cp q.1 * gqWeight s zs q.2).sum
      + (zs.map fun q => gqWeight s zs q.2 * exp (-m.gqV0 s k q.1 / 2) *
          ((vs.map fun r => (√(m.gqH s k (2 * r.1) q.1 ^ 2 - m.gqG s k q.1 ^ 2) - |m.gqG s k q.1| * arccos (|m.gqG s k q.1| / m.gqH s k (2 * r.1) q.1)) / (π * √r.1) * r.2).sum
            - 1 / (2 * π) * ∫ y in Ioi (0:ℝ), (√(m.gqH s k y q.1 ^ 2 - m.gqG s k q.1 ^ 2) - |m.gqG s k q.1| * arccos (|m.gqG s k q.1| / m.gqH s k y q.1)) * exp (-y / 2))).sum
      = (zs.map fun q => ((vs.map fun r => (√(m.gqH s k (2 * r.1) q.1 ^ 2 - m.gqG s k q.1 ^ 2) - |m.gqG s k q.1| * arccos (|m.gqG s k q.1| / m.gqH s k (2 * r.1) q.1)) * (r.2 / (π * √r.1))).sum
          * exp (-m.gqV0 s k q.1 / 2) + max (cp * m.gqG s k q.1) 0) * gqWeight s zs q.2).sum := by
    rw [sum_add']
    congr 1
    refine List.map_congr_left fun q _ => ?_
    unfold gqInner
    have e : ∀ r : ℝ × ℝ, ∀ a : ℝ, a / (π * √r.1) * r.2 = a * (r.2 / (π * √r.1)) := fun r a => by ring
    simp only [e]
    ring
  rw [← key]
  ring

/-! ## The distribution function -/

/-- Share of the circle above the strike. -/
lemma circle_digital (g : ℝ) {h : ℝ} (hh : 0 < h) :
    ∫⁻ θ in Ioo (-π) π, ENNReal.ofReal (if 0 < g + h * cos θ then 1 else 0)
      = ENNReal.ofReal (2 * π * (if 0 < g then 1 - arccos (|g| / h) / π else arccos (|g| / h) / π)) := by
  have hset : {θ : ℝ | 0 < g + h * cos θ} ∩ Ioo (-π) π = Ioo (-arccos (-(g / h))) (arccos (-(g / h))) := by
    have e1 : h * (g / h) = g := by field_simp
    ext θ
    simp only [mem_inter_iff, mem_setOf_eq, ← abs_lt (a := θ), mem_Ioo, ← cos_abs θ]
    have hθ := abs_nonneg θ
    generalize |θ| = t at *
    constructor
    · rintro ⟨h1, h2⟩
      have h3 : -(g / h) < cos t := by
        have : h * -(g / h) < h * cos t := by rw [mul_neg, e1]; linarith
        exact lt_of_mul_lt_mul_left this hh.le
      by_contra hc
      rw [not_lt] at hc
      have h4 := strictAntiOn_cos.antitoneOn ⟨arccos_nonneg _, arccos_le_pi _⟩ ⟨hθ, h2.le⟩ hc
      rcases lt_or_ge (-(g / h)) (-1) with h5 | h5
      · rw [arccos_of_le_neg_one h5.le] at hc; linarith
      · rw [cos_arccos h5 (h3.le.trans (cos_le_one t))] at h4; linarith
    · intro h1
      have h2 : t < π := lt_of_lt_of_le h1 (arccos_le_pi _)
      refine ⟨?_, h2⟩
      have h4 := strictAntiOn_cos ⟨hθ, h2.le⟩ ⟨arccos_nonneg _, arccos_le_pi _⟩ h1
      have h3 : -(g / h) < cos t := by
        rcases lt_or_ge (-(g / h)) (-1) with h5 | h5
        · linarith [neg_one_le_cos t]
        rcases le_or_gt (-(g / h)) 1 with h6 | h6
        · rwa [cos_arccos h5 h6] at h4
        · rw [arccos_of_one_le h6.le] at h1; linarith
      have := mul_lt_mul_of_pos_left h3 hh
      rw [mul_neg, e1] at this
      linarith
  have h1 : ∀ θ : ℝ, ENNReal.ofReal (if 0 < g + h * cos θ then 1 else 0) = {θ : ℝ | 0 < g + h * cos θ}.indicator 1 θ := by
    intro θ
    by_cases h0 : 0 < g + h * cos θ
    · rw [if_pos h0, indicator_of_mem (by exact h0)]; simp
    · rw [if_neg h0, indicator_of_notMem (by exact h0)]; simp
  have hm : MeasurableSet {θ : ℝ | 0 < g + h * cos θ} := measurableSet_lt measurable_const (by fun_prop)
  simp only [h1]
  rw [lintegral_indicator_one hm, Measure.restrict_apply hm, hset, volume_Ioo]
  congr 1
  have hpi := pi_pos.ne'
  rcases lt_or_ge 0 g with h0 | h0
  · rw [if_pos h0, abs_of_pos h0, arccos_neg]; field_simp; ring
  · rw [if_neg (by linarith), abs_of_nonpos h0, neg_div]; field_simp; ring

/-- Conditional probability, given `z`, of ending above (`cp = 1`) or below (`cp = -1`) the strike. -/
noncomputable def gqProb (m : Nsvh) (s k cp z : ℝ) : ℝ :=
  let q := exp (-m.gqV0 s k z / 2) * (1 / (2 * π) * ∫ y in Ioi (0:ℝ), arccos (|m.gqG s k z| / m.gqH s k y z) * exp (-y / 2))
  if 0 < cp * m.gqG s k z then 1 - q else q

lemma integral_exp_half : ∫ v in Ioi (0:ℝ), exp (-v / 2) = 2 := by
  have := integral_exp_mul_Ioi (a := -(1 / 2)) (by norm_num) 0
  rw [setIntegral_congr_fun (g := fun v : ℝ => exp (-(1 / 2) * v)) measurableSet_Ioi fun v _ => by simp only; congr 1; ring]
  rw [this]; norm_num

lemma gqProb_compl (m : Nsvh) {s : ℝ} (hs : 0 < s) (k z : ℝ) : m.gqProb s k (-1) z = 1 - m.gqProb s k 1 z := by
  unfold gqProb
  simp only [one_mul, neg_one_mul]
  rcases lt_trichotomy (m.gqG s k z) 0 with h | h | h
  · rw [if_pos (by linarith), if_neg (by linarith)]
  · have hv0 : m.gqV0 s k z = 0 := by
      unfold gqV0
      simp only
      have := cosh_temp m s k z
      simp only at this
      rw [this, h]
      generalize z + 0.5 * m.lam * s = u
      have e3 : cosh (s * u) + 0.5 * 0 ^ 2 / (1 - m.rho ^ 2) = cosh |s * u| := by rw [cosh_abs]; simp
      rw [e3, arcosh_cosh (abs_nonneg _), div_pow, sq_abs]
      field_simp
      ring
    rw [if_neg (by linarith), if_neg (by linarith), hv0, h]
    simp only [abs_zero, zero_div, arccos_zero, neg_zero, exp_zero]
    rw [integral_const_mul, integral_exp_half]
    field_simp
    norm_num
  · rw [if_neg (by linarith), if_pos (by linarith)]; ring

lemma inner_prob (m : Nsvh) (hs : 0 < m.sigma) (hv : 0 < m.vov) (hr : m.rho ∈ Ioo (-1) 1) {T : ℝ} (hT : 0 < T) (x z : ℝ) :
    0 ≤ m.gqProb (m.vov * √T) (m.vov / m.sigma * x) 1 z ∧
    ∫⁻ v in Ioi (0:ℝ), ENNReal.ofReal (exp (-v / 2) / (4 * π)) * ∫⁻ θ in Ioo (-π) π,
        ENNReal.ofReal (if x < (m.mcVolPrice T (√v * cos θ) (√v * sin θ) (z + m.vov * √T / 2)).2.1 then 1 else 0)
      = ENNReal.ofReal (m.gqProb (m.vov * √T) (m.vov / m.sigma * x) 1 z) := by
  have hvn : 0 < m.vov * √T := mul_pos hv (sqrt_pos.2 hT)
  have e := fun θ v => fun h : 0 < v => mcPrice_polar m hs.ne' hv hT.le x z θ (v := v) h
  generalize hk : m.vov / m.sigma * x = k at *
  generalize hsdef : m.vov * √T = s at *
  have hr2 : 0 < √(1 - m.rho ^ 2) := sqrt_pos.2 (by nlinarith [hr.1, hr.2])
  have hle := fun v => circ_le_g m hvn hr k z (v := v)
  obtain ⟨hV0, -⟩ := gqV0_spec m hvn hr k z
  unfold gqProb
  simp only [gqH_eq, one_mul]
  generalize z + 0.5 * m.lam * s = u at *
  generalize m.gqG s k z = g at *
  generalize m.gqV0 s k z = V at *
  generalize √(1 - m.rho ^ 2) = rc at *
  have hF : 0 < m.sigma / m.vov * exp (s * u / 2) := by positivity
  generalize m.sigma / m.vov * exp (s * u / 2) = F at *
  have hAm : Measurable fun v => arccos (|g| / (rc * circ s u v)) := by
    have h1 := measurable_circ s u
    exact continuous_arccos.measurable.comp (by fun_prop)
  have hA0 : ∀ v ∈ Ioc 0 V, arccos (|g| / (rc * circ s u v)) = 0 := by
    intro v hv
    have h1 := hle v hv.1.le hv.2
    have h2 : 0 < rc * circ s u v := mul_pos hr2 (circ_pos hvn hv.1)
    exact arccos_eq_zero.2 (by rw [le_div_iff₀ h2]; linarith)
  have hAb : ∀ v, 0 < v → |arccos (|g| / (rc * circ s u v))| ≤ π * exp (v / 4) := by
    intro v hv
    have h4 : 1 ≤ exp (v / 4) := one_le_exp (by positivity)
    rw [abs_of_nonneg (arccos_nonneg _)]
    exact (arccos_le_pi _).trans (le_mul_of_one_le_right pi_pos.le h4)
  have hq : IntegrableOn (fun v => exp (-v / 2) / 2 * (if 0 < g then 1 - arccos (|g| / (rc * circ s u v)) / π else arccos (|g| / (rc * circ s u v)) / π)) (Ioi 0) ∧
      ∫ v in Ioi (0:ℝ), exp (-v / 2) / 2 * (if 0 < g then 1 - arccos (|g| / (rc * circ s u v)) / π else arccos (|g| / (rc * circ s u v)) / π)
        = if 0 < g then 1 - exp (-V / 2) * (1 / (2 * π) * ∫ y in Ioi (0:ℝ), arccos (|g| / (rc * circ s u (V + y))) * exp (-y / 2))
          else exp (-V / 2) * (1 / (2 * π) * ∫ y in Ioi (0:ℝ), arccos (|g| / (rc * circ s u (V + y))) * exp (-y / 2)) := by
    rcases lt_or_ge 0 g with h0 | h0
    · simp only [if_pos h0]
      obtain ⟨r1, -, r3⟩ := radial hAm.neg 1 hV0 (fun v hv => by simp only [Pi.neg_apply]; rw [hA0 v hv, neg_zero]) (fun v hv => by rw [Pi.neg_apply, abs_neg]; exact hAb v hv)
      have e2 : ∀ v : ℝ, (1:ℝ) + (-fun v => arccos (|g| / (rc * circ s u v))) v / π = 1 - arccos (|g| / (rc * circ s u v)) / π := by
        intro v; rw [Pi.neg_apply]; ring
      have e3 : ∀ y : ℝ, (-fun v => arccos (|g| / (rc * circ s u v))) (V + y) * exp (-y / 2) = -(arccos (|g| / (rc * circ s u (V + y))) * exp (-y / 2)) := by
        intro y; rw [Pi.neg_apply, neg_mul]
      simp only [e2, e3] at r1 r3
      refine ⟨r1, ?_⟩
      rw [r3, integral_neg]; ring
    · simp only [if_neg (not_lt.2 h0)]
      obtain ⟨r1, -, r3⟩ := radial hAm 0 hV0 hA0 hAb
      simp only [zero_add] at r1 r3
      exact ⟨r1, r3⟩
  have hpos : ∀ v ∈ Ioi (0:ℝ), 0 ≤ exp (-v / 2) / 2 * (if 0 < g then 1 - arccos (|g| / (rc * circ s u v)) / π else arccos (|g| / (rc * circ s u v)) / π) := by
    intro v _
    have h1 := arccos_nonneg (|g| / (rc * circ s u v))
    have h2 := arccos_le_pi (|g| / (rc * circ s u v))
    have h3 : arccos (|g| / (rc * circ s u v)) / π ≤ 1 := by rw [div_le_one pi_pos]; exact h2
    refine mul_nonneg (by positivity) ?_
    split_ifs
    · linarith
    · positivity
  rw [← hq.2]
  refine ⟨setIntegral_nonneg measurableSet_Ioi hpos, ?_⟩
  rw [ofReal_integral_eq_lintegral_ofReal hq.1 ((ae_restrict_iff' measurableSet_Ioi).2 (ae_of_all _ hpos))]
  refine setLIntegral_congr_fun measurableSet_Ioi fun v hv => ?_
  have h1 : ∀ θ : ℝ, ENNReal.ofReal (if x < (m.mcVolPrice T (√v * cos θ) (√v * sin θ) (z + s / 2)).2.1 then 1 else 0)
      = ENNReal.ofReal (if 0 < g + rc * circ s u v * cos θ then 1 else 0) := by
    intro θ
    have h2 : x < (m.mcVolPrice T (√v * cos θ) (√v * sin θ) (z + s / 2)).2.1 ↔ 0 < g + rc * circ s u v * cos θ := by
      rw [← sub_pos, e θ v hv]
      exact mul_pos_iff_of_pos_left hF
    simp only [h2]
  simp only [h1]
  rw [circle_digital g (mul_pos hr2 (circ_pos (u := u) hvn hv)), ← ENNReal.ofReal_mul (by positivity)]
  congr 1
  field_simp
  norm_num

/-- **C136.** The probability that the simulated NSVh price ends above (`cp = 1`), or at or below (`cp = -1`), the strike is the double integral which
`NsvhGaussQuad.cdf` discretizes. -/
theorem gq_cdf_exact (m : Nsvh) (hs : 0 < m.sigma) (hv : 0 < m.vov) (hr : m.rho ∈ Ioo (-1) 1) {T : ℝ} (hT : 0 < T) (x : ℝ) :
    Spec.normal3.real {p | x < (m.mcVolPrice T p.1 p.2.1 p.2.2).2.1}
      = Spec.gaussE (fun z => m.gqProb (m.vov * √T) (m.vov / m.sigma * x) 1 z * exp (-z * (m.vov * √T) / 2 - (m.vov * √T) ^ 2 / 8)) ∧
    Spec.normal3.real {p | (m.mcVolPrice T p.1 p.2.1 p.2.2).2.1 ≤ x}
      = Spec.gaussE (fun z => m.gqProb (m.vov * √T) (m.vov / m.sigma * x) (-1) z * exp (-z * (m.vov * √T) / 2 - (m.vov * √T) ^ 2 / 8)) := by
  have hX := measurable_mcVolPrice m T
  have hset : MeasurableSet {p : ℝ × ℝ × ℝ | x < (m.mcVolPrice T p.1 p.2.1 p.2.2).2.1} := measurableSet_lt measurable_const hX
  have hf : Measurable fun p : ℝ × ℝ × ℝ => ENNReal.ofReal (if x < (m.mcVolPrice T p.1 p.2.1 p.2.2).2.1 then 1 else 0) :=
    (Measurable.ite hset measurable_const measurable_const).ennreal_ofReal
  have hin := fun z => inner_prob m hs hv hr hT x z
  have hLm := measurable_inner hf
  have hn := lintegral_normal3 hf
  simp only at hn hLm
  have hvn : 0 < m.vov * √T := mul_pos hv (sqrt_pos.2 hT)
  have hc := fun z => gqProb_compl m hvn (m.vov / m.sigma * x) z
  generalize m.vov / m.sigma * x = k at *
  generalize hsd : m.vov * √T = s at *
  obtain ⟨L, hL⟩ : ∃ L : ℝ → ℝ≥0∞, L = fun z => ∫⁻ v in Ioi (0:ℝ), ENNReal.ofReal (exp (-v / 2) / (4 * π)) * ∫⁻ θ in Ioo (-π) π,
    ENNReal.ofReal (if x < (m.mcVolPrice T (√v * cos θ) (√v * sin θ) z).2.1 then 1 else 0) := ⟨_, rfl⟩
  have hLz : ∀ z, L (z + s / 2) = ENNReal.ofReal (m.gqProb s k 1 z) := fun z => by rw [hL]; exact (hin z).2
  have hR0 : ∀ z, 0 ≤ m.gqProb s k 1 z := fun z => (hin z).1
  rw [← hL] at hLm
  have hRm : Measurable fun z => m.gqProb s k 1 z := by
    have h1 : (fun z => m.gqProb s k 1 z) = fun z => (L (z + s / 2)).toReal := by
      ext z
      rw [hLz, ENNReal.toReal_ofReal (hR0 z)]
    rw [h1]
    exact (hLm.comp (by fun_prop : Measurable fun z : ℝ => z + s / 2)).ennreal_toReal
  have h1 : ∀ z, L z = ENNReal.ofReal (exp (s / 2 * z)) * (ENNReal.ofReal (exp (-(s / 2 * z))) * L z) := by
    intro z
    rw [← mul_assoc, ← ENNReal.ofReal_mul (exp_pos _).le, ← exp_add, add_neg_cancel, exp_zero, ENNReal.ofReal_one, one_mul]
  have h2 : ∫⁻ z, L z ∂(gaussianReal 0 1) = ∫⁻ z, ENNReal.ofReal (m.gqProb s k 1 z * exp (-z * s / 2 - s ^ 2 / 8)) ∂(gaussianReal 0 1) := by
    conv_lhs => rw [lintegral_congr h1]
    rw [lintegral_gauss_tilt (s / 2) (f := fun z => ENNReal.ofReal (exp (-(s / 2 * z))) * L z) (((by fun_prop : Measurable fun z : ℝ => ENNReal.ofReal (exp (-(s / 2 * z))))).mul hLm),
      ← lintegral_const_mul' _ _ ENNReal.ofReal_ne_top]
    refine lintegral_congr fun z => ?_
    rw [hLz, ← ENNReal.ofReal_mul (exp_pos _).le, ← ENNReal.ofReal_mul (exp_pos _).le]
    congr 1
    rw [← mul_assoc, ← exp_add, mul_comm]
    congr 2; ring
  have h3 : Spec.normal3.real {p | x < (m.mcVolPrice T p.1 p.2.1 p.2.2).2.1} = Spec.gaussE (fun z => m.gqProb s k 1 z * exp (-z * s / 2 - s ^ 2 / 8)) := by
    have h4 : ∀ p : ℝ × ℝ × ℝ, ENNReal.ofReal (if x < (m.mcVolPrice T p.1 p.2.1 p.2.2).2.1 then 1 else 0)
        = {p : ℝ × ℝ × ℝ | x < (m.mcVolPrice T p.1 p.2.1 p.2.2).2.1}.indicator 1 p := by
      intro p
      by_cases h0 : x < (m.mcVolPrice T p.1 p.2.1 p.2.2).2.1
      · rw [if_pos h0, indicator_of_mem (by exact h0)]; simp
      · rw [if_neg h0, indicator_of_notMem (by exact h0)]; simp
    have h5 : Spec.normal3 {p | x < (m.mcVolPrice T p.1 p.2.1 p.2.2).2.1} = ∫⁻ z, L z ∂(gaussianReal 0 1) := by
      rw [← lintegral_indicator_one hset, ← lintegral_congr h4, hn, hL]
    rw [Measure.real, h5, h2, Spec.gaussE, integral_eq_lintegral_of_nonneg_ae (ae_of_all _ fun z => mul_nonneg (hR0 z) (exp_pos _).le)
      (hRm.mul (by fun_prop)).aestronglyMeasurable]
  refine ⟨h3, ?_⟩
  have h4 : {p : ℝ × ℝ × ℝ | (m.mcVolPrice T p.1 p.2.1 p.2.2).2.1 ≤ x} = {p : ℝ × ℝ × ℝ | x < (m.mcVolPrice T p.1 p.2.1 p.2.2).2.1}ᶜ := by
    ext p; simp
  rw [h4, probReal_compl_eq_one_sub hset, h3]
  simp only [hc]
  have hee : ∀ z : ℝ, exp (-z * s / 2 - s ^ 2 / 8) = exp (-(s ^ 2 / 8)) * exp (-(s / 2) * z) := by intro z; rw [← exp_add]; congr 1; ring
  obtain ⟨g1, g2⟩ := gaussE_exp (-(s / 2))
  have i1 : Integrable (fun z => exp (-z * s / 2 - s ^ 2 / 8)) (gaussianReal 0 1) := by simp only [hee]; exact g1.const_mul _
  have v1 : ∫ z, exp (-z * s / 2 - s ^ 2 / 8) ∂(gaussianReal 0 1) = 1 := by
    simp only [hee]
    rw [integral_const_mul, g2, ← exp_add, exp_eq_one_iff]; ring
  have hR1 : ∀ z, m.gqProb s k 1 z ≤ 1 := by
    intro z
    have h5 : L (z + s / 2) ≤ 1 := by
      rw [hL]
      calc _ ≤ ∫⁻ v in Ioi (0:ℝ), ENNReal.ofReal (exp (-v / 2) / (4 * π)) * ∫⁻ θ in Ioo (-π) π, (fun _ : ℝ × ℝ => (1:ℝ≥0∞)) (√v * cos θ, √v * sin θ) := by
            refine lintegral_mono fun v => ?_
            refine mul_le_mul_right (lintegral_mono fun θ => ?_) _
            rw [ENNReal.ofReal_le_one]
            split_ifs <;> norm_num
        _ = 1 := by rw [← lintegral_gauss2 measurable_const]; simp
    rw [hLz, ENNReal.ofReal_le_one] at h5
    exact h5
  have i2 : Integrable (fun z => m.gqProb s k 1 z * exp (-z * s / 2 - s ^ 2 / 8)) (gaussianReal 0 1) := by
    refine i1.mono' (hRm.mul (by fun_prop)).aestronglyMeasurable (ae_of_all _ fun z => ?_)
    rw [norm_of_nonneg (mul_nonneg (hR0 z) (exp_pos _).le)]
    exact mul_le_of_le_one_left (exp_pos _).le (hR1 z)
  simp only [Spec.gaussE, sub_mul, one_mul]
  rw [integral_sub i1 i2, v1]

lemma laguerre_int0 (A : ℝ → ℝ) : ∫ x in Ioi (0:ℝ), x ^ (0 : ℝ) * exp (-x) * (A (2 * x) / π) = 1 / (2 * π) * ∫ y in Ioi (0:ℝ), A y * exp (-y / 2) := by
  have h := integral_comp_mul_left_Ioi (fun y => A y * exp (-y / 2)) 0 (b := 2) (by norm_num)
  simp only [mul_zero, smul_eq_mul] at h
  have e : ∀ x ∈ Ioi (0:ℝ), x ^ (0 : ℝ) * exp (-x) * (A (2 * x) / π) = 1 / π * (A (2 * x) * exp (-(2 * x) / 2)) := by
    intro x hx
    rw [rpow_zero, show -(2 * x) / 2 = -x by ring]
    ring
  rw [setIntegral_congr_fun measurableSet_Ioi e, integral_const_mul, h]
  ring

/-- **C136.** `NsvhGaussQuad.cdf` is the probability that the simulated NSVh price ends above (`cp = 1`), or at or below (`cp = -1`), the strike, plus an explicit combination
of the Gauss-Hermite error and the Gauss-Laguerre errors at the Hermite nodes. -/
theorem gq_cdf_error (m : Nsvh) (hs : 0 < m.sigma) (hv : 0 < m.vov) (hr : m.rho ∈ Ioo (-1) 1) {T : ℝ} (hT : 1e-64 ≤ T) {cp : ℝ} (hcp : Spec.IsCp cp) (zs vs : List (ℝ × ℝ))
    (K S : ℝ) :
    m.gqCdf zs vs K S T cp
      = (if cp = 1 then Spec.normal3.real {p | K - m.mp.forward S T < (m.mcVolPrice T p.1 p.2.1 p.2.2).2.1}
          else Spec.normal3.real {p | (m.mcVolPrice T p.1 p.2.1 p.2.2).2.1 ≤ K - m.mp.forward S T})
        + (Spec.hermiteErr (zs.map fun q => (q.1, gqWeight (m.vov * √T) zs q.2))
            (fun z => m.gqProb (m.vov * √T) (m.vov / m.sigma * (K - m.mp.forward S T)) cp z * exp (-z * (m.vov * √T) / 2 - (m.vov * √T) ^ 2 / 8))
          + (zs.map fun q => gqWeight (m.vov * √T) zs q.2 * exp (-q.1 * (m.vov * √T) / 2 - (m.vov * √T) ^ 2 / 8)
              * ((if 0 < cp * m.gqG (m.vov * √T) (m.vov / m.sigma * (K - m.mp.forward S T)) q.1 then -1 else 1)
                * exp (-m.gqV0 (m.vov * √T) (m.vov / m.sigma * (K - m.mp.forward S T)) q.1 / 2)) *
              Spec.laguerreErr 0 vs (fun x => arccos (|m.gqG (m.vov * √T) (m.vov / m.sigma * (K - m.mp.forward S T)) q.1|
                      / m.gqH (m.vov * √T) (m.vov / m.sigma * (K - m.mp.forward S T)) (2 * x) q.1) / π)).sum) := by
  have hT0 : 0 < T := lt_of_lt_of_le (by norm_num) hT
  obtain ⟨p1, p2⟩ := gq_cdf_exact m hs hv hr hT0 (K - m.mp.forward S T)
  have hp : (if cp = 1 then Spec.normal3.real {p | K - m.mp.forward S T < (m.mcVolPrice T p.1 p.2.1 p.2.2).2.1}
          else Spec.normal3.real {p | (m.mcVolPrice T p.1 p.2.1 p.2.2).2.1 ≤ K - m.mp.forward S T})
      = Spec.gaussE (fun z => m.gqProb (m.vov * √T) (m.vov / m.sigma * (K - m.mp.forward S T)) cp z * exp (-z * (m.vov * √T) / 2 - (m.vov * √T) ^ 2 / 8)) := by
    rcases hcp with rfl | rfl
    · rw [if_pos rfl, p1]
    · rw [if_neg (by norm_num), p2]
  rw [hp]
  unfold gqCdf Spec.hermiteErr Spec.laguerreErr
  simp only [max_eq_left hT, List.map_map, Function.comp_def]
  generalize m.vov / m.sigma * (K - m.mp.forward S T) = k
  generalize m.vov * √T = s
  simp only [fun z => laguerre_int0 (fun y => arccos (|m.gqG s k z| / m.gqH s k y z))]
  have key : (zs.map fun q => m.gqProb s k cp q.1 * exp (-q.1 * s / 2 - s ^ 2 / 8) * gqWeight s zs q.2).sum
      + (zs.map fun q => gqWeight s zs q.2 * exp (-q.1 * s / 2 - s ^ 2 / 8) * ((if 0 < cp * m.gqG s k q.1 then -1 else 1) * exp (-m.gqV0 s k q.1 / 2)) *
          ((vs.map fun r => arccos (|m.gqG s k q.1| / m.gqH s k (2 * r.1) q.1) / π * r.2).sum
            - 1 / (2 * π) * ∫ y in Ioi (0:ℝ), arccos (|m.gqG s k q.1| / m.gqH s k y q.1) * exp (-y / 2))).sum
      = (zs.map fun q => (if cp * m.gqG s k q.1 > 0
            then 1 - (vs.map fun r => arccos (|m.gqG s k q.1| / m.gqH s k (2 * r.1) q.1) * exp (-m.gqV0 s k q.1 / 2) * (r.2 / π)).sum
            else (vs.map fun r => arccos (|m.gqG s k q.1| / m.gqH s k (2 * r.1) q.1) * exp (-m.gqV0 s k q.1 / 2) * (r.2 / π)).sum)
          * exp (-q.1 * s / 2 - s ^ 2 / 8) * gqWeight s zs q.2).sum := by
    rw [sum_add']
    congr 1
    refine List.map_congr_left fun q _ => ?_
    unfold gqProb
    have e : ∀ r : ℝ × ℝ, ∀ a b : ℝ, a * b * (r.2 / π) = b * (a / π * r.2) := fun r a b => by ring
    simp only [e]
    rw [sum_mul']
    split_ifs <;> ring
  rw [← key]
  ring

/-- Non-trivial parameters meet the hypotheses. -/
example : ∃ m : Nsvh, 0 < m.sigma ∧ 0 < m.vov ∧ m.rho ∈ Ioo (-1) 1 ∧ m.rho ≠ 0 ∧ eps ≤ (1:ℝ) :=
  ⟨⟨20, 8 / 10, -3 / 10, 0, 0, 0, false, false⟩, by norm_num, by norm_num, ⟨by norm_num, by norm_num⟩, by norm_num, by linarith [eps_lt]⟩

end Nsvh
end PyFENG
