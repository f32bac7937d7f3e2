import Verif.Gauss
import Mathlib.Analysis.SpecialFunctions.PolarCoord
import Mathlib.MeasureTheory.Function.JacobianOneDim
import Mathlib.Probability.Distributions.Gaussian.Real

/-!
# Two independent normals in polar coordinates
-/

namespace PyFENG

open MeasureTheory ProbabilityTheory Real Set
open scoped ENNReal

/-- Two independent standard normals have uniform angle and squared radius exponential with mean two. -/
lemma lintegral_gauss2 {f : ℝ × ℝ → ℝ≥0∞} (hf : Measurable f) :
    ∫⁻ p, f p ∂((gaussianReal 0 1).prod (gaussianReal 0 1))
      = ∫⁻ v in Ioi (0:ℝ), ENNReal.ofReal (exp (-v / 2) / (4 * π)) * ∫⁻ θ in Ioo (-π) π, f (√v * cos θ, √v * sin θ) := by
  have h1 : (gaussianReal 0 1).prod (gaussianReal 0 1) = (volume : Measure (ℝ × ℝ)).withDensity (fun z => gaussianPDF 0 1 z.1 * gaussianPDF 0 1 z.2) := by
    rw [gaussianReal_of_var_ne_zero _ one_ne_zero, prod_withDensity (measurable_gaussianPDF 0 1) (measurable_gaussianPDF 0 1)]
    rfl
  have hm : Measurable fun z : ℝ × ℝ => gaussianPDF 0 1 z.1 * gaussianPDF 0 1 z.2 :=
    ((measurable_gaussianPDF 0 1).comp measurable_fst).mul ((measurable_gaussianPDF 0 1).comp measurable_snd)
  have hd : ∀ r θ : ℝ, gaussianPDF 0 1 (r * cos θ) * gaussianPDF 0 1 (r * sin θ) = ENNReal.ofReal (exp (-r ^ 2 / 2) / (2 * π)) := by
    intro r θ
    rw [gaussianPDF, gaussianPDF, ← ENNReal.ofReal_mul (gaussianPDFReal_nonneg _ _ _)]
    congr 1
    simp only [gaussianPDFReal, NNReal.coe_one, mul_one, sub_zero]
    have h2 : -(r * cos θ) ^ 2 / 2 + -(r * sin θ) ^ 2 / 2 = -r ^ 2 / 2 := by
      have := cos_sq_add_sin_sq θ
      linear_combination (-r ^ 2 / 2) * this
    rw [← h2, exp_add]
    have h3 : √(2 * π) * √(2 * π) = 2 * π := mul_self_sqrt (by positivity)
    calc (√(2 * π))⁻¹ * exp (-(r * cos θ) ^ 2 / 2) * ((√(2 * π))⁻¹ * exp (-(r * sin θ) ^ 2 / 2))
        = exp (-(r * cos θ) ^ 2 / 2) * exp (-(r * sin θ) ^ 2 / 2) / (√(2 * π) * √(2 * π)) := by field_simp
      _ = _ := by rw [h3]
  rw [h1, lintegral_withDensity_eq_lintegral_mul _ hm hf, ← lintegral_comp_polarCoord_symm]
  have h4 : ∀ p : ℝ × ℝ, ENNReal.ofReal p.1 • ((fun z : ℝ × ℝ => gaussianPDF 0 1 z.1 * gaussianPDF 0 1 z.2) * f) (polarCoord.symm p)
      = ENNReal.ofReal p.1 * (ENNReal.ofReal (exp (-p.1 ^ 2 / 2) / (2 * π)) * f (p.1 * cos p.2, p.1 * sin p.2)) := by
    intro p
    rw [polarCoord_symm_apply, smul_eq_mul, Pi.mul_apply]
    simp only
    rw [hd]
  simp only [h4]
  have hmeas : Measurable fun p : ℝ × ℝ => ENNReal.ofReal p.1 * (ENNReal.ofReal (exp (-p.1 ^ 2 / 2) / (2 * π)) * f (p.1 * cos p.2, p.1 * sin p.2)) := by
    have : Measurable fun p : ℝ × ℝ => f (p.1 * cos p.2, p.1 * sin p.2) := hf.comp (by fun_prop)
    exact (by fun_prop : Measurable fun p : ℝ × ℝ => ENNReal.ofReal p.1).mul ((by fun_prop : Measurable fun p : ℝ × ℝ => ENNReal.ofReal (exp (-p.1 ^ 2 / 2) / (2 * π))).mul this)
  rw [show polarCoord.target = Ioi (0:ℝ) ×ˢ Ioo (-π) π from rfl, Measure.volume_eq_prod, ← Measure.prod_restrict, lintegral_prod _ hmeas.aemeasurable]
  have himg : (fun r : ℝ => r ^ 2) '' Ioi (0:ℝ) = Ioi (0:ℝ) := by
    ext v
    constructor
    · rintro ⟨r, hr, rfl⟩; exact pow_pos (mem_Ioi.1 hr) 2
    · intro hv; exact ⟨√v, sqrt_pos.2 hv, sq_sqrt (le_of_lt hv)⟩
  have hinj : InjOn (fun r : ℝ => r ^ 2) (Ioi (0:ℝ)) := by
    intro a ha b hb h
    exact (pow_left_inj₀ (le_of_lt ha) (le_of_lt hb) two_ne_zero).1 h
  have h5 := lintegral_image_eq_lintegral_abs_deriv_mul (f := fun r : ℝ => r ^ 2) (f' := fun r => 2 * r) measurableSet_Ioi
    (fun x _ => (show HasDerivAt (fun r : ℝ => r ^ 2) (2 * x) x by simpa using hasDerivAt_pow 2 x).hasDerivWithinAt) hinj
    (fun v => ENNReal.ofReal (exp (-v / 2) / (4 * π)) * ∫⁻ θ in Ioo (-π) π, f (√v * cos θ, √v * sin θ))
  rw [himg] at h5
  rw [h5]
  refine setLIntegral_congr_fun measurableSet_Ioi fun r hr => ?_
  have hr0 : 0 < r := hr
  have hm2 : Measurable fun θ : ℝ => f (r * cos θ, r * sin θ) := hf.comp (by fun_prop)
  simp only
  rw [sqrt_sq hr0.le, abs_of_pos (by positivity), ← mul_assoc, ← ENNReal.ofReal_mul (by positivity)]
  rw [lintegral_const_mul _ (hm2.const_mul _), lintegral_const_mul _ hm2, ← mul_assoc, ← ENNReal.ofReal_mul hr0.le]
  congr 2
  field_simp
  ring

/-- The exponential tilt of a standard normal is a shift. -/
lemma lintegral_gauss_tilt (a : ℝ) {f : ℝ → ℝ≥0∞} (hf : Measurable f) :
    ∫⁻ z, ENNReal.ofReal (exp (a * z)) * f z ∂(gaussianReal 0 1) = ENNReal.ofReal (exp (a ^ 2 / 2)) * ∫⁻ z, f (z + a) ∂(gaussianReal 0 1) := by
  have hm := measurable_gaussianPDF 0 1
  have hfa : Measurable fun z => f (z + a) := hf.comp (by fun_prop)
  have hg : Measurable fun z : ℝ => ENNReal.ofReal (exp (a * z)) * f z := (by fun_prop : Measurable fun z : ℝ => ENNReal.ofReal (exp (a * z))).mul hf
  rw [gaussianReal_of_var_ne_zero _ one_ne_zero, lintegral_withDensity_eq_lintegral_mul _ hm hg,
    lintegral_withDensity_eq_lintegral_mul _ hm hfa, ← lintegral_const_mul _ (hm.mul hfa),
    ← lintegral_add_right_eq_self _ a]
  refine lintegral_congr fun z => ?_
  simp only [Pi.mul_apply]
  rw [← mul_assoc, ← mul_assoc, gaussianPDF, gaussianPDF, ← ENNReal.ofReal_mul (gaussianPDFReal_nonneg _ _ _), ← ENNReal.ofReal_mul (exp_pos _).le]
  congr 2
  simp only [gaussianPDFReal, NNReal.coe_one, mul_one, sub_zero]
  rw [mul_assoc, ← exp_add, mul_left_comm, ← exp_add]
  congr 2
  ring

/-- `∫ (c + h cos θ)⁺` over the circle. -/
lemma integral_pos_cos {c h : ℝ} (hh : 0 < h) :
    ∫ θ in (-π)..π, max (c + h * cos θ) 0 = 2 * π * max c 0 + 2 * (√(h ^ 2 - c ^ 2) - |c| * arccos (|c| / h)) := by
  -- half circle by symmetry
  have hint : ∀ a b : ℝ, IntervalIntegrable (fun θ => max (c + h * cos θ) 0) volume a b := fun a b => (by fun_prop : Continuous fun θ => max (c + h * cos θ) 0).intervalIntegrable a b
  have hint2 : ∀ a b : ℝ, IntervalIntegrable (fun θ => c + h * cos θ) volume a b := fun a b => (by fun_prop : Continuous fun θ => c + h * cos θ).intervalIntegrable a b
  have hsym : ∫ θ in (-π)..π, max (c + h * cos θ) 0 = 2 * ∫ θ in (0:ℝ)..π, max (c + h * cos θ) 0 := by
    have h1 : ∫ θ in (-π)..0, max (c + h * cos θ) 0 = ∫ θ in (0:ℝ)..π, max (c + h * cos θ) 0 := by
      have := intervalIntegral.integral_comp_neg (a := 0) (b := π) (fun θ => max (c + h * cos θ) 0)
      simp only [cos_neg, neg_zero] at this
      exact this.symm
    rw [← intervalIntegral.integral_add_adjacent_intervals (hint (-π) 0) (hint 0 π), h1]; ring
  have hprim : ∀ a b : ℝ, ∫ θ in a..b, (c + h * cos θ) = c * (b - a) + h * (sin b - sin a) := by
    intro a b
    rw [intervalIntegral.integral_add (by simp) ((by fun_prop : Continuous fun θ => h * cos θ).intervalIntegrable a b), intervalIntegral.integral_const,
      intervalIntegral.integral_const_mul, integral_cos, smul_eq_mul]; ring
  -- the critical angle
  obtain ⟨θ0, hθ0, hle, hge⟩ : ∃ θ0, θ0 = arccos (-(c / h)) ∧ (∀ θ ∈ Icc 0 θ0, 0 ≤ c + h * cos θ ∨ c < -h) ∧ (∀ θ ∈ Icc θ0 π, c + h * cos θ ≤ 0 ∨ h < c) := by
    refine ⟨_, rfl, ?_, ?_⟩
    · intro θ hθ
      by_cases hc : c < -h
      · exact Or.inr hc
      left
      have h1 : -1 ≤ c / h := by rw [le_div_iff₀ hh]; linarith
      have h2 : cos (arccos (-(c / h))) ≤ cos θ := strictAntiOn_cos.antitoneOn ⟨hθ.1, hθ.2.trans (arccos_le_pi _)⟩ ⟨arccos_nonneg _, arccos_le_pi _⟩ hθ.2
      rcases le_or_gt (c / h) 1 with h3 | h3
      · rw [cos_arccos (by linarith) (by linarith)] at h2
        have := mul_le_mul_of_nonneg_left h2 hh.le
        have e : h * -(c / h) = -c := by field_simp
        linarith
      · have : h < c := by rwa [lt_div_iff₀ hh, one_mul] at h3
        nlinarith [neg_one_le_cos θ]
    · intro θ hθ
      by_cases hc : h < c
      · exact Or.inr hc
      left
      have h1 : c / h ≤ 1 := by rw [div_le_iff₀ hh]; linarith
      have h2 : cos θ ≤ cos (arccos (-(c / h))) := strictAntiOn_cos.antitoneOn ⟨arccos_nonneg _, arccos_le_pi _⟩ ⟨(arccos_nonneg _).trans hθ.1, hθ.2⟩ hθ.1
      rcases le_or_gt (-1) (c / h) with h3 | h3
      · rw [cos_arccos (by linarith) (by linarith)] at h2
        have := mul_le_mul_of_nonneg_left h2 hh.le
        have e : h * -(c / h) = -c := by field_simp
        linarith
      · have : c < -h := by rw [div_lt_iff₀ hh] at h3; linarith
        nlinarith [cos_le_one θ]
  have h00 : 0 ≤ θ0 := hθ0 ▸ arccos_nonneg _
  have h0π : θ0 ≤ π := hθ0 ▸ arccos_le_pi _
  rcases lt_or_ge c (-h) with hc | hc
  · have e : ∀ θ, max (c + h * cos θ) 0 = 0 := fun θ => max_eq_right (by nlinarith [cos_le_one θ])
    have h1 : |c| = -c := abs_of_neg (by linarith)
    have h2 : arccos (|c| / h) = 0 := arccos_eq_zero.2 (by rw [le_div_iff₀ hh]; linarith)
    have h3 : √(h ^ 2 - c ^ 2) = 0 := sqrt_eq_zero_of_nonpos (by nlinarith)
    simp only [e]
    rw [h2, h3, max_eq_right (by linarith)]; simp
  rcases lt_or_ge h c with hc2 | hc2
  · have e : ∀ θ, max (c + h * cos θ) 0 = c + h * cos θ := fun θ => max_eq_left (by nlinarith [neg_one_le_cos θ])
    have h1 : |c| = c := abs_of_pos (by linarith)
    have h2 : arccos (|c| / h) = 0 := arccos_eq_zero.2 (by rw [le_div_iff₀ hh]; linarith)
    have h3 : √(h ^ 2 - c ^ 2) = 0 := sqrt_eq_zero_of_nonpos (by nlinarith)
    simp only [e]
    rw [h2, h3, max_eq_left (by linarith), hprim]; simp; ring
  have i1 : ∫ θ in (0:ℝ)..θ0, max (c + h * cos θ) 0 = ∫ θ in (0:ℝ)..θ0, (c + h * cos θ) := by
    refine intervalIntegral.integral_congr fun θ hθ => ?_
    rw [uIcc_of_le h00] at hθ
    exact max_eq_left ((hle θ hθ).resolve_right (by linarith))
  have i2 : ∫ θ in θ0..π, max (c + h * cos θ) 0 = 0 := by
    rw [intervalIntegral.integral_congr (g := fun _ => (0:ℝ)) fun θ hθ => ?_]
    · simp
    rw [uIcc_of_le h0π] at hθ
    exact max_eq_right ((hge θ hθ).resolve_right (by linarith))
  rw [hsym, ← intervalIntegral.integral_add_adjacent_intervals (hint 0 θ0) (hint θ0 π), i1, i2, hprim, hθ0, sin_arccos, arccos_neg]
  have e1 : h * √(1 - (-(c / h)) ^ 2) = √(h ^ 2 - c ^ 2) := by
    rw [← sqrt_sq hh.le, ← sqrt_mul (by positivity), sqrt_sq hh.le]
    congr 1; field_simp
  simp only [sin_zero, sub_zero, add_zero]
  rw [e1]
  rcases le_total 0 c with h1 | h1
  · rw [abs_of_nonneg h1, max_eq_left h1]; ring
  · rw [abs_of_nonpos h1, max_eq_right h1, neg_div, arccos_neg]; ring

end PyFENG
