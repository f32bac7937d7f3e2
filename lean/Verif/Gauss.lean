import Mathlib.Probability.Distributions.Gaussian.Real
import Mathlib.Probability.CDF
import Mathlib.MeasureTheory.Integral.IntegralEqImproper
import Mathlib.Analysis.Calculus.MeanValue

/-!
# The standard normal distribution

`npdf` and `ncdf` stand for `scipy.stats.norm._pdf` and `scipy.stats.norm._cdf`, the two library
functions called by nearly every analytic formula in PyFENG.  They are *specified* here (density
formula, and probability of a half line under Mathlib's Gaussian measure); nothing about them is
assumed.  Everything below is derived from those two definitions.
-/

open MeasureTheory ProbabilityTheory Set Filter Topology Real

namespace PyFENG

/-- `scipy.stats.norm._pdf(x)`: `exp(-x**2/2)/sqrt(2*pi)`. -/
noncomputable def npdf (x : ℝ) : ℝ := Real.exp (-x ^ 2 / 2) / √(2 * π)

/-- `scipy.stats.norm._cdf(x)`: the probability that a standard normal variable is `≤ x`. -/
noncomputable def ncdf (x : ℝ) : ℝ := (gaussianReal 0 1).real (Iic x)

lemma npdf_eq_gaussianPDFReal (x : ℝ) : npdf x = gaussianPDFReal 0 1 x := by
  simp [npdf, gaussianPDFReal]
  ring_nf

lemma npdf_pos (x : ℝ) : 0 < npdf x := by unfold npdf; positivity

lemma npdf_neg (x : ℝ) : npdf (-x) = npdf x := by simp [npdf]

lemma continuous_npdf : Continuous npdf := by unfold npdf; fun_prop

lemma measurable_npdf : Measurable npdf := continuous_npdf.measurable

lemma integrable_npdf : Integrable npdf := by
  have := integrable_gaussianPDFReal 0 1
  refine this.congr (ae_of_all _ fun x => (npdf_eq_gaussianPDFReal x).symm)

lemma integral_npdf : ∫ x, npdf x = 1 := by
  have := integral_gaussianPDFReal_eq_one 0 (v := 1) one_ne_zero
  rw [← this]
  exact integral_congr_ae (ae_of_all _ npdf_eq_gaussianPDFReal)

/-- Expectation under the standard normal law as a Lebesgue integral against `npdf`. -/
lemma integral_gauss (f : ℝ → ℝ) :
    ∫ z, f z ∂(gaussianReal 0 1) = ∫ z, npdf z * f z := by
  rw [integral_gaussianReal_eq_integral_smul one_ne_zero]
  simp [npdf_eq_gaussianPDFReal]

lemma integrable_gauss_iff (f : ℝ → ℝ) :
    Integrable f (gaussianReal 0 1) ↔ Integrable (fun z => npdf z * f z) := by
  rw [gaussianReal_of_var_ne_zero _ one_ne_zero,
    integrable_withDensity_iff_integrable_smul' (measurable_gaussianPDF 0 1)]
  · simp [npdf_eq_gaussianPDFReal]
  · exact ae_of_all _ fun x => gaussianPDF_lt_top

lemma ncdf_eq_integral (x : ℝ) : ncdf x = ∫ t in Iic x, npdf t := by
  unfold ncdf
  rw [Measure.real, gaussianReal_apply_eq_integral _ one_ne_zero, ENNReal.toReal_ofReal]
  · exact setIntegral_congr_fun measurableSet_Iic fun t _ => (npdf_eq_gaussianPDFReal t).symm
  · exact setIntegral_nonneg measurableSet_Iic fun t _ => gaussianPDFReal_nonneg _ _ _

lemma ncdf_nonneg (x : ℝ) : 0 ≤ ncdf x := measureReal_nonneg

lemma ncdf_le_one (x : ℝ) : ncdf x ≤ 1 := measureReal_le_one

lemma monotone_ncdf : Monotone ncdf := fun _ _ h => measureReal_mono (Iic_subset_Iic.2 h)

lemma hasDerivAt_ncdf (x : ℝ) : HasDerivAt ncdf (npdf x) x := by
  have h : ncdf = fun u => ncdf x + ∫ t in x..u, npdf t := by
    ext u
    rw [ncdf_eq_integral, ncdf_eq_integral,
      ← intervalIntegral.integral_Iic_sub_Iic integrable_npdf.integrableOn
        integrable_npdf.integrableOn]
    ring
  rw [h]
  simpa using (intervalIntegral.integral_hasDerivAt_right
    (continuous_npdf.intervalIntegrable x x) (continuous_npdf.stronglyMeasurableAtFilter _ _)
    continuous_npdf.continuousAt).const_add (ncdf x)

lemma differentiable_ncdf : Differentiable ℝ ncdf := fun x => (hasDerivAt_ncdf x).differentiableAt

lemma continuous_ncdf : Continuous ncdf := differentiable_ncdf.continuous

lemma deriv_ncdf : deriv ncdf = npdf := funext fun x => (hasDerivAt_ncdf x).deriv

lemma strictMono_ncdf : StrictMono ncdf :=
  strictMono_of_deriv_pos fun x => by rw [deriv_ncdf]; exact npdf_pos x

lemma ncdf_pos (x : ℝ) : 0 < ncdf x :=
  lt_of_le_of_lt (ncdf_nonneg (x - 1)) (strictMono_ncdf (by linarith))

lemma ncdf_lt_one (x : ℝ) : ncdf x < 1 :=
  lt_of_lt_of_le (strictMono_ncdf (show x < x + 1 by linarith)) (ncdf_le_one _)

lemma integral_Ioi_npdf (x : ℝ) : ∫ t in Ioi x, npdf t = 1 - ncdf x := by
  have := integral_add_compl (measurableSet_Iic (a := x)) integrable_npdf
  rw [integral_npdf, compl_Iic, ← ncdf_eq_integral] at this
  linarith

/-- `N(-x) = 1 - N(x)`. -/
lemma ncdf_neg (x : ℝ) : ncdf (-x) = 1 - ncdf x := by
  rw [← integral_Ioi_npdf, ncdf_eq_integral, ← integral_comp_neg_Ioi]
  simp [npdf_neg]

lemma ncdf_zero : ncdf 0 = 1 / 2 := by
  have := ncdf_neg 0
  simp at this
  linarith

lemma tendsto_ncdf_atBot : Tendsto ncdf atBot (𝓝 0) := by
  have h : ncdf = cdf (gaussianReal 0 1) := by
    ext x; rw [cdf_eq_real]; rfl
  rw [h]; exact tendsto_cdf_atBot _

lemma tendsto_ncdf_atTop : Tendsto ncdf atTop (𝓝 1) := by
  have h : ncdf = cdf (gaussianReal 0 1) := by
    ext x; rw [cdf_eq_real]; rfl
  rw [h]; exact tendsto_cdf_atTop _

lemma hasDerivAt_npdf (x : ℝ) : HasDerivAt npdf (-x * npdf x) x := by
  unfold npdf
  have h : HasDerivAt (fun x : ℝ => -x ^ 2 / 2) (-x) x := by
    have := ((hasDerivAt_pow 2 x).neg).div_const 2
    refine this.congr_deriv ?_
    push_cast
    ring
  refine (h.exp.div_const (√(2 * π))).congr_deriv ?_
  ring

/-- Gaussian tilting: `e^{sz} n(z) = e^{s²/2} n(z - s)`. -/
lemma npdf_tilt (s z : ℝ) : npdf z * Real.exp (s * z) = Real.exp (s ^ 2 / 2) * npdf (z - s) := by
  unfold npdf
  rw [div_mul_eq_mul_div, mul_div_assoc', ← Real.exp_add, ← Real.exp_add]
  ring_nf

/-- `E[e^{sZ} 1_{Z > c}] = e^{s²/2} N(s - c)`. -/
lemma integral_Ioi_npdf_mul_exp (s c : ℝ) :
    ∫ z in Ioi c, npdf z * Real.exp (s * z) = Real.exp (s ^ 2 / 2) * ncdf (s - c) := by
  simp_rw [npdf_tilt]
  rw [integral_const_mul]
  congr 1
  have h1 : ∫ z in Ioi c, npdf (z - s) = ∫ z in Ioi (c - s), npdf z := by
    rw [← integral_indicator measurableSet_Ioi, ← integral_indicator measurableSet_Ioi,
      ← integral_sub_right_eq_self ((Ioi (c - s)).indicator npdf) s]
    congr 1
    ext z
    simp [indicator, mem_Ioi]
  rw [h1, integral_Ioi_npdf, ← ncdf_neg]
  congr 1
  ring

lemma integrable_npdf_mul_exp (s : ℝ) : Integrable fun z => npdf z * Real.exp (s * z) := by
  simp_rw [npdf_tilt]
  exact (integrable_npdf.comp_sub_right s).const_mul _

lemma integral_npdf_mul_exp (s : ℝ) : ∫ z, npdf z * Real.exp (s * z) = Real.exp (s ^ 2 / 2) := by
  simp_rw [npdf_tilt]
  rw [integral_const_mul, integral_sub_right_eq_self npdf s, integral_npdf, mul_one]

lemma integrable_mul_npdf : Integrable fun z => z * npdf z := by
  have h := integrable_mul_exp_neg_mul_sq (b := 1 / 2) (by norm_num)
  have h2 := h.div_const (√(2 * π))
  refine h2.congr (ae_of_all _ fun z => ?_)
  simp only [npdf]
  ring_nf

lemma tendsto_npdf_atTop : Tendsto npdf atTop (𝓝 0) := by
  unfold npdf
  rw [show (0:ℝ) = 0 / √(2 * π) by simp]
  refine Tendsto.div_const ?_ _
  refine Real.tendsto_exp_atBot.comp ?_
  have : Tendsto (fun x : ℝ => x ^ 2 / 2) atTop atTop :=
    (tendsto_pow_atTop (by norm_num)).atTop_div_const (by norm_num)
  refine (tendsto_neg_atTop_atBot.comp this).congr fun x => ?_
  simp [neg_div]

/-- `E[Z 1_{Z > c}] = n(c)`. -/
lemma integral_Ioi_mul_npdf (c : ℝ) : ∫ z in Ioi c, z * npdf z = npdf c := by
  have hd : ∀ x ∈ Ici c, HasDerivAt (fun x => -npdf x) (x * npdf x) x := fun x _ => by
    refine (hasDerivAt_npdf x).neg.congr_deriv ?_
    ring
  have := integral_Ioi_of_hasDerivAt_of_tendsto' hd integrable_mul_npdf.integrableOn
    (by simpa using tendsto_npdf_atTop.neg)
  rw [this]
  ring

end PyFENG
