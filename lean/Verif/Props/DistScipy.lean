import Verif.Model.DistScipy
import Verif.Props.DistGh
import Mathlib.Analysis.SpecialFunctions.Gaussian.GaussianIntegral
import Mathlib.Probability.Distributions.Gamma

/-!
# C142: the frozen `scipy.stats` objects, the samplers and the moments of the distribution helpers describe the same laws
-/

namespace PyFENG

open Real MeasureTheory ProbabilityTheory Set

/-! ## Densities of the `scipy.stats` families (their documentation) -/

/-- `scipy.stats.gamma(a, scale=s)`: density at `x > 0`. -/
noncomputable def Spec.scipyGamma (a s x : ℝ) : ℝ := (x / s) ^ (a - 1) * exp (-(x / s)) / Gamma a / s

/-- `scipy.stats.invgauss(mu, scale=s)`: density at `x > 0`. -/
noncomputable def Spec.scipyInvgauss (mu s x : ℝ) : ℝ := 1 / √(2 * π * (x / s) ^ 3) * exp (-(x / s - mu) ^ 2 / (2 * mu ^ 2 * (x / s))) / s

/-- Modified Bessel function of the second kind, `K_p(q) = ½ ∫_0^∞ t^(p-1) exp(-q (t + 1/t)/2) dt`. -/
noncomputable def Spec.besselKr (p q : ℝ) : ℝ := 1 / 2 * ∫ t in Ioi (0 : ℝ), t ^ (p - 1) * exp (-q * (t + 1 / t) / 2)

/-- `scipy.stats.geninvgauss(p, b, scale=s)`: density at `x > 0`. -/
noncomputable def Spec.scipyGeninvgauss (p b s x : ℝ) : ℝ :=
  (x / s) ^ (p - 1) * exp (-b * (x / s + 1 / (x / s)) / 2) / (2 * Spec.besselKr p b) / s

/-- `scipy.stats.genhyperbolic(p, a, b, loc, scale=s)`: density at any real `x`. -/
noncomputable def Spec.scipyGenhyperbolic (p a b loc s x : ℝ) : ℝ :=
  let y := (x - loc) / s
  (a ^ 2 - b ^ 2) ^ (p / 2) / (√(2 * π) * a ^ (p - 1 / 2) * Spec.besselKr p √(a ^ 2 - b ^ 2)) * exp (b * y)
    * Spec.besselKr (p - 1 / 2) (a * √(1 + y ^ 2)) / √(1 + y ^ 2) ^ (1 / 2 - p) / s

/-! ## Laws of the helper classes (their docstrings) -/

/-- The GIG law: density proportional to `x^(p-1) exp(-(γ² x + δ²/x)/2)` on `(0, ∞)`. -/
noncomputable def Spec.gigMeasure (gamma delta p : ℝ) : Measure ℝ :=
  (volume.restrict (Ioi 0)).withDensity fun x => ENNReal.ofReal (Spec.gigKernel gamma delta p x / ∫ t in Ioi 0, Spec.gigKernel gamma delta p t)

/-- The law of `mu + beta W + √W Z`, `W` GIG, `Z` an independent standard normal. -/
noncomputable def Spec.ghMeasure (mu beta gamma delta p : ℝ) : Measure ℝ :=
  ((Spec.gigMeasure gamma delta p).prod (gaussianReal 0 1)).map (Spec.nvm mu beta)

lemma kve_eq (p q : ℝ) : Spec.kve p q = exp q * Spec.besselKr p q := rfl

namespace DistGig

lemma kernel_pos {g d p x : ℝ} (hx : 0 < x) : 0 < Spec.gigKernel g d p x := mul_pos (rpow_pos_of_pos hx _) (exp_pos _)

lemma kernel_integrable {g d : ℝ} (hg : 0 < g) (hd : 0 < d) (p : ℝ) : IntegrableOn (Spec.gigKernel g d p) (Ioi 0) := by
  obtain ⟨n, hn⟩ := exists_nat_gt (-p)
  have h := (integrableOn_rpow_mul_exp_neg_mul_rpow (p := 1) (s := p - 1 + n) (b := g ^ 2 / 2) (by linarith) one_pos (by positivity)).const_mul (n.factorial * (2 / d ^ 2) ^ n)
  refine Integrable.mono' h (by unfold Spec.gigKernel; fun_prop) ?_
  refine (ae_restrict_iff' measurableSet_Ioi).2 (ae_of_all _ fun x hx => ?_)
  have hx : 0 < x := hx
  rw [norm_of_nonneg (kernel_pos hx).le]
  unfold Spec.gigKernel
  have e1 : exp (-(g ^ 2 * x + d ^ 2 / x) / 2) = exp (-(g ^ 2 / 2) * x) * exp (-(d ^ 2 / (2 * x))) := by
    rw [← exp_add]; congr 1; field_simp; ring
  have hy : 0 < d ^ 2 / (2 * x) := by positivity
  have e2 : exp (-(d ^ 2 / (2 * x))) ≤ n.factorial * (2 / d ^ 2) ^ n * x ^ n := by
    have h1 := pow_div_factorial_le_exp (d ^ 2 / (2 * x)) hy.le n
    rw [exp_neg, inv_le_comm₀ (exp_pos _) (by positivity)]
    refine le_trans (le_of_eq ?_) h1
    rw [div_pow, div_pow, mul_pow]
    field_simp
  rw [rpow_add_natCast hx.ne', rpow_one, e1]
  calc x ^ (p - 1) * (exp (-(g ^ 2 / 2) * x) * exp (-(d ^ 2 / (2 * x))))
      ≤ x ^ (p - 1) * (exp (-(g ^ 2 / 2) * x) * (n.factorial * (2 / d ^ 2) ^ n * x ^ n)) := by gcongr
    _ = _ := by ring

lemma kernel_integral_pos {g d : ℝ} (hg : 0 < g) (hd : 0 < d) (p : ℝ) : 0 < ∫ x in Ioi 0, Spec.gigKernel g d p x := by
  refine (setIntegral_pos_iff_support_of_nonneg_ae ?_ (kernel_integrable hg hd p)).2 ?_
  · exact (ae_restrict_iff' measurableSet_Ioi).2 (ae_of_all _ fun x hx => (kernel_pos hx).le)
  · have : Ioi (0 : ℝ) ⊆ Function.support (Spec.gigKernel g d p) ∩ Ioi 0 := fun x hx => ⟨(kernel_pos hx).ne', hx⟩
    exact lt_of_lt_of_le (by simp) (measure_mono this)

lemma besselK_pos {p q : ℝ} (hq : 0 < q) : 0 < Spec.besselKr p q := by
  have h := kernel_integral_pos (g := √q) (d := √q) (sqrt_pos.2 hq) (sqrt_pos.2 hq) p
  unfold Spec.besselKr
  have e : ∫ x in Ioi 0, Spec.gigKernel √q √q p x = ∫ t in Ioi (0 : ℝ), t ^ (p - 1) * exp (-q * (t + 1 / t) / 2) := by
    refine setIntegral_congr_fun measurableSet_Ioi fun x hx => ?_
    have hx : 0 < x := hx
    simp only [Spec.gigKernel, sq_sqrt hq.le]
    congr 2
    field_simp
  rw [← e]
  positivity

lemma lintegral_gig {g d : ℝ} (p : ℝ) {f : ℝ → ENNReal} (hf : Measurable f) :
    ∫⁻ x, f x ∂(Spec.gigMeasure g d p) = ∫⁻ x in Ioi 0, ENNReal.ofReal (Spec.gigKernel g d p x / ∫ t in Ioi 0, Spec.gigKernel g d p t) * f x := by
  unfold Spec.gigMeasure
  rw [lintegral_withDensity_eq_lintegral_mul _ (by unfold Spec.gigKernel; fun_prop) hf]
  rfl

lemma gig_prob {g d : ℝ} (hg : 0 < g) (hd : 0 < d) (p : ℝ) : IsProbabilityMeasure (Spec.gigMeasure g d p) := by
  constructor
  have h := lintegral_gig (g := g) (d := d) p (f := fun _ => 1) measurable_const
  rw [lintegral_one] at h
  rw [h]
  simp only [mul_one]
  have hI := kernel_integral_pos hg hd p
  rw [← ofReal_integral_eq_lintegral_ofReal ((kernel_integrable hg hd p).div_const _)]
  · rw [integral_div, div_self hI.ne', ENNReal.ofReal_one]
  · exact (ae_restrict_iff' measurableSet_Ioi).2 (ae_of_all _ fun x hx => div_nonneg (kernel_pos hx).le hI.le)

lemma gig_pos {g d : ℝ} (p : ℝ) : ∀ᵐ x ∂(Spec.gigMeasure g d p), 0 < x := by
  unfold Spec.gigMeasure
  exact (withDensity_absolutelyContinuous _ _).ae_le (ae_restrict_mem measurableSet_Ioi)

lemma gig_integrable {g d : ℝ} (hg : 0 < g) (hd : 0 < d) (p : ℝ) (r : ℕ) : Integrable (fun x => x ^ r) (Spec.gigMeasure g d p) := by
  have hI := kernel_integral_pos hg hd p
  unfold Spec.gigMeasure
  rw [integrable_withDensity_iff_integrable_smul' (by unfold Spec.gigKernel; fun_prop) (by simp)]
  refine (((kernel_integrable hg hd (p + r)).div_const (∫ t in Ioi 0, Spec.gigKernel g d p t))).congr ?_
  refine (ae_restrict_iff' measurableSet_Ioi).2 (ae_of_all _ fun x hx => ?_)
  have hx : 0 < x := hx
  simp only
  rw [ENNReal.toReal_ofReal (div_nonneg (kernel_pos hx).le hI.le), smul_eq_mul]
  unfold Spec.gigKernel
  rw [show p + r - 1 = (p - 1) + r by ring, rpow_add_natCast hx.ne']
  ring

lemma gig_moment {g d : ℝ} (hg : 0 < g) (hd : 0 < d) (p : ℝ) (r : ℕ) : ∫ x, x ^ r ∂(Spec.gigMeasure g d p) = mnc Spec.kve ⟨g, d, p⟩ r := by
  have hI := kernel_integral_pos hg hd p
  rw [mnc_correct ⟨g, d, p⟩ hg hd r]
  unfold Spec.gigMeasure Spec.gigE
  rw [integral_withDensity_eq_integral_toReal_smul (by unfold Spec.gigKernel; fun_prop) (by simp), ← integral_div]
  refine setIntegral_congr_fun measurableSet_Ioi fun x hx => ?_
  simp only
  rw [ENNReal.toReal_ofReal (div_nonneg (kernel_pos hx).le hI.le), smul_eq_mul]
  ring

/-- **C142 (GIG).** For positive `gamma`, `delta` the documented density defines a probability law, `mvsk()` lists its mean, scaled variance, skewness and excess kurtosis, and the frozen
`scipy.stats.geninvgauss` object has exactly this density. -/
theorem scipy_correct (d : DistGig) (hg : 0 < d.gamma) (hd : 0 < d.delta) :
    IsProbabilityMeasure (Spec.gigMeasure d.gamma d.delta d.p) ∧
    Spec.IsScaledMvsk (fun x => x) (Spec.gigMeasure d.gamma d.delta d.p) (d.mvsk Spec.kve).mean (d.mvsk Spec.kve).var (d.mvsk Spec.kve).skew (d.mvsk Spec.kve).exkurt ∧
    ∀ x, 0 < x → Spec.scipyGeninvgauss d.scipyStats.1 d.scipyStats.2.1 d.scipyStats.2.2 x
      = Spec.gigKernel d.gamma d.delta d.p x / ∫ t in Ioi 0, Spec.gigKernel d.gamma d.delta d.p t := by
  haveI := gig_prob hg hd d.p
  refine ⟨inferInstance, ?_, fun x hx => ?_⟩
  · have hi := gig_integrable hg hd d.p
    have h := mvskOfRaw_correct (Spec.gigMeasure d.gamma d.delta d.p) (by simpa using hi 1) (hi 2) (hi 3) (hi 4)
    have e1 : ∫ x, x ∂(Spec.gigMeasure d.gamma d.delta d.p) = mnc Spec.kve d 1 := by simpa using gig_moment hg hd d.p 1
    rw [e1, gig_moment hg hd, gig_moment hg hd, gig_moment hg hd] at h
    exact h
  · have hs : 0 < d.delta / d.gamma := div_pos hd hg
    have hK := besselK_pos (p := d.p) (mul_pos hg hd)
    rw [kernel_integral hg hd, kve_eq]
    unfold Spec.scipyGeninvgauss Spec.gigKernel scipyStats
    simp only
    have e1 : exp (-(d.gamma * d.delta) * (x / (d.delta / d.gamma) + 1 / (x / (d.delta / d.gamma))) / 2) = exp (-(d.gamma ^ 2 * x + d.delta ^ 2 / x) / 2) := by
      congr 1; field_simp
    rw [e1, div_rpow hx.le hs.le, rpow_sub_one hs.ne', exp_neg]
    have := rpow_pos_of_pos hs d.p
    generalize (d.delta / d.gamma) ^ d.p = A at *
    generalize x ^ (d.p - 1) = B at *
    generalize exp (-(d.gamma ^ 2 * x + d.delta ^ 2 / x) / 2) = C at *
    generalize Spec.besselKr d.p (d.gamma * d.delta) = K at *
    have := (exp_pos (d.gamma * d.delta)).ne'
    generalize exp (d.gamma * d.delta) = E at *
    field_simp

example : IsProbabilityMeasure (Spec.gigMeasure 2 (1 / 3) (-3)) := (scipy_correct ⟨2, 1 / 3, -3⟩ (by norm_num) (by norm_num)).1

end DistGig

namespace DistGamma

/-- **C142 (Gamma).** The frozen `scipy.stats.gamma` object has the density of the Gamma law with the given shape and rate, and `draw` - a standard gamma value divided by the rate - has exactly that law. -/
theorem scipy_correct (d : DistGamma) (hs : 0 < d.shape) (hr : 0 < d.rate) :
    (∀ x, 0 < x → Spec.scipyGamma d.scipyStats.1 d.scipyStats.2 x = gammaPDFReal d.shape d.rate x) ∧
    (gammaMeasure d.shape 1).map d.draw = gammaMeasure d.shape d.rate := by
  refine ⟨fun x hx => ?_, ?_⟩
  · unfold Spec.scipyGamma scipyStats gammaPDFReal
    simp only
    rw [if_pos hx.le, show x / (1 / d.rate) = d.rate * x by field_simp, mul_rpow hr.le hx.le, rpow_sub_one hr.ne']
    have := Gamma_pos_of_pos hs
    field_simp
  · have hmeas : Measurable d.draw := by unfold draw; fun_prop
    ext A hA
    rw [Measure.map_apply hmeas hA]
    unfold gammaMeasure
    rw [withDensity_apply _ (hmeas hA), withDensity_apply _ hA]
    have hd : ∀ x ∈ A, HasDerivWithinAt (fun x => d.rate * x) d.rate A x := fun x _ => by
      simpa using ((hasDerivAt_id' x).const_mul d.rate).hasDerivWithinAt
    have hcv := lintegral_image_eq_lintegral_abs_deriv_mul hA hd (fun x _ y _ h => mul_left_cancel₀ hr.ne' h) (gammaPDF d.shape 1)
    have himg : (fun x => d.rate * x) '' A = d.draw ⁻¹' A := by
      ext g
      simp only [mem_image, mem_preimage, draw]
      constructor
      · rintro ⟨x, hx, rfl⟩
        rwa [mul_div_cancel_left₀ _ hr.ne']
      · intro h
        exact ⟨_, h, mul_div_cancel₀ _ hr.ne'⟩
    rw [himg] at hcv
    rw [hcv]
    refine lintegral_congr fun x => ?_
    rw [abs_of_pos hr]
    unfold gammaPDF
    rw [← ENNReal.ofReal_mul hr.le]
    congr 1
    unfold gammaPDFReal
    by_cases hx : 0 ≤ x
    · rw [if_pos hx, if_pos (mul_nonneg hr.le hx), mul_rpow hr.le hx, one_rpow, rpow_sub_one hr.ne']
      field_simp
    · rw [if_neg hx, if_neg (by push Not at hx ⊢; exact mul_neg_of_pos_of_neg hr hx), mul_zero]

example : (gammaMeasure (5 / 2) 1).map (DistGamma.draw ⟨5 / 2, 3⟩) = gammaMeasure (5 / 2) 3 := (scipy_correct ⟨5 / 2, 3⟩ (by norm_num) (by norm_num)).2

end DistGamma

namespace DistInvGauss

/-- **C142 (inverse Gaussian).** The frozen `scipy.stats.invgauss` object has the documented inverse Gaussian density, which is also the law `numpy`'s `wald` samples for the arguments `draw` passes. -/
theorem scipy_correct (d : DistInvGauss) (hm : 0 < d.mu) (hl : 0 < d.lam) :
    (∀ x, 0 < x → Spec.scipyInvgauss d.scipyStats.1 d.scipyStats.2 x = Spec.igPDF d.mu d.lam x) ∧
    Spec.igMeasure d.drawArgs.1 d.drawArgs.2 = Spec.igMeasure d.mu d.lam := by
  refine ⟨fun x hx => ?_, rfl⟩
  unfold Spec.scipyInvgauss scipyStats Spec.igPDF
  simp only
  have e1 : exp (-(x / d.lam - d.mu / d.lam) ^ 2 / (2 * (d.mu / d.lam) ^ 2 * (x / d.lam))) = exp (-d.lam * (x - d.mu) ^ 2 / (2 * d.mu ^ 2 * x)) := by
    congr 1; field_simp
  have e2 : √(2 * π * (x / d.lam) ^ 3) = 1 / (√(d.lam / (2 * π * x ^ 3)) * d.lam) := by
    have : 2 * π * (x / d.lam) ^ 3 = 1 / (d.lam / (2 * π * x ^ 3) * d.lam ^ 2) := by field_simp
    rw [this, sqrt_div zero_le_one, sqrt_one, sqrt_mul (by positivity), sqrt_sq hl.le]
  rw [e1, e2]
  field_simp

example : Spec.scipyInvgauss (DistInvGauss.scipyStats ⟨3 / 2, 2⟩).1 (DistInvGauss.scipyStats ⟨3 / 2, 2⟩).2 1 = Spec.igPDF (3 / 2) 2 1 :=
  (scipy_correct ⟨3 / 2, 2⟩ (by norm_num) (by norm_num)).1 1 (by norm_num)

/-- **C142 (`from_gig`).** The inverse Gaussian object `from_gig(gamma, delta)` has the law of the GIG object with `p = -1/2` and the same `gamma`, `delta`. -/
theorem fromGig_law {gamma delta : ℝ} (hg : 0 < gamma) (hd : 0 < delta) :
    Spec.igMeasure (fromGig gamma delta).mu (fromGig gamma delta).lam = Spec.gigMeasure gamma delta (-(1 / 2)) := by
  have hm : 0 < delta / gamma := by positivity
  have hl : 0 < delta ^ 2 := by positivity
  have hI := DistGig.kernel_integral_pos hg hd (-(1 / 2))
  have hprob := DistInvGauss.isProbabilityMeasure hm hl
  set C := delta / √(2 * π) * exp (gamma * delta) with hC
  have hCp : 0 < C := by positivity
  have hpt : ∀ x, 0 < x → Spec.igPDF (delta / gamma) (delta ^ 2) x = C * Spec.gigKernel gamma delta (-(1 / 2)) x := by
    intro x hx
    unfold Spec.igPDF Spec.gigKernel
    have e1 : √(delta ^ 2 / (2 * π * x ^ 3)) = delta / √(2 * π) * x ^ (-(1 / 2 : ℝ) - 1) := by
      rw [sqrt_div (by positivity), sqrt_sq hd.le, sqrt_mul (by positivity), sqrt_eq_rpow (x ^ 3), ← rpow_natCast x 3, ← rpow_mul hx.le,
        show (-(1 / 2 : ℝ) - 1) = -(((3 : ℕ) : ℝ) * (1 / 2)) by push_cast; ring, rpow_neg hx.le]
      field_simp
    have e2 : exp (-delta ^ 2 * (x - delta / gamma) ^ 2 / (2 * (delta / gamma) ^ 2 * x)) = exp (gamma * delta) * exp (-(gamma ^ 2 * x + delta ^ 2 / x) / 2) := by
      rw [← exp_add]; congr 1; field_simp; ring
    rw [e1, e2, hC]; ring
  have h1 : ∫⁻ x in Ioi 0, ENNReal.ofReal (Spec.igPDF (delta / gamma) (delta ^ 2) x) = 1 := by
    have := hprob.measure_univ
    unfold Spec.igMeasure at this
    rwa [withDensity_apply _ MeasurableSet.univ, Measure.restrict_univ] at this
  have h2 : C * ∫ x in Ioi 0, Spec.gigKernel gamma delta (-(1 / 2)) x = 1 := by
    rw [setLIntegral_congr_fun measurableSet_Ioi (fun x hx => by rw [hpt x hx]),
      ← ofReal_integral_eq_lintegral_ofReal ((DistGig.kernel_integrable hg hd _).const_mul C), integral_const_mul] at h1
    · have := congrArg ENNReal.toReal h1
      rwa [ENNReal.toReal_ofReal (by positivity), ENNReal.toReal_one] at this
    · exact (ae_restrict_iff' measurableSet_Ioi).2 (ae_of_all _ fun x hx => mul_nonneg hCp.le (DistGig.kernel_pos hx).le)
  show Spec.igMeasure (delta / gamma) (delta ^ 2) = _
  unfold Spec.igMeasure Spec.gigMeasure
  refine withDensity_congr_ae ((ae_restrict_iff' measurableSet_Ioi).2 (ae_of_all _ fun x hx => ?_))
  simp only
  rw [hpt x hx]
  congr 1
  rw [eq_div_iff hI.ne']
  linear_combination Spec.gigKernel gamma delta (-(1 / 2)) x * h2

example : Spec.igMeasure (fromGig 2 3).mu (fromGig 2 3).lam = Spec.gigMeasure 2 3 (-(1 / 2)) := fromGig_law (by norm_num) (by norm_num)

end DistInvGauss

namespace DistGh

lemma alpha_sq (d : DistGh) : d.alpha ^ 2 = d.gamma ^ 2 + d.beta ^ 2 := sq_sqrt (by positivity)

lemma alpha_pos (d : DistGh) (hg : 0 < d.gamma) : 0 < d.alpha := sqrt_pos.2 (by positivity)

/-- Density of the mixture at `x`. -/
lemma mix_density (d : DistGh) (hg : 0 < d.gamma) (hd : 0 < d.delta) (x : ℝ) :
    (∀ w, 0 < w → Spec.gigKernel d.gamma d.delta d.p w * ((√(2 * π * w))⁻¹ * exp (-(x - (d.mu + d.beta * w)) ^ 2 / (2 * w)))
      = (√(2 * π))⁻¹ * exp (d.beta * (x - d.mu)) * Spec.gigKernel d.alpha √((x - d.mu) ^ 2 + d.delta ^ 2) (d.p - 1 / 2) w) ∧
    (√(2 * π))⁻¹ * exp (d.beta * (x - d.mu)) * (∫ w in Ioi 0, Spec.gigKernel d.alpha √((x - d.mu) ^ 2 + d.delta ^ 2) (d.p - 1 / 2) w)
        / ∫ w in Ioi 0, Spec.gigKernel d.gamma d.delta d.p w
      = Spec.scipyGenhyperbolic d.scipyStats.1 d.scipyStats.2.1 d.scipyStats.2.2.1 d.scipyStats.2.2.2.1 d.scipyStats.2.2.2.2 x := by
  have ha := d.alpha_pos hg
  have ha2 := d.alpha_sq
  have hq2 : 0 < (x - d.mu) ^ 2 + d.delta ^ 2 := by positivity
  refine ⟨fun w hw => ?_, ?_⟩
  · unfold Spec.gigKernel
    rw [sq_sqrt hq2.le, ha2, sqrt_mul (by positivity), show d.p - 1 / 2 - 1 = (d.p - 1) - 1 / 2 by ring, rpow_sub hw (d.p - 1) (1 / 2), ← sqrt_eq_rpow w]
    have e : exp (-(d.gamma ^ 2 * w + d.delta ^ 2 / w) / 2) * exp (-(x - (d.mu + d.beta * w)) ^ 2 / (2 * w))
        = exp (d.beta * (x - d.mu)) * exp (-((d.gamma ^ 2 + d.beta ^ 2) * w + ((x - d.mu) ^ 2 + d.delta ^ 2) / w) / 2) := by
      rw [← exp_add, ← exp_add]; congr 1; field_simp; ring
    calc w ^ (d.p - 1) * exp (-(d.gamma ^ 2 * w + d.delta ^ 2 / w) / 2) * ((√(2 * π) * √w)⁻¹ * exp (-(x - (d.mu + d.beta * w)) ^ 2 / (2 * w)))
        = w ^ (d.p - 1) * (√(2 * π) * √w)⁻¹ * (exp (-(d.gamma ^ 2 * w + d.delta ^ 2 / w) / 2) * exp (-(x - (d.mu + d.beta * w)) ^ 2 / (2 * w))) := by ring
      _ = _ := by rw [e, mul_inv]; ring
  · have hq := sqrt_pos.2 hq2
    rw [DistGig.kernel_integral ha hq, DistGig.kernel_integral hg hd, kve_eq, kve_eq]
    have hK := DistGig.besselK_pos (p := d.p) (mul_pos hg hd)
    unfold Spec.scipyGenhyperbolic scipyStats
    simp only
    have e1 : (d.alpha * d.delta) ^ 2 - (d.beta * d.delta) ^ 2 = (d.gamma * d.delta) ^ 2 := by rw [mul_pow, ha2]; ring
    have e2 : √((d.gamma * d.delta) ^ 2) = d.gamma * d.delta := sqrt_sq (by positivity)
    have e3 : √(1 + ((x - d.mu) / d.delta) ^ 2) = √((x - d.mu) ^ 2 + d.delta ^ 2) / d.delta := by
      rw [show 1 + ((x - d.mu) / d.delta) ^ 2 = ((x - d.mu) ^ 2 + d.delta ^ 2) / d.delta ^ 2 by field_simp; ring, sqrt_div hq2.le, sqrt_sq hd.le]
    rw [e1, e2, e3]
    set q := √((x - d.mu) ^ 2 + d.delta ^ 2) with hqd
    clear_value q
    have e4 : d.alpha * d.delta * (q / d.delta) = d.alpha * q := by field_simp
    have e5 : ((d.gamma * d.delta) ^ 2) ^ (d.p / 2) = (d.gamma * d.delta) ^ d.p := by
      rw [← rpow_natCast, ← rpow_mul (by positivity)]; congr 1; push_cast; ring
    have e6 : d.beta * d.delta * ((x - d.mu) / d.delta) = d.beta * (x - d.mu) := by field_simp
    rw [e4, e5, e6, mul_rpow hg.le hd.le, mul_rpow ha.le hd.le, div_rpow hq.le hd.le, div_rpow hq.le ha.le, div_rpow hd.le hg.le, exp_neg, exp_neg,
      show 1 / 2 - d.p = -(d.p - 1 / 2) by ring, rpow_neg hq.le, rpow_neg hd.le]
    have h1 : d.delta ^ (d.p - 1 / 2) * d.delta ^ (d.p - 1 / 2) * d.delta = (d.delta ^ d.p) ^ 2 := by
      rw [← rpow_add hd, ← rpow_add_one hd.ne', ← rpow_natCast, ← rpow_mul hd.le]; congr 1; push_cast; ring
    have p1 := rpow_pos_of_pos hg d.p
    have p2 := rpow_pos_of_pos hd d.p
    have p3 := rpow_pos_of_pos hd (d.p - 1 / 2)
    have p4 := rpow_pos_of_pos ha (d.p - 1 / 2)
    have p5 := rpow_pos_of_pos hq (d.p - 1 / 2)
    have p6 : 0 < √(2 * π) := by positivity
    have p7 := exp_pos (d.alpha * q)
    have p8 := exp_pos (d.gamma * d.delta)
    generalize d.delta ^ (d.p - 1 / 2) = D at *
    generalize d.delta ^ d.p = D' at *
    generalize d.gamma ^ d.p = Gm at *
    generalize d.alpha ^ (d.p - 1 / 2) = Al at *
    generalize q ^ (d.p - 1 / 2) = Q at *
    generalize Spec.besselKr d.p (d.gamma * d.delta) = K at *
    generalize Spec.besselKr (d.p - 1 / 2) (d.alpha * q) = K2 at *
    generalize exp (d.alpha * q) = E1 at *
    generalize exp (d.gamma * d.delta) = E2 at *
    generalize exp (d.beta * (x - d.mu)) = E3 at *
    generalize √(2 * π) = S at *
    field_simp
    linear_combination E3 * K2 * h1

/-- Integral against the normal law written as an integral against its density. -/
lemma inner_gauss (m : ℝ) {w : ℝ} (hw : 0 < w) {f : ℝ → ENNReal} (hf : Measurable f) :
    ∫⁻ z, f (m + √w * z) ∂(gaussianReal 0 1) = ∫⁻ x, ENNReal.ofReal ((√(2 * π * w))⁻¹ * exp (-(x - m) ^ 2 / (2 * w))) * f x := by
  have e : (gaussianReal 0 1).map (fun z => m + √w * z) = gaussianReal m w.toNNReal := by
    have h3 : (gaussianReal 0 1).map (fun z => m + √w * z) = ((gaussianReal 0 1).map (√w * ·)).map (m + ·) := by
      rw [Measure.map_map (by fun_prop) (by fun_prop)]; rfl
    rw [h3, gaussianReal_map_const_mul, gaussianReal_map_const_add]
    congr 1
    · ring
    · ext; rw [Real.coe_toNNReal _ hw.le, NNReal.coe_mul, NNReal.coe_one, mul_one]; exact sq_sqrt hw.le
  have h4 : ∫⁻ z, f (m + √w * z) ∂(gaussianReal 0 1) = ∫⁻ x, f x ∂((gaussianReal 0 1).map (fun z => m + √w * z)) :=
    (lintegral_map hf (by fun_prop)).symm
  have hne : w.toNNReal ≠ 0 := (Real.toNNReal_pos.2 hw).ne'
  rw [h4, e, gaussianReal_of_var_ne_zero _ hne, lintegral_withDensity_eq_lintegral_mul _ (measurable_gaussianPDF _ _) hf]
  refine lintegral_congr fun x => ?_
  simp only [Pi.mul_apply, gaussianPDF, gaussianPDFReal, Real.coe_toNNReal _ hw.le]

/-- **C142 (generalized hyperbolic).** For positive `gamma`, `delta`: the law of `mu + beta W + √W Z` with `W` drawn from `mixer()` and `Z` an independent standard normal has, with respect to
Lebesgue measure, exactly the density of the frozen `scipy.stats.genhyperbolic` object. -/
theorem scipy_correct (d : DistGh) (hg : 0 < d.gamma) (hd : 0 < d.delta) :
    Spec.ghMeasure d.mu d.beta d.mixer.gamma d.mixer.delta d.mixer.p
      = volume.withDensity fun x => ENNReal.ofReal (Spec.scipyGenhyperbolic d.scipyStats.1 d.scipyStats.2.1 d.scipyStats.2.2.1 d.scipyStats.2.2.2.1 d.scipyStats.2.2.2.2 x) := by
  have hP := DistGig.gig_prob hg hd d.p
  have hI := DistGig.kernel_integral_pos hg hd d.p
  refine Measure.ext_of_lintegral _ fun f hf => ?_
  have hnvm : Measurable (Spec.nvm d.mu d.beta) := by unfold Spec.nvm; fun_prop
  have hL : ∫⁻ x, f x ∂(Spec.ghMeasure d.mu d.beta d.gamma d.delta d.p)
      = ∫⁻ w in Ioi 0, ∫⁻ x, ENNReal.ofReal (Spec.gigKernel d.gamma d.delta d.p w / (∫ t in Ioi 0, Spec.gigKernel d.gamma d.delta d.p t)
          * ((√(2 * π * w))⁻¹ * exp (-(x - (d.mu + d.beta * w)) ^ 2 / (2 * w)))) * f x := by
    unfold Spec.ghMeasure
    rw [lintegral_map hf hnvm, lintegral_prod (fun q => f (Spec.nvm d.mu d.beta q)) (hf.comp hnvm).aemeasurable,
      DistGig.lintegral_gig d.p (Measurable.lintegral_prod_right' (f := fun q : ℝ × ℝ => f (Spec.nvm d.mu d.beta q)) (hf.comp hnvm))]
    refine setLIntegral_congr_fun measurableSet_Ioi fun w hw => ?_
    have hw : 0 < w := hw
    have h := inner_gauss (d.mu + d.beta * w) hw hf
    simp only [Spec.nvm]
    rw [h, ← lintegral_const_mul _ (by fun_prop)]
    refine lintegral_congr fun x => ?_
    rw [ENNReal.ofReal_mul (div_nonneg (DistGig.kernel_pos hw).le hI.le)]
    exact (mul_assoc _ _ _).symm
  have hR : ∀ x, ∫⁻ w in Ioi 0, ENNReal.ofReal (Spec.gigKernel d.gamma d.delta d.p w / (∫ t in Ioi 0, Spec.gigKernel d.gamma d.delta d.p t)
          * ((√(2 * π * w))⁻¹ * exp (-(x - (d.mu + d.beta * w)) ^ 2 / (2 * w))))
      = ENNReal.ofReal (Spec.scipyGenhyperbolic d.scipyStats.1 d.scipyStats.2.1 d.scipyStats.2.2.1 d.scipyStats.2.2.2.1 d.scipyStats.2.2.2.2 x) := by
    intro x
    obtain ⟨h1, h2⟩ := d.mix_density hg hd x
    have hq := sqrt_pos.2 (show 0 < (x - d.mu) ^ 2 + d.delta ^ 2 by positivity)
    have hk := DistGig.kernel_integrable (d.alpha_pos hg) hq (d.p - 1 / 2)
    rw [← h2, ← integral_const_mul, ← integral_div, ofReal_integral_eq_lintegral_ofReal ((hk.const_mul _).div_const _)]
    · refine setLIntegral_congr_fun measurableSet_Ioi fun w hw => ?_
      rw [← h1 w hw]
      congr 1
      ring
    · refine (ae_restrict_iff' measurableSet_Ioi).2 (ae_of_all _ fun w hw => ?_)
      have := DistGig.kernel_pos (g := d.alpha) (d := √((x - d.mu) ^ 2 + d.delta ^ 2)) (p := d.p - 1 / 2) hw
      simp only [Pi.zero_apply]
      positivity
  have hm : Measurable fun q : ℝ × ℝ => ENNReal.ofReal (Spec.gigKernel d.gamma d.delta d.p q.1 / (∫ t in Ioi 0, Spec.gigKernel d.gamma d.delta d.p t)
          * ((√(2 * π * q.1))⁻¹ * exp (-(q.2 - (d.mu + d.beta * q.1)) ^ 2 / (2 * q.1)))) := by
    unfold Spec.gigKernel; fun_prop
  show ∫⁻ x, f x ∂(Spec.ghMeasure d.mu d.beta d.gamma d.delta d.p) = _
  rw [hL, lintegral_lintegral_swap (hm.mul (hf.comp measurable_snd)).aemeasurable]
  have hs : Measurable fun x => ENNReal.ofReal (Spec.scipyGenhyperbolic d.scipyStats.1 d.scipyStats.2.1 d.scipyStats.2.2.1 d.scipyStats.2.2.2.1 d.scipyStats.2.2.2.2 x) := by
    have h5 := Measurable.lintegral_prod_left' (μ := volume.restrict (Ioi (0 : ℝ))) hm
    rw [← funext hR]
    exact h5
  rw [lintegral_withDensity_eq_lintegral_mul _ hs hf]
  refine lintegral_congr fun x => ?_
  have h6 : Measurable fun w : ℝ => (w, x) := measurable_id.prodMk measurable_const
  exact (lintegral_mul_const (f x) (hm.comp h6)).trans (congrArg (· * f x) (hR x))

example : Spec.ghMeasure (1 / 10) (-2) 3 (1 / 2) 1
    = volume.withDensity fun x => ENNReal.ofReal (Spec.scipyGenhyperbolic 1 (√(3 ^ 2 + (-2) ^ 2) * (1 / 2)) (-2 * (1 / 2)) (1 / 10) (1 / 2) x) :=
  scipy_correct ⟨1 / 10, -2, 3, 1 / 2, 1⟩ (by norm_num) (by norm_num)

/-- **C142 (generalized hyperbolic moments).** For positive `gamma`, `delta`, `mvsk()` lists the mean, variance, skewness and excess kurtosis of the law of `mu + beta W + √W Z`, hence of the density
of the `scipy.stats` object. -/
theorem mvsk_law (d : DistGh) (hg : 0 < d.gamma) (hd : 0 < d.delta) :
    Spec.IsMvsk (fun x => x) (volume.withDensity fun x => ENNReal.ofReal
        (Spec.scipyGenhyperbolic d.scipyStats.1 d.scipyStats.2.1 d.scipyStats.2.2.1 d.scipyStats.2.2.2.1 d.scipyStats.2.2.2.2 x))
      (d.mvsk Spec.kve).mean (d.mvsk Spec.kve).var (d.mvsk Spec.kve).skew (d.mvsk Spec.kve).exkurt := by
  have hP := DistGig.gig_prob hg hd d.p
  rw [← d.scipy_correct hg hd]
  have h := mvskOfMixer_correct (Spec.gigMeasure d.gamma d.delta d.p) d ((DistGig.gig_pos d.p).mono fun x hx => hx.le) (fun k _ => DistGig.gig_integrable hg hd d.p k)
  have m := DistGig.gig_moment hg hd d.p
  have m1 := m 1
  simp only [pow_one] at m1
  rw [m1, m 2, m 3, m 4] at h
  have hnvm : Measurable (Spec.nvm d.mu d.beta) := by unfold Spec.nvm; fun_prop
  have hmean : ∫ x, x ∂(Spec.ghMeasure d.mu d.beta d.gamma d.delta d.p) = ∫ q, Spec.nvm d.mu d.beta q ∂((Spec.gigMeasure d.gamma d.delta d.p).prod (gaussianReal 0 1)) :=
    integral_map hnvm.aemeasurable (by fun_prop)
  have hc : ∀ k, centralMoment (fun x => x) k (Spec.ghMeasure d.mu d.beta d.gamma d.delta d.p)
      = centralMoment (Spec.nvm d.mu d.beta) k ((Spec.gigMeasure d.gamma d.delta d.p).prod (gaussianReal 0 1)) := by
    intro k
    unfold centralMoment
    rw [hmean]
    exact integral_map hnvm.aemeasurable (by fun_prop)
  obtain ⟨h1, h2, h3, h4⟩ := h
  refine ⟨hmean.trans h1, (hc 2).trans h2, ?_, ?_⟩
  · show centralMoment _ 3 (Spec.ghMeasure d.mu d.beta d.gamma d.delta d.p) / _ = _
    have := hc 2; have := hc 3
    simp only [mixer]
    rw [hc 2, hc 3]; exact h3
  · simp only [mixer]
    rw [hc 2, hc 4]; exact h4

/-- `alpha` dominates `|beta|`, so the `scipy` arguments are always in the documented domain `|b| < a`, with `a² - b² = sigma⁴`; and `beta_tilde²= beta² delta / gamma`. -/
theorem scipy_domain (d : DistGh) (hg : 0 < d.gamma) (hd : 0 < d.delta) :
    |d.scipyStats.2.2.1| < d.scipyStats.2.1 ∧ d.scipyStats.2.1 ^ 2 - d.scipyStats.2.2.1 ^ 2 = d.sigma ^ 4 ∧
    d.betaTilde ^ 2 = d.beta ^ 2 * d.delta / d.gamma ∧ 0 < d.scipyStats.2.2.2.2 := by
  have ha := d.alpha_sq
  have hs : d.sigma ^ 2 = d.gamma * d.delta := sq_sqrt (by positivity)
  refine ⟨?_, ?_, ?_, hd⟩
  · refine abs_lt_of_sq_lt_sq ?_ (mul_nonneg (d.alpha_pos hg).le hd.le)
    show (d.beta * d.delta) ^ 2 < (d.alpha * d.delta) ^ 2
    rw [mul_pow, mul_pow, ha]
    have : 0 < d.gamma ^ 2 * d.delta ^ 2 := by positivity
    nlinarith
  · show (d.alpha * d.delta) ^ 2 - (d.beta * d.delta) ^ 2 = _
    rw [show d.sigma ^ 4 = (d.sigma ^ 2) ^ 2 by ring, hs, mul_pow, ha]; ring
  · unfold betaTilde
    rw [mul_pow, sq_sqrt (by positivity)]; ring

example : |(DistGh.scipyStats ⟨1 / 10, -2, 3, 1 / 2, -1 / 2⟩).2.2.1| < (DistGh.scipyStats ⟨1 / 10, -2, 3, 1 / 2, -1 / 2⟩).2.1 :=
  (scipy_domain ⟨1 / 10, -2, 3, 1 / 2, -1 / 2⟩ (by norm_num) (by norm_num)).1

end DistGh

end PyFENG
