import Verif.Props.DistQuad
import Mathlib.MeasureTheory.Integral.Prod

/-!
# Properties of the GIG / GH / NIG helpers (C44, C45, C46)
-/

namespace PyFENG

open Real MeasureTheory ProbabilityTheory Finset

/-- Specification: mean, variance, skewness and excess kurtosis of `X` under `μ`. -/
structure Spec.IsMvsk {Ω : Type*} [MeasurableSpace Ω] (X : Ω → ℝ) (μ : Measure Ω)
    (mean var skew exkurt : ℝ) : Prop where
  mean_eq : ∫ ω, X ω ∂μ = mean
  var_eq : centralMoment X 2 μ = var
  skew_eq : centralMoment X 3 μ / (centralMoment X 2 μ * √(centralMoment X 2 μ)) = skew
  exkurt_eq : centralMoment X 4 μ / centralMoment X 2 μ ^ 2 - 3 = exkurt

/-! ## GIG -/

namespace DistGig

/-- Specification: unnormalised GIG density `x^(p-1) exp(-(γ² x + δ²/x)/2)` (docstring of `DistGig`). -/
noncomputable def _root_.PyFENG.Spec.gigKernel (gamma delta p x : ℝ) : ℝ :=
  x ^ (p - 1) * exp (-(gamma ^ 2 * x + delta ^ 2 / x) / 2)

/-- Specification: expectation under the GIG law, as a ratio of integrals. -/
noncomputable def _root_.PyFENG.Spec.gigE (gamma delta p : ℝ) (f : ℝ → ℝ) : ℝ :=
  (∫ x in Set.Ioi 0, Spec.gigKernel gamma delta p x * f x) / ∫ x in Set.Ioi 0, Spec.gigKernel gamma delta p x

/-- Specification of `scipy.special.kve`: `e^q K_p(q)` with the integral representation
`K_p(q) = ½ ∫_0^∞ t^(p-1) exp(-q (t + 1/t)/2) dt`. -/
noncomputable def _root_.PyFENG.Spec.kve (p q : ℝ) : ℝ :=
  exp q * (1 / 2 * ∫ t in Set.Ioi 0, t ^ (p - 1) * exp (-q * (t + 1 / t) / 2))

lemma kernel_integral {gamma delta : ℝ} (hg : 0 < gamma) (hd : 0 < delta) (p : ℝ) :
    ∫ x in Set.Ioi 0, Spec.gigKernel gamma delta p x =
      2 * exp (-(gamma * delta)) * (delta / gamma) ^ p * Spec.kve p (gamma * delta) := by
  have hs : 0 < delta / gamma := by positivity
  have h := integral_comp_mul_left_Ioi (Spec.gigKernel gamma delta p) 0 hs
  rw [mul_zero, smul_eq_mul] at h
  have h' : ∫ x in Set.Ioi 0, Spec.gigKernel gamma delta p x =
      (delta / gamma) * ∫ x in Set.Ioi 0, Spec.gigKernel gamma delta p (delta / gamma * x) := by
    rw [h]; field_simp
  rw [h']
  have e : ∫ x in Set.Ioi 0, Spec.gigKernel gamma delta p (delta / gamma * x) =
      (delta / gamma) ^ (p - 1) * ∫ t in Set.Ioi 0, t ^ (p - 1) * exp (-(gamma * delta) * (t + 1 / t) / 2) := by
    rw [← integral_const_mul]
    refine setIntegral_congr_fun measurableSet_Ioi fun x hx => ?_
    have hx' : 0 < x := hx
    unfold Spec.gigKernel
    rw [mul_rpow hs.le hx'.le, mul_assoc]
    congr 3
    field_simp
  rw [e]
  unfold Spec.kve
  rw [rpow_sub_one hs.ne', exp_neg]
  have := exp_pos (gamma * delta)
  generalize (∫ t in Set.Ioi 0, t ^ (p - 1) * exp (-(gamma * delta) * (t + 1 / t) / 2)) = I
  field_simp

/-- **C46.** `DistGig.mnc(r)` is the raw moment of order `r` of the GIG law. -/
theorem mnc_correct (d : DistGig) (hg : 0 < d.gamma) (hd : 0 < d.delta) (r : ℕ) :
    mnc Spec.kve d r = Spec.gigE d.gamma d.delta d.p (fun x => x ^ r) := by
  have hs : 0 < d.delta / d.gamma := by positivity
  have e : ∫ x in Set.Ioi 0, Spec.gigKernel d.gamma d.delta d.p x * x ^ r =
      ∫ x in Set.Ioi 0, Spec.gigKernel d.gamma d.delta (d.p + r) x := by
    refine setIntegral_congr_fun measurableSet_Ioi fun x hx => ?_
    have hx' : 0 < x := hx
    unfold Spec.gigKernel
    rw [show d.p + r - 1 = (d.p - 1) + r by ring, rpow_add_natCast hx'.ne']
    ring
  unfold Spec.gigE mnc
  simp only
  rw [e, kernel_integral hg hd, kernel_integral hg hd, rpow_add_natCast hs.ne']
  have h1 := rpow_pos_of_pos hs d.p
  have h2 := exp_pos (-(d.gamma * d.delta))
  by_cases h0 : Spec.kve d.p (d.gamma * d.delta) = 0
  · simp [h0]
  · field_simp

/-- **C46.** The raw-to-standardised conversion of `DistGig.mvsk` is right for every law with four moments and nonzero
mean. -/
theorem mvskOfRaw_correct (μ : Measure ℝ) [IsProbabilityMeasure μ]
    (i1 : Integrable (fun x => x) μ) (i2 : Integrable (fun x => x ^ 2) μ)
    (i3 : Integrable (fun x => x ^ 3) μ) (i4 : Integrable (fun x => x ^ 4) μ) :
    let r := mvskOfRaw (∫ x, x ∂μ) (∫ x, x ^ 2 ∂μ) (∫ x, x ^ 3 ∂μ) (∫ x, x ^ 4 ∂μ)
    Spec.IsScaledMvsk (fun x => x) μ r.mean r.var r.skew r.exkurt := by
  intro r
  obtain ⟨c2, c3, c4⟩ := centralMoment_of_raw μ i1 i2 i3 i4 rfl rfl rfl rfl
  constructor
  · rfl
  · rw [c2]; rfl
  · rw [c2, c3]; rfl
  · rw [c2, c4]; rfl

/-- **C46.** `mc4 ∘ mvsk` of raw moments gives the central moments (positive variance). -/
theorem mc4_correct (μ : Measure ℝ) [IsProbabilityMeasure μ]
    (i1 : Integrable (fun x => x) μ) (i2 : Integrable (fun x => x ^ 2) μ)
    (i3 : Integrable (fun x => x ^ 3) μ) (i4 : Integrable (fun x => x ^ 4) μ) (hm : ∫ x, x ∂μ ≠ 0)
    (hv : 0 < centralMoment (fun x => x) 2 μ) :
    let r := mc4OfMvsk (mvskOfRaw (∫ x, x ∂μ) (∫ x, x ^ 2 ∂μ) (∫ x, x ^ 3 ∂μ) (∫ x, x ^ 4 ∂μ))
    Spec.IsMc4 (fun x => x) μ r.m1 r.mc2 r.mc3 r.mc4 := by
  intro r
  obtain ⟨c2, c3, c4⟩ := centralMoment_of_raw μ i1 i2 i3 i4 rfl rfl rfl rfl
  have hs := sqrt_pos.2 hv
  have e : r.mc2 = centralMoment (fun x => x) 2 μ := by
    rw [c2]; simp only [r, mc4OfMvsk, mvskOfRaw]; field_simp
  have e3 : r.mc3 = (∫ x, x ^ 3 ∂μ - 3 * (∫ x, x ^ 2 ∂μ) * (∫ x, x ∂μ) + 2 * (∫ x, x ∂μ) ^ 3) /
      (centralMoment (fun x => x) 2 μ * √(centralMoment (fun x => x) 2 μ)) * (r.mc2 * √r.mc2) := by
    rw [c2]; rfl
  have e4 : r.mc4 = ((∫ x, x ^ 4 ∂μ - 4 * (∫ x, x ^ 3 ∂μ) * (∫ x, x ∂μ) + 6 * (∫ x, x ^ 2 ∂μ) * (∫ x, x ∂μ) ^ 2
      - 3 * (∫ x, x ∂μ) ^ 4) / (centralMoment (fun x => x) 2 μ) ^ 2 - 3 + 3) * r.mc2 ^ 2 := by
    rw [c2]; rfl
  refine ⟨rfl, e.symm, ?_, ?_⟩
  · rw [e3, e, ← c3]; field_simp
  · rw [e4, e, ← c4]; field_simp; ring

/-- **C45.** `DistGig.fit`: if the root search returns a root `eta > 0` of its objective, the fitted object has the
requested mean and scaled variance (`kve` positive). -/
theorem fit_roundtrip (kve : ℝ → ℝ → ℝ) (hk : ∀ a q, 0 < q → 0 < kve a q) (p mean vs eta : ℝ) (hm : 0 < mean)
    (he : 0 < eta) (hroot : cv2Err kve p vs eta = 0) :
    (mvsk kve (fitWith kve p mean eta)).mean = mean ∧ (mvsk kve (fitWith kve p mean eta)).var = vs ∧
      (fitWith kve p mean eta).p = p := by
  have k0 := hk p eta he
  have k1 := hk (p + 1) eta he
  have k2 := hk (p + 2) eta he
  set r1 := kve (p + 1) eta / kve p eta with hr1
  have hr1p : 0 < r1 := by positivity
  set rho := mean / r1 with hrho
  have hrp : 0 < rho := by positivity
  have hgd : √(eta / rho) * √(eta * rho) = eta := by
    rw [← sqrt_mul (by positivity), show eta / rho * (eta * rho) = eta ^ 2 by field_simp, sqrt_sq he.le]
  have hdg : √(eta * rho) / √(eta / rho) = rho := by
    rw [← sqrt_div (by positivity), show eta * rho / (eta / rho) = rho ^ 2 by field_simp, sqrt_sq hrp.le]
  have m1 : mnc kve (fitWith kve p mean eta) 1 = mean := by
    unfold mnc fitWith
    simp only
    rw [← hr1, ← hrho, hgd, hdg, Nat.cast_one, pow_one, mul_div_assoc, ← hr1, hrho]
    field_simp
  have m2 : mnc kve (fitWith kve p mean eta) 2 = rho ^ 2 * (kve (p + 2) eta / kve p eta) := by
    unfold mnc fitWith
    simp only
    rw [← hr1, ← hrho, hgd, hdg, Nat.cast_ofNat, mul_div_assoc]
  refine ⟨m1, ?_, rfl⟩
  unfold mvsk mvskOfRaw
  simp only
  rw [m1, m2]
  unfold cv2Err at hroot
  simp only at hroot
  rw [← hr1] at hroot
  have hmr : mean = rho * r1 := by rw [hrho]; field_simp
  rw [hmr, mul_pow, show rho ^ 2 * (kve (p + 2) eta / kve p eta) - rho ^ 2 * r1 ^ 2 =
    rho ^ 2 * (kve (p + 2) eta / kve p eta - r1 ^ 2) by ring, mul_div_mul_left _ _ (by positivity)]
  linarith

/-- **C44.** `DistGig.quad(n, correct=True)` has positive nodes and weights summing to one. -/
theorem quad_normalised {ι : Type*} [Fintype ι] [Nonempty ι] (kve : ℝ → ℝ → ℝ) (d : DistGig) (hg : 0 < d.gamma)
    (hd : 0 < d.delta) (n : ℕ) (z w : ι → ℝ) (wSum : ℝ) (h : Spec.IsHermiteRule n z w wSum) :
    (∀ i, 0 < (quad kve d z w wSum true).1 i) ∧ (∀ i, 0 < (quad kve d z w wSum true).2 i) ∧
      ∑ i, (quad kve d z w wSum true).2 i = 1 := by
  unfold quad DistInvGauss.quad
  simp only [if_true]
  have hf : 0 < 0.5 * (d.delta / d.gamma) / d.delta ^ 2 := by positivity
  have hw := h.wSum_pos
  have hx : ∀ i, 0 < DistInvGauss.quadRoot (0.5 * (d.delta / d.gamma) / d.delta ^ 2) (z i) :=
    fun i => DistInvGauss.quadRoot_pos hf _
  have hpos : ∀ i, 0 < w i * (2 / (wSum * (1 + DistInvGauss.quadRoot (0.5 * (d.delta / d.gamma) / d.delta ^ 2) (z i)))) *
      (DistInvGauss.quadRoot (0.5 * (d.delta / d.gamma) / d.delta ^ 2) (z i) * (d.delta / d.gamma)) ^ (d.p + 0.5) := by
    intro i
    have h1 := h.pos i
    have h2 := hx i
    positivity
  have hS := Finset.sum_pos (fun i (_ : i ∈ Finset.univ) => hpos i) Finset.univ_nonempty
  refine ⟨fun i => ?_, fun i => div_pos (hpos i) hS, ?_⟩
  · have := hx i; positivity
  · rw [← Finset.sum_div, div_self hS.ne']

/-- The closed form `e^q K_{-1/2}(q) = √(π/(2q))`, a consequence of the specification of `kve` and of the normalisation
of the inverse Gaussian law. -/
theorem kve_neg_half {q : ℝ} (hq : 0 < q) : Spec.kve (-(1 / 2)) q = √(π / (2 * q)) := by
  have h := (DistInvGauss.raw_moments (mu := 1) (lam := q) one_pos hq).1
  unfold Spec.igMeasure at h
  have hmeas : Measurable (fun x => ENNReal.ofReal (Spec.igPDF 1 q x)) := by
    unfold Spec.igPDF; fun_prop
  rw [integral_withDensity_eq_integral_toReal_smul hmeas (by simp)] at h
  have e : ∫ x in Set.Ioi 0, (ENNReal.ofReal (Spec.igPDF 1 q x)).toReal • x ^ 0 =
      √(q / (2 * π)) * exp q * ∫ t in Set.Ioi 0, t ^ (-(1 / 2) - 1 : ℝ) * exp (-q * (t + 1 / t) / 2) := by
    rw [← integral_const_mul]
    refine setIntegral_congr_fun measurableSet_Ioi fun x hx => ?_
    have hx' : 0 < x := hx
    rw [ENNReal.toReal_ofReal (by unfold Spec.igPDF; positivity)]
    unfold Spec.igPDF
    have h1 : √(q / (2 * π * x ^ 3)) = √(q / (2 * π)) * x ^ (-(1 / 2) - 1 : ℝ) := by
      rw [show q / (2 * π * x ^ 3) = q / (2 * π) * (1 / x ^ 3) by field_simp, sqrt_mul (by positivity)]
      congr 1
      rw [sqrt_eq_rpow, one_div, ← rpow_natCast, ← rpow_neg hx'.le, ← rpow_mul hx'.le]
      norm_num
    rw [h1, show exp (-q * (x - 1) ^ 2 / (2 * 1 ^ 2 * x)) = exp q * exp (-q * (x + 1 / x) / 2) by
      rw [← exp_add]; congr 1; field_simp; ring]
    simp only [pow_zero, smul_eq_mul, mul_one]
    ring
  rw [e] at h
  unfold Spec.kve
  have hpi := pi_pos
  have hs : 0 < √(q / (2 * π)) := sqrt_pos.2 (by positivity)
  have h2 : √(π / (2 * q)) = 1 / 2 * (√(q / (2 * π)))⁻¹ := by
    rw [← sqrt_inv, inv_div, show (1 / 2 : ℝ) = √(1 / 4) by
      rw [show (1 / 4 : ℝ) = (1 / 2) ^ 2 by norm_num, sqrt_sq (by norm_num)], ← sqrt_mul (by norm_num)]
    congr 1; field_simp; ring
  rw [h2]
  generalize (∫ t in Set.Ioi 0, t ^ (-(1 / 2) - 1 : ℝ) * exp (-q * (t + 1 / t) / 2)) = I at *
  field_simp
  linarith

/-- **C44.** For `p = -1/2` the GIG quadrature *is* the inverse Gaussian quadrature of `from_gig(gamma, delta)` (so the
uncorrected weights already sum to one). -/
theorem quad_neg_half {ι : Type*} [Fintype ι] (gamma delta : ℝ) (hg : 0 < gamma)
    (hd : 0 < delta) (z w : ι → ℝ) (wSum : ℝ) :
    quad Spec.kve ⟨gamma, delta, -0.5⟩ z w wSum false = (DistInvGauss.fromGig gamma delta).quad z w wSum := by
  unfold quad DistInvGauss.fromGig
  simp only
  rw [show (-0.5 + 0.5 : ℝ) = 0 by norm_num, show (-0.5 : ℝ) = -(1 / 2) by norm_num, kve_neg_half (by positivity)]
  have e : (gamma / delta) ^ (-(1 / 2) : ℝ) / delta / √(2 / π) / √(π / (2 * (gamma * delta))) = 1 := by
    rw [rpow_neg (by positivity), ← sqrt_eq_rpow, ← sqrt_inv]
    have hpi := pi_pos
    have h1 : √(gamma / delta)⁻¹ = √(2 / π) * √(π / (2 * (gamma * delta))) * delta := by
      rw [← sqrt_mul (by positivity), show (2 / π) * (π / (2 * (gamma * delta))) = (gamma / delta)⁻¹ / delta ^ 2 by
        field_simp, sqrt_div (by positivity), sqrt_sq hd.le]
      field_simp
    rw [h1]
    have h2 : 0 < √(2 / π) := sqrt_pos.2 (by positivity)
    have h3 : 0 < √(π / (2 * (gamma * delta))) := sqrt_pos.2 (by positivity)
    field_simp
  rw [e]
  simp

end DistGig

/-! ## GH: normal variance-mean mixtures -/

namespace DistGh

/-- Specification: the mixture value `mu + beta w + √w z`. -/
noncomputable def _root_.PyFENG.Spec.nvm (mu beta : ℝ) (wz : ℝ × ℝ) : ℝ := mu + beta * wz.1 + √wz.1 * wz.2

section mixture
variable (ν : Measure ℝ) [IsProbabilityMeasure ν]

omit [IsProbabilityMeasure ν] in
lemma integrable_sqrt_pow (h0 : ∀ᵐ w ∂ν, 0 ≤ w) (hi : ∀ k ≤ 4, Integrable (fun w => w ^ k) ν) (k : ℕ) (hk : k ≤ 3) :
    Integrable (fun w => w ^ k * √w) ν := by
  refine ((hi k (by omega)).add (hi (k + 1) (by omega))).mono' (by fun_prop) ?_
  filter_upwards [h0] with w hw
  rw [Real.norm_of_nonneg (by positivity)]
  have : √w ≤ 1 + w := by
    rw [sqrt_le_left (by positivity)]; nlinarith
  have h2 : w ^ k * √w ≤ w ^ k * (1 + w) := mul_le_mul_of_nonneg_left this (by positivity)
  calc w ^ k * √w ≤ w ^ k * (1 + w) := h2
    _ = w ^ k + w ^ (k + 1) := by ring

/-- Expectation of a "polynomial" `Σ (A_j(w) + B_j(w) √w z) ...` needed below. -/
lemma integral_nvm_poly (A B C D E : ℝ → ℝ) (hA : Integrable A ν) (hB : Integrable B ν) (hC : Integrable C ν) (hD : Integrable D ν)
    (hE : Integrable E ν) :
    ∫ p, (A p.1 + B p.1 * p.2 + C p.1 * p.2 ^ 2 + D p.1 * p.2 ^ 3 + E p.1 * p.2 ^ 4) ∂(ν.prod (gaussianReal 0 1)) =
      ∫ w, A w ∂ν + ∫ w, C w ∂ν + 3 * ∫ w, E w ∂ν := by
  have g := integrable_pow_gauss
  have kA : Integrable (fun p : ℝ × ℝ => A p.1) (ν.prod (gaussianReal 0 1)) := by
    simpa using hA.mul_prod (g 0)
  have kB : Integrable (fun p : ℝ × ℝ => B p.1 * p.2) (ν.prod (gaussianReal 0 1)) := by
    simpa using hB.mul_prod (g 1)
  have kC : Integrable (fun p : ℝ × ℝ => C p.1 * p.2 ^ 2) (ν.prod (gaussianReal 0 1)) := hC.mul_prod (g 2)
  have kD : Integrable (fun p : ℝ × ℝ => D p.1 * p.2 ^ 3) (ν.prod (gaussianReal 0 1)) := hD.mul_prod (g 3)
  have kE : Integrable (fun p : ℝ × ℝ => E p.1 * p.2 ^ 4) (ν.prod (gaussianReal 0 1)) := hE.mul_prod (g 4)
  have s1 : Integrable (fun p : ℝ × ℝ => A p.1 + B p.1 * p.2) (ν.prod (gaussianReal 0 1)) := kA.add kB
  have s2 : Integrable (fun p : ℝ × ℝ => A p.1 + B p.1 * p.2 + C p.1 * p.2 ^ 2) (ν.prod (gaussianReal 0 1)) := s1.add kC
  have s3 : Integrable (fun p : ℝ × ℝ => A p.1 + B p.1 * p.2 + C p.1 * p.2 ^ 2 + D p.1 * p.2 ^ 3)
    (ν.prod (gaussianReal 0 1)) := s2.add kD
  have m1 := gaussE_pow_one
  have m2 := gaussE_pow_succ_succ 0
  have m3 := gaussE_pow_succ_succ 1
  have m4 := gaussE_pow_succ_succ 2
  rw [gaussE_pow_zero] at m2
  rw [m1] at m3
  simp only [zero_add] at m2
  rw [m2] at m4
  norm_num at m2 m3 m4
  simp only [pow_one] at m1
  unfold Spec.gaussE at m1 m2 m3 m4
  have eA : ∫ p, A p.1 ∂(ν.prod (gaussianReal 0 1)) = ∫ w, A w ∂ν := by
    have := integral_prod_mul (μ := ν) (ν := gaussianReal 0 1) A (fun _ => (1:ℝ))
    simpa using this
  have eB : ∫ p, B p.1 * p.2 ∂(ν.prod (gaussianReal 0 1)) = 0 := by
    rw [integral_prod_mul B (fun z => z), m1, mul_zero]
  have eC : ∫ p, C p.1 * p.2 ^ 2 ∂(ν.prod (gaussianReal 0 1)) = ∫ w, C w ∂ν := by
    rw [integral_prod_mul C (fun z => z ^ 2), m2, mul_one]
  have eD : ∫ p, D p.1 * p.2 ^ 3 ∂(ν.prod (gaussianReal 0 1)) = 0 := by
    rw [integral_prod_mul D (fun z => z ^ 3), m3, mul_zero]
  have eE : ∫ p, E p.1 * p.2 ^ 4 ∂(ν.prod (gaussianReal 0 1)) = 3 * ∫ w, E w ∂ν := by
    rw [integral_prod_mul E (fun z => z ^ 4), m4, mul_comm]
  rw [integral_add s3 kE, integral_add s2 kD, integral_add s1 kC, integral_add kA kB, eA, eB, eC, eD, eE]
  ring

/-- **C46.** `DistGh.mvsk` is right for *every* mixing law: if the four raw moments of the nonnegative mixer `W` are
plugged in, the result lists the mean, variance, skewness and excess kurtosis of `mu + beta W + √W Z`, `Z` an independent
standard normal. -/
theorem mvskOfMixer_correct (d : DistGh) (h0 : ∀ᵐ w ∂ν, 0 ≤ w) (hi : ∀ k ≤ 4, Integrable (fun w => w ^ k) ν) :
    let r := d.mvskOfMixer (∫ w, w ∂ν) (∫ w, w ^ 2 ∂ν) (∫ w, w ^ 3 ∂ν) (∫ w, w ^ 4 ∂ν)
    Spec.IsMvsk (Spec.nvm d.mu d.beta) (ν.prod (gaussianReal 0 1)) r.mean r.var r.skew r.exkurt := by
  intro r
  have i1 : Integrable (fun w : ℝ => w) ν := by simpa using hi 1 (by norm_num)
  have i2 := hi 2 (by norm_num)
  have i3 := hi 3 (by norm_num)
  have i4 := hi 4 (by norm_num)
  have s0 : Integrable (fun w : ℝ => √w) ν := by simpa using integrable_sqrt_pow ν h0 hi 0 (by norm_num)
  have s1 : Integrable (fun w : ℝ => w * √w) ν := by simpa using integrable_sqrt_pow ν h0 hi 1 (by norm_num)
  have s2 := integrable_sqrt_pow ν h0 hi 2 (by norm_num)
  have s3 := integrable_sqrt_pow ν h0 hi 3 (by norm_num)
  set m1 := ∫ w, w ∂ν with hm1
  set m2 := ∫ w, w ^ 2 ∂ν with hm2
  set m3 := ∫ w, w ^ 3 ∂ν with hm3
  set m4 := ∫ w, w ^ 4 ∂ν with hm4
  -- integrable polynomials in w
  have ip : ∀ a0 a1 a2 a3 a4 : ℝ, Integrable (fun w => a0 + a1 * w + a2 * w ^ 2 + a3 * w ^ 3 + a4 * w ^ 4) ν := by
    intro a0 a1 a2 a3 a4
    exact ((((integrable_const a0).add (i1.const_mul a1)).add (i2.const_mul a2)).add (i3.const_mul a3)).add
      (i4.const_mul a4)
  have isq : ∀ a0 a1 a2 a3 : ℝ, Integrable (fun w => a0 * √w + a1 * (w * √w) + a2 * (w ^ 2 * √w) + a3 * (w ^ 3 * √w)) ν := by
    intro a0 a1 a2 a3
    exact (((s0.const_mul a0).add (s1.const_mul a1)).add (s2.const_mul a2)).add (s3.const_mul a3)
  have lin : ∀ a0 a1 a2 a3 a4 : ℝ, ∫ w, (a0 + a1 * w + a2 * w ^ 2 + a3 * w ^ 3 + a4 * w ^ 4) ∂ν =
      a0 + a1 * m1 + a2 * m2 + a3 * m3 + a4 * m4 := by
    intro a0 a1 a2 a3 a4
    have k0 : Integrable (fun _ : ℝ => a0) ν := integrable_const _
    have k1 : Integrable (fun x : ℝ => a0 + a1 * x) ν := k0.add (i1.const_mul _)
    have k2 : Integrable (fun x : ℝ => a0 + a1 * x + a2 * x ^ 2) ν := k1.add (i2.const_mul _)
    have k3 : Integrable (fun x : ℝ => a0 + a1 * x + a2 * x ^ 2 + a3 * x ^ 3) ν := k2.add (i3.const_mul _)
    rw [integral_add k3 (i4.const_mul _), integral_add k2 (i3.const_mul _), integral_add k1 (i2.const_mul _),
      integral_add k0 (i1.const_mul _), integral_const_mul, integral_const_mul, integral_const_mul,
      integral_const_mul]
    simp [hm1, hm2, hm3, hm4]
  have hae : ∀ᵐ p ∂(ν.prod (gaussianReal 0 1)), √p.1 ^ 2 = p.1 := by
    have : ∀ᵐ p ∂(ν.prod (gaussianReal 0 1)), 0 ≤ p.1 := Measure.quasiMeasurePreserving_fst.ae h0
    filter_upwards [this] with p hp
    exact sq_sqrt hp
  have mean_eq : ∫ p, Spec.nvm d.mu d.beta p ∂(ν.prod (gaussianReal 0 1)) = d.mu + d.beta * m1 := by
    have h := integral_nvm_poly ν (fun w => d.mu + d.beta * w + 0 * w ^ 2 + 0 * w ^ 3 + 0 * w ^ 4) (fun w => √w)
      (fun _ => 0) (fun _ => 0) (fun _ => 0) (ip _ _ _ _ _) s0 (integrable_zero _ _ _) (integrable_zero _ _ _)
      (integrable_zero _ _ _)
    rw [lin] at h
    simp only [integral_zero, zero_mul, add_zero, mul_zero] at h
    exact h
  have cm : ∀ k, centralMoment (Spec.nvm d.mu d.beta) k (ν.prod (gaussianReal 0 1)) =
      ∫ p, (d.beta * (p.1 - m1) + √p.1 * p.2) ^ k ∂(ν.prod (gaussianReal 0 1)) := by
    intro k
    unfold centralMoment
    rw [mean_eq]
    congr 1; ext p
    simp only [Pi.pow_apply, Pi.sub_apply, Spec.nvm]
    congr 1; ring
  set b := d.beta with hb
  have c2 : centralMoment (Spec.nvm d.mu b) 2 (ν.prod (gaussianReal 0 1)) = r.var := by
    rw [cm]
    have h := integral_nvm_poly ν (fun w => b ^ 2 * m1 ^ 2 + (-2 * b ^ 2 * m1) * w + b ^ 2 * w ^ 2 + 0 * w ^ 3 + 0 * w ^ 4)
      (fun w => (-2 * b * m1) * √w + 2 * b * (w * √w) + 0 * (w ^ 2 * √w) + 0 * (w ^ 3 * √w))
      (fun w => 0 + 1 * w + 0 * w ^ 2 + 0 * w ^ 3 + 0 * w ^ 4) (fun _ => 0) (fun _ => 0)
      (ip _ _ _ _ _) (isq _ _ _ _) (ip _ _ _ _ _) (integrable_zero _ _ _) (integrable_zero _ _ _)
    rw [lin, lin] at h
    simp only [integral_zero] at h
    have e : r.var = m1 + b ^ 2 * (m2 - m1 ^ 2) := rfl
    rw [e]
    refine Eq.trans (integral_congr_ae ?_) (h.trans (by ring))
    filter_upwards [hae] with p hp
    linear_combination p.2 ^ 2 * hp
  have c3 : centralMoment (Spec.nvm d.mu b) 3 (ν.prod (gaussianReal 0 1)) =
      3 * b * (m2 - m1 ^ 2) + b ^ 3 * (m3 - 3 * m2 * m1 + 2 * m1 ^ 3) := by
    rw [cm]
    have h := integral_nvm_poly ν
      (fun w => (-b ^ 3 * m1 ^ 3) + (3 * b ^ 3 * m1 ^ 2) * w + (-3 * b ^ 3 * m1) * w ^ 2 + b ^ 3 * w ^ 3 + 0 * w ^ 4)
      (fun w => (3 * b ^ 2 * m1 ^ 2) * √w + (-6 * b ^ 2 * m1) * (w * √w) + (3 * b ^ 2) * (w ^ 2 * √w) + 0 * (w ^ 3 * √w))
      (fun w => 0 + (-3 * b * m1) * w + (3 * b) * w ^ 2 + 0 * w ^ 3 + 0 * w ^ 4)
      (fun w => 0 * √w + 1 * (w * √w) + 0 * (w ^ 2 * √w) + 0 * (w ^ 3 * √w)) (fun _ => 0)
      (ip _ _ _ _ _) (isq _ _ _ _) (ip _ _ _ _ _) (isq _ _ _ _) (integrable_zero _ _ _)
    rw [lin, lin] at h
    simp only [integral_zero] at h
    refine Eq.trans (integral_congr_ae ?_) (h.trans (by ring))
    filter_upwards [hae] with p hp
    linear_combination (3 * b * (p.1 - m1) * p.2 ^ 2 + √p.1 * p.2 ^ 3) * hp
  have c4 : centralMoment (Spec.nvm d.mu b) 4 (ν.prod (gaussianReal 0 1)) =
      3 * m2 + 6 * b ^ 2 * (m3 - 2 * m1 * m2 + m1 ^ 3) +
        b ^ 4 * (m4 - 4 * m3 * m1 + 6 * m2 * m1 ^ 2 - 3 * m1 ^ 4) := by
    rw [cm]
    have h := integral_nvm_poly ν
      (fun w => (b ^ 4 * m1 ^ 4) + (-4 * b ^ 4 * m1 ^ 3) * w + (6 * b ^ 4 * m1 ^ 2) * w ^ 2 + (-4 * b ^ 4 * m1) * w ^ 3
        + b ^ 4 * w ^ 4)
      (fun w => (-4 * b ^ 3 * m1 ^ 3) * √w + (12 * b ^ 3 * m1 ^ 2) * (w * √w) + (-12 * b ^ 3 * m1) * (w ^ 2 * √w)
        + (4 * b ^ 3) * (w ^ 3 * √w))
      (fun w => 0 + (6 * b ^ 2 * m1 ^ 2) * w + (-12 * b ^ 2 * m1) * w ^ 2 + (6 * b ^ 2) * w ^ 3 + 0 * w ^ 4)
      (fun w => 0 * √w + (-4 * b * m1) * (w * √w) + (4 * b) * (w ^ 2 * √w) + 0 * (w ^ 3 * √w))
      (fun w => 0 + 0 * w + 1 * w ^ 2 + 0 * w ^ 3 + 0 * w ^ 4)
      (ip _ _ _ _ _) (isq _ _ _ _) (ip _ _ _ _ _) (isq _ _ _ _) (ip _ _ _ _ _)
    rw [lin, lin, lin] at h
    refine Eq.trans (integral_congr_ae ?_) (h.trans (by ring))
    filter_upwards [hae] with p hp
    linear_combination (6 * b ^ 2 * (p.1 - m1) ^ 2 * p.2 ^ 2 + 4 * b * (p.1 - m1) * √p.1 * p.2 ^ 3
      + (√p.1 ^ 2 + p.1) * p.2 ^ 4) * hp
  refine ⟨mean_eq, c2, ?_, ?_⟩
  · rw [c2, c3]; rfl
  · rw [c2, c4]; rfl

end mixture

/-- **C46.** `DistNig.mvsk` lists the mean, variance, skewness and excess kurtosis of the NIG law, i.e. of
`mu + beta W + √W Z` with `W` inverse Gaussian `from_gig(gamma, delta)`. -/
theorem nigMvsk_correct (d : DistGh) (hg : 0 < d.gamma) (hd : 0 < d.delta) :
    Spec.IsMvsk (Spec.nvm d.mu d.beta) ((Spec.igMeasure (d.delta / d.gamma) (d.delta ^ 2)).prod (gaussianReal 0 1))
      d.nigMvsk.mean d.nigMvsk.var d.nigMvsk.skew d.nigMvsk.exkurt := by
  have hm : 0 < d.delta / d.gamma := by positivity
  have hl : 0 < d.delta ^ 2 := by positivity
  have := DistInvGauss.isProbabilityMeasure hm hl
  have h0 : ∀ᵐ w ∂(Spec.igMeasure (d.delta / d.gamma) (d.delta ^ 2)), 0 ≤ w := by
    have hac : Spec.igMeasure (d.delta / d.gamma) (d.delta ^ 2) ≪ volume.restrict (Set.Ioi 0) :=
      withDensity_absolutelyContinuous _ _
    refine hac.ae_le ?_
    filter_upwards [ae_restrict_mem measurableSet_Ioi] with w hw
    exact le_of_lt hw
  have h := mvskOfMixer_correct _ d h0 (fun k hk => DistInvGauss.integrable_pow hm hl k hk)
  obtain ⟨-, m1, m2, m3, m4⟩ := DistInvGauss.raw_moments hm hl
  rw [m1, m2, m3, m4] at h
  simp only at h
  have ha : 0 < d.gamma ^ 2 + d.beta ^ 2 := by positivity
  have hal := sq_sqrt ha.le
  have halp := sqrt_pos.2 ha
  have hs := sqrt_pos.2 (show 0 < d.delta * d.gamma by positivity)
  have hs2 := sq_sqrt (show 0 ≤ d.delta * d.gamma by positivity)
  have e : d.mvskOfMixer (d.delta / d.gamma)
      ((d.delta / d.gamma) ^ 2 * (1 + d.delta / d.gamma / d.delta ^ 2))
      ((d.delta / d.gamma) ^ 3 * (1 + 3 * (d.delta / d.gamma / d.delta ^ 2) + 3 * (d.delta / d.gamma / d.delta ^ 2) ^ 2))
      ((d.delta / d.gamma) ^ 4 * (1 + 6 * (d.delta / d.gamma / d.delta ^ 2) + 15 * (d.delta / d.gamma / d.delta ^ 2) ^ 2 +
        15 * (d.delta / d.gamma / d.delta ^ 2) ^ 3)) = d.nigMvsk := by
    have hvar : d.delta / d.gamma + d.beta ^ 2 *
        ((d.delta / d.gamma) ^ 2 * (1 + d.delta / d.gamma / d.delta ^ 2) - (d.delta / d.gamma) ^ 2) =
        d.delta * √(d.gamma ^ 2 + d.beta ^ 2) ^ 2 / d.gamma ^ 3 := by
      rw [hal]; field_simp; ring
    have hsd : √(d.delta * √(d.gamma ^ 2 + d.beta ^ 2) ^ 2 / d.gamma ^ 3) =
        √(d.delta * d.gamma) * √(d.gamma ^ 2 + d.beta ^ 2) / d.gamma ^ 2 := by
      rw [show d.delta * √(d.gamma ^ 2 + d.beta ^ 2) ^ 2 / d.gamma ^ 3 =
        (d.delta * d.gamma) * (√(d.gamma ^ 2 + d.beta ^ 2) / d.gamma ^ 2) ^ 2 by field_simp,
        sqrt_mul (by positivity), sqrt_sq (by positivity), mul_div_assoc]
    unfold mvskOfMixer nigMvsk
    simp only [Mvsk.mk.injEq]
    refine ⟨by ring, hvar, ?_, ?_⟩
    · rw [hvar, hsd]
      generalize hA : √(d.gamma ^ 2 + d.beta ^ 2) = A at *
      generalize hS : √(d.delta * d.gamma) = S at *
      rw [div_eq_div_iff (by positivity) (by positivity)]
      have h3 : 3 * d.beta * ((d.delta / d.gamma) ^ 2 * (1 + d.delta / d.gamma / d.delta ^ 2) - (d.delta / d.gamma) ^ 2)
          + d.beta ^ 3 * ((d.delta / d.gamma) ^ 3 * (1 + 3 * (d.delta / d.gamma / d.delta ^ 2)
            + 3 * (d.delta / d.gamma / d.delta ^ 2) ^ 2) - 3 * ((d.delta / d.gamma) ^ 2 *
            (1 + d.delta / d.gamma / d.delta ^ 2)) * (d.delta / d.gamma) + 2 * (d.delta / d.gamma) ^ 3) =
          3 * d.beta * d.delta * A ^ 2 / d.gamma ^ 5 := by
        rw [hal]; field_simp; ring
      rw [h3]
      field_simp
    · rw [hvar]
      generalize hA : √(d.gamma ^ 2 + d.beta ^ 2) = A at *
      have hg2 : d.gamma ^ 2 = A ^ 2 - d.beta ^ 2 := by linarith
      rw [sub_eq_iff_eq_add, div_eq_iff (by positivity)]
      field_simp
      ring_nf
      have hg4 : d.gamma ^ 4 = (A ^ 2 - d.beta ^ 2) ^ 2 := by rw [← hg2]; ring
      have hg3 : d.gamma ^ 3 = d.gamma * (A ^ 2 - d.beta ^ 2) := by rw [← hg2]; ring
      have hg5 : d.gamma ^ 5 = d.gamma * (A ^ 2 - d.beta ^ 2) ^ 2 := by rw [← hg2]; ring
      simp only [hg2, hg3, hg4, hg5]
      ring
  rw [e] at h
  exact h

/-- **C46.** `mvsk_quad` computes the moments of the finite normal mixture: when the quadrature weights sum to one it
agrees with the closed-form mixture formula fed with the quadrature raw moments. -/
theorem mvskQuad_eq {ι : Type*} [Fintype ι] (d : DistGh) (x w : ι → ℝ) (hw : ∑ i, w i = 1) :
    d.mvskQuad x w =
      d.mvskOfMixer (∑ i, w i * x i) (∑ i, w i * x i ^ 2) (∑ i, w i * x i ^ 3) (∑ i, w i * x i ^ 4) := by
  have lin : ∀ a0 a1 a2 a3 a4 : ℝ, ∑ i, w i * (a0 + a1 * x i + a2 * x i ^ 2 + a3 * x i ^ 3 + a4 * x i ^ 4) =
      a0 + a1 * ∑ i, w i * x i + a2 * ∑ i, w i * x i ^ 2 + a3 * ∑ i, w i * x i ^ 3 + a4 * ∑ i, w i * x i ^ 4 := by
    intro a0 a1 a2 a3 a4
    have e0 : a0 = ∑ i, a0 * w i := by rw [← Finset.mul_sum, hw, mul_one]
    conv_rhs => rw [e0]
    simp only [Finset.mul_sum]
    rw [← Finset.sum_add_distrib, ← Finset.sum_add_distrib,
      ← Finset.sum_add_distrib, ← Finset.sum_add_distrib]
    refine Finset.sum_congr rfl fun i _ => ?_
    ring
  set m1 := ∑ i, w i * x i
  set m2 := ∑ i, w i * x i ^ 2
  set m3 := ∑ i, w i * x i ^ 3
  set m4 := ∑ i, w i * x i ^ 4
  set b := d.beta with hb
  have e1 : ∑ i, w i * (d.mu + b * x i) = d.mu + b * m1 := by
    have := lin d.mu b 0 0 0
    simp only [zero_mul, add_zero] at this; exact this
  have e2 : ∑ i, w i * ((d.mu + b * x i - (d.mu + b * m1)) ^ 2 + x i) = m1 + b ^ 2 * (m2 - m1 ^ 2) := by
    have := lin (b ^ 2 * m1 ^ 2) (1 - 2 * b ^ 2 * m1) (b ^ 2) 0 0
    refine Eq.trans (Finset.sum_congr rfl fun i _ => ?_) (this.trans (by ring)); ring
  have e3 : ∑ i, w i * ((d.mu + b * x i - (d.mu + b * m1)) ^ 3 + 3 * (d.mu + b * x i - (d.mu + b * m1)) * x i) =
      3 * b * (m2 - m1 ^ 2) + b ^ 3 * (m3 - 3 * m2 * m1 + 2 * m1 ^ 3) := by
    have := lin (-b ^ 3 * m1 ^ 3) (3 * b ^ 3 * m1 ^ 2 - 3 * b * m1) (-3 * b ^ 3 * m1 + 3 * b) (b ^ 3) 0
    refine Eq.trans (Finset.sum_congr rfl fun i _ => ?_) (this.trans (by ring)); ring
  have e4 : ∑ i, w i * ((d.mu + b * x i - (d.mu + b * m1)) ^ 4 + 6 * (d.mu + b * x i - (d.mu + b * m1)) ^ 2 * x i
      + 3 * x i ^ 2) = 3 * m2 + 6 * b ^ 2 * (m3 - 2 * m1 * m2 + m1 ^ 3) +
        b ^ 4 * (m4 - 4 * m3 * m1 + 6 * m2 * m1 ^ 2 - 3 * m1 ^ 4) := by
    have := lin (b ^ 4 * m1 ^ 4) (-4 * b ^ 4 * m1 ^ 3 + 6 * b ^ 2 * m1 ^ 2) (6 * b ^ 4 * m1 ^ 2 - 12 * b ^ 2 * m1 + 3)
      (-4 * b ^ 4 * m1 + 6 * b ^ 2) (b ^ 4)
    refine Eq.trans (Finset.sum_congr rfl fun i _ => ?_) (this.trans (by ring)); ring
  unfold mvskQuad mvskOfMixer
  simp only
  rw [← hb, e1, e2, e3, e4]

/-- **C46.** For NIG with at least four quadrature nodes the numerical `mvsk_quad` equals the closed-form `mvsk`
exactly. -/
theorem nig_mvskQuad_exact {ι : Type*} [Fintype ι] (d : DistGh) (hg : 0 < d.gamma) (hd : 0 < d.delta) (n : ℕ)
    (hn : 4 ≤ n) (z w : ι → ℝ) (wSum : ℝ) (h : Spec.IsHermiteRule n z w wSum) :
    let q := (DistInvGauss.fromGig d.gamma d.delta).quad z w wSum
    d.mvskQuad q.1 q.2 = d.nigMvsk := by
  intro q
  have hm : 0 < (DistInvGauss.fromGig d.gamma d.delta).mu := by
    unfold DistInvGauss.fromGig; simp only; positivity
  have hl : 0 < (DistInvGauss.fromGig d.gamma d.delta).lam := by
    unfold DistInvGauss.fromGig; simp only; positivity
  have Q := DistInvGauss.quad_moments (DistInvGauss.fromGig d.gamma d.delta) hm hl n z w wSum h (by omega)
  have hw1 := (DistInvGauss.quad_normalised (DistInvGauss.fromGig d.gamma d.delta) hm hl n (by omega) z w wSum h).1
  rw [mvskQuad_eq d q.1 q.2 hw1]
  have q1 := Q 1 (by omega)
  have q2 := Q 2 (by omega)
  have q3 := Q 3 (by omega)
  have q4 := Q 4 (by omega)
  simp only [pow_one] at q1
  rw [q1, q2, q3, q4]
  have := DistInvGauss.isProbabilityMeasure hm hl
  have h0 : ∀ᵐ w ∂(Spec.igMeasure (DistInvGauss.fromGig d.gamma d.delta).mu (DistInvGauss.fromGig d.gamma d.delta).lam),
      0 ≤ w := by
    refine (withDensity_absolutelyContinuous _ _).ae_le ?_
    filter_upwards [ae_restrict_mem measurableSet_Ioi] with w hw
    exact le_of_lt hw
  have hA := mvskOfMixer_correct _ d h0 (fun k hk => DistInvGauss.integrable_pow hm hl k hk)
  have hB := nigMvsk_correct d hg hd
  have e1 := hA.mean_eq.symm.trans hB.mean_eq
  have e2 := hA.var_eq.symm.trans hB.var_eq
  have e3 := hA.skew_eq.symm.trans hB.skew_eq
  have e4 := hA.exkurt_eq.symm.trans hB.exkurt_eq
  generalize d.mvskOfMixer _ _ _ _ = A at *
  cases A
  generalize d.nigMvsk = B at *
  cases B
  simp only at e1 e2 e3 e4
  simp [e1, e2, e3, e4]

/-- **C46.** `DistGh.mc4` inverts the standardisation (positive variance). -/
theorem mc4_correct {Ω : Type*} [MeasurableSpace Ω] (X : Ω → ℝ) (μ : Measure Ω) (r : Mvsk)
    (h : Spec.IsMvsk X μ r.mean r.var r.skew r.exkurt) (hv : 0 < r.var) :
    Spec.IsMc4 X μ (mc4OfMvsk r).m1 (mc4OfMvsk r).mc2 (mc4OfMvsk r).mc3 (mc4OfMvsk r).mc4 := by
  unfold mc4OfMvsk
  simp only
  have hs := sqrt_pos.2 hv
  refine ⟨h.mean_eq, h.var_eq, ?_, ?_⟩
  · rw [← h.skew_eq, h.var_eq]; field_simp
  · rw [← h.exkurt_eq, h.var_eq]; field_simp; ring

/-- **C46.** `DistGh.cdf` is a distribution function: nondecreasing with values in `[0, 1]` whenever the cached nodes are
positive and the weights are nonnegative and sum to one. -/
theorem cdf_valid {ι : Type*} [Fintype ι] (d : DistGh) (x w : ι → ℝ) (hx : ∀ i, 0 < x i) (hw : ∀ i, 0 ≤ w i)
    (h1 : ∑ i, w i = 1) :
    Monotone (d.cdf x w) ∧ (∀ y, 0 ≤ d.cdf x w y ∧ d.cdf x w y ≤ 1) ∧
      Filter.Tendsto (d.cdf x w) Filter.atTop (nhds 1) ∧ Filter.Tendsto (d.cdf x w) Filter.atBot (nhds 0) := by
  unfold cdf
  refine ⟨fun a b hab => ?_, fun y => ⟨?_, ?_⟩, ?_, ?_⟩
  · refine Finset.sum_le_sum fun i _ => mul_le_mul_of_nonneg_right (monotone_ncdf ?_) (hw i)
    have := sqrt_pos.2 (hx i)
    gcongr
  · exact Finset.sum_nonneg fun i _ => mul_nonneg (ncdf_nonneg _) (hw i)
  · rw [← h1]
    refine Finset.sum_le_sum fun i _ => ?_
    have := ncdf_le_one ((y - d.mu - d.beta * x i) / √(x i))
    nlinarith [hw i]
  · have : (1:ℝ) = ∑ i, 1 * w i := by simp [h1]
    rw [this]
    refine tendsto_finsetSum _ fun i _ => Filter.Tendsto.mul_const _ (tendsto_ncdf_atTop.comp ?_)
    have hs := sqrt_pos.2 (hx i)
    refine Filter.Tendsto.atTop_div_const hs ?_
    simp only [sub_eq_add_neg]
    exact (Filter.tendsto_id.atTop_add tendsto_const_nhds).atTop_add tendsto_const_nhds
  · have : (0:ℝ) = ∑ i, 0 * w i := by simp
    rw [this]
    refine tendsto_finsetSum _ fun i _ => Filter.Tendsto.mul_const _ (tendsto_ncdf_atBot.comp ?_)
    have hs := sqrt_pos.2 (hx i)
    refine Filter.Tendsto.atBot_div_const hs ?_
    simp only [sub_eq_add_neg]
    exact (Filter.tendsto_id.atBot_add tendsto_const_nhds).atBot_add tendsto_const_nhds

/-- Non-vacuity: a symmetric NIG. -/
example : (⟨0, 0, 1, 1, -0.5⟩ : DistGh).nigMvsk.exkurt = 3 := by
  unfold nigMvsk; norm_num

end DistGh

end PyFENG
