import Verif.Model.Dist
import Verif.Lemmas.Moments
import Mathlib.Probability.Moments.Basic
import Mathlib.Analysis.SpecialFunctions.Trigonometric.DerivHyp

/-!
# Properties of the distribution helpers (C43, C19)
-/

namespace PyFENG

open Real MeasureTheory ProbabilityTheory Finset

/-- Specification: `x` lists the mean, the variance divided by the squared mean, the skewness and the excess kurtosis
of the random variable `X` under `μ` (Mathlib's `centralMoment`). -/
structure Spec.IsScaledMvsk {Ω : Type*} [MeasurableSpace Ω] (X : Ω → ℝ) (μ : Measure Ω)
    (mean varScaled skew exkurt : ℝ) : Prop where
  mean_eq : ∫ ω, X ω ∂μ = mean
  var_eq : centralMoment X 2 μ / (∫ ω, X ω ∂μ) ^ 2 = varScaled
  skew_eq : centralMoment X 3 μ / (centralMoment X 2 μ * √(centralMoment X 2 μ)) = skew
  exkurt_eq : centralMoment X 4 μ / centralMoment X 2 μ ^ 2 - 3 = exkurt

/-- Specification: `x` lists the mean and the central moments of orders 2, 3, 4 of `X` under `μ`. -/
structure Spec.IsMc4 {Ω : Type*} [MeasurableSpace Ω] (X : Ω → ℝ) (μ : Measure Ω)
    (m1 mc2 mc3 mc4 : ℝ) : Prop where
  m1_eq : ∫ ω, X ω ∂μ = m1
  mc2_eq : centralMoment X 2 μ = mc2
  mc3_eq : centralMoment X 3 μ = mc3
  mc4_eq : centralMoment X 4 μ = mc4

namespace DistLognormal

lemma draw_eq (d : DistLognormal) (z : ℝ) :
    d.draw z = d.mu * (1 - d.lam + d.lam * Spec.gbm 1 d.sig z) := by
  unfold draw Spec.gbm
  rw [one_mul]
  congr 4; ring_nf

lemma mean_draw (d : DistLognormal) : ∫ z, d.draw z ∂(gaussianReal 0 1) = d.mu := by
  have h := gaussE_gbm_quartic d.sig (d.mu * (1 - d.lam)) (d.mu * d.lam) 0 0 0
  unfold Spec.gaussE at h
  rw [show d.mu = d.mu * (1 - d.lam) + d.mu * d.lam + 0 * exp (d.sig ^ 2) + 0 * exp (d.sig ^ 2) ^ 3
    + 0 * exp (d.sig ^ 2) ^ 6 by ring, ← h]
  congr 1; ext z
  beta_reduce
  rw [draw_eq]; ring

lemma centralMoment_draw (d : DistLognormal) (k : ℕ) :
    centralMoment d.draw k (gaussianReal 0 1) =
      (d.mu * d.lam) ^ k * Spec.gaussE (fun z => (Spec.gbm 1 d.sig z - 1) ^ k) := by
  unfold centralMoment Spec.gaussE
  rw [← integral_const_mul]
  congr 1; ext z
  simp only [Pi.pow_apply, Pi.sub_apply]
  rw [mean_draw, draw_eq, ← mul_pow]
  congr 1; ring

lemma cm2 (s : ℝ) : Spec.gaussE (fun z => (Spec.gbm 1 s z - 1) ^ 2) = exp (s ^ 2) - 1 := by
  have h := gaussE_gbm_quartic s 1 (-2) 1 0 0
  rw [show exp (s ^ 2) - 1 = 1 + -2 + 1 * exp (s ^ 2) + 0 * exp (s ^ 2) ^ 3 + 0 * exp (s ^ 2) ^ 6 by ring, ← h]
  congr 1; ext z; ring

lemma cm3 (s : ℝ) : Spec.gaussE (fun z => (Spec.gbm 1 s z - 1) ^ 3) =
    (exp (s ^ 2) - 1) ^ 2 * (exp (s ^ 2) + 2) := by
  have h := gaussE_gbm_quartic s (-1) 3 (-3) 1 0
  rw [show (exp (s ^ 2) - 1) ^ 2 * (exp (s ^ 2) + 2) = -1 + 3 + (-3) * exp (s ^ 2) + 1 * exp (s ^ 2) ^ 3
    + 0 * exp (s ^ 2) ^ 6 by ring, ← h]
  congr 1; ext z; ring

lemma cm4 (s : ℝ) : Spec.gaussE (fun z => (Spec.gbm 1 s z - 1) ^ 4) =
    exp (s ^ 2) ^ 6 - 4 * exp (s ^ 2) ^ 3 + 6 * exp (s ^ 2) - 3 := by
  have h := gaussE_gbm_quartic s 1 (-4) 6 (-4) 1
  rw [show exp (s ^ 2) ^ 6 - 4 * exp (s ^ 2) ^ 3 + 6 * exp (s ^ 2) - 3 = 1 + -4 + 6 * exp (s ^ 2)
    + (-4) * exp (s ^ 2) ^ 3 + 1 * exp (s ^ 2) ^ 6 by ring, ← h]
  congr 1; ext z; ring

lemma expm1_pos {s : ℝ} (hs : s ≠ 0) : 0 < exp (s ^ 2) - 1 := by
  have : 0 < s ^ 2 := by positivity
  have := one_lt_exp_iff.2 this
  linarith

/-- **C43.** `mvsk()` returns the mean, scaled variance, skewness and excess kurtosis of the distribution that `draw`
samples from (one standard normal per draw), for every `sig ≠ 0` and positive `mu * lam`. -/
theorem mvsk_correct (d : DistLognormal) (h : 0 < d.mu * d.lam) (hs : d.sig ≠ 0) :
    Spec.IsScaledMvsk d.draw (gaussianReal 0 1) d.mvsk.mean d.mvsk.var d.mvsk.skew d.mvsk.exkurt := by
  have hw := expm1_pos hs
  have hmu : d.mu ≠ 0 := fun h0 => by simp [h0] at h
  constructor
  · exact mean_draw d
  · rw [centralMoment_draw, cm2, mean_draw]
    unfold mvsk
    field_simp
  · rw [centralMoment_draw, centralMoment_draw, cm2, cm3]
    unfold mvsk
    rw [sqrt_mul (by positivity), sqrt_sq h.le]
    have e : exp (d.sig ^ 2) - 1 = √(exp (d.sig ^ 2) - 1) ^ 2 := (sq_sqrt hw.le).symm
    have hr := sqrt_pos.2 hw
    have h2 : exp (d.sig ^ 2) + 2 = √(exp (d.sig ^ 2) - 1) ^ 2 + 3 := by rw [← e]; ring
    rw [h2]
    simp only
    rw [show (exp (d.sig ^ 2) - 1 + 3) = √(exp (d.sig ^ 2) - 1) ^ 2 + 3 by rw [← e]]
    generalize √(exp (d.sig ^ 2) - 1) = r at *
    have hl : d.lam ≠ 0 := fun h0 => by simp [h0] at h
    rw [e]
    field_simp
  · rw [centralMoment_draw, centralMoment_draw, cm2, cm4]
    unfold mvsk
    simp only
    have : exp (d.sig ^ 2) = (exp (d.sig ^ 2) - 1) + 1 := by ring
    generalize exp (d.sig ^ 2) - 1 = w at *
    rw [this]
    have hl : d.lam ≠ 0 := fun h0 => by simp [h0] at h
    field_simp
    ring

/-- **C43.** `mc4()` returns the mean and the central moments of orders 2-4 of the sampled distribution. -/
theorem mc4_correct (d : DistLognormal) (h : 0 < d.mu * d.lam) :
    Spec.IsMc4 d.draw (gaussianReal 0 1) d.mc4.m1 d.mc4.mc2 d.mc4.mc3 d.mc4.mc4 := by
  have hmu : d.mu ≠ 0 := fun h0 => by simp [h0] at h
  have hw : 0 ≤ exp (d.sig ^ 2) - 1 := by
    have := one_le_exp (sq_nonneg d.sig); linarith
  have e : exp (d.sig ^ 2) = (exp (d.sig ^ 2) - 1) + 1 := by ring
  constructor
  · exact mean_draw d
  · rw [centralMoment_draw, cm2]
    unfold mc4 mc4OfMvsk mvsk
    simp only
    ring
  · rw [centralMoment_draw, cm3]
    unfold mc4 mc4OfMvsk mvsk
    simp only
    generalize exp (d.sig ^ 2) - 1 = w at *
    rw [e, show d.lam ^ 2 * w * d.mu ^ 2 = (d.mu * d.lam) ^ 2 * w by ring, sqrt_mul (by positivity),
      sqrt_sq h.le]
    have h3 := mul_self_sqrt hw
    linear_combination (-(d.mu * d.lam) ^ 3 * w * (w + 3)) * h3
  · rw [centralMoment_draw, cm4]
    unfold mc4 mc4OfMvsk mvsk
    simp only
    generalize exp (d.sig ^ 2) - 1 = w at *
    rw [e]
    ring

/-- **C43.** Two-moment fitting reproduces the requested mean and scaled variance, for every stored or overriding
`lam ≠ 0` and every nonnegative target. -/
theorem fit2_roundtrip (d : DistLognormal) (mean vs : ℝ) (lam : Option ℝ) (hl : lam.getD d.lam ≠ 0) (hv : 0 ≤ vs) :
    (d.fit2 mean vs lam).mvsk.mean = mean ∧ (d.fit2 mean vs lam).mvsk.var = vs ∧
      (d.fit2 mean vs lam).lam = lam.getD d.lam := by
  refine ⟨rfl, ?_, rfl⟩
  unfold fit2 mvsk
  simp only
  have h : 0 ≤ vs / (lam.getD d.lam) ^ 2 := by positivity
  rw [sq_sqrt (log_nonneg (by linarith)), exp_log (by linarith)]
  field_simp
  ring

/-- **C43.** `from_mv(mean, var_scaled, lam)` gives a distribution whose draws have the requested mean and variance. -/
theorem fromMv_moments (mean vs lam : ℝ) (hl : lam ≠ 0) (hv : 0 ≤ vs) :
    ∫ z, (fromMv mean vs lam).draw z ∂(gaussianReal 0 1) = mean ∧
      centralMoment (fromMv mean vs lam).draw 2 (gaussianReal 0 1) = vs * mean ^ 2 := by
  have h := fit2_roundtrip ⟨1, 1, 1⟩ mean vs (some lam) hl hv
  refine ⟨mean_draw _, ?_⟩
  rw [centralMoment_draw, cm2]
  have h2 := h.2.1
  unfold fromMv
  unfold mvsk at h2
  simp only at h2
  have h3 : (fit2 ⟨1, 1, 1⟩ mean vs (some lam)).mu = mean := rfl
  rw [h3]
  linear_combination mean ^ 2 * h2

/-- `2 sinh(a/6)` with `cosh a = 1 + s²/2`, `s ≥ 0`, is the root of `w (w² + 3) = s`. -/
lemma fit3_root (s : ℝ) : 0 ≤ 2 * sinh (arcosh (1 + 0.5 * s ^ 2) / 6) ∧
    (2 * sinh (arcosh (1 + 0.5 * s ^ 2) / 6)) * ((2 * sinh (arcosh (1 + 0.5 * s ^ 2) / 6)) ^ 2 + 3) = |s| := by
  have h1 : 1 ≤ 1 + 0.5 * s ^ 2 := by nlinarith [sq_nonneg s]
  have ha := arcosh_nonneg h1
  have hc := cosh_arcosh h1
  set a := arcosh (1 + 0.5 * s ^ 2) with hadef
  have hs0 : 0 ≤ sinh (a / 6) := sinh_nonneg_iff.2 (by linarith)
  have h3 : sinh (a / 2) = 4 * sinh (a / 6) ^ 3 + 3 * sinh (a / 6) := by
    have := sinh_three_mul (a / 6)
    rw [← this]; congr 1; ring
  have h4 : (2 * sinh (a / 2)) ^ 2 = s ^ 2 := by
    have h5 : cosh a = 2 * sinh (a / 2) ^ 2 + 1 := by
      have := cosh_two_mul (a / 2)
      rw [show 2 * (a / 2) = a by ring] at this
      have h6 := cosh_sq (a / 2)
      linarith
    rw [hc] at h5
    norm_num at h5 ⊢
    linarith
  refine ⟨by linarith, ?_⟩
  have h0 : 0 ≤ 2 * sinh (a / 2) := by
    have : 0 ≤ sinh (a / 2) := sinh_nonneg_iff.2 (by linarith)
    linarith
  have := (sq_eq_sq_iff_abs_eq_abs _ _).1 h4
  rw [abs_of_nonneg h0] at this
  rw [← this, h3]; ring

/-- What three-moment fitting returns: the requested mean and scaled variance, and the *absolute value* of the
requested skewness (for every `s ≠ 0`). -/
theorem fit3_law (mean vs s : ℝ) (hv : 0 ≤ vs) (hs : s ≠ 0) :
    (fit3 mean vs s).mvsk.mean = mean ∧ (fit3 mean vs s).mvsk.var = vs ∧ (fit3 mean vs s).mvsk.skew = |s| := by
  obtain ⟨h0, h⟩ := fit3_root s
  unfold fit3 mvsk
  simp only
  generalize 2 * sinh (arcosh (1 + 0.5 * s ^ 2) / 6) = r at *
  have hr : r ≠ 0 := by
    rintro rfl
    have := abs_pos.2 hs
    linarith
  have hl : 0 ≤ log (1 + r ^ 2) := log_nonneg (by nlinarith [sq_nonneg r])
  rw [sq_sqrt hl, exp_log (by positivity)]
  refine ⟨trivial, ?_, ?_⟩
  · rw [div_pow, sq_sqrt hv]; field_simp; ring
  · rw [show 1 + r ^ 2 - 1 = r ^ 2 by ring, sqrt_sq h0]; exact h

/-- **C43** (three moments), on the region where it is true: positive skewness. -/
theorem fit3_roundtrip_partial (mean vs s : ℝ) (hv : 0 ≤ vs) (hs : 0 < s) :
    (fit3 mean vs s).mvsk.mean = mean ∧ (fit3 mean vs s).mvsk.var = vs ∧ (fit3 mean vs s).mvsk.skew = s := by
  have := fit3_law mean vs s hv hs.ne'
  rwa [abs_of_pos hs] at this

/-- **C43** fails for every negative requested skewness: without `validate=True` the fitted object has the opposite
skewness (the class cannot represent negative skewness with positive `lam`). -/
theorem fit3_wrong (mean vs s : ℝ) (hv : 0 ≤ vs) (hs : s < 0) :
    (fit3 mean vs s).mvsk.skew = -s ∧ (fit3 mean vs s).mvsk.skew ≠ s := by
  have := (fit3_law mean vs s hv hs.ne).2.2
  rw [abs_of_neg hs] at this
  exact ⟨this, by rw [this]; linarith⟩

/-- **C43** (three moments, distribution level): the draws of the fitted object have the requested mean, variance and
skewness. -/
theorem fit3_moments (mean vs s : ℝ) (hm : 0 < mean) (hv : 0 < vs) (hs : 0 < s) :
    ∃ k, Spec.IsScaledMvsk (fit3 mean vs s).draw (gaussianReal 0 1) mean vs s k := by
  obtain ⟨h1, h2, h3⟩ := fit3_roundtrip_partial mean vs s hv.le hs
  obtain ⟨h0, h⟩ := fit3_root s
  have hr : 0 < 2 * sinh (arcosh (1 + 0.5 * s ^ 2) / 6) := by
    rcases h0.eq_or_lt with h' | h'
    · rw [← h'] at h
      rw [abs_of_pos hs] at h
      linarith
    · exact h'
  have := mvsk_correct (fit3 mean vs s) (by unfold fit3; simp only; positivity) (by
    unfold fit3; simp only
    exact (sqrt_pos.2 (log_pos (by nlinarith))).ne')
  rw [h1, h2, h3] at this
  exact ⟨_, this⟩

/-- Non-vacuity: a fit to mean 1, scaled variance 1/4, skewness 2. -/
example : (fit3 1 (1 / 4) 2).mvsk.skew = 2 := (fit3_roundtrip_partial 1 (1 / 4) 2 (by norm_num) (by norm_num)).2.2

end DistLognormal

/-! ## C19: `price_vsk` -/

/-- **C19.** `Bsm.price_vsk(T)` returns the variance, skewness and excess kurtosis of the lognormal terminal price with
unit forward. -/
theorem Bsm.priceVsk_correct (m : MParams) (T : ℝ) (hT : 0 < T) (hs : m.sigma ≠ 0) :
    Spec.IsScaledMvsk (Spec.gbm 1 (m.sigma * √T)) (gaussianReal 0 1) 1 (Bsm.priceVsk m T).1 (Bsm.priceVsk m T).2.1
      (Bsm.priceVsk m T).2.2 := by
  have h := DistLognormal.mvsk_correct ⟨m.sigma * √T, 1, 1⟩ (by norm_num) (by
    have := sqrt_pos.2 hT
    exact mul_ne_zero hs this.ne')
  have e : (DistLognormal.mk (m.sigma * √T) 1 1).draw = Spec.gbm 1 (m.sigma * √T) := by
    ext z; rw [DistLognormal.draw_eq]; simp
  rw [e] at h
  exact h

/-- The true moments of the displaced price with unit forward: it is a shifted lognormal with `lam = D/β`, where
`D = β + (1-β) A` is the displaced forward. -/
theorem BsmDisp.true_vsk (d : DParams) (T : ℝ) (hT : 0 < T) (hs : d.sigmaDisp ≠ 0) (hb : 0 < d.beta)
    (hD : 0 < d.beta + (1 - d.beta) * d.pivot) :
    Spec.IsScaledMvsk (Spec.dispPrice d.beta 1 d.pivot (d.sigmaDisp * √T)) (gaussianReal 0 1) 1
      (((d.beta + (1 - d.beta) * d.pivot) / d.beta) ^ 2 * (Bsm.priceVsk (BsmDisp.toM d) T).1)
      (Bsm.priceVsk (BsmDisp.toM d) T).2.1 (Bsm.priceVsk (BsmDisp.toM d) T).2.2 := by
  have h := DistLognormal.mvsk_correct ⟨d.sigmaDisp * d.beta * √T, (d.beta + (1 - d.beta) * d.pivot) / d.beta, 1⟩
    (by simp only; positivity) (by
    have := sqrt_pos.2 hT
    exact mul_ne_zero (mul_ne_zero hs hb.ne') this.ne')
  have e : (DistLognormal.mk (d.sigmaDisp * d.beta * √T) ((d.beta + (1 - d.beta) * d.pivot) / d.beta) 1).draw =
      Spec.dispPrice d.beta 1 d.pivot (d.sigmaDisp * √T) := by
    ext z; rw [DistLognormal.draw_eq]
    unfold Spec.dispPrice Spec.gbm
    simp only
    rw [show d.beta * (d.sigmaDisp * √T) = d.sigmaDisp * d.beta * √T by ring]
    field_simp
    ring
  rw [e] at h
  unfold DistLognormal.mvsk at h
  unfold Bsm.priceVsk DistLognormal.mvsk BsmDisp.toM BsmDisp.getSigma
  simp only [one_pow, one_mul] at h ⊢
  exact h

/-- **C19** for `BsmDisp`, on the region where it is true: no displacement (`beta = 1`). -/
theorem BsmDisp.priceVsk_partial (d : DParams) (T : ℝ) (hT : 0 < T) (hs : d.sigmaDisp ≠ 0) (hb : d.beta = 1) :
    Spec.IsScaledMvsk (Spec.dispPrice d.beta 1 d.pivot (d.sigmaDisp * √T)) (gaussianReal 0 1) 1
      (BsmDisp.priceVsk d T).1 (BsmDisp.priceVsk d T).2.1 (BsmDisp.priceVsk d T).2.2 := by
  have h := BsmDisp.true_vsk d T hT hs (by linarith) (by rw [hb]; norm_num)
  unfold BsmDisp.priceVsk
  simp only
  rw [hb] at h ⊢
  simpa using h

/-- **C19** fails for `BsmDisp` for every `beta` other than one (any pivot, any maturity): the returned skewness and
excess kurtosis are those of the displaced price divided by `beta³` and `beta⁴`, although both are invariant under the
affine displacement. -/
theorem BsmDisp.priceVsk_wrong (d : DParams) (T : ℝ) (hT : 0 < T) (hs : d.sigmaDisp ≠ 0) (hb : 0 < d.beta)
    (hb1 : d.beta ≠ 1) (hD : 0 < d.beta + (1 - d.beta) * d.pivot) (v s k : ℝ)
    (h : Spec.IsScaledMvsk (Spec.dispPrice d.beta 1 d.pivot (d.sigmaDisp * √T)) (gaussianReal 0 1) 1 v s k) :
    (BsmDisp.priceVsk d T).2.1 ≠ s ∧ (BsmDisp.priceVsk d T).2.2 ≠ k := by
  have ht := BsmDisp.true_vsk d T hT hs hb hD
  have e1 := h.skew_eq.symm.trans ht.skew_eq
  have e2 := h.exkurt_eq.symm.trans ht.exkurt_eq
  rw [e1, e2]
  have hw : 0 < exp ((BsmDisp.getSigma d * √T) ^ 2) - 1 := DistLognormal.expm1_pos (by
    have := sqrt_pos.2 hT
    exact mul_ne_zero (mul_ne_zero hs hb.ne') this.ne')
  unfold BsmDisp.priceVsk Bsm.priceVsk DistLognormal.mvsk BsmDisp.toM
  simp only
  generalize exp ((BsmDisp.getSigma d * √T) ^ 2) - 1 = w at *
  have hr := sqrt_pos.2 hw
  have hb3 : ∀ n : ℕ, n ≠ 0 → d.beta ^ n ≠ 1 := fun n hn => by
    rw [Ne, pow_eq_one_iff_of_nonneg hb.le hn]; exact hb1
  constructor
  · intro he
    rw [div_eq_iff (by positivity)] at he
    have : √w * (w + 3) ≠ 0 := by positivity
    exact hb3 3 (by norm_num) (mul_left_cancel₀ this (by linarith))
  · intro he
    rw [div_eq_iff (by positivity)] at he
    have : w * (16 + w * (15 + w * (6 + w))) ≠ 0 := by positivity
    exact hb3 4 (by norm_num) (mul_left_cancel₀ this (by linarith))

end PyFENG
