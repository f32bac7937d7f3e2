import Verif.Lemmas.Black
import Mathlib.Probability.Moments.MGFAnalytic
import Mathlib.Probability.Distributions.Gaussian.Real

/-! # Gaussian moments and moments of the lognormal -/

namespace PyFENG

open Real MeasureTheory ProbabilityTheory

lemma integrable_exp_lin (a b : ℝ) : Integrable (fun z => exp (a * z + b)) (gaussianReal 0 1) := by
  have := integrable_exp_mul_gaussianReal (μ := 0) (v := 1) a
  simpa [exp_add] using this.mul_const (exp b)

lemma gaussE_exp_lin (a b : ℝ) : Spec.gaussE (fun z => exp (a * z + b)) = exp (a ^ 2 / 2 + b) := by
  have h := mgf_gaussianReal (p := gaussianReal 0 1) (X := id) (μ := 0) (v := 1) (by simp) a
  unfold Spec.gaussE
  simp only [exp_add]
  rw [integral_mul_const]
  unfold mgf at h
  simp only [id] at h
  rw [h]
  simp

/-- Raw moments of the martingale lognormal `X = exp(s Z - s²/2)`. -/
lemma gaussE_gbm_pow (s : ℝ) (k : ℕ) :
    Spec.gaussE (fun z => Spec.gbm 1 s z ^ k) = exp (s ^ 2) ^ ((k * (k - 1) : ℝ) / 2) := by
  have : (fun z => Spec.gbm 1 s z ^ k) = fun z => exp ((k * s) * z + (-(k * s ^ 2 / 2))) := by
    ext z
    unfold Spec.gbm
    rw [one_mul, ← exp_nat_mul]
    congr 1; ring
  rw [this, gaussE_exp_lin, ← exp_mul]
  congr 1; ring

lemma integrable_gbm_pow (s : ℝ) (k : ℕ) : Integrable (fun z => Spec.gbm 1 s z ^ k) (gaussianReal 0 1) := by
  have : (fun z => Spec.gbm 1 s z ^ k) = fun z => exp ((k * s) * z + (-(k * s ^ 2 / 2))) := by
    ext z
    unfold Spec.gbm
    rw [one_mul, ← exp_nat_mul]
    congr 1; ring
  rw [this]; exact integrable_exp_lin _ _

/-- Expectation of a quartic polynomial of the martingale lognormal. -/
lemma gaussE_gbm_quartic (s a0 a1 a2 a3 a4 : ℝ) :
    Spec.gaussE (fun z => a0 + a1 * Spec.gbm 1 s z + a2 * Spec.gbm 1 s z ^ 2 + a3 * Spec.gbm 1 s z ^ 3
      + a4 * Spec.gbm 1 s z ^ 4) =
      a0 + a1 + a2 * exp (s ^ 2) + a3 * exp (s ^ 2) ^ 3 + a4 * exp (s ^ 2) ^ 6 := by
  have h1 : Spec.gaussE (fun z => Spec.gbm 1 s z) = 1 := by
    have := gaussE_gbm_pow s 1; simpa using this
  have h2 : Spec.gaussE (fun z => Spec.gbm 1 s z ^ 2) = exp (s ^ 2) := by
    have := gaussE_gbm_pow s 2; rw [this]; norm_num
  have h3 : Spec.gaussE (fun z => Spec.gbm 1 s z ^ 3) = exp (s ^ 2) ^ 3 := by
    have := gaussE_gbm_pow s 3; rw [this, ← rpow_natCast]; norm_num
  have h4 : Spec.gaussE (fun z => Spec.gbm 1 s z ^ 4) = exp (s ^ 2) ^ 6 := by
    have := gaussE_gbm_pow s 4; rw [this, ← rpow_natCast]; norm_num
  have i1 : Integrable (fun z => Spec.gbm 1 s z) (gaussianReal 0 1) := by
    simpa using integrable_gbm_pow s 1
  have i2 := integrable_gbm_pow s 2
  have i3 := integrable_gbm_pow s 3
  have i4 := integrable_gbm_pow s 4
  unfold Spec.gaussE at *
  rw [integral_add (by fun_prop) (by fun_prop), integral_add (by fun_prop) (by fun_prop),
    integral_add (by fun_prop) (by fun_prop), integral_add (by fun_prop) (by fun_prop),
    integral_const_mul, integral_const_mul, integral_const_mul, integral_const_mul, h1, h2, h3, h4]
  simp

lemma integrable_pow_gauss (n : ℕ) : Integrable (fun z : ℝ => z ^ n) (gaussianReal 0 1) := by
  have := (memLp_id_gaussianReal (μ := 0) (v := 1) (n : NNReal)).integrable_norm_pow'
  refine Integrable.mono' this (by fun_prop) ?_
  filter_upwards with z
  simp

/-- Recursion for the raw moments of the standard normal law: `E[Z^(n+2)] = (n+1) E[Z^n]`. -/
lemma gaussE_pow_succ_succ (n : ℕ) :
    Spec.gaussE (fun z => z ^ (n + 2)) = (n + 1) * Spec.gaussE (fun z => z ^ n) := by
  unfold Spec.gaussE
  have h1 := (integrable_gauss_iff _).1 (integrable_pow_gauss (n + 1))
  have h0 := (integrable_gauss_iff _).1 (integrable_pow_gauss n)
  have h2 := (integrable_gauss_iff _).1 (integrable_pow_gauss (n + 2))
  have hd : ∀ z, HasDerivAt (fun z : ℝ => npdf z * z ^ (n + 1))
      ((n + 1) * (npdf z * z ^ n) - npdf z * z ^ (n + 2)) z := fun z => by
    refine ((hasDerivAt_npdf z).mul (hasDerivAt_pow (n + 1) z)).congr_deriv ?_
    simp only [Nat.add_sub_cancel]
    push_cast
    ring
  have := integral_eq_zero_of_hasDerivAt_of_integrable hd ((h0.const_mul _).sub h2) h1
  rw [integral_sub (h0.const_mul _) h2, integral_const_mul] at this
  rw [integral_gauss, integral_gauss]
  linarith

lemma gaussE_pow_zero : Spec.gaussE (fun z => z ^ 0) = 1 := by
  simp [Spec.gaussE]

lemma gaussE_pow_one : Spec.gaussE (fun z => z ^ 1) = 0 := by
  simp [Spec.gaussE, integral_id_gaussianReal]

/-- Standard normal raw moments 1-4, as the expectation of a quartic polynomial. -/
lemma gaussE_poly (a0 a1 a2 a3 a4 : ℝ) :
    Integrable (fun z : ℝ => a0 + a1 * z + a2 * z ^ 2 + a3 * z ^ 3 + a4 * z ^ 4) (gaussianReal 0 1) ∧
    Spec.gaussE (fun z => a0 + a1 * z + a2 * z ^ 2 + a3 * z ^ 3 + a4 * z ^ 4) = a0 + a2 + 3 * a4 := by
  have i0 : Integrable (fun _ : ℝ => a0) (gaussianReal 0 1) := integrable_const _
  have i1 : Integrable (fun z : ℝ => a1 * z) (gaussianReal 0 1) := by
    simpa using (integrable_pow_gauss 1).const_mul a1
  have i2 := (integrable_pow_gauss 2).const_mul a2
  have i3 := (integrable_pow_gauss 3).const_mul a3
  have i4 := (integrable_pow_gauss 4).const_mul a4
  have m0 := gaussE_pow_zero
  have m1 := gaussE_pow_one
  have m2 := gaussE_pow_succ_succ 0
  have m3 := gaussE_pow_succ_succ 1
  have m4 := gaussE_pow_succ_succ 2
  rw [m0] at m2
  rw [m1] at m3
  simp only [zero_add] at m2
  rw [m2] at m4
  norm_num at m2 m3 m4
  simp only [pow_one] at m1
  have j1 : Integrable (fun z : ℝ => a0 + a1 * z) (gaussianReal 0 1) := i0.add i1
  have j2 : Integrable (fun z : ℝ => a0 + a1 * z + a2 * z ^ 2) (gaussianReal 0 1) := j1.add i2
  have j3 : Integrable (fun z : ℝ => a0 + a1 * z + a2 * z ^ 2 + a3 * z ^ 3) (gaussianReal 0 1) := j2.add i3
  refine ⟨j3.add i4, ?_⟩
  unfold Spec.gaussE at *
  beta_reduce at *
  rw [integral_add j3 i4, integral_add j2 i3, integral_add j1 i2, integral_add i0 i1,
      integral_const_mul, integral_const_mul, integral_const_mul, integral_const_mul, m1, m2, m3, m4]
  simp
  ring

/-- Even moments up to order 6. -/
lemma gaussE_even6 (a0 a2 a4 a6 : ℝ) :
    Spec.gaussE (fun z => a0 + a2 * z ^ 2 + a4 * z ^ 4 + a6 * z ^ 6) = a0 + a2 + 3 * a4 + 15 * a6 := by
  have i0 : Integrable (fun _ : ℝ => a0) (gaussianReal 0 1) := integrable_const _
  have i2 := (integrable_pow_gauss 2).const_mul a2
  have i4 := (integrable_pow_gauss 4).const_mul a4
  have i6 := (integrable_pow_gauss 6).const_mul a6
  have j2 : Integrable (fun z : ℝ => a0 + a2 * z ^ 2) (gaussianReal 0 1) := i0.add i2
  have j4 : Integrable (fun z : ℝ => a0 + a2 * z ^ 2 + a4 * z ^ 4) (gaussianReal 0 1) := j2.add i4
  have m0 := gaussE_pow_zero
  have m2 := gaussE_pow_succ_succ 0
  have m4 := gaussE_pow_succ_succ 2
  have m6 := gaussE_pow_succ_succ 4
  rw [m0] at m2
  simp only [zero_add] at m2
  rw [m2] at m4
  norm_num at m2 m4 m6
  rw [m4] at m6
  norm_num at m6
  unfold Spec.gaussE at *
  beta_reduce at *
  rw [integral_add j4 i6, integral_add j2 i4, integral_add i0 i2,
    integral_const_mul, integral_const_mul, integral_const_mul, m2, m4, m6]
  simp
  ring

end PyFENG
