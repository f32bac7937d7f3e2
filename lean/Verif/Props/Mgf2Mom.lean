import Verif.Model.Mgf2Mom
import Mathlib.Analysis.SpecialFunctions.Trigonometric.Bounds
import Mathlib.Topology.Algebra.InfiniteSum.Module
import Mathlib.Analysis.SpecialFunctions.Complex.Circle
import Mathlib.Algebra.Polynomial.Eval.Degree
import Mathlib.Probability.Moments.ComplexMGF
import Mathlib.Probability.Distributions.Gaussian.Real
import Mathlib.Tactic.ComputeDegree
import Mathlib.MeasureTheory.Integral.DominatedConvergence
import Mathlib.Analysis.SpecialFunctions.Exponential
import Mathlib.Algebra.Polynomial.Derivative
import Mathlib.Analysis.SpecificLimits.Basic
import Mathlib.Analysis.Normed.Group.InfiniteSum

/-!
# C51: moments and cumulants from a transform (Choudhury-Lucantoni)
-/

namespace PyFENG

open Real Finset

/-- Specification: on the circle of radius `R`, `f` is the sum of the power series with real coefficients `a`. -/
def Spec.TaylorOn (a : ℕ → ℝ) (R : ℝ) (f : ℂ → ℂ) : Prop :=
  ∀ z : ℂ, ‖z‖ = R → HasSum (fun k => (a k : ℂ) * z ^ k) (f z)

namespace Mgf2Mom

lemma dirichlet_sin (th : ℝ) (M : ℕ) (hM : 1 ≤ M) :
    sin (th / 2) * (1 + 2 * ∑ k ∈ Ico 1 M, cos (k * th)) = sin ((M - 1 / 2) * th) := by
  induction M, hM using Nat.le_induction with
  | base => simp; ring_nf
  | succ M hM ih =>
    rw [sum_Ico_succ_top hM]
    have h : sin ((M - 1 / 2) * th) + 2 * (sin (th / 2) * cos (M * th)) = sin ((M + 1 / 2) * th) := by
      rw [show ((M : ℝ) - 1 / 2) * th = M * th - th / 2 by ring, show ((M : ℝ) + 1 / 2) * th = M * th + th / 2 by ring, sin_sub, sin_add]
      ring
    push_cast
    rw [show ((M : ℝ) + 1 - 1 / 2) * th = (M + 1 / 2) * th by ring, ← h, ← ih]
    ring

/-- Discrete orthogonality on the half circle. -/
lemma dirichlet {M : ℕ} (hM : 1 ≤ M) (p : ℤ) :
    1 + (-1 : ℝ) ^ p + 2 * ∑ k ∈ Ico 1 M, cos (k * (π * p / M)) = if (2 * M : ℤ) ∣ p then 2 * (M : ℝ) else 0 := by
  have hM0 : (M : ℝ) ≠ 0 := by positivity
  split_ifs with h
  · obtain ⟨q, rfl⟩ := h
    have hc : ∀ k ∈ Ico 1 M, cos (k * (π * ((2 * M * q : ℤ) : ℝ) / M)) = 1 := fun k _ => by
      rw [show (k : ℝ) * (π * ((2 * M * q : ℤ) : ℝ) / M) = ((k * q : ℤ) : ℝ) * (2 * π) by push_cast; field_simp]
      exact cos_int_mul_two_pi _
    rw [sum_congr rfl hc, show (2 * (M : ℤ) * q) = 2 * (M * q) by ring, zpow_mul]
    simp [Nat.cast_sub hM]
    ring
  · have hs : sin (π * p / M / 2) ≠ 0 := by
      intro h0
      rw [sin_eq_zero_iff] at h0
      obtain ⟨q, hq⟩ := h0
      refine h ⟨q, ?_⟩
      have : (p : ℝ) = 2 * M * q := by
        have := pi_ne_zero
        field_simp at hq
        linarith
      exact_mod_cast this
    have h1 := dirichlet_sin (π * p / M) M hM
    have h2 : sin ((M - 1 / 2) * (π * p / M)) = -((-1 : ℝ) ^ p * sin (π * p / M / 2)) := by
      rw [show ((M : ℝ) - 1 / 2) * (π * p / M) = p * π - π * p / M / 2 by field_simp, sin_sub, sin_int_mul_pi, cos_int_mul_pi]
      ring
    rw [h2] at h1
    refine mul_left_cancel₀ hs ?_
    linear_combination h1

lemma radius_pow {n l : ℕ} (hn : n ≠ 0) (hl : l ≠ 0) : radius n l ^ (2 * n * l) = (10 : ℝ) ^ (-11 : ℝ) := by
  unfold radius
  rw [← rpow_natCast, ← rpow_mul (by norm_num)]
  congr 1
  push_cast
  have : (n : ℝ) ≠ 0 := by exact_mod_cast hn
  have : (l : ℝ) ≠ 0 := by exact_mod_cast hl
  field_simp

lemma radius_pos (n l : ℕ) : 0 < radius n l := rpow_pos_of_pos (by norm_num) _

lemma mul_one_lit (r : ℝ) : r * 1.0 = r := by norm_num

lemma mul_neg_one_lit (r : ℝ) : r * -1.0 = -r := by
  rw [show (1.0 : ℝ) = 1 by norm_num, mul_neg_one]

/-- Each order of the series contributes its discrete Fourier coefficient. -/
lemma hasSum_raw {a : ℕ → ℝ} {f : ℂ → ℂ} {n l : ℕ} {alpha : ℝ} (hn : n ≠ 0) (hl : l ≠ 0)
    (h : Spec.TaylorOn a |alpha * radius n l| f) :
    HasSum (fun j : ℕ => (n.factorial : ℝ) / (2 * n * l * (alpha * radius n l) ^ n) * (a j * (alpha * radius n l) ^ j *
      (if (2 * (n * l : ℕ) : ℤ) ∣ (j : ℤ) - n then 2 * ((n * l : ℕ) : ℝ) else 0))) (momentRaw f n alpha l) := by
  unfold momentRaw
  simp only
  refine HasSum.mul_left _ ?_
  have hM : 1 ≤ n * l := Nat.one_le_iff_ne_zero.2 (mul_ne_zero hn hl)
  have hn' : (n : ℂ) ≠ 0 := by exact_mod_cast hn
  have hl' : (l : ℂ) ≠ 0 := by exact_mod_cast hl
  generalize alpha * radius n l = r at *
  have e0 : HasSum (fun j : ℕ => a j * r ^ j) (f ((r * 1.0 : ℝ) : ℂ)).re := by
    have := Complex.hasSum_re (h ((r * 1.0 : ℝ) : ℂ) (by norm_num [Complex.norm_real]))
    refine this.congr_fun (fun j => ?_)
    rw [mul_one_lit, ← Complex.ofReal_pow, ← Complex.ofReal_mul, Complex.ofReal_re]
  have e1 : HasSum (fun j : ℕ => a j * (-r) ^ j) (f ((r * -1.0 : ℝ) : ℂ)).re := by
    have := Complex.hasSum_re (h ((r * -1.0 : ℝ) : ℂ) (by norm_num [Complex.norm_real]))
    refine this.congr_fun (fun j => ?_)
    rw [mul_neg_one_lit, ← Complex.ofReal_pow, ← Complex.ofReal_mul, Complex.ofReal_re]
  have e2 : ∀ k ∈ Ico 1 (n * l), HasSum (fun j : ℕ => a j * r ^ j * cos (k * (π * (((j : ℤ) - n : ℤ) : ℝ) / ((n * l : ℕ) : ℝ))))
      ((f ((r : ℝ) * Complex.exp (π * k * Complex.I / (n * l))) * Complex.exp (-π * k * Complex.I / l)).re) := fun k _ => by
    have hz : ‖((r : ℝ) : ℂ) * Complex.exp (π * k * Complex.I / (n * l))‖ = |r| := by
      rw [norm_mul, Complex.norm_real, show (π * k * Complex.I / (n * l) : ℂ) = ((π * k / (n * l) : ℝ) : ℂ) * Complex.I by push_cast; ring,
        Complex.norm_exp_ofReal_mul_I, mul_one, norm_eq_abs]
    have := Complex.hasSum_re ((h _ hz).mul_right (Complex.exp (-π * k * Complex.I / l)))
    refine this.congr_fun (fun j => ?_)
    rw [mul_pow, ← Complex.exp_nat_mul, mul_assoc, mul_assoc, mul_assoc, ← Complex.exp_add]
    rw [show ((j : ℂ) * (π * k * Complex.I / (n * l)) + -π * k * Complex.I / l)
      = ((k * (π * (((j : ℤ) - n : ℤ) : ℝ) / ((n * l : ℕ) : ℝ)) : ℝ) : ℂ) * Complex.I by
        push_cast
        field_simp
        ring]
    rw [← Complex.ofReal_pow, Complex.re_ofReal_mul, Complex.re_ofReal_mul, Complex.exp_ofReal_mul_I_re]
  have e3 := ((e0.add (e1.mul_left ((-1) ^ n))).add ((hasSum_sum e2).mul_left 2.0))
  refine e3.congr_fun (fun j => ?_)
  rw [← dirichlet hM ((j : ℤ) - n), ← mul_sum]
  have hz : (-1 : ℝ) ^ ((j : ℤ) - n) = (-1) ^ n * (-1) ^ j := by
    rw [zpow_sub₀ (by norm_num), zpow_natCast, zpow_natCast, div_eq_iff (by positivity)]
    have : ((-1 : ℝ) ^ n) * (-1) ^ n = 1 := by rw [← mul_pow]; norm_num
    linear_combination (-(-1 : ℝ) ^ j) * this
  rw [hz, neg_pow r, show (2.0 : ℝ) = 2 by norm_num]
  ring

/-- **C51** (exact aliasing formula): for a transform with real Taylor coefficients `a`, `moment_raw(n, alpha)` returns `n! a_n` plus the
coefficients of orders `n + 2nl, n + 4nl, ..`, each damped by `(alpha^(2nl) 1e-11)^m`. -/
theorem moment_raw_aliasing {a : ℕ → ℝ} {f : ℂ → ℂ} {n l : ℕ} {alpha : ℝ} (hn : n ≠ 0) (hl : l ≠ 0) (ha : alpha ≠ 0)
    (h : Spec.TaylorOn a |alpha * radius n l| f) :
    HasSum (fun m : ℕ => (n.factorial : ℝ) * a (n + 2 * n * l * m) * (alpha ^ (2 * n * l) * 1e-11) ^ m) (momentRaw f n alpha l) := by
  have h0 := hasSum_raw hn hl h
  have hinj : Function.Injective (fun m : ℕ => n + 2 * n * l * m) := fun x y hxy => by
    simp only [Nat.add_left_cancel_iff] at hxy
    exact Nat.eq_of_mul_eq_mul_left (by positivity) hxy
  rw [← hinj.hasSum_iff] at h0
  · refine h0.congr_fun (fun m => ?_)
    simp only [Function.comp]
    have hd : (2 * (n * l : ℕ) : ℤ) ∣ ((n + 2 * n * l * m : ℕ) : ℤ) - n := ⟨m, by push_cast; ring⟩
    rw [if_pos hd, pow_add, pow_mul (alpha * radius n l), mul_pow alpha _ (2 * n * l), radius_pow hn hl]
    have hr : alpha * radius n l ≠ 0 := mul_ne_zero ha (radius_pos n l).ne'
    have hn' : (n : ℝ) ≠ 0 := by exact_mod_cast hn
    have hl' : (l : ℝ) ≠ 0 := by exact_mod_cast hl
    have h10 : (10 : ℝ) ^ (-11 : ℝ) = 1e-11 := by
      rw [show (-11 : ℝ) = ((-11 : ℤ) : ℝ) by norm_num, rpow_intCast]; norm_num
    rw [h10]
    have hrn := pow_ne_zero n hr
    generalize (alpha * radius n l) ^ n = R at *
    push_cast
    field_simp
  · intro j hj
    have : ¬ (2 * (n * l : ℕ) : ℤ) ∣ (j : ℤ) - n := by
      rintro ⟨q, hq⟩
      refine hj ?_
      have hq0 : 0 ≤ q := by
        by_contra hneg
        push Not at hneg
        have h1 : (1 : ℤ) ≤ n := by exact_mod_cast Nat.one_le_iff_ne_zero.2 hn
        have h2 : (1 : ℤ) ≤ l := by exact_mod_cast Nat.one_le_iff_ne_zero.2 hl
        have h3 : (n : ℤ) ≤ ((n * l : ℕ) : ℤ) := by
          push_cast
          nlinarith
        have h4 : (j : ℤ) = n + 2 * ((n * l : ℕ) : ℤ) * q := by linarith
        have h5 : 2 * ((n * l : ℕ) : ℤ) * q ≤ 2 * ((n * l : ℕ) : ℤ) * (-1) := by
          refine mul_le_mul_of_nonneg_left (by omega) (by positivity)
        have : (0 : ℤ) ≤ j := by positivity
        linarith
      obtain ⟨m, rfl⟩ := Int.eq_ofNat_of_zero_le hq0
      refine ⟨m, ?_⟩
      have : (j : ℤ) = ((n + 2 * n * l * m : ℕ) : ℤ) := by push_cast; push_cast at hq; linarith
      exact_mod_cast this.symm
    rw [if_neg this]
    simp

/-- **C51**: exact for every polynomial transform of degree below `n + 2nl` (in particular below the number `2nl` of nodes): `moment_raw`
returns the `n`-th derivative at zero. -/
theorem moment_raw_polynomial (P : Polynomial ℝ) {n l : ℕ} {alpha : ℝ} (hn : n ≠ 0) (hl : l ≠ 0) (ha : alpha ≠ 0)
    (hP : P.natDegree < n + 2 * n * l) :
    momentRaw (fun z => (P.map Complex.ofRealHom).eval z) n alpha l = (Polynomial.derivative^[n] P).eval 0 := by
  have h := moment_raw_aliasing (a := fun k => P.coeff k) (f := fun z => (P.map Complex.ofRealHom).eval z) hn hl ha (fun z _ => ?_)
  · have h2 := h.unique (hasSum_single 0 fun m hm => by
      rw [Polynomial.coeff_eq_zero_of_natDegree_lt]
      · simp
      · calc P.natDegree < n + 2 * n * l := hP
          _ ≤ n + 2 * n * l * m := by
            have : 1 ≤ m := Nat.one_le_iff_ne_zero.2 hm
            nlinarith [Nat.zero_le (2 * n * l)])
    rw [h2, ← Polynomial.coeff_zero_eq_eval_zero, Polynomial.coeff_iterate_derivative]
    simp [Nat.descFactorial_self]
  · beta_reduce
    rw [Polynomial.eval_eq_sum_range, Polynomial.natDegree_map]
    have := hasSum_sum_of_ne_finset_zero (L := .unconditional ℕ) (f := fun k => (P.coeff k : ℂ) * z ^ k) (s := range (P.natDegree + 1)) fun k hk => by
      rw [mem_range, not_lt] at hk
      rw [Polynomial.coeff_eq_zero_of_natDegree_lt (by omega)]
      simp
    simpa using this

/-- **C51** (error bound): if the later coefficients, rescaled by `alpha`, are bounded by `C`, the absolute error is at most
`n! C 1e-11 / (1 - 1e-11)`. -/
theorem moment_raw_error {a : ℕ → ℝ} {f : ℂ → ℂ} {n l : ℕ} {alpha C : ℝ} (hn : n ≠ 0) (hl : l ≠ 0) (ha : alpha ≠ 0)
    (h : Spec.TaylorOn a |alpha * radius n l| f) (hC : ∀ m ≠ 0, |a (n + 2 * n * l * m)| * |alpha| ^ (2 * n * l * m) ≤ C) :
    |momentRaw f n alpha l - n.factorial * a n| ≤ n.factorial * C * (1e-11 / (1 - 1e-11)) := by
  have h0 := (hasSum_nat_add_iff' 1).2 (moment_raw_aliasing hn hl ha h)
  simp only [sum_range_one, mul_zero, add_zero, pow_zero, mul_one] at h0
  have hg : HasSum (fun m : ℕ => (n.factorial : ℝ) * C * ((1e-11 : ℝ) ^ (m + 1))) (n.factorial * C * (1e-11 / (1 - 1e-11))) := by
    have := (hasSum_geometric_of_lt_one (r := (1e-11 : ℝ)) (by norm_num) (by norm_num)).mul_left ((n.factorial : ℝ) * C * 1e-11)
    rw [show (n.factorial : ℝ) * C * (1e-11 / (1 - 1e-11)) = n.factorial * C * 1e-11 * (1 - 1e-11)⁻¹ by ring]
    refine this.congr_fun fun m => by ring
  rw [← norm_eq_abs]
  refine (h0.norm_le_of_bounded hg) fun m => ?_
  rw [norm_mul, norm_mul, norm_pow, norm_mul, norm_pow, mul_pow, ← pow_mul]
  simp only [norm_eq_abs, Nat.abs_cast]
  have h1 := hC (m + 1) (by omega)
  rw [show |(1e-11 : ℝ)| = 1e-11 by norm_num]
  have h2 : (0 : ℝ) ≤ 1e-11 ^ (m + 1) := by positivity
  calc (n.factorial : ℝ) * |a (n + 2 * n * l * (m + 1))| * (|alpha| ^ (2 * n * l * (m + 1)) * 1e-11 ^ (m + 1))
      = n.factorial * (|a (n + 2 * n * l * (m + 1))| * |alpha| ^ (2 * n * l * (m + 1))) * 1e-11 ^ (m + 1) := by ring
    _ ≤ n.factorial * C * 1e-11 ^ (m + 1) := by gcongr

/-! ### Laws -/

open MeasureTheory ProbabilityTheory in
lemma taylorOn_mgf {mu : Measure ℝ} {R : ℝ} (hi : Integrable (fun x => exp (R * |x|)) mu) :
    Spec.TaylorOn (fun k => (∫ x, x ^ k ∂mu) / k.factorial) R (complexMGF id mu) := by
  intro z hz
  have hR : 0 ≤ R := hz ▸ norm_nonneg z
  have hterm : ∀ k : ℕ, ∀ x : ℝ, R ^ k * |x| ^ k / k.factorial ≤ exp (R * |x|) := fun k x => by
    rw [← mul_pow]
    exact pow_div_factorial_le_exp _ (by positivity) k
  have hint : ∀ k : ℕ, Integrable (fun x : ℝ => (z * x) ^ k / (k.factorial : ℂ)) mu := fun k => by
    refine hi.mono (by fun_prop) (Filter.Eventually.of_forall fun x => ?_)
    rw [norm_div, norm_pow, norm_mul, hz, Complex.norm_real, Complex.norm_natCast, norm_eq_abs, norm_eq_abs, abs_exp, mul_pow]
    exact hterm k x
  have hsum : Summable fun k : ℕ => ∫ x, ‖(z * (x : ℂ)) ^ k / (k.factorial : ℂ)‖ ∂mu := by
    have he : ∀ k : ℕ, ∫ x, ‖(z * (x : ℂ)) ^ k / (k.factorial : ℂ)‖ ∂mu = ∫ x, (R * |x|) ^ k / k.factorial ∂mu := fun k => by
      congr 1
      ext x
      rw [norm_div, norm_pow, norm_mul, hz, Complex.norm_real, Complex.norm_natCast, norm_eq_abs]
    simp only [he]
    refine summable_of_sum_range_le (c := ∫ x, exp (R * |x|) ∂mu) (fun k => integral_nonneg fun x => by positivity) fun n => ?_
    rw [← integral_finsetSum]
    · refine integral_mono_of_nonneg (Filter.Eventually.of_forall fun x => sum_nonneg fun k _ => by positivity) hi
        (Filter.Eventually.of_forall fun x => ?_)
      exact sum_le_exp_of_nonneg (by positivity) n
    · intro k _
      refine (hint k).norm.congr (Filter.Eventually.of_forall fun x => ?_)
      simp only [norm_div, norm_pow, norm_mul, hz, Complex.norm_real, Complex.norm_natCast, norm_eq_abs]
  have h := hasSum_integral_of_summable_integral_norm hint hsum
  have e1 : ∀ k : ℕ, ∫ x, (z * (x : ℂ)) ^ k / (k.factorial : ℂ) ∂mu = (((∫ x, x ^ k ∂mu) / k.factorial : ℝ) : ℂ) * z ^ k := fun k => by
    simp only [mul_pow, integral_const_mul, div_eq_mul_inv, integral_mul_const]
    have : ∫ x : ℝ, (x : ℂ) ^ k ∂mu = ((∫ x, x ^ k ∂mu : ℝ) : ℂ) := by
      rw [← integral_complex_ofReal]
      congr 1
      ext x
      push_cast; rfl
    rw [this]
    push_cast
    ring
  have e2 : ∫ x : ℝ, ∑' k : ℕ, (z * (x : ℂ)) ^ k / (k.factorial : ℂ) ∂mu = complexMGF id mu z := by
    unfold complexMGF
    congr 1
    ext x
    simp only [id]
    rw [Complex.exp_eq_exp_ℂ, NormedSpace.exp_eq_tsum_div]
  rw [e2] at h
  exact h.congr_fun fun k => (e1 k).symm

open MeasureTheory ProbabilityTheory in
/-- **C51** (probability laws): for every law with `E exp(|alpha X|) < ∞`, `moment_raw(n, alpha)` applied to its moment generating function
returns `E X^n` up to `1e-11 / (1 - 1e-11) * n! / |alpha|^n * E exp(|alpha X|)`. -/
theorem moment_raw_law {mu : Measure ℝ} {n l : ℕ} {alpha : ℝ} (hn : n ≠ 0) (hl : l ≠ 0) (ha : alpha ≠ 0)
    (hi : Integrable (fun x => exp (|alpha| * |x|)) mu) :
    |momentRaw (complexMGF id mu) n alpha l - ∫ x, x ^ n ∂mu| ≤
      n.factorial * (|alpha| ^ n)⁻¹ * (∫ x, exp (|alpha| * |x|) ∂mu) * (1e-11 / (1 - 1e-11)) := by
  have hr1 : radius n l ≤ 1 := by
    unfold radius
    refine rpow_le_one_of_one_le_of_nonpos (by norm_num) ?_
    rw [neg_div]
    exact neg_nonpos.2 (by positivity)
  have hR : |alpha * radius n l| ≤ |alpha| := by
    rw [abs_mul, abs_of_pos (radius_pos n l)]
    exact mul_le_of_le_one_right (abs_nonneg _) hr1
  have hT := taylorOn_mgf (mu := mu) (R := |alpha * radius n l|) (hi.mono (by fun_prop) (Filter.Eventually.of_forall fun x => by
    rw [norm_eq_abs, norm_eq_abs, abs_exp, abs_exp]
    exact exp_le_exp.2 (mul_le_mul_of_nonneg_right hR (abs_nonneg x))))
  have hb : ∀ k : ℕ, |(∫ x, x ^ k ∂mu) / k.factorial| * |alpha| ^ k ≤ ∫ x, exp (|alpha| * |x|) ∂mu := fun k => by
    have h1 : |∫ x, x ^ k ∂mu| ≤ ∫ x, |x| ^ k ∂mu := by
      have := norm_integral_le_integral_norm (μ := mu) (fun x : ℝ => x ^ k)
      simpa only [norm_pow, norm_eq_abs] using this
    rw [abs_div, Nat.abs_cast]
    have h2 : (∫ x, |x| ^ k ∂mu) / k.factorial * |alpha| ^ k = ∫ x, (|alpha| * |x|) ^ k / k.factorial ∂mu := by
      simp only [mul_pow, integral_const_mul, div_eq_mul_inv, integral_mul_const]
      ring
    calc |∫ x, x ^ k ∂mu| / k.factorial * |alpha| ^ k ≤ (∫ x, |x| ^ k ∂mu) / k.factorial * |alpha| ^ k := by gcongr
      _ = ∫ x, (|alpha| * |x|) ^ k / k.factorial ∂mu := h2
      _ ≤ ∫ x, exp (|alpha| * |x|) ∂mu := integral_mono_of_nonneg (Filter.Eventually.of_forall fun x => by positivity) hi
          (Filter.Eventually.of_forall fun x => pow_div_factorial_le_exp _ (by positivity) k)
  have hap : 0 < |alpha| := abs_pos.2 ha
  have h := moment_raw_error (C := (|alpha| ^ n)⁻¹ * ∫ x, exp (|alpha| * |x|) ∂mu) hn hl ha hT fun m _ => by
    have := hb (n + 2 * n * l * m)
    rw [pow_add] at this
    rw [inv_mul_eq_div, le_div_iff₀ (by positivity)]
    linarith
  have hf : (n.factorial : ℝ) ≠ 0 := by exact_mod_cast n.factorial_ne_zero
  rw [mul_div_cancel₀ _ hf] at h
  linarith

/-! ### The recurrence -/

lemma runLoop_suffix (f : ℂ → ℂ) (l : ℕ) : ∀ (k i : ℕ) (out : List ℝ),
    (runLoop f l k i out).length = k + out.length ∧ ∃ pre, runLoop f l k i out = pre ++ out
  | 0, i, out => ⟨by simp [runLoop], [], rfl⟩
  | k + 1, i, out => by
    obtain ⟨h1, pre, h2⟩ := runLoop_suffix f l k (i + 1) (momentRaw f i (((i : ℝ) - 1) * out.getD 1 0 / out.getD 0 0) l :: out)
    refine ⟨?_, pre ++ [momentRaw f i (((i : ℝ) - 1) * out.getD 1 0 / out.getD 0 0) l], ?_⟩
    · rw [runLoop, h1]; simp; ring
    · rw [runLoop, h2]; simp

lemma runLoop_entries (f : ℂ → ℂ) (l : ℕ) : ∀ (k i : ℕ) (out : List ℝ), 3 ≤ i → out.length = i - 1 → ∀ j, i ≤ j → j < i + k →
    (runLoop f l k i out).reverse.getD (j - 1) 0 = momentRaw f j (((j : ℝ) - 1) * (runLoop f l k i out).reverse.getD (j - 3) 0 /
      (runLoop f l k i out).reverse.getD (j - 2) 0) l
  | 0, i, out, _, _, j, h1, h2 => by omega
  | k + 1, i, out, hi, hl, j, h1, h2 => by
    rcases Nat.eq_or_lt_of_le h1 with rfl | h
    · rw [runLoop]
      obtain ⟨_, pre, h⟩ := runLoop_suffix f l k (i + 1) (momentRaw f i (((i : ℝ) - 1) * out.getD 1 0 / out.getD 0 0) l :: out)
      rw [h]
      obtain ⟨x, out1, rfl⟩ := List.exists_cons_of_length_pos (l := out) (by omega)
      obtain ⟨y, out2, rfl⟩ := List.exists_cons_of_length_pos (l := out1) (by simp at hl; omega)
      simp only [List.length_cons] at hl
      have e3 : i - 3 = out2.reverse.length := by simp; omega
      have e2 : i - 2 = (out2.reverse ++ [y]).length := by simp; omega
      have e1 : i - 1 = (out2.reverse ++ [y] ++ [x]).length := by simp; omega
      simp only [List.reverse_append, List.reverse_cons, List.getD_cons_zero, List.getD_cons_succ]
      rw [e1, e2, e3]
      simp [List.getD_eq_getElem?_getD]
    · rw [runLoop]
      exact runLoop_entries f l k (i + 1) _ (by omega) (by simp; omega) j (by omega) (by omega)

/-- **C51** (the recurrence): `_run` returns exactly `n` values; the first two use `alpha = 2 m1/m2`, every later order `i` uses
`alpha = (i-1) out[i-3] / out[i-2]` from the two values just computed. -/
theorem run_entries (f : ℂ → ℂ) {l n : ℕ} (m1 m2 : ℝ) (hn : 2 ≤ n) :
    (run f l n m1 m2).length = n ∧ (run f l n m1 m2).getD 0 0 = momentRaw f 1 (2 * m1 / m2) l ∧
    (run f l n m1 m2).getD 1 0 = momentRaw f 2 (2 * m1 / m2) l ∧
    ∀ i, 3 ≤ i → i ≤ n → (run f l n m1 m2).getD (i - 1) 0 = momentRaw f i (((i : ℝ) - 1) * (run f l n m1 m2).getD (i - 3) 0 /
      (run f l n m1 m2).getD (i - 2) 0) l := by
  unfold run
  simp only [show (2.0 : ℝ) = 2 by norm_num]
  obtain ⟨hlen, pre, h⟩ := runLoop_suffix f l (n - 2) 3 [momentRaw f 2 (2 * m1 / m2) l, momentRaw f 1 (2 * m1 / m2) l]
  refine ⟨?_, ?_, ?_, ?_⟩
  · rw [List.length_reverse, hlen]; simp; omega
  · rw [h]; simp
  · rw [h]; simp
  · intro i h3 hin
    exact runLoop_entries f l (n - 2) 3 _ le_rfl (by simp) i h3 (by omega)

open MeasureTheory ProbabilityTheory in
/-- **C51** (all orders): run on the generating function of a law with all exponential moments, each value of `_run` is within the
aliasing bound of the true moment, for the `alpha` the recurrence chose (when it is non-zero). -/
theorem run_law {mu : Measure ℝ} {l n : ℕ} (m1 m2 : ℝ) (hn : 2 ≤ n) (hl : l ≠ 0) (hi : ∀ c : ℝ, Integrable (fun x => exp (c * |x|)) mu)
    {i : ℕ} (h1 : 1 ≤ i) (hin : i ≤ n) :
    let out := run (complexMGF id mu) l n m1 m2
    let alpha := if i ≤ 2 then 2 * m1 / m2 else ((i : ℝ) - 1) * out.getD (i - 3) 0 / out.getD (i - 2) 0
    alpha ≠ 0 → |out.getD (i - 1) 0 - ∫ x, x ^ i ∂mu| ≤
      i.factorial * (|alpha| ^ i)⁻¹ * (∫ x, exp (|alpha| * |x|) ∂mu) * (1e-11 / (1 - 1e-11)) := by
  intro out alpha ha
  obtain ⟨_, e1, e2, e3⟩ := run_entries (complexMGF id mu) (l := l) m1 m2 hn
  have : out.getD (i - 1) 0 = momentRaw (complexMGF id mu) i alpha l := by
    by_cases h : i ≤ 2
    · have ha' : alpha = 2 * m1 / m2 := if_pos h
      rw [ha']
      interval_cases i
      · exact e1
      · exact e2
    · have ha' : alpha = ((i : ℝ) - 1) * out.getD (i - 3) 0 / out.getD (i - 2) 0 := if_neg h
      rw [ha']
      exact e3 i (by omega) hin
  rw [this]
  exact moment_raw_law (by omega) hl ha (hi _)

/-- **C51**: analytic mean and variance given to the constructor are returned as the first two moments, and the other orders are those of
the recurrence seeded with them; likewise for cumulants. -/
theorem moments_analytic {m : Mgf2Mom} {n : ℕ} {mu v : ℝ} (h1 : m.mean = some mu) (h2 : m.var = some v) (hn : 2 ≤ n) :
    (m.moments n).length = n ∧ (m.moments n).getD 0 0 = mu ∧ (m.moments n).getD 1 0 = v + mu ^ 2 ∧
      (∀ i, 2 ≤ i → (m.moments n).getD i 0 = (run m.mgf m.l n mu (v + mu ^ 2)).getD i 0) ∧
    (m.cumulants n).length = n ∧ (m.cumulants n).getD 0 0 = mu ∧ (m.cumulants n).getD 1 0 = v ∧
      ∀ i, 2 ≤ i → (m.cumulants n).getD i 0 = (run (fun u => Complex.log (m.mgf u)) m.l n mu v).getD i 0 := by
  have hl1 := (run_entries m.mgf (l := m.l) mu (v + mu ^ 2) hn).1
  have hl2 := (run_entries (fun u => Complex.log (m.mgf u)) (l := m.l) mu v hn).1
  unfold moments cumulants
  simp only [h1, h2, if_neg (not_lt.2 hn)]
  generalize run m.mgf m.l n mu (v + mu ^ 2) = o1 at *
  generalize run (fun u => Complex.log (m.mgf u)) m.l n mu v = o2 at *
  refine ⟨by simpa, ?_, ?_, ?_, by simpa, ?_, ?_, ?_⟩
  · simp [hl1, show 0 < n by omega]
  · simp [hl1, show 0 < n by omega, show 1 < n by omega]
  · intro i hi
    simp [show 0 ≠ i by omega, show 1 ≠ i by omega]
  · simp [hl2, show 0 < n by omega]
  · simp [hl2, show 1 < n by omega]
  · intro i hi
    simp [show 0 ≠ i by omega, show 1 ≠ i by omega]

example : momentRaw (fun z => (Polynomial.map Complex.ofRealHom (1 + 3 * Polynomial.X ^ 2)).eval z) 2 0.7 1 = 6 := by
  have h : (1 + 3 * Polynomial.X ^ 2 : Polynomial ℝ).natDegree ≤ 2 := by compute_degree
  rw [moment_raw_polynomial _ (by norm_num) (by norm_num) (by norm_num) (by omega)]
  simp
  norm_num

open MeasureTheory ProbabilityTheory in
example (c : ℝ) : Integrable (fun x => exp (c * |x|)) (gaussianReal 1 1) := by
  have h := (integrable_exp_mul_gaussianReal (μ := 1) (v := 1) c).add (integrable_exp_mul_gaussianReal (μ := 1) (v := 1) (-c))
  refine h.mono (by fun_prop) (Filter.Eventually.of_forall fun x => ?_)
  rw [norm_eq_abs, abs_exp, norm_eq_abs]
  refine le_trans ?_ (le_abs_self _)
  simp only [Pi.add_apply]
  rcases abs_cases x with ⟨h, _⟩ | ⟨h, _⟩
  · rw [h]; linarith [exp_pos (-c * x)]
  · rw [h, mul_neg, ← neg_mul]; linarith [exp_pos (c * x)]

end Mgf2Mom

end PyFENG
