import Mathlib.Analysis.SpecialFunctions.Trigonometric.Cotangent
import Mathlib.Analysis.SpecialFunctions.Trigonometric.Deriv
import Mathlib.Analysis.Calculus.SmoothSeries
import Mathlib.NumberTheory.ZetaValues
import Mathlib.Analysis.Real.Pi.Bounds
import Mathlib.Analysis.SpecialFunctions.Arsinh

/-!
# Series of the hyperbolic cotangent and product of the hyperbolic sine
-/

namespace PyFENG

open Real Filter Topology

namespace Coth

/-- `π² (n+1)²`. -/
noncomputable def pole (n : ℕ) : ℝ := π ^ 2 * ((n : ℝ) + 1) ^ 2

lemma pole_pos (n : ℕ) : 0 < pole n := by unfold pole; have := pi_pos; positivity

lemma summable_pole : Summable fun n => 1 / pole n := by
  have h := ((summable_nat_add_iff 1).2 (Real.summable_one_div_nat_pow.2 one_lt_two)).mul_left (1 / π ^ 2)
  refine h.congr fun n => ?_
  unfold pole
  push_cast
  have := pi_pos
  field_simp

lemma pole_ge (n : ℕ) : 1 ≤ pole n := by
  unfold pole
  have h1 : 1 ≤ π ^ 2 := one_le_pow₀ (by linarith [pi_gt_three])
  have h2 : (1 : ℝ) ≤ ((n : ℝ) + 1) ^ 2 := one_le_pow₀ (by linarith [Nat.cast_nonneg (α := ℝ) n])
  nlinarith

/-- Mittag-Leffler: `coth`. -/
lemma hasSum_one {a : ℝ} (ha : a ≠ 0) : HasSum (fun n => 1 / (a ^ 2 + pole n)) ((a * (cosh a / sinh a) - 1) / (2 * a ^ 2)) := by
  have hs : Summable fun n => 1 / (a ^ 2 + pole n) := by
    refine Summable.of_nonneg_of_le (fun n => ?_) (fun n => ?_) summable_pole
    · have := pole_pos n; positivity
    · exact one_div_le_one_div_of_le (pole_pos n) (by nlinarith [sq_nonneg a])
  have hpi : (π : ℂ) ≠ 0 := by exact_mod_cast pi_pos.ne'
  have haC : (a : ℂ) ≠ 0 := by exact_mod_cast ha
  have hz : (Complex.I * a / π : ℂ) ∈ Complex.integerComplement := by
    rw [Complex.mem_integerComplement_iff]
    rintro ⟨n, hn⟩
    have h1 := congrArg Complex.im hn
    have e : (Complex.I * a / π : ℂ) = Complex.I * ((a / π : ℝ) : ℂ) := by push_cast; ring
    rw [e] at h1
    rw [Complex.I_mul_im, Complex.ofReal_re, Complex.intCast_im] at h1
    exact div_ne_zero ha pi_pos.ne' h1.symm
  have h := cot_series_rep' hz
  have e1 : (π : ℂ) * (Complex.I * a / π) = a * Complex.I := by field_simp
  have hsinh : sinh a ≠ 0 := by rw [Ne, ← sinh_zero, sinh_inj]; exact ha
  have hshC : (Complex.sinh a) ≠ 0 := by rw [← Complex.ofReal_sinh]; exact_mod_cast hsinh
  have e2 : Complex.cot (a * Complex.I) = -Complex.I * ((cosh a / sinh a : ℝ) : ℂ) := by
    unfold Complex.cot
    rw [Complex.cos_mul_I, Complex.sin_mul_I]
    push_cast
    have : Complex.I ≠ 0 := Complex.I_ne_zero
    field_simp
    rw [Complex.I_sq]
    ring
  have e3 : ∀ n : ℕ, 1 / (Complex.I * a / π - (n + 1)) + 1 / (Complex.I * a / π + (n + 1) : ℂ) = (-2 * a * π * Complex.I) * ((1 / (a ^ 2 + pole n) : ℝ) : ℂ) := by
    intro n
    have hd : ((a ^ 2 + pole n : ℝ) : ℂ) ≠ 0 := by
      have : a ^ 2 + pole n ≠ 0 := by have := pole_pos n; positivity
      exact_mod_cast this
    have hd' : (Complex.I * a - π * (n + 1)) * (Complex.I * a + π * (n + 1)) = -((a ^ 2 + pole n : ℝ) : ℂ) := by
      unfold pole
      push_cast
      linear_combination ((a : ℂ) ^ 2) * Complex.I_sq
    have h1 : (Complex.I * a - π * (n + 1) : ℂ) ≠ 0 := by
      intro h0; rw [h0, zero_mul] at hd'; exact hd (neg_eq_zero.1 hd'.symm)
    have h2 : (Complex.I * a + π * (n + 1) : ℂ) ≠ 0 := by
      intro h0; rw [h0, mul_zero] at hd'; exact hd (neg_eq_zero.1 hd'.symm)
    have f1 : (Complex.I * a / π - (n + 1) : ℂ) = (Complex.I * a - π * (n + 1)) / π := by field_simp
    have f2 : (Complex.I * a / π + (n + 1) : ℂ) = (Complex.I * a + π * (n + 1)) / π := by field_simp
    rw [f1, f2, one_div_div, one_div_div, div_add_div _ _ h1 h2, hd', Complex.ofReal_div]
    rw [Complex.ofReal_one]
    field_simp
    ring
  simp only [e3] at h
  rw [e1, e2, tsum_mul_left, ← Complex.ofReal_tsum] at h
  have h4 : (cosh a / sinh a - 1 / a : ℝ) = 2 * a * ∑' n, 1 / (a ^ 2 + pole n) := by
    have e4 : 1 / (Complex.I * a / π : ℂ) = -Complex.I * π / a := by
      have : Complex.I ≠ 0 := Complex.I_ne_zero
      field_simp
      rw [Complex.I_sq]
      ring
    rw [e4] at h
    have h5 : (-Complex.I * π) * (((cosh a / sinh a - 1 / a : ℝ) : ℂ)) = (-Complex.I * π) * ((2 * a * ∑' n, 1 / (a ^ 2 + pole n) : ℝ) : ℂ) := by
      have g1 : (((cosh a / sinh a - 1 / a : ℝ) : ℂ)) = ((cosh a / sinh a : ℝ) : ℂ) - 1 / a := by push_cast; ring
      rw [g1, Complex.ofReal_mul]
      push_cast at h ⊢
      linear_combination h
    have h6 := mul_left_cancel₀ (mul_ne_zero (neg_ne_zero.2 Complex.I_ne_zero) hpi) h5
    exact_mod_cast h6
  rw [hs.hasSum_iff]
  have : 2 * a ≠ 0 := by simpa using ha
  apply mul_left_cancel₀ this
  rw [← h4]
  field_simp

/-- `S_k(x) = Σ 1/(x + π²n²)^k` is differentiable termwise. -/
lemma summable_pow (k : ℕ) {x : ℝ} (hx : 0 ≤ x) : Summable fun n => 1 / (x + pole n) ^ (k + 1) := by
  refine Summable.of_nonneg_of_le (fun n => ?_) (fun n => ?_) summable_pole
  · have := pole_pos n; positivity
  · refine one_div_le_one_div_of_le (pole_pos n) ?_
    have h1 := pole_ge n
    calc pole n ≤ x + pole n := by linarith
      _ ≤ (x + pole n) ^ (k + 1) := le_self_pow₀ (by linarith) (by omega)

lemma hasDerivAt_S (k : ℕ) {x : ℝ} (hx : 0 < x) :
    HasDerivAt (fun y => ∑' n, 1 / (y + pole n) ^ (k + 1)) (-((k + 1 : ℕ) : ℝ) * ∑' n, 1 / (x + pole n) ^ (k + 2)) x := by
  have h := hasDerivAt_tsum_of_isPreconnected (t := Set.Ioi (0 : ℝ)) (g := fun n y => 1 / (y + pole n) ^ (k + 1))
    (g' := fun n y => -((k + 1 : ℕ) : ℝ) * (1 / (y + pole n) ^ (k + 2))) (u := fun n => ((k + 1 : ℕ) : ℝ) * (1 / pole n)) (y₀ := x) (y := x)
    (summable_pole.mul_left _) isOpen_Ioi isPreconnected_Ioi ?_ ?_ hx (summable_pow k hx.le) hx
  · rwa [tsum_mul_left] at h
  · intro n y hy
    have hp := pole_pos n
    have hy' : (0 : ℝ) < y := hy
    have h1 := ((hasDerivAt_id' y).add_const (pole n)).fun_pow (k + 1)
    have h2 := h1.fun_inv (by positivity)
    refine (h2.congr_deriv ?_).congr_of_eventuallyEq (Eventually.of_forall fun z => by simp only [one_div])
    rw [Nat.add_sub_cancel, mul_one]
    have : y + pole n ≠ 0 := by positivity
    field_simp
    ring
  · intro n y hy
    have hp := pole_pos n
    have hy' : (0 : ℝ) < y := hy
    rw [norm_mul, norm_neg, Real.norm_of_nonneg (by positivity), Real.norm_of_nonneg (by positivity)]
    refine mul_le_mul_of_nonneg_left (one_div_le_one_div_of_le hp ?_) (by positivity)
    have h1 := pole_ge n
    calc pole n ≤ y + pole n := by linarith
      _ ≤ (y + pole n) ^ (k + 2) := le_self_pow₀ (by linarith) (by omega)

lemma sq_deriv {G : ℝ → ℝ} {g : ℝ → ℝ} {G' g' a : ℝ} (ha : a ≠ 0) (hG : HasDerivAt G G' (a ^ 2)) (hg : HasDerivAt g g' a) (e : ∀ b, b ≠ 0 → G (b ^ 2) = g b) : G' = g' / (2 * a) := by
  have h1 : HasDerivAt (fun b => G (b ^ 2)) (G' * (2 * a)) a := by
    have h2 : HasDerivAt (fun b : ℝ => b ^ 2) (2 * a) a := by simpa using hasDerivAt_pow 2 a
    exact HasDerivAt.comp (h₂ := G) (h := fun b : ℝ => b ^ 2) a hG h2
  have h3 : HasDerivAt (fun b => G (b ^ 2)) g' a := hg.congr_of_eventuallyEq (by
    filter_upwards [isOpen_ne.mem_nhds ha] with b hb
    exact e b hb)
  rw [← h1.unique h3]
  field_simp

lemma hasDerivAt_coth {a : ℝ} (ha : a ≠ 0) : HasDerivAt (fun x => cosh x / sinh x) (-(1 / sinh a) ^ 2) a := by
  have hsinh : sinh a ≠ 0 := by rw [Ne, ← sinh_zero, sinh_inj]; exact ha
  have h := (hasDerivAt_cosh a).fun_div (hasDerivAt_sinh a) hsinh
  refine h.congr_deriv ?_
  have := cosh_sq a
  field_simp
  linear_combination -this

lemma hasDerivAt_csch2 {a : ℝ} (ha : a ≠ 0) : HasDerivAt (fun x => (1 / sinh x) ^ 2) (-2 * (cosh a / sinh a) * (1 / sinh a) ^ 2) a := by
  have hsinh : sinh a ≠ 0 := by rw [Ne, ← sinh_zero, sinh_inj]; exact ha
  have h := (((hasDerivAt_sinh a).fun_inv hsinh).fun_pow 2)
  refine (h.congr_deriv ?_).congr_of_eventuallyEq (Eventually.of_forall fun z => by simp only [one_div])
  norm_num
  field_simp

lemma hasSum_two {a : ℝ} (ha : a ≠ 0) : HasSum (fun n => 1 / (a ^ 2 + pole n) ^ 2)
    ((a * (cosh a / sinh a) + a ^ 2 * (1 / sinh a) ^ 2 - 2) / (4 * a ^ 4)) := by
  have hx : 0 < a ^ 2 := by positivity
  have hg : HasDerivAt (fun b : ℝ => (b * (cosh b / sinh b) - 1) / (2 * b ^ 2)) _ a :=
    (((hasDerivAt_id' a).fun_mul (hasDerivAt_coth ha)).sub_const 1).fun_div (((hasDerivAt_pow 2 a)).const_mul 2) (by positivity)
  have h := sq_deriv ha (hasDerivAt_S 0 hx) hg (fun b hb => by simpa using (hasSum_one hb).tsum_eq)
  rw [(summable_pow 1 hx.le).hasSum_iff]
  generalize cosh a / sinh a = C at *
  generalize 1 / sinh a = H at *
  norm_num at h
  rw [show 1 + 1 = 2 from rfl]
  simp only [one_div] at *
  rw [← neg_eq_iff_eq_neg.2 h.symm]
  field_simp
  ring

lemma hasSum_three {a : ℝ} (ha : a ≠ 0) : HasSum (fun n => 1 / (a ^ 2 + pole n) ^ 3)
    ((2 * a ^ 3 * (cosh a / sinh a) * (1 / sinh a) ^ 2 + 3 * a ^ 2 * (1 / sinh a) ^ 2 + 3 * a * (cosh a / sinh a) - 8) / (16 * a ^ 6)) := by
  have hx : 0 < a ^ 2 := by positivity
  have hg : HasDerivAt (fun b : ℝ => (b * (cosh b / sinh b) + b ^ 2 * (1 / sinh b) ^ 2 - 2) / (4 * b ^ 4)) _ a :=
    (((((hasDerivAt_id' a).fun_mul (hasDerivAt_coth ha))).add ((hasDerivAt_pow 2 a).fun_mul (hasDerivAt_csch2 ha))).sub_const 2).fun_div (((hasDerivAt_pow 4 a)).const_mul 4) (by positivity)
  have h := sq_deriv ha (hasDerivAt_S 1 hx) hg (fun b hb => by simpa using (hasSum_two hb).tsum_eq)
  rw [(summable_pow 2 hx.le).hasSum_iff]
  clear hg
  simp only [Pi.add_apply] at h
  generalize cosh a / sinh a = C at *
  generalize 1 / sinh a = H at *
  norm_num at h
  rw [show 2 + 1 = 3 from rfl]
  simp only [one_div] at *
  have h2 : ∑' n, ((a ^ 2 + pole n) ^ 3)⁻¹ = (2 * ∑' n, ((a ^ 2 + pole n) ^ 3)⁻¹) / 2 := by ring
  rw [h2, ← neg_eq_iff_eq_neg.2 h.symm]
  field_simp
  ring


lemma bernoulli_six : bernoulli 6 = 1 / 42 := by
  rw [bernoulli_eq_bernoulli'_of_ne_one (by decide)]
  have h5 : bernoulli' 5 = 0 := bernoulli'_eq_zero_of_odd (by decide) (by norm_num)
  rw [bernoulli'_def]
  norm_num [Finset.sum_range_succ, Finset.sum_range_succ', Finset.sum_range_zero, Nat.choose, h5]

lemma bernoulli_eight : bernoulli 8 = -1 / 30 := by
  have h6 := bernoulli_six
  rw [bernoulli_eq_bernoulli'_of_ne_one (by decide)] at h6 ⊢
  have h5 : bernoulli' 5 = 0 := bernoulli'_eq_zero_of_odd (by decide) (by norm_num)
  have h7 : bernoulli' 7 = 0 := bernoulli'_eq_zero_of_odd (by decide) (by norm_num)
  rw [bernoulli'_def]
  norm_num [Finset.sum_range_succ, Finset.sum_range_succ', Finset.sum_range_zero, Nat.choose, h5, h6, h7]

lemma hasSum_pole (k : ℕ) {s : ℝ} (hk : k ≠ 0) (h : HasSum (fun n : ℕ => 1 / (n : ℝ) ^ (2 * k)) s) : HasSum (fun n => 1 / pole n ^ k) (s / π ^ (2 * k)) := by
  have h1 := (hasSum_nat_add_iff' 1).2 h
  simp only [Finset.range_one, Finset.sum_singleton, Nat.cast_zero] at h1
  rw [zero_pow (by omega), div_zero, sub_zero] at h1
  refine (h1.div_const (π ^ (2 * k))).congr_fun fun n => ?_
  unfold pole
  push_cast
  rw [mul_pow, ← pow_mul, ← pow_mul, div_div, mul_comm]

lemma hasSum_pole1 : HasSum (fun n => 1 / pole n) (1 / 6) := by
  have h := hasSum_pole 1 one_ne_zero (by simpa using hasSum_zeta_two)
  have := pi_pos
  rw [show π ^ 2 / 6 / π ^ (2 * 1) = 1 / 6 by field_simp] at h
  simpa using h

lemma hasSum_pole2 : HasSum (fun n => 1 / pole n ^ 2) (1 / 90) := by
  have h := hasSum_pole 2 two_ne_zero (by simpa using hasSum_zeta_four)
  have := pi_pos
  rwa [show π ^ 4 / 90 / π ^ (2 * 2) = 1 / 90 by field_simp] at h

lemma hasSum_pole3 : HasSum (fun n => 1 / pole n ^ 3) (1 / 945) := by
  have h := hasSum_pole 3 three_ne_zero (hasSum_zeta_nat three_ne_zero)
  have := pi_pos
  rw [show 2 * 3 = 6 from rfl, bernoulli_six] at h
  rwa [show (-1 : ℝ) ^ (3 + 1) * 2 ^ (6 - 1) * π ^ 6 * ((1 / 42 : ℚ) : ℝ) / (Nat.factorial 6 : ℝ) / π ^ 6 = 1 / 945 by norm_num [Nat.factorial]; field_simp; norm_num] at h

lemma hasSum_pole4 : HasSum (fun n => 1 / pole n ^ 4) (1 / 9450) := by
  have h := hasSum_pole 4 four_ne_zero (hasSum_zeta_nat four_ne_zero)
  have := pi_pos
  rw [show 2 * 4 = 8 from rfl, bernoulli_eight] at h
  rwa [show (-1 : ℝ) ^ (4 + 1) * 2 ^ (8 - 1) * π ^ 8 * ((-1 / 30 : ℚ) : ℝ) / (Nat.factorial 8 : ℝ) / π ^ 8 = 1 / 9450 by norm_num [Nat.factorial]; field_simp; norm_num] at h

/-- Euler's product for the hyperbolic sine. -/
lemma sinh_prod {b : ℝ} (hb : b ≠ 0) : Tendsto (fun n : ℕ => ∏ j ∈ Finset.range n, (1 + b ^ 2 / pole j)) atTop (𝓝 (sinh b / b)) := by
  have h := Complex.tendsto_euler_sin_prod (Complex.I * b / π)
  have hpi : (π : ℂ) ≠ 0 := by exact_mod_cast pi_pos.ne'
  have hbC : (b : ℂ) ≠ 0 := by exact_mod_cast hb
  have e1 : (π : ℂ) * (Complex.I * b / π) = b * Complex.I := by field_simp
  have e2 : ∀ j : ℕ, (1 : ℂ) - (Complex.I * b / π) ^ 2 / ((j : ℂ) + 1) ^ 2 = ((1 + b ^ 2 / pole j : ℝ) : ℂ) := by
    intro j
    unfold pole
    push_cast
    rw [div_pow, mul_pow, Complex.I_sq, div_div]
    ring
  rw [e1, Complex.sin_mul_I] at h
  simp only [e2] at h
  have h2 := h.div_const ((b : ℂ) * Complex.I)
  have h3 := (Complex.continuous_re.tendsto _).comp h2
  have e4 : Complex.sinh b * Complex.I / (b * Complex.I) = ((sinh b / b : ℝ) : ℂ) := by
    have : Complex.I ≠ 0 := Complex.I_ne_zero
    push_cast
    field_simp
  rw [e4, Complex.ofReal_re] at h3
  refine h3.congr fun n => ?_
  have : (b : ℂ) * Complex.I ≠ 0 := mul_ne_zero hbC Complex.I_ne_zero
  simp only [Function.comp]
  rw [mul_div_right_comm, div_self this, one_mul, ← Complex.ofReal_prod, Complex.ofReal_re]


/-! ### Taylor expansions in `x = a²` with explicit remainders -/

lemma bounds_of {f : ℕ → ℝ} {s lo hi L H : ℝ} {g h : ℕ → ℝ} (hf : HasSum f s) (hg : HasSum g L) (hh : HasSum h H) (h1 : ∀ n, g n ≤ f n) (h2 : ∀ n, f n ≤ h n) (hl : lo ≤ L) (hu : H ≤ hi) :
    lo ≤ s ∧ s ≤ hi := ⟨hl.trans (hasSum_le h1 hg hf), (hasSum_le h2 hf hh).trans hu⟩

lemma taylor_one {x s : ℝ} (hx : 0 ≤ x) (hs : HasSum (fun n => 1 / (x + pole n)) s) : 1 / 6 - x / 90 + x ^ 2 / 945 - x ^ 3 / 9450 ≤ s ∧ s ≤ 1 / 6 - x / 90 + x ^ 2 / 945 := by
  have hu := (hasSum_pole1.sub (hasSum_pole2.mul_left x)).add (hasSum_pole3.mul_left (x ^ 2))
  have hl := hu.sub (hasSum_pole4.mul_left (x ^ 3))
  refine bounds_of hs hl hu (fun n => ?_) (fun n => ?_) (le_of_eq (by ring)) (le_of_eq (by ring)) <;>
    have hc := pole_pos n <;> generalize pole n = c at hc ⊢
  · have : 1 / (x + c) - (1 / c - x * (1 / c ^ 2) + x ^ 2 * (1 / c ^ 3) - x ^ 3 * (1 / c ^ 4)) = x ^ 4 / (c ^ 4 * (x + c)) := by field_simp; ring
    have : 0 ≤ x ^ 4 / (c ^ 4 * (x + c)) := by positivity
    linarith
  · have : (1 / c - x * (1 / c ^ 2) + x ^ 2 * (1 / c ^ 3)) - 1 / (x + c) = x ^ 3 / (c ^ 3 * (x + c)) := by field_simp; ring
    have : 0 ≤ x ^ 3 / (c ^ 3 * (x + c)) := by positivity
    linarith

lemma taylor_two {x s : ℝ} (hx : 0 ≤ x) (hs : HasSum (fun n => 1 / (x + pole n) ^ 2) s) : 1 / 90 - 2 * x / 945 ≤ s ∧ s ≤ 1 / 90 - 2 * x / 945 + 3 * x ^ 2 / 9450 := by
  have hl := hasSum_pole2.sub (hasSum_pole3.mul_left (2 * x))
  have hu := hl.add (hasSum_pole4.mul_left (3 * x ^ 2))
  refine bounds_of hs hl hu (fun n => ?_) (fun n => ?_) (le_of_eq (by ring)) (le_of_eq (by ring)) <;>
    have hc := pole_pos n <;> generalize pole n = c at hc ⊢
  · have : 1 / (x + c) ^ 2 - (1 / c ^ 2 - 2 * x * (1 / c ^ 3)) = x ^ 2 * (3 * c + 2 * x) / (c ^ 3 * (x + c) ^ 2) := by field_simp; ring
    have : 0 ≤ x ^ 2 * (3 * c + 2 * x) / (c ^ 3 * (x + c) ^ 2) := by positivity
    linarith
  · have : (1 / c ^ 2 - 2 * x * (1 / c ^ 3) + 3 * x ^ 2 * (1 / c ^ 4)) - 1 / (x + c) ^ 2 = x ^ 3 * (4 * c + 3 * x) / (c ^ 4 * (x + c) ^ 2) := by field_simp; ring
    have : 0 ≤ x ^ 3 * (4 * c + 3 * x) / (c ^ 4 * (x + c) ^ 2) := by positivity
    linarith

lemma taylor_cone {x s : ℝ} (hx : 0 ≤ x) (hs : HasSum (fun n => pole n / (x + pole n) ^ 2) s) :
    1 / 6 - 2 * x / 90 + 3 * x ^ 2 / 945 - 4 * x ^ 3 / 9450 ≤ s ∧ s ≤ 1 / 6 - 2 * x / 90 + 3 * x ^ 2 / 945 := by
  have hu := (hasSum_pole1.sub (hasSum_pole2.mul_left (2 * x))).add (hasSum_pole3.mul_left (3 * x ^ 2))
  have hl := hu.sub (hasSum_pole4.mul_left (4 * x ^ 3))
  refine bounds_of hs hl hu (fun n => ?_) (fun n => ?_) (le_of_eq (by ring)) (le_of_eq (by ring)) <;>
    have hc := pole_pos n <;> generalize pole n = c at hc ⊢
  · have : c / (x + c) ^ 2 - (1 / c - 2 * x * (1 / c ^ 2) + 3 * x ^ 2 * (1 / c ^ 3) - 4 * x ^ 3 * (1 / c ^ 4)) = x ^ 4 * (5 * c + 4 * x) / (c ^ 4 * (x + c) ^ 2) := by field_simp; ring
    have : 0 ≤ x ^ 4 * (5 * c + 4 * x) / (c ^ 4 * (x + c) ^ 2) := by positivity
    linarith
  · have : (1 / c - 2 * x * (1 / c ^ 2) + 3 * x ^ 2 * (1 / c ^ 3)) - c / (x + c) ^ 2 = x ^ 3 * (4 * c + 3 * x) / (c ^ 3 * (x + c) ^ 2) := by field_simp; ring
    have : 0 ≤ x ^ 3 * (4 * c + 3 * x) / (c ^ 3 * (x + c) ^ 2) := by positivity
    linarith

lemma taylor_ctwo {x s : ℝ} (hx : 0 ≤ x) (hs : HasSum (fun n => pole n / (x + pole n) ^ 3) s) :
    1 / 90 - 3 * x / 945 + 6 * x ^ 2 / 9450 - 10 * x ^ 3 / 9450 ≤ s ∧ s ≤ 1 / 90 - 3 * x / 945 + 6 * x ^ 2 / 9450 := by
  have hu := (hasSum_pole2.sub (hasSum_pole3.mul_left (3 * x))).add (hasSum_pole4.mul_left (6 * x ^ 2))
  have hl := hu.sub (hasSum_pole4.mul_left (10 * x ^ 3))
  refine bounds_of hs hl hu (fun n => ?_) (fun n => ?_) (le_of_eq (by ring)) (le_of_eq (by ring)) <;>
    have hc := pole_pos n <;> have h1 := pole_ge n <;> generalize pole n = c at hc h1 ⊢
  · have : c / (x + c) ^ 3 - (1 / c ^ 2 - 3 * x * (1 / c ^ 3) + 6 * x ^ 2 * (1 / c ^ 4) - 10 * x ^ 3 * (1 / c ^ 5)) = x ^ 4 * (15 * c ^ 2 + 24 * c * x + 10 * x ^ 2) / (c ^ 5 * (x + c) ^ 3) := by field_simp; ring
    have : 0 ≤ x ^ 4 * (15 * c ^ 2 + 24 * c * x + 10 * x ^ 2) / (c ^ 5 * (x + c) ^ 3) := by positivity
    have : 10 * x ^ 3 * (1 / c ^ 5) ≤ 10 * x ^ 3 * (1 / c ^ 4) :=
      mul_le_mul_of_nonneg_left (one_div_le_one_div_of_le (by positivity) (pow_le_pow_right₀ h1 (by norm_num))) (by positivity)
    linarith
  · have : (1 / c ^ 2 - 3 * x * (1 / c ^ 3) + 6 * x ^ 2 * (1 / c ^ 4)) - c / (x + c) ^ 3 = x ^ 3 * (10 * c ^ 2 + 15 * c * x + 6 * x ^ 2) / (c ^ 4 * (x + c) ^ 3) := by field_simp; ring
    have : 0 ≤ x ^ 3 * (10 * c ^ 2 + 15 * c * x + 6 * x ^ 2) / (c ^ 4 * (x + c) ^ 3) := by positivity
    linarith

end Coth

end PyFENG
