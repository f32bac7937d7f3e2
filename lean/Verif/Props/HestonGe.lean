import Verif.Props.HestonMc
import Verif.Lemmas.CothSeries

/-!
# Gamma expansion of the average variance: truncated moments and draws (`pyfeng/heston_mc.py`)
-/

namespace PyFENG

open Real Set Filter Topology Spec

namespace Heston

section Series

variable (m : Heston) {dt : ℝ}

lemma gammaN_eq (n : ℕ) : m.gammaN dt n = 2 * ((m.mr * dt / 2) ^ 2 + Coth.pole n) / m.vov2dt dt := by
  unfold gammaN n2pi2 Coth.pole
  field_simp

lemma lambdaN_eq (n : ℕ) : m.lambdaN dt n = 4 * Coth.pole n / (m.vov2dt dt * ((m.mr * dt / 2) ^ 2 + Coth.pole n)) := by
  have hp := Coth.pole_pos n
  have h : n2pi2 n = 4 * Coth.pole n := by unfold n2pi2 Coth.pole; ring
  have h2 : (m.mr * dt) ^ 2 + n2pi2 n = 4 * ((m.mr * dt / 2) ^ 2 + Coth.pole n) := by rw [h]; ring
  unfold lambdaN
  rw [h2, h]
  have : 0 < (m.mr * dt / 2) ^ 2 + Coth.pole n := by positivity
  generalize (m.mr * dt / 2) ^ 2 + Coth.pole n = D at this
  field_simp

lemma gammaN_pos (hv : 0 < m.vov2dt dt) (n : ℕ) : 0 < m.gammaN dt n := by
  rw [gammaN_eq]
  have := Coth.pole_pos n
  positivity

lemma lambdaN_pos (hv : 0 < m.vov2dt dt) (n : ℕ) : 0 < m.lambdaN dt n := by
  rw [lambdaN_eq]
  have := Coth.pole_pos n
  positivity

lemma inv_gamma (hv : 0 < m.vov2dt dt) (n : ℕ) : 1 / m.gammaN dt n = m.vov2dt dt / 2 * (1 / ((m.mr * dt / 2) ^ 2 + Coth.pole n)) := by
  rw [gammaN_eq]
  have := Coth.pole_pos n
  have : 0 < (m.mr * dt / 2) ^ 2 + Coth.pole n := by positivity
  generalize (m.mr * dt / 2) ^ 2 + Coth.pole n = D at this
  field_simp

lemma inv_gamma_sq (hv : 0 < m.vov2dt dt) (n : ℕ) : 1 / m.gammaN dt n ^ 2 = m.vov2dt dt ^ 2 / 4 * (1 / ((m.mr * dt / 2) ^ 2 + Coth.pole n) ^ 2) := by
  have h := congrArg (fun x => x ^ 2) (m.inv_gamma hv n)
  rw [← one_div_pow]
  rw [h, mul_pow, one_div_pow, div_pow]
  norm_num

lemma lambda_div_gamma (hv : 0 < m.vov2dt dt) (n : ℕ) : m.lambdaN dt n / m.gammaN dt n = 2 * (Coth.pole n / ((m.mr * dt / 2) ^ 2 + Coth.pole n) ^ 2) := by
  rw [gammaN_eq, lambdaN_eq]
  have := Coth.pole_pos n
  have : 0 < (m.mr * dt / 2) ^ 2 + Coth.pole n := by positivity
  generalize (m.mr * dt / 2) ^ 2 + Coth.pole n = D at this
  field_simp
  ring

lemma lambda_div_gamma_sq (hv : 0 < m.vov2dt dt) (n : ℕ) : m.lambdaN dt n / m.gammaN dt n ^ 2 = m.vov2dt dt * (Coth.pole n / ((m.mr * dt / 2) ^ 2 + Coth.pole n) ^ 3) := by
  rw [gammaN_eq, lambdaN_eq]
  have := Coth.pole_pos n
  have : 0 < (m.mr * dt / 2) ^ 2 + Coth.pole n := by positivity
  generalize (m.mr * dt / 2) ^ 2 + Coth.pole n = D at this
  field_simp
  ring

/-- `Σ pole/(x + pole)²` and `Σ pole/(x + pole)³` from the inverse powers. -/
lemma pole_split (x : ℝ) (hx : 0 ≤ x) (n k : ℕ) : Coth.pole n / (x + Coth.pole n) ^ (k + 1) = 1 / (x + Coth.pole n) ^ k - x * (1 / (x + Coth.pole n) ^ (k + 1)) := by
  have := Coth.pole_pos n
  obtain ⟨D, hD⟩ : ∃ D, D = x + Coth.pole n := ⟨_, rfl⟩
  have h0 : 0 < D := by rw [hD]; linarith
  rw [← hD, show Coth.pole n = D - x by rw [hD]; ring]
  field_simp
  ring

lemma hasSum_cone {a : ℝ} (ha : a ≠ 0) : HasSum (fun n => Coth.pole n / (a ^ 2 + Coth.pole n) ^ 2) (((cosh a / sinh a) / a - (1 / sinh a) ^ 2) / 4) := by
  have h := (Coth.hasSum_one ha).sub ((Coth.hasSum_two ha).mul_left (a ^ 2))
  have e : (a * (cosh a / sinh a) - 1) / (2 * a ^ 2) - a ^ 2 * ((a * (cosh a / sinh a) + a ^ 2 * (1 / sinh a) ^ 2 - 2) / (4 * a ^ 4)) = ((cosh a / sinh a) / a - (1 / sinh a) ^ 2) / 4 := by
    generalize cosh a / sinh a = c
    generalize 1 / sinh a = s
    field_simp
    ring
  rw [e] at h
  refine h.congr_fun fun n => ?_
  have := pole_split (a ^ 2) (by positivity) n 1
  rw [this, pow_one]

lemma hasSum_ctwo {a : ℝ} (ha : a ≠ 0) : HasSum (fun n => Coth.pole n / (a ^ 2 + Coth.pole n) ^ 3)
    (((cosh a / sinh a) / a ^ 3 + (1 / sinh a) ^ 2 / a ^ 2 - 2 * (cosh a / sinh a) * (1 / sinh a) ^ 2 / a) / 16) := by
  have h := (Coth.hasSum_two ha).sub ((Coth.hasSum_three ha).mul_left (a ^ 2))
  have e : (a * (cosh a / sinh a) + a ^ 2 * (1 / sinh a) ^ 2 - 2) / (4 * a ^ 4) - a ^ 2 * ((2 * a ^ 3 * (cosh a / sinh a) * (1 / sinh a) ^ 2 + 3 * a ^ 2 * (1 / sinh a) ^ 2 + 3 * a * (cosh a / sinh a) - 8) / (16 * a ^ 6)) =
      ((cosh a / sinh a) / a ^ 3 + (1 / sinh a) ^ 2 / a ^ 2 - 2 * (cosh a / sinh a) * (1 / sinh a) ^ 2 / a) / 16 := by
    generalize cosh a / sinh a = c
    generalize 1 / sinh a = s
    field_simp
    ring
  rw [e] at h
  refine h.congr_fun fun n => ?_
  exact pole_split (a ^ 2) (by positivity) n 2

end Series

/-- The exact mean and variance per unit of `V_0 + V_T` of the terms `n >= kk` of the expansion of `X1`: compound Poisson sums of exponentials. -/
noncomputable def Spec.x1Tail (m : Heston) (dt : ℝ) (kk : ℕ) : ℝ × ℝ :=
  (∑' n, m.lambdaN dt (n + kk) / m.gammaN dt (n + kk), ∑' n, 2 * m.lambdaN dt (n + kk) / m.gammaN dt (n + kk) ^ 2)

/-- The exact mean and variance per unit of shape of the terms `n >= kk` of the expansion of `X2`: gamma variables divided by `gamma_n`. -/
noncomputable def Spec.x2Tail (m : Heston) (dt : ℝ) (kk : ℕ) : ℝ × ℝ := (∑' n, 1 / m.gammaN dt (n + kk), ∑' n, 1 / m.gammaN dt (n + kk) ^ 2)

section Tails

variable (m : Heston) {dt : ℝ}

lemma summable_x1 (hv : 0 < m.vov2dt dt) : Summable (fun n => m.lambdaN dt n / m.gammaN dt n) ∧ Summable (fun n => 2 * m.lambdaN dt n / m.gammaN dt n ^ 2) := by
  have hx : 0 ≤ (m.mr * dt / 2) ^ 2 := sq_nonneg _
  constructor
  · have h := (((Coth.summable_pow 0 hx)).sub ((Coth.summable_pow 1 hx).mul_left ((m.mr * dt / 2) ^ 2))).mul_left 2
    refine h.congr fun n => ?_
    rw [lambda_div_gamma m hv, pole_split _ hx n 1]
  · have h := (((Coth.summable_pow 1 hx)).sub ((Coth.summable_pow 2 hx).mul_left ((m.mr * dt / 2) ^ 2))).mul_left (2 * m.vov2dt dt)
    refine h.congr fun n => ?_
    rw [mul_div_assoc 2 (m.lambdaN dt n), lambda_div_gamma_sq m hv, pole_split _ hx n 2]
    ring

lemma summable_x2 (hv : 0 < m.vov2dt dt) : Summable (fun n => 1 / m.gammaN dt n) ∧ Summable (fun n => 1 / m.gammaN dt n ^ 2) := by
  have hx : 0 ≤ (m.mr * dt / 2) ^ 2 := sq_nonneg _
  constructor
  · refine ((Coth.summable_pow 0 hx).mul_left (m.vov2dt dt / 2)).congr fun n => ?_
    rw [inv_gamma m hv, zero_add, pow_one]
  · refine ((Coth.summable_pow 1 hx).mul_left (m.vov2dt dt ^ 2 / 4)).congr fun n => ?_
    rw [inv_gamma_sq m hv]

lemma tail_pos {f : ℕ → ℝ} (hf : Summable f) (h : ∀ n, 0 < f n) (kk : ℕ) : 0 < ∑' n, f (n + kk) :=
  ((summable_nat_add_iff kk).2 hf).tsum_pos (fun n => (h _).le) 0 (h _)

lemma tail_eq {f : ℕ → ℝ} (hf : Summable f) (kk : ℕ) : ∑' n, f (n + kk) = ∑' n, f n - ∑ n ∈ Finset.range kk, f n := by
  rw [← hf.sum_add_tsum_nat_add kk]; ring

lemma x1Tail_pos (hv : 0 < m.vov2dt dt) (kk : ℕ) : 0 < (Spec.x1Tail m dt kk).1 ∧ 0 < (Spec.x1Tail m dt kk).2 := by
  obtain ⟨h1, h2⟩ := m.summable_x1 hv
  exact ⟨tail_pos h1 (fun n => div_pos (m.lambdaN_pos hv n) (m.gammaN_pos hv n)) kk,
    tail_pos h2 (fun n => div_pos (mul_pos two_pos (m.lambdaN_pos hv n)) (pow_pos (m.gammaN_pos hv n) 2)) kk⟩

lemma x2Tail_pos (hv : 0 < m.vov2dt dt) (kk : ℕ) : 0 < (Spec.x2Tail m dt kk).1 ∧ 0 < (Spec.x2Tail m dt kk).2 := by
  obtain ⟨h1, h2⟩ := m.summable_x2 hv
  exact ⟨tail_pos h1 (fun n => div_pos one_pos (m.gammaN_pos hv n)) kk, tail_pos h2 (fun n => div_pos one_pos (pow_pos (m.gammaN_pos hv n) 2)) kk⟩

/-- The sums of all terms in terms of the poles. -/
lemma x1Tail_zero (hv : 0 < m.vov2dt dt) : Spec.x1Tail m dt 0 = (2 * ∑' n, Coth.pole n / ((m.mr * dt / 2) ^ 2 + Coth.pole n) ^ 2, 2 * m.vov2dt dt * ∑' n, Coth.pole n / ((m.mr * dt / 2) ^ 2 + Coth.pole n) ^ 3) := by
  unfold Spec.x1Tail
  simp only [add_zero, mul_div_assoc, lambda_div_gamma m hv, lambda_div_gamma_sq m hv, tsum_mul_left]
  rw [mul_assoc]

lemma x2Tail_zero (hv : 0 < m.vov2dt dt) : Spec.x2Tail m dt 0 = (m.vov2dt dt / 2 * ∑' n, 1 / ((m.mr * dt / 2) ^ 2 + Coth.pole n), m.vov2dt dt ^ 2 / 4 * ∑' n, 1 / ((m.mr * dt / 2) ^ 2 + Coth.pole n) ^ 2) := by
  unfold Spec.x2Tail
  simp only [add_zero, inv_gamma m hv, inv_gamma_sq m hv, tsum_mul_left]

/-- Each call subtracts the first `kk` terms from the value for `kk = 0`. -/
lemma x1star_split (hv : 0 < m.vov2dt dt) (kk : ℕ) :
    (m.x1star dt kk).1 = (m.x1star dt 0).1 - ∑ n ∈ Finset.range kk, m.lambdaN dt n / m.gammaN dt n ∧
    ((m.x1star dt kk).1 ≠ 0 → (m.x1star dt 0).1 ≠ 0 → (m.x1star dt kk).2 * (m.x1star dt kk).1 ^ 2 = (m.x1star dt 0).2 * (m.x1star dt 0).1 ^ 2 - ∑ n ∈ Finset.range kk, 2 * m.lambdaN dt n / m.gammaN dt n ^ 2) := by
  unfold x1star
  simp only [gt_iff_lt, lt_self_iff_false, if_false]
  generalize hm : (if |m.mr * dt / 2| < 0.1 then _ else _) = M0
  generalize hw : (if |m.mr * dt / 2| < 0.1 then _ else _) = V0
  have hS : ∑ n ∈ Finset.range kk, 2 * m.lambdaN dt n / m.gammaN dt n ^ 2 = 2 * ∑ n ∈ Finset.range kk, m.lambdaN dt n / m.gammaN dt n ^ 2 := by
    rw [Finset.mul_sum]; exact Finset.sum_congr rfl fun n _ => mul_div_assoc _ _ _
  rw [hS]
  rcases Nat.eq_zero_or_pos kk with rfl | hk
  · simp
  · simp only [if_pos hk]
    refine ⟨trivial, fun h1 h2 => ?_⟩
    rw [div_mul_cancel₀ _ (pow_ne_zero 2 h1), div_mul_cancel₀ _ (pow_ne_zero 2 h2)]
    field_simp

lemma x2star_split (hv : 0 < m.vov2dt dt) (kk : ℕ) :
    (m.x2star dt kk).1 = (m.x2star dt 0).1 - ∑ n ∈ Finset.range kk, 1 / m.gammaN dt n ∧
    ((m.x2star dt kk).1 ≠ 0 → (m.x2star dt 0).1 ≠ 0 → (m.x2star dt kk).2 * (m.x2star dt kk).1 ^ 2 = (m.x2star dt 0).2 * (m.x2star dt 0).1 ^ 2 - ∑ n ∈ Finset.range kk, 1 / m.gammaN dt n ^ 2) := by
  unfold x2star
  simp only [gt_iff_lt, lt_self_iff_false, if_false]
  generalize hm : (if |m.mr * dt / 2| < 0.1 then _ else _) = M0
  generalize hw : (if |m.mr * dt / 2| < 0.1 then _ else _) = V0
  rcases Nat.eq_zero_or_pos kk with rfl | hk
  · simp
  · simp only [if_pos hk]
    constructor
    · field_simp
    · intro h1 h2
      have h1 := right_ne_zero_of_mul h1
      have h2 := right_ne_zero_of_mul h2
      rw [mul_pow, mul_pow]
      generalize M0 - (∑ n ∈ Finset.range kk, 1 / m.gammaN dt n) / m.vov2dt dt = y at h1 ⊢
      field_simp

end Tails

/-- **C106.** The truncated moments of `X1` are those of the remaining terms of the series: `x1star_avgvar_mv(dt, kk)` returns their mean and scaled variance, for every `kk` (closed form in hyperbolic functions,
used when `|mr dt| >= 0.2`). -/
theorem x1star_correct (m : Heston) {dt : ℝ} (hv : 0 < m.vov2dt dt) (ha : 0.1 ≤ |m.mr * dt / 2|) (kk : ℕ) :
    (m.x1star dt kk).1 = (Spec.x1Tail m dt kk).1 ∧ (m.x1star dt kk).2 = (Spec.x1Tail m dt kk).2 / (Spec.x1Tail m dt kk).1 ^ 2 := by
  have ha0 : m.mr * dt / 2 ≠ 0 := by
    intro h; rw [h, abs_zero] at ha; norm_num at ha
  obtain ⟨hs1, hs2⟩ := m.summable_x1 hv
  have hz := m.x1Tail_zero hv
  have h0 : (m.x1star dt 0).1 = (Spec.x1Tail m dt 0).1 := by
    rw [hz, (hasSum_cone ha0).tsum_eq]
    unfold x1star
    simp only [if_neg (not_lt.2 ha), gt_iff_lt, lt_self_iff_false, if_false]
    ring
  have hp0 := (m.x1Tail_pos hv 0).1
  have h02 : (m.x1star dt 0).2 * (m.x1star dt 0).1 ^ 2 = (Spec.x1Tail m dt 0).2 := by
    have e : (m.x1star dt 0).2 * (m.x1star dt 0).1 ^ 2 = m.vov2dt dt * ((cosh (m.mr * dt / 2) * (1 / sinh (m.mr * dt / 2)) / (m.mr * dt / 2) ^ 3 + (1 / sinh (m.mr * dt / 2)) ^ 2 / (m.mr * dt / 2) ^ 2 - 2 * (cosh (m.mr * dt / 2) * (1 / sinh (m.mr * dt / 2))) * (1 / sinh (m.mr * dt / 2)) ^ 2 / (m.mr * dt / 2)) / 8) := by
      have h1 : (m.x1star dt 0).1 ≠ 0 := by rw [h0]; exact hp0.ne'
      unfold x1star at h1 ⊢
      simp only [if_neg (not_lt.2 ha), gt_iff_lt, lt_self_iff_false, if_false] at h1 ⊢
      rw [div_mul_cancel₀ _ (pow_ne_zero 2 h1)]
    rw [e, hz, (hasSum_ctwo ha0).tsum_eq]
    ring
  obtain ⟨h3, h4⟩ := m.x1star_split hv kk
  have hk : (m.x1star dt kk).1 = (Spec.x1Tail m dt kk).1 := by
    rw [h3, h0]
    exact (tail_eq hs1 kk).symm
  refine ⟨hk, ?_⟩
  have hpk := (m.x1Tail_pos hv kk).1
  have h5 := h4 (by rw [hk]; exact hpk.ne') (by rw [h0]; exact hp0.ne')
  rw [h02] at h5
  rw [eq_div_iff (pow_ne_zero 2 hpk.ne'), ← hk, h5]
  exact (tail_eq hs2 kk).symm

/-- **C106.** The same for `X2`. -/
theorem x2star_correct (m : Heston) {dt : ℝ} (hv : 0 < m.vov2dt dt) (ha : 0.1 ≤ |m.mr * dt / 2|) (kk : ℕ) :
    (m.x2star dt kk).1 = (Spec.x2Tail m dt kk).1 ∧ (m.x2star dt kk).2 = (Spec.x2Tail m dt kk).2 / (Spec.x2Tail m dt kk).1 ^ 2 := by
  have ha0 : m.mr * dt / 2 ≠ 0 := by
    intro h; rw [h, abs_zero] at ha; norm_num at ha
  obtain ⟨hs1, hs2⟩ := m.summable_x2 hv
  have hz := m.x2Tail_zero hv
  have h0 : (m.x2star dt 0).1 = (Spec.x2Tail m dt 0).1 := by
    rw [hz, (Coth.hasSum_one ha0).tsum_eq]
    unfold x2star
    simp only [if_neg (not_lt.2 ha), gt_iff_lt, lt_self_iff_false, if_false]
    ring
  have hp0 := (m.x2Tail_pos hv 0).1
  have h02 : (m.x2star dt 0).2 * (m.x2star dt 0).1 ^ 2 = (Spec.x2Tail m dt 0).2 := by
    have h1 : (m.x2star dt 0).1 ≠ 0 := by rw [h0]; exact hp0.ne'
    rw [hz, (Coth.hasSum_two ha0).tsum_eq]
    unfold x2star at h1 ⊢
    simp only [if_neg (not_lt.2 ha), gt_iff_lt, lt_self_iff_false, if_false] at h1 ⊢
    have h1 := right_ne_zero_of_mul h1
    rw [mul_pow, mul_comm (m.vov2dt dt ^ 2), ← mul_assoc, div_mul_cancel₀ _ (pow_ne_zero 2 h1)]
    ring
  obtain ⟨h3, h4⟩ := m.x2star_split hv kk
  have hk : (m.x2star dt kk).1 = (Spec.x2Tail m dt kk).1 := by
    rw [h3, h0]
    exact (tail_eq hs1 kk).symm
  refine ⟨hk, ?_⟩
  have hpk := (m.x2Tail_pos hv kk).1
  have h5 := h4 (by rw [hk]; exact hpk.ne') (by rw [h0]; exact hp0.ne')
  rw [h02] at h5
  rw [eq_div_iff (pow_ne_zero 2 hpk.ne'), ← hk, h5]
  exact (tail_eq hs2 kk).symm

lemma small_sq {a : ℝ} (ha : |a| < 0.1) : 0 ≤ a ^ 2 ∧ a ^ 2 ≤ 1 / 100 := by
  refine ⟨sq_nonneg a, ?_⟩
  rw [← sq_abs]
  have := abs_nonneg a
  norm_num at ha
  nlinarith

/-- **C106.** For `|mr dt| < 0.2` (including `mr = 0`) a truncated Taylor series replaces the hyperbolic functions: the error is below `1e-9` for the mean and `3e-9 vov² dt` for the variance, at every `kk`. -/
theorem x1star_taylor (m : Heston) {dt : ℝ} (hv : 0 < m.vov2dt dt) (ha : |m.mr * dt / 2| < 0.1) (kk : ℕ) :
    0 ≤ (m.x1star dt kk).1 - (Spec.x1Tail m dt kk).1 ∧ (m.x1star dt kk).1 - (Spec.x1Tail m dt kk).1 ≤ 1 / 10 ^ 9 ∧
    0 ≤ (m.x1star dt kk).2 * (m.x1star dt kk).1 ^ 2 - (Spec.x1Tail m dt kk).2 ∧
    (m.x1star dt kk).2 * (m.x1star dt kk).1 ^ 2 - (Spec.x1Tail m dt kk).2 ≤ 3 / 10 ^ 9 * m.vov2dt dt := by
  obtain ⟨hx0, hx1⟩ := small_sq ha
  obtain ⟨hs1, hs2⟩ := m.summable_x1 hv
  have hz := m.x1Tail_zero hv
  have hs1' : HasSum (fun n => Coth.pole n / ((m.mr * dt / 2) ^ 2 + Coth.pole n) ^ 2) (∑' n, Coth.pole n / ((m.mr * dt / 2) ^ 2 + Coth.pole n) ^ 2) := by
    refine Summable.hasSum ?_
    refine (hs1.mul_left (1 / 2)).congr fun n => ?_
    rw [lambda_div_gamma m hv]; ring
  have hs2' : HasSum (fun n => Coth.pole n / ((m.mr * dt / 2) ^ 2 + Coth.pole n) ^ 3) (∑' n, Coth.pole n / ((m.mr * dt / 2) ^ 2 + Coth.pole n) ^ 3) := by
    refine Summable.hasSum ?_
    refine (hs2.mul_left (1 / (2 * m.vov2dt dt))).congr fun n => ?_
    rw [mul_div_assoc 2 (m.lambdaN dt n), lambda_div_gamma_sq m hv]
    generalize Coth.pole n / ((m.mr * dt / 2) ^ 2 + Coth.pole n) ^ 3 = y
    field_simp
  have t1 := Coth.taylor_cone hx0 hs1'
  have t2 := Coth.taylor_ctwo hx0 hs2'
  generalize (∑' n, Coth.pole n / ((m.mr * dt / 2) ^ 2 + Coth.pole n) ^ 2) = S1 at hz t1
  generalize (∑' n, Coth.pole n / ((m.mr * dt / 2) ^ 2 + Coth.pole n) ^ 3) = S2 at hz t2
  have z1 := congrArg Prod.fst hz
  have z2 := congrArg Prod.snd hz
  simp only at z1 z2
  have h01 : (m.x1star dt 0).1 = 1 / 3 + (m.mr * dt / 2) ^ 2 * (-2 / 45 + (m.mr * dt / 2) ^ 2 * 2 / 315) := by
    unfold x1star
    simp only [if_pos ha, gt_iff_lt, lt_self_iff_false, if_false]
  have h02 : (m.x1star dt 0).1 ≠ 0 → (m.x1star dt 0).2 * (m.x1star dt 0).1 ^ 2 = m.vov2dt dt * (1 / 45 + (m.mr * dt / 2) ^ 2 * (-2 / 315 + (m.mr * dt / 2) ^ 2 * 2 / 1575)) := by
    intro h
    unfold x1star at h ⊢
    simp only [if_pos ha, gt_iff_lt, lt_self_iff_false, if_false] at h ⊢
    rw [div_mul_cancel₀ _ (pow_ne_zero 2 h)]
  generalize (m.mr * dt / 2) ^ 2 = x at hx0 hx1 t1 t2 h01 h02
  have hx3 : x ^ 3 ≤ 1 / 10 ^ 6 := by
    calc x ^ 3 ≤ (1 / 100) ^ 3 := pow_le_pow_left₀ hx0 hx1 3
      _ = _ := by norm_num
  obtain ⟨h3, h4⟩ := m.x1star_split hv kk
  have hd1 : (m.x1star dt kk).1 - (Spec.x1Tail m dt kk).1 = (m.x1star dt 0).1 - (Spec.x1Tail m dt 0).1 := by
    have e := tail_eq hs1 kk
    have e0 := tail_eq hs1 0
    unfold Spec.x1Tail
    simp only
    rw [h3, e, e0]
    simp
  have hl : 0 ≤ (m.x1star dt 0).1 - (Spec.x1Tail m dt 0).1 := by
    rw [h01, z1]
    nlinarith [t1.2]
  have hpk := (m.x1Tail_pos hv kk).1
  have hp0 := (m.x1Tail_pos hv 0).1
  have hn0 : (m.x1star dt 0).1 ≠ 0 := by linarith
  have hd2 : (m.x1star dt kk).2 * (m.x1star dt kk).1 ^ 2 - (Spec.x1Tail m dt kk).2 = (m.x1star dt 0).2 * (m.x1star dt 0).1 ^ 2 - (Spec.x1Tail m dt 0).2 := by
    rw [h4 (by linarith) hn0]
    have e := tail_eq hs2 kk
    have e0 := tail_eq hs2 0
    unfold Spec.x1Tail
    simp only
    rw [e, e0]
    simp
  rw [hd2, hd1, h02 hn0, z2]
  refine ⟨hl, ?_, ?_, ?_⟩
  · rw [h01, z1]
    nlinarith [t1.1]
  · have : m.vov2dt dt * (1 / 45 + x * (-2 / 315 + x * 2 / 1575)) - 2 * m.vov2dt dt * S2 = 2 * m.vov2dt dt * ((1 / 90 - 3 * x / 945 + 6 * x ^ 2 / 9450) - S2) := by ring
    rw [this]
    exact mul_nonneg (by positivity) (by linarith [t2.2])
  · have : m.vov2dt dt * (1 / 45 + x * (-2 / 315 + x * 2 / 1575)) - 2 * m.vov2dt dt * S2 = m.vov2dt dt * (2 * ((1 / 90 - 3 * x / 945 + 6 * x ^ 2 / 9450) - S2)) := by ring
    rw [this, mul_comm (3 / 10 ^ 9)]
    refine mul_le_mul_of_nonneg_left ?_ hv.le
    linarith [t2.1]

/-- **C106.** The same for `X2`: error below `1e-9 vov² dt` for the mean and `1e-8 vov⁴ dt²` for the variance. The returned variance is below the exact one. -/
theorem x2star_taylor (m : Heston) {dt : ℝ} (hv : 0 < m.vov2dt dt) (ha : |m.mr * dt / 2| < 0.1) (kk : ℕ) :
    0 ≤ (m.x2star dt kk).1 - (Spec.x2Tail m dt kk).1 ∧ (m.x2star dt kk).1 - (Spec.x2Tail m dt kk).1 ≤ 1 / 10 ^ 9 * m.vov2dt dt ∧
    0 ≤ (Spec.x2Tail m dt kk).2 - (m.x2star dt kk).2 * (m.x2star dt kk).1 ^ 2 ∧
    (Spec.x2Tail m dt kk).2 - (m.x2star dt kk).2 * (m.x2star dt kk).1 ^ 2 ≤ 1 / 10 ^ 8 * m.vov2dt dt ^ 2 := by
  obtain ⟨hx0, hx1⟩ := small_sq ha
  obtain ⟨hs1, hs2⟩ := m.summable_x2 hv
  have hz := m.x2Tail_zero hv
  have hs1' : HasSum (fun n => 1 / ((m.mr * dt / 2) ^ 2 + Coth.pole n)) (∑' n, 1 / ((m.mr * dt / 2) ^ 2 + Coth.pole n)) := by
    refine Summable.hasSum ?_
    simpa using Coth.summable_pow 0 hx0
  have hs2' : HasSum (fun n => 1 / ((m.mr * dt / 2) ^ 2 + Coth.pole n) ^ 2) (∑' n, 1 / ((m.mr * dt / 2) ^ 2 + Coth.pole n) ^ 2) :=
    Summable.hasSum (Coth.summable_pow 1 hx0)
  have t1 := Coth.taylor_one hx0 hs1'
  have t2 := Coth.taylor_two hx0 hs2'
  generalize (∑' n, 1 / ((m.mr * dt / 2) ^ 2 + Coth.pole n)) = S1 at hz t1
  generalize (∑' n, 1 / ((m.mr * dt / 2) ^ 2 + Coth.pole n) ^ 2) = S2 at hz t2
  have z1 := congrArg Prod.fst hz
  have z2 := congrArg Prod.snd hz
  simp only at z1 z2
  have h01 : (m.x2star dt 0).1 = m.vov2dt dt * (1 / 12 + (m.mr * dt / 2) ^ 2 * (-1 / 180 + (m.mr * dt / 2) ^ 2 / 1890)) := by
    unfold x2star
    simp only [if_pos ha, gt_iff_lt, lt_self_iff_false, if_false]
  have h02 : (m.x2star dt 0).1 ≠ 0 → (m.x2star dt 0).2 * (m.x2star dt 0).1 ^ 2 = m.vov2dt dt ^ 2 * (1 / 360 - (m.mr * dt / 2) ^ 2 / 1890) := by
    intro h
    unfold x2star at h ⊢
    simp only [if_pos ha, gt_iff_lt, lt_self_iff_false, if_false] at h ⊢
    have h := right_ne_zero_of_mul h
    rw [mul_pow, mul_comm (m.vov2dt dt ^ 2), ← mul_assoc, div_mul_cancel₀ _ (pow_ne_zero 2 h), mul_comm]
  generalize (m.mr * dt / 2) ^ 2 = x at hx0 hx1 t1 t2 h01 h02
  have hx3 : x ^ 3 ≤ 1 / 10 ^ 6 := by
    calc x ^ 3 ≤ (1 / 100) ^ 3 := pow_le_pow_left₀ hx0 hx1 3
      _ = _ := by norm_num
  have hx2 : x ^ 2 ≤ 1 / 10 ^ 4 := by
    calc x ^ 2 ≤ (1 / 100) ^ 2 := pow_le_pow_left₀ hx0 hx1 2
      _ = _ := by norm_num
  obtain ⟨h3, h4⟩ := m.x2star_split hv kk
  have hd1 : (m.x2star dt kk).1 - (Spec.x2Tail m dt kk).1 = m.vov2dt dt * ((1 / 12 - x / 180 + x ^ 2 / 1890) - S1 / 2) := by
    have e := tail_eq hs1 kk
    have e0 := tail_eq hs1 0
    have : (m.x2star dt kk).1 - (Spec.x2Tail m dt kk).1 = (m.x2star dt 0).1 - (Spec.x2Tail m dt 0).1 := by
      unfold Spec.x2Tail
      simp only
      rw [h3, e, e0]
      simp
    rw [this, h01, z1]
    ring
  have hl : 0 ≤ (1 / 12 - x / 180 + x ^ 2 / 1890) - S1 / 2 := by linarith [t1.2]
  have hl' : 0 ≤ (m.x2star dt kk).1 - (Spec.x2Tail m dt kk).1 := by rw [hd1]; positivity
  have hpk := (m.x2Tail_pos hv kk).1
  have hn0 : (m.x2star dt 0).1 ≠ 0 := by
    rw [h01]
    have : 0 < 1 / 12 + x * (-1 / 180 + x / 1890) := by nlinarith
    positivity
  have hd2 : (Spec.x2Tail m dt kk).2 - (m.x2star dt kk).2 * (m.x2star dt kk).1 ^ 2 = m.vov2dt dt ^ 2 * (S2 / 4 - (1 / 360 - x / 1890)) := by
    have : (Spec.x2Tail m dt kk).2 - (m.x2star dt kk).2 * (m.x2star dt kk).1 ^ 2 = (Spec.x2Tail m dt 0).2 - (m.x2star dt 0).2 * (m.x2star dt 0).1 ^ 2 := by
      rw [h4 (by linarith) hn0]
      have e := tail_eq hs2 kk
      have e0 := tail_eq hs2 0
      unfold Spec.x2Tail
      simp only
      rw [e, e0]
      simp
    rw [this, h02 hn0, z2]
    ring
  refine ⟨hl', ?_, ?_, ?_⟩
  · rw [hd1, mul_comm (1 / 10 ^ 9)]
    exact mul_le_mul_of_nonneg_left (by linarith [t1.1]) hv.le
  · rw [hd2]
    exact mul_nonneg (by positivity) (by linarith [t2.1])
  · rw [hd2, mul_comm (1 / 10 ^ 8)]
    exact mul_le_mul_of_nonneg_left (by linarith [t2.2]) (by positivity)

/-- The truncated moments are positive, for every `kk`. -/
lemma x1star_pos (m : Heston) {dt : ℝ} (hv : 0 < m.vov2dt dt) (kk : ℕ) : 0 < (m.x1star dt kk).1 ∧ 0 < (m.x1star dt kk).2 := by
  obtain ⟨p1, p2⟩ := m.x1Tail_pos hv kk
  rcases lt_or_ge |m.mr * dt / 2| 0.1 with ha | ha
  · obtain ⟨h1, -, h2, -⟩ := m.x1star_taylor hv ha kk
    have q1 : 0 < (m.x1star dt kk).1 := by linarith
    refine ⟨q1, ?_⟩
    have : 0 < (m.x1star dt kk).2 * (m.x1star dt kk).1 ^ 2 := by linarith
    exact (pos_iff_pos_of_mul_pos this).2 (by positivity)
  · obtain ⟨h1, h2⟩ := m.x1star_correct hv ha kk
    rw [h1, h2]
    exact ⟨p1, by positivity⟩

lemma x2star_pos (m : Heston) {dt : ℝ} (hv : 0 < m.vov2dt dt) {kk : ℕ} (hk : 0.1 ≤ |m.mr * dt / 2| ∨ kk ≤ 20) : 0 < (m.x2star dt kk).1 ∧ 0 < (m.x2star dt kk).2 := by
  obtain ⟨p1, p2⟩ := m.x2Tail_pos hv kk
  rcases lt_or_ge |m.mr * dt / 2| 0.1 with ha | ha
  · have hk : kk ≤ 20 := hk.resolve_left (not_le.2 ha)
    obtain ⟨h1, -, -, h2⟩ := m.x2star_taylor hv ha kk
    have q1 : 0 < (m.x2star dt kk).1 := by linarith
    refine ⟨q1, ?_⟩
    have hb : 1 / 10 ^ 8 * m.vov2dt dt ^ 2 < (Spec.x2Tail m dt kk).2 := by
      have hle : 1 / m.gammaN dt kk ^ 2 ≤ (Spec.x2Tail m dt kk).2 := by
        have := ((summable_nat_add_iff kk).2 (m.summable_x2 hv).2).le_tsum 0 (fun n _ => by have := m.gammaN_pos hv (n + kk); positivity)
        rw [zero_add] at this
        exact this
      refine lt_of_lt_of_le ?_ hle
      rw [m.inv_gamma_sq hv]
      have hx := (small_sq ha).2
      have hp : Coth.pole kk ≤ 4400 := by
        unfold Coth.pole
        have h1 : ((kk : ℝ) + 1) ^ 2 ≤ 21 ^ 2 := by
          have : (kk : ℝ) ≤ 20 := by exact_mod_cast hk
          exact pow_le_pow_left₀ (by positivity) (by linarith) 2
        have h2 : π ^ 2 ≤ 3.15 ^ 2 := pow_le_pow_left₀ pi_pos.le pi_lt_d2.le 2
        nlinarith [sq_nonneg π, sq_nonneg ((kk : ℝ) + 1)]
      have hp0 := Coth.pole_pos kk
      have hD : ((m.mr * dt / 2) ^ 2 + Coth.pole kk) ^ 2 ≤ 4401 ^ 2 := pow_le_pow_left₀ (by positivity) (by linarith) 2
      have hDp : 0 < ((m.mr * dt / 2) ^ 2 + Coth.pole kk) ^ 2 := by positivity
      have : 1 / (4401 : ℝ) ^ 2 ≤ 1 / ((m.mr * dt / 2) ^ 2 + Coth.pole kk) ^ 2 := one_div_le_one_div_of_le hDp hD
      have hv2 : 0 < m.vov2dt dt ^ 2 := by positivity
      have h5 : (1 : ℝ) / 10 ^ 8 < 1 / 4 * (1 / 4401 ^ 2) := by norm_num
      calc 1 / 10 ^ 8 * m.vov2dt dt ^ 2 < 1 / 4 * (1 / 4401 ^ 2) * m.vov2dt dt ^ 2 := by exact mul_lt_mul_of_pos_right h5 hv2
        _ ≤ 1 / 4 * (1 / ((m.mr * dt / 2) ^ 2 + Coth.pole kk) ^ 2) * m.vov2dt dt ^ 2 := by gcongr
        _ = _ := by ring
    have : 0 < (m.x2star dt kk).2 * (m.x2star dt kk).1 ^ 2 := by linarith
    exact (pos_iff_pos_of_mul_pos this).2 (by positivity)
  · obtain ⟨h1, h2⟩ := m.x2star_correct hv ha kk
    rw [h1, h2]
    exact ⟨p1, by positivity⟩

/-- **C106 (disagreement).** In the Taylor branch the series for the variance of `X2` is one term short: for `0 < |mr dt| < 0.2` the returned variance is negative for all large `kk` (numpy then rejects the shape). -/
theorem x2star_negative (m : Heston) {dt : ℝ} (hv : 0 < m.vov2dt dt) (ha : |m.mr * dt / 2| < 0.1) (h0 : m.mr * dt ≠ 0) : ∀ᶠ kk in atTop, (m.x2star dt kk).2 < 0 := by
  have hx : 0 < (m.mr * dt / 2) ^ 2 := by positivity
  have hs2' : HasSum (fun n => 1 / ((m.mr * dt / 2) ^ 2 + Coth.pole n) ^ 2) (∑' n, 1 / ((m.mr * dt / 2) ^ 2 + Coth.pole n) ^ 2) :=
    Summable.hasSum (Coth.summable_pow 1 hx.le)
  obtain ⟨hs1, hs2⟩ := m.summable_x2 hv
  have hz := congrArg Prod.snd (m.x2Tail_zero hv)
  simp only at hz
  have h01 : (m.x2star dt 0).1 ≠ 0 := (m.x2star_pos hv (kk := 0) (Or.inr (by norm_num))).1.ne'
  have h02 : (m.x2star dt 0).2 * (m.x2star dt 0).1 ^ 2 = m.vov2dt dt ^ 2 * (1 / 360 - (m.mr * dt / 2) ^ 2 / 1890) := by
    have h := h01
    unfold x2star at h ⊢
    simp only [if_pos ha, gt_iff_lt, lt_self_iff_false, if_false] at h ⊢
    have h := right_ne_zero_of_mul h
    rw [mul_pow, mul_comm (m.vov2dt dt ^ 2), ← mul_assoc, div_mul_cancel₀ _ (pow_ne_zero 2 h), mul_comm]
  have hlt : 1 / 90 - 2 * (m.mr * dt / 2) ^ 2 / 945 < ∑' n, 1 / ((m.mr * dt / 2) ^ 2 + Coth.pole n) ^ 2 := by
    have hl := Coth.hasSum_pole2.sub (Coth.hasSum_pole3.mul_left (2 * (m.mr * dt / 2) ^ 2))
    have key : ∀ n, 1 / Coth.pole n ^ 2 - 2 * (m.mr * dt / 2) ^ 2 * (1 / Coth.pole n ^ 3) < 1 / ((m.mr * dt / 2) ^ 2 + Coth.pole n) ^ 2 := by
      intro n
      have hc := Coth.pole_pos n
      generalize Coth.pole n = c at hc
      generalize (m.mr * dt / 2) ^ 2 = x at hx
      have : 1 / (x + c) ^ 2 - (1 / c ^ 2 - 2 * x * (1 / c ^ 3)) = x ^ 2 * (3 * c + 2 * x) / (c ^ 3 * (x + c) ^ 2) := by field_simp; ring
      have : 0 < x ^ 2 * (3 * c + 2 * x) / (c ^ 3 * (x + c) ^ 2) := by positivity
      linarith
    have := hasSum_lt (fun n => (key n).le) (key 0) hl hs2'
    linarith
  have htail : Tendsto (fun kk => (Spec.x2Tail m dt kk).2) atTop (𝓝 0) := tendsto_sum_nat_add fun n => 1 / m.gammaN dt n ^ 2
  have hpos : 0 < m.vov2dt dt ^ 2 / 4 * (∑' n, 1 / ((m.mr * dt / 2) ^ 2 + Coth.pole n) ^ 2 - (1 / 90 - 2 * (m.mr * dt / 2) ^ 2 / 945)) := by
    have := sub_pos.2 hlt
    positivity
  filter_upwards [htail.eventually_lt_const hpos] with kk hk
  have hkp : 0 < (m.x2star dt kk).1 := by
    have := (m.x2star_taylor hv ha kk).1
    have := (m.x2Tail_pos hv kk).1
    linarith
  have h4 := (m.x2star_split hv kk).2 hkp.ne' h01
  have e := tail_eq hs2 kk
  have e0 := tail_eq hs2 0
  have e1 : (Spec.x2Tail m dt kk).2 = (Spec.x2Tail m dt 0).2 - ∑ n ∈ Finset.range kk, 1 / m.gammaN dt n ^ 2 := by
    unfold Spec.x2Tail
    simp only
    rw [e, e0]
    simp
  have : (m.x2star dt kk).2 * (m.x2star dt kk).1 ^ 2 < 0 := by
    rw [h4, h02]
    rw [hz] at e1
    linarith
  by_contra hc
  have := mul_nonneg (not_lt.1 hc) (sq_nonneg (m.x2star dt kk).1)
  linarith

/-! ### The draws -/

/-- The compound Poisson terms of `X1` and of `draw_x123`. -/
lemma hasMV_term (m : Heston) {dt : ℝ} {vs h : ℝ} (hh : 0 ≤ h) (n : ℕ) :
    HasMV (do let pois ← rngEx.poisson (vs * m.lambdaN dt n); let g ← rngEx.gamma ((pois : ℝ) + h); pure (g / m.gammaN dt n))
      (vs * (m.lambdaN dt n / m.gammaN dt n) + h * (1 / m.gammaN dt n)) (vs * (2 * m.lambdaN dt n / m.gammaN dt n ^ 2) + h * (1 / m.gammaN dt n ^ 2)) := by
  have h1 : ∀ k : ℕ, HasMV (do let g ← rngEx.gamma ((k : ℝ) + h); pure (g / m.gammaN dt n)) (h / m.gammaN dt n + 1 / m.gammaN dt n * k) (h / m.gammaN dt n ^ 2 + 1 / m.gammaN dt n ^ 2 * k) := by
    intro k
    have := (hasMV_gamma0 (a := (k : ℝ) + h) (by positivity)).affine (1 / m.gammaN dt n) 0
    intro A B C
    have h2 := this A B C
    have e : ∀ g : ℝ, 0 + 1 / m.gammaN dt n * g = g / m.gammaN dt n := fun g => by ring
    show Ex.gamma0 ((k : ℝ) + h) (fun g => A + B * (g / m.gammaN dt n) + C * (g / m.gammaN dt n) ^ 2) = _
    have e' : (fun g => A + B * (g / m.gammaN dt n) + C * (g / m.gammaN dt n) ^ 2) = fun g => A + B * (0 + 1 / m.gammaN dt n * g) + C * (0 + 1 / m.gammaN dt n * g) ^ 2 := by
      ext g; rw [e]
    rw [e']
    refine h2.trans ?_
    ring
  refine Spec.HasMV.congr (Spec.HasMV.poisson (mu := vs * m.lambdaN dt n) h1) ?_ ?_ <;> ring

lemma sumDraws_range {D : ℕ → Ex ℝ} {a b : ℕ → ℝ} (h : ∀ n, HasMV (D n) (a n) (b n)) (kk : ℕ) :
    HasMV (sumDraws ((List.range kk).map D) 0) (∑ n ∈ Finset.range kk, a n) (∑ n ∈ Finset.range kk, b n) := by
  have := Spec.HasMV.sumDraws (l := (List.range kk).map fun n => (D n, a n, b n)) (by
    intro p hp
    obtain ⟨n, -, rfl⟩ := List.mem_map.1 hp
    exact h n) 0
  rw [List.map_map, List.map_map, List.map_map] at this
  refine Spec.HasMV.congr this ?_ ?_
  · rw [zero_add]; exact range_list_sum _ _
  · exact range_list_sum _ _

/-- **C106.** `draw_x1` has the same mean and variance for every truncation level `kk`: those of the full series. -/
theorem draw_x1_correct (m : Heston) {dt : ℝ} (hv : 0 < m.vov2dt dt) {v0 vT : ℝ} (hs : 0 < v0 + vT) (kk : ℕ) :
    HasMV (m.drawX1 rngEx kk dt v0 vT) ((v0 + vT) * (m.x1star dt 0).1) ((v0 + vT) * ((m.x1star dt 0).2 * (m.x1star dt 0).1 ^ 2)) := by
  obtain ⟨p1, p2⟩ := m.x1star_pos hv kk
  have q1 := (m.x1star_pos hv 0).1
  have h1 := sumDraws_range (fun n => m.hasMV_term (dt := dt) (vs := v0 + vT) (le_refl (0 : ℝ)) n) kk
  have h2 := (hasMV_gamma0 (a := (v0 + vT) / (m.x1star dt kk).2) (by positivity)).affine ((m.x1star dt kk).2 * (m.x1star dt kk).1) 0
  have h3 := h1.add h2
  simp only [add_zero, zero_mul, zero_add] at h3
  obtain ⟨s1, s2⟩ := m.x1star_split hv kk
  have s2 := s2 p1.ne' q1.ne'
  refine Spec.HasMV.congr (D := m.drawX1 rngEx kk dt v0 vT) h3 ?_ ?_
  · rw [← Finset.mul_sum, show (m.x1star dt kk).2 * (m.x1star dt kk).1 * ((v0 + vT) / (m.x1star dt kk).2) = (v0 + vT) * (m.x1star dt kk).1 by field_simp, s1]
    ring
  · rw [← Finset.mul_sum, show ((m.x1star dt kk).2 * (m.x1star dt kk).1) ^ 2 * ((v0 + vT) / (m.x1star dt kk).2) = (v0 + vT) * ((m.x1star dt kk).2 * (m.x1star dt kk).1 ^ 2) by field_simp, s2]
    ring

/-- **C106.** `draw_x2` (used for `X2` and for the `Z` variables) has the same mean and variance for every truncation level. -/
theorem draw_x2_correct (m : Heston) {dt : ℝ} (hv : 0 < m.vov2dt dt) {h : ℝ} (hh : 0 < h) {kk : ℕ} (hk : 0.1 ≤ |m.mr * dt / 2| ∨ kk ≤ 20) :
    HasMV (m.drawX2 rngEx kk dt h) (h * (m.x2star dt 0).1) (h * ((m.x2star dt 0).2 * (m.x2star dt 0).1 ^ 2)) := by
  obtain ⟨p1, p2⟩ := m.x2star_pos hv hk
  have q1 := (m.x2star_pos hv (kk := 0) (Or.inr (by norm_num))).1
  have ht : ∀ n, HasMV (do let g ← rngEx.gamma h; pure (g / m.gammaN dt n)) (h * (1 / m.gammaN dt n)) (h * (1 / m.gammaN dt n ^ 2)) := by
    intro n
    have := (hasMV_gamma0 (a := h) hh.le).affine (1 / m.gammaN dt n) 0
    intro A B C
    have h2 := this A B C
    have e : ∀ g : ℝ, 0 + 1 / m.gammaN dt n * g = g / m.gammaN dt n := fun g => by ring
    show Ex.gamma0 h (fun g => A + B * (g / m.gammaN dt n) + C * (g / m.gammaN dt n) ^ 2) = _
    have e' : (fun g => A + B * (g / m.gammaN dt n) + C * (g / m.gammaN dt n) ^ 2) = fun g => A + B * (0 + 1 / m.gammaN dt n * g) + C * (0 + 1 / m.gammaN dt n * g) ^ 2 := by
      ext g; rw [e]
    rw [e']
    refine h2.trans ?_
    ring
  have h1 := sumDraws_range ht kk
  have h2 := (hasMV_gamma0 (a := h / (m.x2star dt kk).2) (by positivity)).affine ((m.x2star dt kk).2 * (m.x2star dt kk).1) 0
  have h3 := h1.add h2
  simp only [zero_add] at h3
  obtain ⟨s1, s2⟩ := m.x2star_split hv kk
  have s2 := s2 p1.ne' q1.ne'
  refine Spec.HasMV.congr (D := m.drawX2 rngEx kk dt h) h3 ?_ ?_
  · rw [← Finset.mul_sum, show (m.x2star dt kk).2 * (m.x2star dt kk).1 * (h / (m.x2star dt kk).2) = h * (m.x2star dt kk).1 by field_simp, s1]
    ring
  · rw [← Finset.mul_sum, show ((m.x2star dt kk).2 * (m.x2star dt kk).1) ^ 2 * (h / (m.x2star dt kk).2) = h * ((m.x2star dt kk).2 * (m.x2star dt kk).1 ^ 2) by field_simp, s2]
    ring

/-- **C106.** `draw_x123` of the Poisson-conditioned scheme: same mean and variance for every truncation level, and these are the ones returned by `cond_avgvar_mv` given the Poisson variable. -/
theorem draw_x123_correct (m : Heston) {dt : ℝ} (hv : 0 < m.vov2dt dt) {v0 vT : ℝ} (hs : 0 < v0 + vT) (hd : 0 < m.cir.chiDim) (eta : ℕ) (ive : ℝ → ℝ → ℝ) {kk : ℕ} (hk : 0.1 ≤ |m.mr * dt / 2| ∨ kk ≤ 20) :
    let a := m.condAvgvarMv ive dt v0 vT (some (eta : ℝ)) 0
    HasMV (m.drawX123 rngEx kk dt (v0 + vT) (0.5 * m.cir.chiDim + 2 * eta)) a.1 (a.2 * a.1 ^ 2) := by
  intro a
  obtain ⟨h, hh⟩ : ∃ h, h = 0.5 * m.cir.chiDim + 2 * (eta : ℝ) := ⟨_, rfl⟩
  have h5 : (0.5 : ℝ) = 1 / 2 := by norm_num
  have hh0 : 0 < h := by rw [hh, h5]; positivity
  rw [← hh]
  obtain ⟨p1, p2⟩ := m.x1star_pos hv kk
  obtain ⟨r1, r2⟩ := m.x2star_pos hv hk
  have q1 := (m.x1star_pos hv 0).1
  have q2 := (m.x2star_pos hv (kk := 0) (Or.inr (by norm_num))).1
  have h1 := sumDraws_range (fun n => m.hasMV_term (dt := dt) (vs := v0 + vT) hh0.le n) kk
  have hM : 0 < (m.x1star dt kk).1 * (v0 + vT) + (m.x2star dt kk).1 * h := by positivity
  have hV : 0 < (m.x1star dt kk).2 * (m.x1star dt kk).1 ^ 2 * (v0 + vT) + (m.x2star dt kk).2 * (m.x2star dt kk).1 ^ 2 * h := by positivity
  obtain ⟨s1, s2⟩ := m.x1star_split hv kk
  obtain ⟨t1, t2⟩ := m.x2star_split hv kk
  have s2 := s2 p1.ne' q1.ne'
  have t2 := t2 r1.ne' q2.ne'
  have h2 := hasMV_wald hM (div_pos hM (div_pos hV (pow_pos hM 2)))
  have h3 := h1.add h2
  have ha : a.1 = (m.x1star dt 0).1 * (v0 + vT) + (m.x2star dt 0).1 * h := by
    show (m.x1star dt 0).1 * (v0 + vT) + (m.x2star dt 0).1 * (2 * (eta : ℝ) + m.cir.chiDim / 2) = _
    rw [hh, h5]; ring
  have ha0 : 0 < a.1 := by rw [ha]; positivity
  have ha2 : a.2 * a.1 ^ 2 = (m.x1star dt 0).2 * (m.x1star dt 0).1 ^ 2 * (v0 + vT) + (m.x2star dt 0).2 * (m.x2star dt 0).1 ^ 2 * h := by
    have : a.2 = ((m.x1star dt 0).2 * (m.x1star dt 0).1 ^ 2 * (v0 + vT) + (m.x2star dt 0).2 * (m.x2star dt 0).1 ^ 2 * (2 * (eta : ℝ) + m.cir.chiDim / 2)) / a.1 ^ 2 := rfl
    rw [this, div_mul_cancel₀ _ (pow_ne_zero 2 ha0.ne'), hh, h5]; ring
  refine Spec.HasMV.congr (D := m.drawX123 rngEx kk dt (v0 + vT) h) h3 ?_ ?_
  · rw [ha, Finset.sum_add_distrib, ← Finset.mul_sum, ← Finset.mul_sum, s1, t1]
    ring
  · rw [ha2, Finset.sum_add_distrib, ← Finset.mul_sum, ← Finset.mul_sum]
    have e : ∀ {M V : ℝ}, 0 < M → 0 < V → M ^ 3 / (M / (V / M ^ 2)) = V := by
      intro M V h1 h2
      field_simp
    rw [e hM hV, s2, t2]
    ring

/-- **C106.** One path of the Glasserman-Kim step given `V_T` and `eta`: mean and variance of the drawn average variance are those of `cond_avgvar_mv` given `eta`, for every `kk`. -/
theorem draw_gk_correct (m : Heston) {dt : ℝ} (hv : 0 < m.vov2dt dt) {v0 vT : ℝ} (hs : 0 < v0 + vT) (hd : 0 < m.cir.chiDim) (eta : ℕ) (ive : ℝ → ℝ → ℝ) {kk : ℕ} (hk : 0.1 ≤ |m.mr * dt / 2| ∨ kk ≤ 20) :
    let a := m.condAvgvarMv ive dt v0 vT (some (eta : ℝ)) 0
    HasMV (do
      let x1 ← m.drawX1 rngEx kk dt v0 vT
      let x2 ← m.drawX2 rngEx kk dt (m.cir.chiDim / 2)
      sumDraws (List.replicate eta (m.drawX2 rngEx kk dt 2.0)) (x1 + x2)) a.1 (a.2 * a.1 ^ 2) := by
  intro a
  have q1 := (m.x1star_pos hv 0).1
  have q2 := (m.x2star_pos hv (kk := 0) (Or.inr (by norm_num))).1
  have ha : a.1 = (m.x1star dt 0).1 * (v0 + vT) + (m.x2star dt 0).1 * (2 * (eta : ℝ) + m.cir.chiDim / 2) := rfl
  have ha0 : 0 < a.1 := by rw [ha]; positivity
  have ha2 : a.2 * a.1 ^ 2 = (m.x1star dt 0).2 * (m.x1star dt 0).1 ^ 2 * (v0 + vT) + (m.x2star dt 0).2 * (m.x2star dt 0).1 ^ 2 * (2 * (eta : ℝ) + m.cir.chiDim / 2) := by
    have : a.2 = ((m.x1star dt 0).2 * (m.x1star dt 0).1 ^ 2 * (v0 + vT) + (m.x2star dt 0).2 * (m.x2star dt 0).1 ^ 2 * (2 * (eta : ℝ) + m.cir.chiDim / 2)) / a.1 ^ 2 := rfl
    rw [this, div_mul_cancel₀ _ (pow_ne_zero 2 ha0.ne')]
  have h1 := m.draw_x1_correct hv hs kk
  have h2 := m.draw_x2_correct hv (half_pos hd) hk
  have h3 := m.draw_x2_correct hv (h := 2.0) (by norm_num) hk
  have h4 := fun acc => Spec.HasMV.sumDraws (l := List.replicate eta (m.drawX2 rngEx kk dt 2.0, 2.0 * (m.x2star dt 0).1, 2.0 * ((m.x2star dt 0).2 * (m.x2star dt 0).1 ^ 2))) (by
    intro p hp
    rw [(List.mem_replicate.1 hp).2]
    exact h3) acc
  simp only [List.map_replicate, List.sum_replicate, nsmul_eq_mul] at h4
  have h5 : ∀ x1, HasMV (do let x2 ← m.drawX2 rngEx kk dt (m.cir.chiDim / 2); sumDraws (List.replicate eta (m.drawX2 rngEx kk dt 2.0)) (x1 + x2))
      (x1 + (m.cir.chiDim / 2 * (m.x2star dt 0).1 + eta * (2.0 * (m.x2star dt 0).1))) (m.cir.chiDim / 2 * ((m.x2star dt 0).2 * (m.x2star dt 0).1 ^ 2) + eta * (2.0 * ((m.x2star dt 0).2 * (m.x2star dt 0).1 ^ 2))) := by
    intro x1 A B C
    show m.drawX2 rngEx kk dt (m.cir.chiDim / 2) (fun x2 => sumDraws (List.replicate eta (m.drawX2 rngEx kk dt 2.0)) (x1 + x2) (fun x => A + B * x + C * x ^ 2)) = _
    simp only [fun x2 => h4 (x1 + x2) A B C]
    generalize (eta : ℝ) * (2.0 * (m.x2star dt 0).1) = S
    generalize (eta : ℝ) * (2.0 * ((m.x2star dt 0).2 * (m.x2star dt 0).1 ^ 2)) = W
    have e : (fun x2 => A + B * (x1 + x2 + S) + C * (W + (x1 + x2 + S) ^ 2)) = fun x2 => (A + B * (x1 + S) + C * (W + (x1 + S) ^ 2)) + (B + 2 * C * (x1 + S)) * x2 + C * x2 ^ 2 := by ext x; ring
    rw [e, h2]
    ring
  intro A B C
  show m.drawX1 rngEx kk dt v0 vT (fun x1 => (do let x2 ← m.drawX2 rngEx kk dt (m.cir.chiDim / 2); sumDraws (List.replicate eta (m.drawX2 rngEx kk dt 2.0)) (x1 + x2) : Ex ℝ) (fun x => A + B * x + C * x ^ 2)) = _
  simp only [fun x1 => h5 x1 A B C]
  obtain ⟨S, hS⟩ : ∃ S, S = m.cir.chiDim / 2 * (m.x2star dt 0).1 + eta * (2.0 * (m.x2star dt 0).1) := ⟨_, rfl⟩
  obtain ⟨W, hW⟩ : ∃ W, W = m.cir.chiDim / 2 * ((m.x2star dt 0).2 * (m.x2star dt 0).1 ^ 2) + eta * (2.0 * ((m.x2star dt 0).2 * (m.x2star dt 0).1 ^ 2)) := ⟨_, rfl⟩
  rw [← hS, ← hW]
  have e : (fun x1 => A + B * (x1 + S) + C * (W + (x1 + S) ^ 2)) = fun x1 => (A + B * S + C * (W + S ^ 2)) + (B + 2 * C * S) * x1 + C * x1 ^ 2 := by ext x; ring
  rw [e, h1, ha2, ha]
  have hS' : S = (m.x2star dt 0).1 * (2 * (eta : ℝ) + m.cir.chiDim / 2) := by rw [hS]; norm_num; ring
  have hW' : W = (m.x2star dt 0).2 * (m.x2star dt 0).1 ^ 2 * (2 * (eta : ℝ) + m.cir.chiDim / 2) := by rw [hW]; norm_num; ring
  rw [hS', hW']
  ring

/-- A concrete model meets the hypotheses. -/
example (eta : ℕ) (ive : ℝ → ℝ → ℝ) : let m : Heston := ⟨0.04, 1, -0.9, 0.5, 0.04, 0, 0, false⟩
    0 < m.vov2dt 1 ∧ 0 < m.cir.chiDim ∧ 0.1 ≤ |m.mr * 1 / 2| ∧ HasMV (m.drawX123 rngEx 7 1 (0.04 + 0.09) (0.5 * m.cir.chiDim + 2 * eta))
      (m.condAvgvarMv ive 1 0.04 0.09 (some (eta : ℝ)) 0).1 ((m.condAvgvarMv ive 1 0.04 0.09 (some (eta : ℝ)) 0).2 * (m.condAvgvarMv ive 1 0.04 0.09 (some (eta : ℝ)) 0).1 ^ 2) := by
  intro m
  have h1 : 0 < m.vov2dt 1 := by simp [m, vov2dt]
  have h2 : 0 < m.cir.chiDim := by simp only [m, cir, Cir.chiDim]; norm_num
  have h3 : 0.1 ≤ |m.mr * 1 / 2| := by simp only [m]; rw [abs_of_pos (by norm_num)]; norm_num
  exact ⟨h1, h2, h3, m.draw_x123_correct h1 (by norm_num) h2 eta ive (Or.inl h3)⟩

end Heston

end PyFENG
