import Verif.Model.Heston
import Verif.Lemmas.HestonMoments
import Verif.Lemmas.Cev

/-!
# C40: moments of the CIR variance and of its average
-/

namespace PyFENG

open Real Set

/-- Moments of a deterministic starting variance. -/
noncomputable def Spec.pointMoments (v0 : ℝ) (i : ℕ) : ℝ := v0 ^ i

namespace Cir

lemma exprel_neg {x : ℝ} (hx : x ≠ 0) : exprel (-x) = (1 - exp (-x)) / x := by
  unfold exprel
  rw [if_neg (neg_ne_zero.2 hx)]
  field_simp
  ring

/-- **C40**: `mv` returns the conditional mean and variance of the CIR process: for every solution of the CIR moment equations started at
`v0`, and every step, speed (zero included), level and volatility. -/
theorem mv_correct (c : Cir) {v0 dt : ℝ} (hdt : 0 ≤ dt) {M : ℕ → ℕ → ℝ → ℝ}
    (hM : Spec.CirMoments c.mr c.theta c.sigma (Spec.pointMoments v0) M) :
    c.mv dt v0 = (M 1 0 dt, M 2 0 dt - M 1 0 dt ^ 2) := by
  rcases eq_or_ne c.mr 0 with hk | hk
  · have h1 : ∀ t, 0 ≤ t → M 1 0 t = v0 := fun t ht => by
      refine linear_ode_unique (c := 0) (g := fun _ => 0) (z := fun _ => v0) (fun s hs => ?_) (fun s hs => ?_) ?_ ht
      · refine (hM.ode 1 0 s hs).congr_deriv ?_
        simp [hk]
      · refine (hasDerivAt_const s v0).hasDerivWithinAt.congr_deriv ?_
        simp
      · rw [hM.start]; simp [Spec.pointMoments]
    have h2 : ∀ t, 0 ≤ t → M 2 0 t = v0 ^ 2 + c.sigma ^ 2 * v0 * t := fun t ht => by
      refine linear_ode_unique (c := 0) (g := fun _ => c.sigma ^ 2 * v0) (z := fun t => v0 ^ 2 + c.sigma ^ 2 * v0 * t)
        (fun s hs => ?_) (fun s hs => ?_) ?_ ht
      · refine (hM.ode 2 0 s hs).congr_deriv ?_
        simp only [hk, h1 s hs, Nat.cast_ofNat, Nat.reduceSub, Nat.cast_zero]
        ring
      · refine ((((hasDerivAt_id' s).const_mul (c.sigma ^ 2 * v0)).const_add (v0 ^ 2)).hasDerivWithinAt).congr_deriv ?_
        simp
      · rw [hM.start]; simp [Spec.pointMoments]
    rw [h1 dt hdt, h2 dt hdt]
    unfold mv
    simp only [hk, zero_mul, neg_zero, exp_zero, exprel, if_true]
    refine Prod.ext ?_ ?_
    · simp
    · simp only; ring
  · rw [M10_eq hM hk dt hdt, M20_eq hM hk dt hdt]
    unfold mv
    simp only [ep, cl10, cl20, Spec.pointMoments, pow_zero, pow_one, mul_one]
    rcases eq_or_ne dt 0 with rfl | hd
    · refine Prod.ext ?_ ?_
      · simp
      · simp
        field_simp
        ring
    rw [exprel_neg (mul_ne_zero hk hd)]
    generalize exp (-(c.mr * dt)) = E
    refine Prod.ext ?_ ?_
    · simp only; ring
    · simp only
      field_simp
      ring

/-- **C40**: `avg_mv` returns the mean and variance of the average variance `J_T / T`, and its third central moment whenever
`mr * T >= 0.1` (below that the code uses a series). -/
theorem avg_mv_correct (c : Cir) {v0 T : ℝ} (hT : 0 < T) (hk : c.mr ≠ 0) {M : ℕ → ℕ → ℝ → ℝ}
    (hM : Spec.CirMoments c.mr c.theta c.sigma (Spec.pointMoments v0) M) :
    (c.avgMv T v0).1 = M 0 1 T / T ∧ (c.avgMv T v0).2.1 = M 0 2 T / T ^ 2 - (M 0 1 T / T) ^ 2 ∧
    (0.1 ≤ c.mr * T → (c.avgMv T v0).2.2 =
      M 0 3 T / T ^ 3 - 3 * (M 0 2 T / T ^ 2) * (M 0 1 T / T) + 2 * (M 0 1 T / T) ^ 3) := by
  rw [M01_eq hM hk T hT.le, M02_eq hM hk T hT.le, M03_eq hM hk T hT.le]
  unfold avgMv
  simp only [ep, cl01, cl02, cl03, Spec.pointMoments, pow_zero, pow_one, mul_one]
  rw [exprel_neg (mul_ne_zero hk hT.ne')]
  generalize exp (-(c.mr * T)) = E
  refine ⟨?_, ?_, fun h => ?_⟩
  · field_simp
    ring
  · field_simp
    ring
  · rw [if_neg (not_lt.2 h)]
    field_simp
    ring

/-- Taylor remainders of `exp(-x)`, `exp(-x)^2`, `exp(-x)^3` near zero. -/
lemma exp_rem {x : ℝ} (h0 : 0 < x) (h1 : x < 0.1) (n : ℕ) (hn : n = 1 ∨ n = 2 ∨ n = 3) :
    ∃ R, exp (-x) ^ n = 1 - n * x + (n * x) ^ 2 / 2 - (n * x) ^ 3 / 6 + (n * x) ^ 4 / 24 - (n * x) ^ 5 / 120 + (n * x) ^ 6 / 720
      - (n * x) ^ 7 / 5040 + (n * x) ^ 8 / 40320 + R ∧ |R| ≤ 0.01 * x ^ 8 := by
  have hn3 : (n : ℝ) ≤ 3 := by rcases hn with rfl | rfl | rfl <;> norm_num
  have hnx : |-(n * x)| ≤ 1 := by
    rw [abs_neg, abs_of_nonneg (by positivity)]
    nlinarith
  have hb := Real.exp_bound hnx (n := 9) (by norm_num)
  refine ⟨exp (-x) ^ n - ∑ m ∈ Finset.range 9, (-(n * x)) ^ m / m.factorial, ?_, ?_⟩
  · simp only [Finset.sum_range_succ, Finset.sum_range_zero, Nat.factorial]
    push_cast
    ring
  · rw [← exp_nat_mul, show (n : ℝ) * -x = -(n * x) by ring]
    refine hb.trans ?_
    rw [abs_neg, abs_of_nonneg (by positivity), mul_pow]
    have h3 : (n : ℝ) ^ 9 ≤ 19683 := by
      calc (n : ℝ) ^ 9 ≤ 3 ^ 9 := pow_le_pow_left₀ (by positivity) hn3 9
        _ = 19683 := by norm_num
    have hx9 : x ^ 9 ≤ 0.1 * x ^ 8 := by
      rw [pow_succ, mul_comm]
      exact mul_le_mul_of_nonneg_right h1.le (by positivity)
    calc (n : ℝ) ^ 9 * x ^ 9 * ((Nat.succ 9 : ℕ) / ((Nat.factorial 9 : ℕ) * (9 : ℕ)))
        ≤ 19683 * (0.1 * x ^ 8) * ((Nat.succ 9 : ℕ) / ((Nat.factorial 9 : ℕ) * (9 : ℕ))) := by gcongr
      _ ≤ 0.01 * x ^ 8 := by
        have : 0 < x ^ 8 := by positivity
        norm_num [Nat.factorial]
        linarith

/-- Accuracy of the series used by `avg_mv` for small `mr * T`. -/
lemma c3_series {x : ℝ} (h0 : 0 < x) (h1 : x < 0.1) :
    let E := exp (-x)
    |3 * ((1 + 0.5 * E * (1 - E * (2 + E))) - x * E * (1 + x + 2 * E)) - (x ^ 5 / 5 - 17 * x ^ 6 / 60 + 3 * x ^ 7 / 14)| ≤ x ^ 8 ∧
    |(3 * x - 11 * (1 - E) + E * (9 * x - 3.5 * (1 - E) + E * (3 * x - 0.5 * (1 - E)))) + 3 * x ^ 2 * E - (x ^ 6 / 30 - 17 * x ^ 7 / 420)|
      ≤ x ^ 8 := by
  intro E
  obtain ⟨R1, e1, b1⟩ := exp_rem h0 h1 1 (by norm_num)
  obtain ⟨R2, e2, b2⟩ := exp_rem h0 h1 2 (by norm_num)
  obtain ⟨R3, e3, b3⟩ := exp_rem h0 h1 3 (by norm_num)
  have hx8 : 0 < x ^ 8 := by positivity
  have hx9 : x ^ 9 ≤ 0.1 * x ^ 8 := by
    rw [pow_succ, mul_comm]
    exact mul_le_mul_of_nonneg_right h1.le hx8.le
  have hx10 : x ^ 10 ≤ 0.1 * x ^ 8 := by
    have : x ^ 10 = x * x ^ 9 := by ring
    rw [this]
    calc x * x ^ 9 ≤ 1 * x ^ 9 := mul_le_mul_of_nonneg_right (by linarith) (by positivity)
      _ ≤ _ := by linarith
  have p9 : 0 < x ^ 9 := by positivity
  have p10 : 0 < x ^ 10 := by positivity
  have hm : ∀ {R y : ℝ}, |R| ≤ 0.01 * x ^ 8 → 0 < y → y < 0.1 → |y * R| ≤ 0.01 * x ^ 8 := by
    intro R y hR hy0 hy1
    rw [abs_mul, abs_of_pos hy0]
    calc y * |R| ≤ 1 * |R| := mul_le_mul_of_nonneg_right (by linarith) (abs_nonneg _)
      _ ≤ _ := by linarith
  have hxx : x ^ 2 < 0.1 := by nlinarith
  have q1 := abs_le.1 (hm b1 h0 h1)
  have q2 := abs_le.1 (hm b2 h0 h1)
  have q3 := abs_le.1 (hm b1 (by positivity) hxx)
  have r1 := abs_le.1 b1
  have r2 := abs_le.1 b2
  have r3 := abs_le.1 b3
  rw [pow_one] at e1
  push_cast at e1 e2 e3
  change E = _ at e1
  change E ^ 2 = _ at e2
  change E ^ 3 = _ at e3
  constructor
  · have e : 3 * ((1 + 0.5 * E * (1 - E * (2 + E))) - x * E * (1 + x + 2 * E)) =
        3 * (1 + 0.5 * E - E ^ 2 - 0.5 * E ^ 3 - x * E - x ^ 2 * E - 2 * x * E ^ 2) := by ring
    rw [e, e2, e3, e1, abs_le]
    constructor <;> linarith
  · have e : (3 * x - 11 * (1 - E) + E * (9 * x - 3.5 * (1 - E) + E * (3 * x - 0.5 * (1 - E)))) + 3 * x ^ 2 * E =
        3 * x - 11 + 7.5 * E + 9 * x * E + 3 * E ^ 2 + 3 * x * E ^ 2 + 0.5 * E ^ 3 + 3 * x ^ 2 * E := by ring
    rw [e, e2, e3, e1, abs_le]
    constructor <;> linarith

/-- **C40**: below `mr * T = 0.1` the third central moment is a series whose error is of third order in `mr * T`. -/
theorem avg_mv_c3_series (c : Cir) {v0 T : ℝ} (hT : 0 < T) (hk : 0 < c.mr) (hs : c.mr * T < 0.1) {M : ℕ → ℕ → ℝ → ℝ}
    (hM : Spec.CirMoments c.mr c.theta c.sigma (Spec.pointMoments v0) M) :
    |(c.avgMv T v0).2.2 - (M 0 3 T / T ^ 3 - 3 * (M 0 2 T / T ^ 2) * (M 0 1 T / T) + 2 * (M 0 1 T / T) ^ 3)|
      ≤ (c.sigma ^ 2 * T) ^ 2 * (|v0| + |c.theta|) * (c.mr * T) ^ 3 := by
  have hk' := hk.ne'
  rw [M01_eq hM hk' T hT.le, M02_eq hM hk' T hT.le, M03_eq hM hk' T hT.le]
  obtain ⟨hb, hi⟩ := c3_series (mul_pos hk hT) hs
  unfold avgMv
  simp only [ep, cl01, cl02, cl03, Spec.pointMoments, pow_zero, pow_one, mul_one, if_pos hs]
  generalize exp (-(c.mr * T)) = E at *
  have hx0 : 0 < c.mr * T := mul_pos hk hT
  have hab : ∀ p B q I x : ℝ, 0 < x → |B - p| ≤ x ^ 8 → |I - q| ≤ x ^ 8 →
      |(c.sigma ^ 2 * T) ^ 2 * ((v0 * (p - B) + c.theta * (q - I)) / x ^ 5)| ≤ (c.sigma ^ 2 * T) ^ 2 * (|v0| + |c.theta|) * x ^ 3 := by
    intro p B q I x hx hB hI
    rw [abs_mul, abs_div, abs_of_nonneg (show 0 ≤ (c.sigma ^ 2 * T) ^ 2 by positivity), abs_of_nonneg (show 0 ≤ x ^ 5 by positivity), mul_assoc]
    refine mul_le_mul_of_nonneg_left ?_ (by positivity)
    rw [div_le_iff₀ (by positivity)]
    rw [abs_sub_comm] at hB hI
    calc |v0 * (p - B) + c.theta * (q - I)| ≤ |v0 * (p - B)| + |c.theta * (q - I)| := abs_add_le _ _
      _ = |v0| * |p - B| + |c.theta| * |q - I| := by rw [abs_mul, abs_mul]
      _ ≤ |v0| * x ^ 8 + |c.theta| * x ^ 8 := by gcongr
      _ = (|v0| + |c.theta|) * x ^ 3 * x ^ 5 := by ring
  refine le_trans (le_of_eq ?_) (hab _ _ _ _ _ hx0 hb hi)
  congr 1
  field_simp
  ring

end Cir

end PyFENG
