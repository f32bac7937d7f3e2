import Verif.Model.SvFinDiff
import Verif.Props.Bsm
import Mathlib.Tactic.LinearCombination
import Mathlib.Tactic.FieldSimp

/-!
# C55, C56: Thomas solver and bilinear interpolation
-/

namespace PyFENG

open Real

/-- Specification: `x` solves the tridiagonal system of `n` rows; `sub 0` and `sup (n-1)` are not used. -/
def Spec.Tridiag (n : ℕ) (sub mid sup rhs x : ℕ → ℝ) : Prop :=
  ∀ i < n, (if i = 0 then 0 else sub i * x (i - 1)) + mid i * x i + (if i + 1 = n then 0 else sup i * x (i + 1)) = rhs i

namespace Thomas

variable {sub mid sup rhs : ℕ → ℝ}

lemma cp_eq (i : ℕ) : cp sub mid sup i = sup i / denom sub mid sup i := by cases i <;> rfl

lemma solve_last {n : ℕ} : solve n sub mid sup rhs (n - 1) = dp sub mid sup rhs (n - 1) := by
  unfold solve
  rw [Nat.sub_self]
  rfl

lemma solve_succ {n i : ℕ} (h : i + 1 < n) :
    solve n sub mid sup rhs i = dp sub mid sup rhs i - cp sub mid sup i * solve n sub mid sup rhs (i + 1) := by
  unfold solve
  obtain ⟨k, hk⟩ : ∃ k, n - 1 - i = k + 1 := ⟨n - 1 - i - 1, by omega⟩
  have h1 : n - 1 - (i + 1) = k := by omega
  have h2 : n - 1 - (k + 1) = i := by omega
  rw [hk, h1, back, h2]

/-- **C55**: with non-zero pivots the Thomas algorithm solves the tridiagonal system, for every size. -/
theorem thomas_solves {n : ℕ} (hd : ∀ i < n, denom sub mid sup i ≠ 0) :
    Spec.Tridiag n sub mid sup rhs (solve n sub mid sup rhs) := by
  intro i hi
  have hdi := hd i hi
  have hlast : (if i + 1 = n then 0 else sup i * solve n sub mid sup rhs (i + 1)) = denom sub mid sup i *
      (dp sub mid sup rhs i - solve n sub mid sup rhs i) := by
    by_cases h : i + 1 = n
    · rw [if_pos h]
      have : i = n - 1 := by omega
      rw [this, solve_last, sub_self, mul_zero]
    · have e := solve_succ (sub := sub) (mid := mid) (sup := sup) (rhs := rhs) (show i + 1 < n by omega)
      rw [if_neg h, e, cp_eq]
      field_simp
      ring
  rw [hlast]
  cases i with
  | zero => simp only [if_true, denom, dp] at *; field_simp; ring
  | succ i =>
    rw [if_neg (by omega), Nat.add_sub_cancel, solve_succ (i := i) hi]
    simp only [denom, dp] at *
    field_simp
    ring

/-- **C55**: and the solution is unique. -/
theorem thomas_unique {n : ℕ} (hd : ∀ i < n, denom sub mid sup i ≠ 0) {x : ℕ → ℝ} (hx : Spec.Tridiag n sub mid sup rhs x) :
    ∀ i < n, x i = solve n sub mid sup rhs i := by
  have hf : ∀ i < n, denom sub mid sup i * x i + (if i + 1 = n then 0 else sup i * x (i + 1)) = denom sub mid sup i * dp sub mid sup rhs i := by
    intro i
    induction i with
    | zero =>
      intro hi
      have := hx 0 hi
      have := hd 0 hi
      simp only [if_true, denom, dp] at *
      field_simp
      linarith
    | succ i ih =>
      intro hi
      have h1 := hx (i + 1) hi
      have h2 := ih (by omega)
      have hdi := hd i (by omega)
      have hds := hd (i + 1) hi
      rw [if_neg (by omega), Nat.add_sub_cancel] at h1
      rw [if_neg (by omega)] at h2
      have e : x i = dp sub mid sup rhs i - cp sub mid sup i * x (i + 1) := by
        rw [cp_eq]
        field_simp
        linarith
      rw [e] at h1
      simp only [dp, denom] at *
      rw [mul_div_cancel₀ _ hds]
      linear_combination h1
  have hb : ∀ k, k < n → x (n - 1 - k) = solve n sub mid sup rhs (n - 1 - k) := by
    intro k
    induction k with
    | zero =>
      intro hk
      have h := hf (n - 1) (by omega)
      rw [if_pos (by omega), add_zero] at h
      rw [Nat.sub_zero, solve_last]
      exact mul_left_cancel₀ (hd _ (by omega)) h
    | succ k ih =>
      intro hk
      have h := hf (n - 1 - (k + 1)) (by omega)
      have e : n - 1 - (k + 1) + 1 = n - 1 - k := by omega
      rw [if_neg (by omega), e, ih (by omega)] at h
      rw [solve_succ (by omega), e, cp_eq]
      have := hd (n - 1 - (k + 1)) (by omega)
      field_simp
      linarith
  intro i hi
  have := hb (n - 1 - i) (by omega)
  rwa [show n - 1 - (n - 1 - i) = i by omega] at this

/-- **C55**: strictly diagonally dominant systems have non-zero pivots (only the entries the algorithm uses count). -/
theorem thomas_pivots {n : ℕ} (h : ∀ i < n, (if i = 0 then 0 else |sub i|) + (if i + 1 = n then 0 else |sup i|) < |mid i|) :
    ∀ i < n, denom sub mid sup i ≠ 0 := by
  have key : ∀ i < n, (if i + 1 = n then 0 else |sup i|) < |denom sub mid sup i| := by
    intro i
    induction i with
    | zero => intro hi; simpa [denom] using h 0 hi
    | succ i ih =>
      intro hi
      have h1 := h (i + 1) hi
      have h2 := ih (by omega)
      rw [if_neg (by omega)] at h1 h2
      have hc : |cp sub mid sup i| ≤ 1 := by
        rw [cp_eq, abs_div]
        exact div_le_one_of_le₀ h2.le (abs_nonneg _)
      have h3 : |sub (i + 1) * cp sub mid sup i| ≤ |sub (i + 1)| := by
        rw [abs_mul]
        exact mul_le_of_le_one_right (abs_nonneg _) hc
      have h4 := abs_sub_abs_le_abs_sub (mid (i + 1)) (sub (i + 1) * cp sub mid sup i)
      simp only [denom]
      linarith
  intro i hi h0
  have := key i hi
  rw [h0, abs_zero] at this
  split_ifs at this
  · exact lt_irrefl _ this
  · exact absurd this (not_lt.2 (abs_nonneg _))

/-- A concrete heat-equation system of any size meets the hypotheses. -/
example (n : ℕ) : Spec.Tridiag n (fun _ => -1) (fun _ => 3) (fun _ => -1) (fun i => i) (solve n (fun _ => -1) (fun _ => 3) (fun _ => -1) (fun i => i)) :=
  thomas_solves (thomas_pivots fun i _ => by split_ifs <;> norm_num)

end Thomas

/-! ### Bilinear interpolation -/

lemma searchsorted_le (S : ℕ → ℝ) (x : ℝ) (n : ℕ) : searchsorted S x n ≤ n := by
  induction n with
  | zero => exact le_rfl
  | succ n ih =>
    unfold searchsorted
    split_ifs
    · exact le_rfl
    · omega

lemma searchsorted_lt (S : ℕ → ℝ) (x : ℝ) (n : ℕ) : ∀ i < searchsorted S x n, S i < x := by
  induction n with
  | zero => intro i hi; simp [searchsorted] at hi
  | succ n ih =>
    intro i hi
    unfold searchsorted at hi
    split_ifs at hi with h
    · rcases Nat.lt_succ_iff_lt_or_eq.1 hi with h1 | rfl
      · exact ih i (by rw [h.1]; exact h1)
      · exact h.2
    · exact ih i hi

lemma searchsorted_ge (S : ℕ → ℝ) (x : ℝ) (n : ℕ) (h : searchsorted S x n < n) : x ≤ S (searchsorted S x n) := by
  induction n with
  | zero => omega
  | succ n ih =>
    by_cases hc : searchsorted S x n = n ∧ S n < x
    · have e : searchsorted S x (n + 1) = n + 1 := by rw [searchsorted, if_pos hc]
      omega
    · have e : searchsorted S x (n + 1) = searchsorted S x n := by rw [searchsorted, if_neg hc]
      rw [e]
      rcases Nat.lt_or_eq_of_le (searchsorted_le S x n) with h1 | h1
      · exact ih h1
      · rw [h1]
        by_contra h2
        exact hc ⟨h1, not_le.1 h2⟩

/-- The cell picked for `x`: clipped index. -/
lemma cell {S : ℕ → ℝ} {x : ℝ} {n : ℕ} (hn : 2 ≤ n) (hS : ∀ i, i + 1 < n → S i < S (i + 1)) (h0 : S 0 ≤ x) (h1 : x ≤ S (n - 1)) :
    let i := max 1 (min (searchsorted S x n) (n - 1))
    1 ≤ i ∧ i < n ∧ S (i - 1) ≤ x ∧ x ≤ S i := by
  intro i
  have hs := searchsorted_le S x n
  have h1i : 1 ≤ i := le_max_left _ _
  have hin : i < n := by omega
  refine ⟨h1i, hin, ?_, ?_⟩
  · rcases Nat.eq_or_lt_of_le h1i with h | h
    · rw [← h]; exact h0
    · exact (searchsorted_lt S x n (i - 1) (by omega)).le
  · rcases Nat.lt_or_ge (searchsorted S x n) n with h | h
    · have hge := searchsorted_ge S x n h
      by_cases h2 : searchsorted S x n = 0
      · rw [h2] at hge
        have : x = S 0 := le_antisymm hge h0
        have hi1 : i = 1 := by omega
        rw [hi1, this]
        exact (hS 0 (by omega)).le
      · have : i = searchsorted S x n := by omega
        rw [this]; exact hge
    · have : i = n - 1 := by omega
      rw [this]; exact h1

lemma clip01_of_mem {x : ℝ} (h0 : 0 ≤ x) (h1 : x ≤ 1) : clip01 x = x := by
  unfold clip01
  rw [max_eq_left h0, min_eq_left h1]

lemma clip01_mem (x : ℝ) : 0 ≤ clip01 x ∧ clip01 x ≤ 1 := by
  unfold clip01
  exact ⟨le_min (le_max_right _ _) zero_le_one, min_le_right _ _⟩

/-- In the cell, the weight is the barycentric coordinate. -/
lemma weight {S : ℕ → ℝ} {x : ℝ} {n : ℕ} (hn : 2 ≤ n) (hS : ∀ i, i + 1 < n → S i < S (i + 1)) (h0 : S 0 ≤ x) (h1 : x ≤ S (n - 1)) :
    let i := max 1 (min (searchsorted S x n) (n - 1))
    let w := clip01 ((x - S (i - 1)) / (S i - S (i - 1)))
    (1 - w) * S (i - 1) + w * S i = x := by
  intro i w
  obtain ⟨h1i, hin, hl, hr⟩ := cell hn hS h0 h1
  have hlt : S (i - 1) < S i := by
    have := hS (i - 1) (by omega)
    rwa [Nat.sub_add_cancel h1i] at this
  have hp : 0 < S i - S (i - 1) := by linarith
  have hw : w = (x - S (i - 1)) / (S i - S (i - 1)) :=
    clip01_of_mem (div_nonneg (by linarith) hp.le) (by rw [div_le_one hp]; linarith)
  rw [hw]
  field_simp
  ring

/-- **C56**: on the grid's rectangle, bilinear interpolation reproduces every bilinear function exactly. -/
theorem bilinear_exact {S v : ℕ → ℝ} {nS nv : ℕ} (hnS : 2 ≤ nS) (hnv : 2 ≤ nv) (hS : ∀ i, i + 1 < nS → S i < S (i + 1))
    (hv : ∀ j, j + 1 < nv → v j < v (j + 1)) {S0 v0 : ℝ} (hS0 : S 0 ≤ S0) (hS1 : S0 ≤ S (nS - 1)) (hv0 : v 0 ≤ v0) (hv1 : v0 ≤ v (nv - 1))
    (a b c d : ℝ) :
    bilinear (fun i j => a + b * S i + c * v j + d * S i * v j) S v nS nv S0 v0 = a + b * S0 + c * v0 + d * S0 * v0 := by
  have h1 := weight hnS hS hS0 hS1
  have h2 := weight hnv hv hv0 hv1
  unfold bilinear
  simp only at *
  generalize max 1 (min (searchsorted S S0 nS) (nS - 1)) = i at *
  generalize max 1 (min (searchsorted v v0 nv) (nv - 1)) = j at *
  generalize clip01 ((S0 - S (i - 1)) / (S i - S (i - 1))) = w at *
  generalize clip01 ((v0 - v (j - 1)) / (v j - v (j - 1))) = z at *
  have e : a + b * S0 + c * v0 + d * S0 * v0 = a + b * ((1 - w) * S (i - 1) + w * S i) + c * ((1 - z) * v (j - 1) + z * v j)
      + d * ((1 - w) * S (i - 1) + w * S i) * ((1 - z) * v (j - 1) + z * v j) := by rw [h1, h2]
  rw [e]
  ring

/-- **C56**: nodal values are reproduced. -/
theorem bilinear_node {V : ℕ → ℕ → ℝ} {S v : ℕ → ℝ} {nS nv : ℕ} (hnS : 2 ≤ nS) (hnv : 2 ≤ nv) (hS : ∀ i, i + 1 < nS → S i < S (i + 1))
    (hv : ∀ j, j + 1 < nv → v j < v (j + 1)) {i0 j0 : ℕ} (hi : i0 < nS) (hj : j0 < nv) :
    bilinear V S v nS nv (S i0) (v j0) = V i0 j0 := by
  have key : ∀ {S : ℕ → ℝ} {n i0 : ℕ}, 2 ≤ n → (∀ i, i + 1 < n → S i < S (i + 1)) → i0 < n →
      let i := max 1 (min (searchsorted S (S i0) n) (n - 1))
      let w := clip01 ((S i0 - S (i - 1)) / (S i - S (i - 1)))
      (w = 1 ∧ i = i0) ∨ (w = 0 ∧ i - 1 = i0) := by
    intro S n i0 hn hS hi i w
    have hmono : ∀ a b, a < b → b < n → S a < S b := by
      intro a b hab hb
      induction b, hab using Nat.le_induction with
      | base => exact hS a hb
      | succ b hb' ih => exact (ih (by omega)).trans (hS b hb)
    have hmono' : ∀ a b, a < n → b < n → S a < S b → a < b := fun a b ha hb h => by
      by_contra hc
      rcases Nat.lt_or_eq_of_le (not_lt.1 hc) with h1 | h1
      · exact lt_asymm h (hmono b a h1 ha)
      · rw [h1] at h; exact lt_irrefl _ h
    have h0 : S 0 ≤ S i0 := by
      rcases Nat.eq_zero_or_pos i0 with h | h
      · rw [h]
      · exact (hmono 0 i0 h hi).le
    have h1 : S i0 ≤ S (n - 1) := by
      rcases Nat.lt_or_eq_of_le (Nat.le_sub_one_of_lt hi) with h | h
      · exact (hmono i0 (n - 1) h (by omega)).le
      · rw [h]
    obtain ⟨h1i, hin, hl, hr⟩ := cell hn hS h0 h1
    have hlt : S (i - 1) < S i := by
      have := hS (i - 1) (by omega)
      rwa [Nat.sub_add_cancel h1i] at this
    have hp : 0 < S i - S (i - 1) := by linarith
    rcases eq_or_lt_of_le hr with h | h
    · left
      have hi' : i = i0 := by
        rcases lt_trichotomy i i0 with h3 | h3 | h3
        · have := hmono i i0 h3 hi; change S i0 = S i at h; linarith
        · exact h3
        · have := hmono i0 i h3 hin; change S i0 = S i at h; linarith
      refine ⟨?_, hi'⟩
      have : (S i0 - S (i - 1)) / (S i - S (i - 1)) = 1 := by
        rw [div_eq_one_iff_eq hp.ne']
        change S i0 = S i at h
        rw [h]
      change clip01 ((S i0 - S (i - 1)) / (S i - S (i - 1))) = 1
      rw [this]; exact clip01_of_mem zero_le_one le_rfl
    · right
      have hlt2 : i0 < i := hmono' i0 i hi hin h
      have hle : i - 1 ≤ i0 := by
        by_contra hc
        have := hmono i0 (i - 1) (by omega) (by omega)
        change S (i - 1) ≤ S i0 at hl
        linarith
      have hi' : i - 1 = i0 := by omega
      refine ⟨?_, hi'⟩
      change clip01 ((S i0 - S (i - 1)) / (S i - S (i - 1))) = 0
      rw [hi', sub_self, zero_div]
      exact clip01_of_mem le_rfl zero_le_one
  have h1 := key hnS hS hi
  have h2 := key hnv hv hj
  unfold bilinear
  simp only at *
  generalize max 1 (min (searchsorted S (S i0) nS) (nS - 1)) = i at *
  generalize max 1 (min (searchsorted v (v j0) nv) (nv - 1)) = j at *
  generalize clip01 ((S i0 - S (i - 1)) / (S i - S (i - 1))) = w at *
  generalize clip01 ((v j0 - v (j - 1)) / (v j - v (j - 1))) = z at *
  rcases h1 with ⟨rfl, rfl⟩ | ⟨rfl, hi'⟩ <;> rcases h2 with ⟨rfl, rfl⟩ | ⟨rfl, hj'⟩
  · ring
  · rw [hj']; ring
  · rw [hi']; ring
  · rw [hi', hj']; ring

/-- **C56**: wherever it is evaluated (inside or outside the grid), the interpolant stays within the range of the grid values. -/
theorem bilinear_bounds {V : ℕ → ℕ → ℝ} {S v : ℕ → ℝ} {nS nv : ℕ} (hnS : 2 ≤ nS) (hnv : 2 ≤ nv) {lo hi : ℝ}
    (hV : ∀ i j, i < nS → j < nv → lo ≤ V i j ∧ V i j ≤ hi) (S0 v0 : ℝ) :
    lo ≤ bilinear V S v nS nv S0 v0 ∧ bilinear V S v nS nv S0 v0 ≤ hi := by
  unfold bilinear
  simp only
  have hi1 : 1 ≤ max 1 (min (searchsorted S S0 nS) (nS - 1)) := le_max_left _ _
  have hi2 : max 1 (min (searchsorted S S0 nS) (nS - 1)) < nS := by omega
  have hj1 : 1 ≤ max 1 (min (searchsorted v v0 nv) (nv - 1)) := le_max_left _ _
  have hj2 : max 1 (min (searchsorted v v0 nv) (nv - 1)) < nv := by omega
  generalize max 1 (min (searchsorted S S0 nS) (nS - 1)) = i at *
  generalize max 1 (min (searchsorted v v0 nv) (nv - 1)) = j at *
  obtain ⟨hw0, hw1⟩ := clip01_mem ((S0 - S (i - 1)) / (S i - S (i - 1)))
  obtain ⟨hz0, hz1⟩ := clip01_mem ((v0 - v (j - 1)) / (v j - v (j - 1)))
  generalize clip01 ((S0 - S (i - 1)) / (S i - S (i - 1))) = w at *
  generalize clip01 ((v0 - v (j - 1)) / (v j - v (j - 1))) = z at *
  have a1 := hV (i - 1) (j - 1) (by omega) (by omega)
  have a2 := hV i (j - 1) hi2 (by omega)
  have a3 := hV (i - 1) j (by omega) hj2
  have a4 := hV i j hi2 hj2
  have c1 : 0 ≤ (1 - w) * (1 - z) := mul_nonneg (by linarith) (by linarith)
  have c2 : 0 ≤ w * (1 - z) := mul_nonneg hw0 (by linarith)
  have c3 : 0 ≤ (1 - w) * z := mul_nonneg (by linarith) hz0
  have c4 : 0 ≤ w * z := mul_nonneg hw0 hz0
  have e : ∀ y : ℝ, (1 - w) * (1 - z) * y + w * (1 - z) * y + (1 - w) * z * y + w * z * y = y := fun y => by ring
  constructor
  · rw [← e lo]
    gcongr
    · exact a1.1
    · exact a2.1
    · exact a3.1
    · exact a4.1
  · rw [← e hi]
    gcongr
    · exact a1.2
    · exact a2.2
    · exact a3.2
    · exact a4.2

end PyFENG
