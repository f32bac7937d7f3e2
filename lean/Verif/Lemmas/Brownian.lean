import Verif.Lemmas.BmExp
import Verif.Lemmas.MvGauss
import Verif.Lemmas.Moments
import Mathlib.Probability.Independence.InfinitePi

/-!
# Brownian motion exists

The hypotheses `Spec.IsBM P B` are met: a Brownian bridge on `[0,1]` is the sum of its Schauder expansion with independent normal coefficients, and
`B_t = (1 + t) * bridge(t / (1 + t))` is a Brownian motion on `[0, ∞)`.
-/

namespace PyFENG

open MeasureTheory ProbabilityTheory Real Set Filter
open scoped NNReal ENNReal Topology

namespace BmExist

/-- The tent function on `[0,1]`. -/
noncomputable def tent (x : ℝ) : ℝ := max 0 (min x (1 - x))

lemma tent_nonneg (x : ℝ) : 0 ≤ tent x := le_max_left _ _
lemma tent_le (x : ℝ) : tent x ≤ 1 := by
  unfold tent
  refine max_le zero_le_one ?_
  rcases le_total x 1 with h | h
  · exact (min_le_left _ _).trans h
  · exact (min_le_right _ _).trans (by linarith)
lemma tent_zero {x : ℝ} (h : x ≤ 0 ∨ 1 ≤ x) : tent x = 0 := by
  unfold tent
  rcases h with h | h
  · exact max_eq_left ((min_le_left _ _).trans h)
  · exact max_eq_left ((min_le_right _ _).trans (by linarith))
lemma continuous_tent : Continuous tent := by unfold tent; fun_prop

lemma sum_tent_le (y : ℝ) (N : ℕ) : ∑ k ∈ Finset.range N, tent (y - k) ≤ 1 := by
  have h : ∀ k ∈ Finset.range N, k ≠ ⌊y⌋.toNat → tent (y - k) = 0 := by
    intro k _ hk
    apply tent_zero
    by_contra hcon
    push Not at hcon
    apply hk
    have : ⌊y⌋ = (k : ℤ) := by
      rw [Int.floor_eq_iff]; push_cast; constructor <;> linarith
    rw [this]; simp
  by_cases hm : ⌊y⌋.toNat ∈ Finset.range N
  · rw [Finset.sum_eq_single_of_mem _ hm fun k hk hne => h k hk hne]
    exact tent_le _
  · rw [Finset.sum_eq_zero fun k hk => h k hk (by rintro rfl; exact hm hk)]
    exact zero_le_one

/-! ### The covariance kernel -/

/-- Covariance of the first `J` levels. -/
noncomputable def kerJ (J : ℕ) (x y : ℝ) : ℝ :=
  ∑ j ∈ Finset.range J, (1 / 2) ^ j * ∑ k ∈ Finset.range (2 ^ j), tent (2 ^ j * x - k) * tent (2 ^ j * y - k)

/-- Covariance of the bridge. -/
noncomputable def ker (x y : ℝ) : ℝ := open Classical in if (0 < x ∧ x < 1) ∧ (0 < y ∧ y < 1) then min x y - x * y else 0

lemma kerJ_succ (J : ℕ) (x y : ℝ) :
    kerJ (J + 1) x y = tent x * tent y + 1 / 2 * (kerJ J (2 * x) (2 * y) + kerJ J (2 * x - 1) (2 * y - 1)) := by
  have h : ∑ j ∈ Finset.range J, (1 / 2 : ℝ) ^ (j + 1) * ∑ k ∈ Finset.range (2 ^ (j + 1)), tent (2 ^ (j + 1) * x - k) * tent (2 ^ (j + 1) * y - k) =
      1 / 2 * (kerJ J (2 * x) (2 * y) + kerJ J (2 * x - 1) (2 * y - 1)) := by
    unfold kerJ
    rw [← Finset.sum_add_distrib, Finset.mul_sum]
    refine Finset.sum_congr rfl fun j _ => ?_
    have e1 : ∀ z : ℝ, ∀ k : ℕ, 2 ^ (j + 1) * z - k = 2 ^ j * (2 * z) - k := fun z k => by ring
    have e2 : ∀ z : ℝ, ∀ k : ℕ, 2 ^ (j + 1) * z - ((2 ^ j + k : ℕ) : ℝ) = 2 ^ j * (2 * z - 1) - k := fun z k => by push_cast; ring
    have hs : ∑ k ∈ Finset.range (2 ^ (j + 1)), tent (2 ^ (j + 1) * x - k) * tent (2 ^ (j + 1) * y - k) =
        ∑ k ∈ Finset.range (2 ^ j), tent (2 ^ j * (2 * x) - k) * tent (2 ^ j * (2 * y) - k) +
        ∑ k ∈ Finset.range (2 ^ j), tent (2 ^ j * (2 * x - 1) - k) * tent (2 ^ j * (2 * y - 1) - k) := by
      rw [show Finset.range (2 ^ (j + 1)) = Finset.range (2 ^ j + 2 ^ j) from by rw [pow_succ, mul_two], Finset.sum_range_add]
      simp only [e2]
      simp only [e1]
    rw [hs]
    ring
  rw [kerJ, Finset.sum_range_succ', h]
  simp
  ring

lemma kerJ_zero_left (J : ℕ) {x y : ℝ} (h : ¬ (0 < x ∧ x < 1) ∨ ¬ (0 < y ∧ y < 1)) : kerJ J x y = 0 := by
  unfold kerJ
  refine Finset.sum_eq_zero fun j _ => ?_
  rw [Finset.sum_eq_zero, mul_zero]
  intro k hk
  have hk' : ((k:ℝ) + 1) ≤ 2 ^ j := by exact_mod_cast Nat.succ_le_of_lt (Finset.mem_range.1 hk)
  have hz : ∀ z : ℝ, ¬ (0 < z ∧ z < 1) → tent (2 ^ j * z - k) = 0 := by
    intro z hz
    apply tent_zero
    have hp : (0:ℝ) < 2 ^ j := by positivity
    by_cases h0 : 0 < z
    · right
      have : 1 ≤ z := by by_contra hc; exact hz ⟨h0, by linarith⟩
      nlinarith
    · left
      have h1 : z ≤ 0 := not_lt.1 h0
      have : (0:ℝ) ≤ k := Nat.cast_nonneg k
      nlinarith
  rcases h with h | h
  · rw [hz x h, zero_mul]
  · rw [hz y h, mul_zero]

lemma ker_rec {x y : ℝ} (hx : 0 < x ∧ x < 1) (hy : 0 < y ∧ y < 1) :
    ker x y = tent x * tent y + 1 / 2 * (ker (2 * x) (2 * y) + ker (2 * x - 1) (2 * y - 1)) := by
  obtain ⟨hx0, hx1⟩ := hx
  obtain ⟨hy0, hy1⟩ := hy
  unfold ker tent
  rw [if_pos ⟨⟨hx0, hx1⟩, hy0, hy1⟩]
  rcases lt_trichotomy x (1 / 2) with h1 | h1 | h1 <;> rcases lt_trichotomy y (1 / 2) with h2 | h2 | h2
  · rw [if_pos ⟨⟨by linarith, by linarith⟩, by linarith, by linarith⟩, if_neg (by rintro ⟨⟨h, -⟩, -⟩; linarith), min_eq_left (show x ≤ 1 - x by linarith),
      min_eq_left (show y ≤ 1 - y by linarith), max_eq_right hx0.le, max_eq_right hy0.le, ← mul_min_of_nonneg _ _ (by norm_num : (0:ℝ) ≤ 2)]
    ring
  · rw [if_neg (by rintro ⟨-, -, h⟩; linarith), if_neg (by rintro ⟨⟨h, -⟩, -⟩; linarith), min_eq_left (show x ≤ 1 - x by linarith),
      min_eq_left (show y ≤ 1 - y by linarith), max_eq_right hx0.le, max_eq_right hy0.le, min_eq_left (by linarith)]
    rw [h2]; ring
  · rw [if_neg (by rintro ⟨-, -, h⟩; linarith), if_neg (by rintro ⟨⟨h, -⟩, -⟩; linarith), min_eq_left (show x ≤ 1 - x by linarith),
      min_eq_right (show 1 - y ≤ y by linarith), max_eq_right hx0.le, max_eq_right (by linarith), min_eq_left (by linarith)]
    ring
  · rw [if_neg (by rintro ⟨⟨-, h⟩, -⟩; linarith), if_neg (by rintro ⟨-, h, -⟩; linarith), min_eq_left (show x ≤ 1 - x by linarith),
      min_eq_left (show y ≤ 1 - y by linarith), max_eq_right hx0.le, max_eq_right hy0.le, min_eq_right (by linarith)]
    rw [h1]; ring
  · rw [if_neg (by rintro ⟨⟨-, h⟩, -⟩; linarith), if_neg (by rintro ⟨⟨h, -⟩, -⟩; linarith), min_eq_left (show x ≤ 1 - x by linarith),
      min_eq_left (show y ≤ 1 - y by linarith), max_eq_right hx0.le, max_eq_right hy0.le, min_eq_right (by linarith)]
    rw [h1, h2]; ring
  · rw [if_neg (by rintro ⟨-, -, h⟩; linarith), if_neg (by rintro ⟨⟨h, -⟩, -⟩; linarith), min_eq_left (show x ≤ 1 - x by linarith),
      min_eq_right (show 1 - y ≤ y by linarith), max_eq_right hx0.le, max_eq_right (by linarith), min_eq_left (by linarith)]
    ring
  · rw [if_neg (by rintro ⟨⟨-, h⟩, -⟩; linarith), if_neg (by rintro ⟨-, h, -⟩; linarith), min_eq_right (show 1 - x ≤ x by linarith),
      min_eq_left (show y ≤ 1 - y by linarith), max_eq_right (by linarith), max_eq_right hy0.le, min_eq_right (by linarith)]
    ring
  · rw [if_neg (by rintro ⟨⟨-, h⟩, -⟩; linarith), if_neg (by rintro ⟨-, h, -⟩; linarith), min_eq_right (show 1 - x ≤ x by linarith),
      min_eq_left (show y ≤ 1 - y by linarith), max_eq_right (by linarith), max_eq_right hy0.le, min_eq_right (by linarith)]
    rw [h2]; ring
  · rw [if_neg (by rintro ⟨⟨-, h⟩, -⟩; linarith), if_pos ⟨⟨by linarith, by linarith⟩, by linarith, by linarith⟩, min_eq_right (show 1 - x ≤ x by linarith),
      min_eq_right (show 1 - y ≤ y by linarith), max_eq_right (by linarith), max_eq_right (by linarith)]
    rcases le_total x y with h | h
    · rw [min_eq_left h, min_eq_left (by linarith)]; ring
    · rw [min_eq_right h, min_eq_right (by linarith)]; ring

lemma ker_abs_le (x y : ℝ) : |ker x y| ≤ 1 := by
  unfold ker
  split_ifs with h
  · obtain ⟨⟨hx0, hx1⟩, hy0, hy1⟩ := h
    rw [abs_le]
    rcases le_total x y with h | h
    · rw [min_eq_left h]; constructor <;> nlinarith
    · rw [min_eq_right h]; constructor <;> nlinarith
  · simp

lemma ker_sub_le (J : ℕ) : ∀ x y, |ker x y - kerJ J x y| ≤ (1 / 2) ^ J := by
  induction J with
  | zero => intro x y; simpa [kerJ] using ker_abs_le x y
  | succ J ih =>
    intro x y
    by_cases hx : 0 < x ∧ x < 1
    swap
    · rw [kerJ_zero_left _ (Or.inl hx), ker, if_neg (fun h => hx h.1), sub_zero, abs_zero]; positivity
    by_cases hy : 0 < y ∧ y < 1
    swap
    · rw [kerJ_zero_left _ (Or.inr hy), ker, if_neg (fun h => hy h.2), sub_zero, abs_zero]; positivity
    rw [ker_rec hx hy, kerJ_succ]
    have h1 := ih (2 * x) (2 * y)
    have h2 := ih (2 * x - 1) (2 * y - 1)
    have hz : ker (2 * x) (2 * y) - kerJ J (2 * x) (2 * y) = 0 ∨ ker (2 * x - 1) (2 * y - 1) - kerJ J (2 * x - 1) (2 * y - 1) = 0 := by
      by_cases hh : x < 1 / 2
      · right
        have : ¬ (0 < 2 * x - 1 ∧ 2 * x - 1 < 1) := fun h => by linarith [h.1]
        rw [kerJ_zero_left _ (Or.inl this), ker, if_neg (fun h => this h.1), sub_zero]
      · left
        have : ¬ (0 < 2 * x ∧ 2 * x < 1) := fun h => by linarith [h.2]
        rw [kerJ_zero_left _ (Or.inl this), ker, if_neg (fun h => this h.1), sub_zero]
    have e : tent x * tent y + 1 / 2 * (ker (2 * x) (2 * y) + ker (2 * x - 1) (2 * y - 1)) -
        (tent x * tent y + 1 / 2 * (kerJ J (2 * x) (2 * y) + kerJ J (2 * x - 1) (2 * y - 1))) =
        1 / 2 * ((ker (2 * x) (2 * y) - kerJ J (2 * x) (2 * y)) + (ker (2 * x - 1) (2 * y - 1) - kerJ J (2 * x - 1) (2 * y - 1))) := by ring
    rw [e, abs_mul, pow_succ, mul_comm, abs_of_pos (by norm_num : (0:ℝ) < 1 / 2)]
    refine mul_le_mul_of_nonneg_right ?_ (by norm_num)
    rcases hz with hz | hz
    · rw [hz, zero_add]; exact h2
    · rw [hz, add_zero]; exact h1

lemma tendsto_kerJ (x y : ℝ) : Tendsto (fun J => kerJ J x y) atTop (𝓝 (ker x y)) := by
  rw [tendsto_iff_norm_sub_tendsto_zero]
  refine squeeze_zero (fun _ => norm_nonneg _) (fun J => ?_) (tendsto_pow_atTop_nhds_zero_of_lt_one (r := (1 / 2 : ℝ)) (by norm_num) (by norm_num))
  rw [norm_sub_rev]
  exact ker_sub_le J x y

/-! ### The series -/

/-- Independent standard normals indexed by level and position. -/
noncomputable def P : Measure (ℕ × ℕ → ℝ) := Measure.infinitePi fun _ => gaussianReal 0 1

instance : IsProbabilityMeasure P := by unfold P; infer_instance

/-- `2^(-1/4)`. -/
noncomputable def r : ℝ := √√(1 / 2)

lemma r_pos : 0 < r := by unfold r; positivity
lemma r_four : r ^ 4 = 1 / 2 := by
  have h1 : r ^ 2 = √(1 / 2) := sq_sqrt (by positivity)
  have h2 : √(1 / 2 : ℝ) ^ 2 = 1 / 2 := sq_sqrt (by norm_num)
  calc r ^ 4 = (r ^ 2) ^ 2 := by ring
    _ = 1 / 2 := by rw [h1, h2]
lemma r_lt : r < 1 := by
  by_contra h
  have : 1 ≤ r ^ 4 := one_le_pow₀ (not_lt.1 h)
  rw [r_four] at this
  norm_num at this

/-- Level `j` of the expansion. -/
noncomputable def W (j : ℕ) (x : ℝ) (ω : ℕ × ℕ → ℝ) : ℝ := r ^ (2 * j) * ∑ k ∈ Finset.range (2 ^ j), ω (j, k) * tent (2 ^ j * x - k)

/-- A bound of level `j`, uniform in `x`. -/
noncomputable def bnd (j : ℕ) (ω : ℕ × ℕ → ℝ) : ℝ := r ^ j + r ^ (5 * j) * ∑ k ∈ Finset.range (2 ^ j), ω (j, k) ^ 4

lemma bnd_nonneg (j : ℕ) (ω : ℕ × ℕ → ℝ) : 0 ≤ bnd j ω := by
  have := r_pos
  have : 0 ≤ ∑ k ∈ Finset.range (2 ^ j), ω (j, k) ^ 4 := Finset.sum_nonneg fun k _ => by positivity
  unfold bnd
  positivity

lemma W_le (j : ℕ) (x : ℝ) (ω : ℕ × ℕ → ℝ) : |W j x ω| ≤ bnd j ω := by
  have hr := r_pos
  set S := ∑ k ∈ Finset.range (2 ^ j), ω (j, k) ^ 4 with hS
  have hc : 0 < r ^ j := by positivity
  have hM : ∀ k ∈ Finset.range (2 ^ j), |ω (j, k)| ≤ (r ^ j)⁻¹ + (r ^ j) ^ 3 * S := by
    intro k hk
    have h4 : ω (j, k) ^ 4 ≤ S := Finset.single_le_sum (f := fun k => ω (j, k) ^ 4) (fun k _ => by positivity) hk
    have h5 : (r ^ j) ^ 3 * |ω (j, k)| ^ 4 ≤ (r ^ j) ^ 3 * S := by
      refine mul_le_mul_of_nonneg_left ?_ (by positivity)
      rwa [show |ω (j, k)| ^ 4 = ω (j, k) ^ 4 from by rw [← abs_pow, abs_of_nonneg (by positivity)]]
    refine le_trans ?_ (add_le_add_right h5 _)
    set c := r ^ j
    set y := |ω (j, k)|
    have hz : c * y ≤ 1 + (c * y) ^ 4 := by nlinarith [sq_nonneg ((c * y) ^ 2 - 1), sq_nonneg (c * y - 1 / 2), sq_nonneg (c * y)]
    have : c * y ≤ c * (c⁻¹ + c ^ 3 * y ^ 4) := by
      have : c * (c⁻¹ + c ^ 3 * y ^ 4) = 1 + (c * y) ^ 4 := by field_simp
      rw [this]; exact hz
    exact le_of_mul_le_mul_left this hc
  have hM0 : 0 ≤ (r ^ j)⁻¹ + (r ^ j) ^ 3 * S := by
    have : 0 ≤ S := Finset.sum_nonneg fun k _ => by positivity
    positivity
  have h1 : |∑ k ∈ Finset.range (2 ^ j), ω (j, k) * tent (2 ^ j * x - k)| ≤ (r ^ j)⁻¹ + (r ^ j) ^ 3 * S := by
    calc |∑ k ∈ Finset.range (2 ^ j), ω (j, k) * tent (2 ^ j * x - k)| ≤ ∑ k ∈ Finset.range (2 ^ j), |ω (j, k) * tent (2 ^ j * x - k)| :=
          Finset.abs_sum_le_sum_abs _ _
      _ ≤ ∑ k ∈ Finset.range (2 ^ j), ((r ^ j)⁻¹ + (r ^ j) ^ 3 * S) * tent (2 ^ j * x - k) := by
          refine Finset.sum_le_sum fun k hk => ?_
          rw [abs_mul, abs_of_nonneg (tent_nonneg _)]
          exact mul_le_mul_of_nonneg_right (hM k hk) (tent_nonneg _)
      _ ≤ (r ^ j)⁻¹ + (r ^ j) ^ 3 * S := by
          rw [← Finset.mul_sum]
          exact mul_le_of_le_one_right hM0 (sum_tent_le _ _)
  unfold W bnd
  rw [abs_mul, abs_of_pos (by positivity)]
  refine (mul_le_mul_of_nonneg_left h1 (by positivity)).trans (le_of_eq ?_)
  rw [mul_comm 2 j, mul_comm 5 j, pow_mul, pow_mul, ← hS]
  field_simp

lemma integral_coord_four (i : ℕ × ℕ) : Integrable (fun ω : ℕ × ℕ → ℝ => ω i ^ 4) P ∧ ∫ ω, ω i ^ 4 ∂P = 3 := by
  have hm : MeasurePreserving (fun ω : ℕ × ℕ → ℝ => ω i) P (gaussianReal 0 1) := measurePreserving_eval_infinitePi _ i
  have h := gaussE_poly 0 0 0 0 1
  have hi := integrable_pow_gauss 4
  refine ⟨hm.integrable_comp_of_integrable (g := fun x : ℝ => x ^ 4) hi, ?_⟩
  have h2 := integral_map (μ := P) (f := fun x : ℝ => x ^ 4) hm.measurable.aemeasurable (by fun_prop)
  rw [hm.map_eq] at h2
  rw [← h2]
  have h3 := h.2
  unfold Spec.gaussE at h3
  simpa using h3

lemma lintegral_bnd (j : ℕ) : ∫⁻ ω, ENNReal.ofReal (bnd j ω) ∂P = ENNReal.ofReal (4 * r ^ j) := by
  have hi : Integrable (bnd j) P := by
    unfold bnd
    exact (integrable_const _).add ((integrable_finsetSum _ fun k _ => (integral_coord_four (j, k)).1).const_mul _)
  rw [← ofReal_integral_eq_lintegral_ofReal hi (Eventually.of_forall (bnd_nonneg j))]
  congr 1
  unfold bnd
  rw [integral_add (integrable_const _) ((integrable_finsetSum _ fun k _ => (integral_coord_four (j, k)).1).const_mul _), integral_const_mul,
    integral_finsetSum _ fun k _ => (integral_coord_four (j, k)).1]
  simp_rw [fun k => (integral_coord_four (j, k)).2]
  simp only [integral_const, probReal_univ, smul_eq_mul, one_mul, Finset.sum_const, Finset.card_range, nsmul_eq_mul]
  push_cast
  have h : r ^ (5 * j) * 2 ^ j = r ^ j := by
    rw [show 5 * j = j + 4 * j from by ring, pow_add, pow_mul r 4 j, r_four, mul_assoc, ← mul_pow]
    norm_num
  linear_combination 3 * h

/-- The outcomes on which the series converges uniformly. -/
def good : Set (ℕ × ℕ → ℝ) := {ω | ∑' j, ENNReal.ofReal (bnd j ω) ≠ ⊤}

lemma measurable_bnd (j : ℕ) : Measurable (bnd j) := by unfold bnd; fun_prop

lemma measurableSet_good : MeasurableSet good := by
  have h : Measurable fun ω => ∑' j, ENNReal.ofReal (bnd j ω) := Measurable.ennreal_tsum fun j => (measurable_bnd j).ennreal_ofReal
  exact (h (measurableSet_singleton ⊤)).compl

lemma ae_good : ∀ᵐ ω ∂P, ω ∈ good := by
  have h : ∫⁻ ω, ∑' j, ENNReal.ofReal (bnd j ω) ∂P ≠ ⊤ := by
    rw [lintegral_tsum fun j => (measurable_bnd j).ennreal_ofReal.aemeasurable]
    simp_rw [lintegral_bnd]
    exact ((summable_geometric_of_lt_one r_pos.le r_lt).mul_left 4).tsum_ofReal_ne_top
  filter_upwards [ae_lt_top' (Measurable.ennreal_tsum fun j => (measurable_bnd j).ennreal_ofReal).aemeasurable h] with ω hω
  exact hω.ne

lemma summable_of_good {ω : ℕ × ℕ → ℝ} (h : ω ∈ good) : Summable fun j => bnd j ω := by
  have := ENNReal.summable_toReal h
  simpa [ENNReal.toReal_ofReal (bnd_nonneg _ ω)] using this

/-- The terms, set to zero outside the good set. -/
noncomputable def Wg (j : ℕ) (x : ℝ) : (ℕ × ℕ → ℝ) → ℝ := good.indicator (W j x)

lemma measurable_Wg (j : ℕ) (x : ℝ) : Measurable (Wg j x) :=
  Measurable.indicator (by unfold W; fun_prop) measurableSet_good

lemma continuous_Wg (j : ℕ) (ω : ℕ × ℕ → ℝ) : Continuous fun x => Wg j x ω := by
  unfold Wg
  by_cases h : ω ∈ good
  · simp only [indicator_of_mem h]
    unfold W
    have := continuous_tent
    fun_prop
  · simp only [indicator_of_notMem h]
    exact continuous_const

lemma bound_Wg (ω : ℕ × ℕ → ℝ) : ∃ u : ℕ → ℝ, Summable u ∧ ∀ j x, ‖Wg j x ω‖ ≤ u j := by
  by_cases h : ω ∈ good
  · exact ⟨fun j => bnd j ω, summable_of_good h, fun j x => by unfold Wg; rw [indicator_of_mem h]; exact W_le j x ω⟩
  · exact ⟨0, summable_zero, fun j x => by unfold Wg; rw [indicator_of_notMem h]; simp⟩

lemma summable_Wg (x : ℝ) (ω : ℕ × ℕ → ℝ) : Summable fun j => Wg j x ω := by
  obtain ⟨u, hu, h⟩ := bound_Wg ω
  exact Summable.of_norm_bounded hu fun j => h j x

/-- The Brownian bridge. -/
noncomputable def bridge (x : ℝ) (ω : ℕ × ℕ → ℝ) : ℝ := ∑' j, Wg j x ω

lemma continuous_bridge (ω : ℕ × ℕ → ℝ) : Continuous fun x => bridge x ω := by
  obtain ⟨u, hu, h⟩ := bound_Wg ω
  exact continuous_tsum (fun j => continuous_Wg j ω) hu fun j x => h j x

lemma tendsto_bridge (x : ℝ) (ω : ℕ × ℕ → ℝ) : Tendsto (fun J => ∑ j ∈ Finset.range J, Wg j x ω) atTop (𝓝 (bridge x ω)) :=
  (summable_Wg x ω).hasSum.tendsto_sum_nat

lemma measurable_bridge (x : ℝ) : Measurable (bridge x) :=
  measurable_of_tendsto_metrizable (f := fun J ω => ∑ j ∈ Finset.range J, Wg j x ω)
    (fun J => Finset.measurable_fun_sum _ fun j _ => measurable_Wg j x) (tendsto_pi_nhds.2 fun ω => tendsto_bridge x ω)

/-- Brownian motion. -/
noncomputable def B (t : ℝ≥0) (ω : ℕ × ℕ → ℝ) : ℝ := (1 + t) * bridge (t / (1 + t)) ω

lemma continuous_B (ω : ℕ × ℕ → ℝ) : Continuous fun t => B t ω := by
  unfold B
  have h : Continuous fun t : ℝ≥0 => (t : ℝ) / (1 + t) :=
    NNReal.continuous_coe.div (continuous_const.add NNReal.continuous_coe) fun t => by positivity
  exact (continuous_const.add NNReal.continuous_coe).mul ((continuous_bridge ω).comp h)

lemma measurable_B (t : ℝ≥0) : Measurable (B t) := (measurable_bridge _).const_mul _

/-! ### Finite-dimensional laws -/

/-- Positions of the first `J` levels. -/
abbrev Pos (J : ℕ) := (j : Fin J) × Fin (2 ^ (j : ℕ))

lemma pos_preserving (J : ℕ) : MeasurePreserving (fun (ω : ℕ × ℕ → ℝ) (p : Pos J) => ω ((p.1 : ℕ), (p.2 : ℕ))) P (Spec.iid (Pos J)) := by
  refine ⟨by fun_prop, ?_⟩
  have hinj : Function.Injective fun p : Pos J => ((p.1 : ℕ), (p.2 : ℕ)) := by
    rintro ⟨⟨j, hj⟩, k, hk⟩ ⟨⟨j', hj'⟩, k', hk'⟩ h
    simp only [Prod.mk.injEq] at h
    obtain ⟨rfl, rfl⟩ := h
    rfl
  unfold P Spec.iid
  rw [Measure.map_infinitePi_infinitePi_of_inj (P := fun _ : ℕ × ℕ => gaussianReal 0 1) hinj, Measure.infinitePi_eq_pi]

variable {ι : Type*} [Fintype ι] (c : ι → ℝ) (x : ι → ℝ)

lemma charFun_partial (J : ℕ) (u : ℝ) :
    ∫ ω, Complex.exp (u * (∑ i, c i * ∑ j ∈ Finset.range J, W j (x i) ω : ℝ) * Complex.I) ∂P =
      Complex.exp (-(u ^ 2 * ∑ i, ∑ l, c i * c l * kerJ J (x i) (x l) : ℝ) / 2) := by
  set d : Pos J → ℝ := fun p => ∑ i, c i * (r ^ (2 * (p.1 : ℕ)) * tent (2 ^ (p.1 : ℕ) * x i - (p.2 : ℕ))) with hd
  have e : ∀ ω : ℕ × ℕ → ℝ, ∑ i, c i * ∑ j ∈ Finset.range J, W j (x i) ω = ∑ p : Pos J, d p * ω ((p.1 : ℕ), (p.2 : ℕ)) := by
    intro ω
    simp only [hd, Finset.sum_mul]
    rw [Finset.sum_comm]
    refine Finset.sum_congr rfl fun i _ => ?_
    rw [Fintype.sum_sigma, Finset.sum_range, Finset.mul_sum]
    refine Finset.sum_congr rfl fun j _ => ?_
    unfold W
    rw [Finset.sum_range, Finset.mul_sum, Finset.mul_sum]
    exact Finset.sum_congr rfl fun k _ => by ring
  have hv : ∑ p : Pos J, d p ^ 2 = ∑ i, ∑ l, c i * c l * kerJ J (x i) (x l) := by
    have h1 : ∀ p : Pos J, d p ^ 2 = ∑ i, ∑ l, c i * c l * ((1 / 2) ^ (p.1 : ℕ) *
        (tent (2 ^ (p.1 : ℕ) * x i - (p.2 : ℕ)) * tent (2 ^ (p.1 : ℕ) * x l - (p.2 : ℕ)))) := by
      intro p
      rw [hd, sq, Finset.sum_mul_sum]
      refine Finset.sum_congr rfl fun i _ => Finset.sum_congr rfl fun l _ => ?_
      have h4 : r ^ (2 * (p.1 : ℕ)) * r ^ (2 * (p.1 : ℕ)) = (1 / 2) ^ (p.1 : ℕ) := by
        rw [← pow_add, ← r_four, ← pow_mul]; congr 1; ring
      rw [← h4]
      ring
    simp_rw [h1]
    rw [Finset.sum_comm]
    refine Finset.sum_congr rfl fun i _ => ?_
    rw [Finset.sum_comm]
    refine Finset.sum_congr rfl fun l _ => ?_
    rw [← Finset.mul_sum]
    congr 1
    unfold kerJ
    rw [Fintype.sum_sigma, Finset.sum_range]
    refine Finset.sum_congr rfl fun j _ => ?_
    rw [Finset.sum_range, Finset.mul_sum]
  simp_rw [e]
  have hmp := pos_preserving J
  have h1 := integral_map (μ := P) (f := fun z : Pos J → ℝ => Complex.exp (u * (∑ p, d p * z p : ℝ) * Complex.I)) hmp.measurable.aemeasurable (Measurable.aestronglyMeasurable (by fun_prop))
  rw [hmp.map_eq] at h1
  rw [← h1]
  have h2 := MvGauss.integral_cexp_iid (κ := Pos J) fun p => (u * d p * Complex.I : ℂ)
  have e2 : ∀ z : Pos J → ℝ, (u * (∑ p, d p * z p : ℝ) * Complex.I : ℂ) = ∑ p, (u * d p * Complex.I : ℂ) * (z p : ℂ) := by
    intro z
    push_cast
    rw [Finset.mul_sum, Finset.sum_mul]
    exact Finset.sum_congr rfl fun p _ => by ring
  simp_rw [e2]
  rw [h2, ← hv]
  congr 1
  push_cast
  rw [Finset.mul_sum, ← Finset.sum_neg_distrib, Finset.sum_div]
  refine Finset.sum_congr rfl fun p _ => ?_
  rw [mul_pow, Complex.I_sq]
  ring

lemma charFun_bridge (u : ℝ) :
    ∫ ω, Complex.exp (u * (∑ i, c i * bridge (x i) ω : ℝ) * Complex.I) ∂P =
      Complex.exp (-(u ^ 2 * ∑ i, ∑ l, c i * c l * ker (x i) (x l) : ℝ) / 2) := by
  have hlim : Tendsto (fun J => Complex.exp (-(u ^ 2 * ∑ i, ∑ l, c i * c l * kerJ J (x i) (x l) : ℝ) / 2)) atTop
      (𝓝 (Complex.exp (-(u ^ 2 * ∑ i, ∑ l, c i * c l * ker (x i) (x l) : ℝ) / 2))) := by
    refine (Complex.continuous_exp.tendsto _).comp (((Complex.continuous_ofReal.tendsto _).comp ?_).neg.div_const _)
    exact (tendsto_finsetSum _ fun i _ => tendsto_finsetSum _ fun l _ => (tendsto_kerJ (x i) (x l)).const_mul _).const_mul _
  simp_rw [← charFun_partial] at hlim
  refine tendsto_nhds_unique ?_ hlim
  refine tendsto_integral_of_dominated_convergence (fun _ => 1) (fun J => ?_) (integrable_const _) (fun J => ?_) ?_
  · refine Measurable.aestronglyMeasurable ?_
    unfold W
    fun_prop
  · refine Eventually.of_forall fun ω => ?_
    rw [show (u * (∑ i, c i * ∑ j ∈ Finset.range J, W j (x i) ω : ℝ) * Complex.I : ℂ) = ((u * ∑ i, c i * ∑ j ∈ Finset.range J, W j (x i) ω : ℝ) : ℂ) * Complex.I
      by push_cast; ring, Complex.norm_exp_ofReal_mul_I]
  · filter_upwards [ae_good] with ω hω
    refine (Complex.continuous_exp.tendsto _).comp ((((Complex.continuous_ofReal.tendsto _).comp ?_).const_mul _).mul_const _)
    refine tendsto_finsetSum _ fun i _ => Tendsto.const_mul _ ?_
    have h := tendsto_bridge (x i) ω
    unfold Wg at h
    simp only [indicator_of_mem hω] at h
    exact h

lemma ker_time (s t : ℝ≥0) : (1 + (s:ℝ)) * (1 + t) * ker (s / (1 + s)) (t / (1 + t)) = min (s:ℝ) t := by
  have hs : (0:ℝ) ≤ s := s.2
  have ht : (0:ℝ) ≤ t := t.2
  have h1 : ∀ z : ℝ, 0 ≤ z → z / (1 + z) < 1 := fun z hz => by rw [div_lt_one (by linarith)]; linarith
  unfold ker
  split_ifs with h
  · have e1 : (1 + (s:ℝ)) * (1 + t) * (s / (1 + s)) = s * (1 + t) := by field_simp
    have e2 : (1 + (s:ℝ)) * (1 + t) * (t / (1 + t)) = t * (1 + s) := by field_simp
    have e3 : (1 + (s:ℝ)) * (1 + t) * (s / (1 + s) * (t / (1 + t))) = s * t := by field_simp
    rw [mul_sub, mul_min_of_nonneg _ _ (by positivity), e1, e2, e3]
    rcases le_total (s:ℝ) t with hst | hst
    · rw [min_eq_left hst, min_eq_left (by nlinarith)]; ring
    · rw [min_eq_right hst, min_eq_right (by nlinarith)]; ring
  · rw [mul_zero]
    by_cases hs0 : (0:ℝ) < s
    · have ht0 : ¬ (0:ℝ) < t := fun ht0 => h ⟨⟨by positivity, h1 _ hs⟩, by positivity, h1 _ ht⟩
      rw [le_antisymm (not_lt.1 ht0) ht, min_eq_right hs]
    · rw [le_antisymm (not_lt.1 hs0) hs, min_eq_left ht]

lemma min_form_nonneg (c : ι → ℝ) (t : ι → ℝ≥0) : 0 ≤ ∑ i, ∑ l, c i * c l * min (t i : ℝ) (t l) := by
  have hJ : ∀ J, 0 ≤ ∑ i, ∑ l, (c i * (1 + t i)) * (c l * (1 + t l)) * kerJ J (t i / (1 + t i)) (t l / (1 + t l)) := by
    intro J
    unfold kerJ
    simp_rw [Finset.mul_sum]
    have e : ∀ i l, ∑ j ∈ Finset.range J, ∑ k ∈ Finset.range (2 ^ j), (c i * (1 + (t i:ℝ))) * (c l * (1 + (t l:ℝ))) * ((1 / 2) ^ j *
        (tent (2 ^ j * (t i / (1 + t i)) - k) * tent (2 ^ j * (t l / (1 + t l)) - k))) = ∑ j ∈ Finset.range J, ∑ k ∈ Finset.range (2 ^ j), (1 / 2 : ℝ) ^ j *
        ((c i * (1 + (t i:ℝ)) * tent (2 ^ j * (t i / (1 + t i)) - k)) * (c l * (1 + (t l:ℝ)) * tent (2 ^ j * (t l / (1 + t l)) - k))) := fun i l =>
      Finset.sum_congr rfl fun j _ => Finset.sum_congr rfl fun k _ => by ring
    simp_rw [e]
    have e2 : ∑ i, ∑ l, ∑ j ∈ Finset.range J, ∑ k ∈ Finset.range (2 ^ j), (1 / 2 : ℝ) ^ j *
        ((c i * (1 + (t i:ℝ)) * tent (2 ^ j * (t i / (1 + t i)) - k)) * (c l * (1 + (t l:ℝ)) * tent (2 ^ j * (t l / (1 + t l)) - k))) =
        ∑ j ∈ Finset.range J, ∑ k ∈ Finset.range (2 ^ j), (1 / 2 : ℝ) ^ j * (∑ i, c i * (1 + (t i:ℝ)) * tent (2 ^ j * (t i / (1 + t i)) - k)) ^ 2 := by
      simp_rw [sq, Finset.sum_mul_sum, Finset.mul_sum]
      simp_rw [Finset.sum_comm (s := Finset.univ) (t := Finset.range _)]
    rw [e2]
    exact Finset.sum_nonneg fun j _ => Finset.sum_nonneg fun k _ => by positivity
  have hl : Tendsto (fun J => ∑ i, ∑ l, (c i * (1 + t i)) * (c l * (1 + t l)) * kerJ J (t i / (1 + t i)) (t l / (1 + t l))) atTop
      (𝓝 (∑ i, ∑ l, (c i * (1 + t i)) * (c l * (1 + t l)) * ker (t i / (1 + t i)) (t l / (1 + t l)))) :=
    tendsto_finsetSum _ fun i _ => tendsto_finsetSum _ fun l _ => (tendsto_kerJ _ _).const_mul _
  have h := ge_of_tendsto' hl hJ
  refine h.trans_eq (Finset.sum_congr rfl fun i _ => Finset.sum_congr rfl fun l _ => ?_)
  rw [← ker_time]
  ring

/-- Every linear combination of values of `B` is normal with the Brownian variance. -/
lemma law_lin (c : ι → ℝ) (t : ι → ℝ≥0) :
    P.map (fun ω => ∑ i, c i * B (t i) ω) = gaussianReal 0 (∑ i, ∑ l, c i * c l * min (t i : ℝ) (t l)).toNNReal := by
  have hm : Measurable fun ω => ∑ i, c i * B (t i) ω := Finset.measurable_fun_sum _ fun i _ => (measurable_B _).const_mul _
  haveI := Measure.isProbabilityMeasure_map (μ := P) hm.aemeasurable
  refine Measure.ext_of_charFun ?_
  ext u
  rw [charFun_apply_real, integral_map hm.aemeasurable (by fun_prop), charFun_gaussianReal, coe_toNNReal _ (min_form_nonneg c t)]
  have h := charFun_bridge (fun i => c i * (1 + t i)) (fun i => t i / (1 + t i)) u
  have e1 : ∀ ω, ∑ i, c i * (1 + t i) * bridge (t i / (1 + t i)) ω = ∑ i, c i * B (t i) ω := fun ω =>
    Finset.sum_congr rfl fun i _ => by unfold B; ring
  simp_rw [e1] at h
  have e2 : ∑ i, ∑ l, c i * (1 + (t i:ℝ)) * (c l * (1 + t l)) * ker (t i / (1 + t i)) (t l / (1 + t l)) = ∑ i, ∑ l, c i * c l * min (t i : ℝ) (t l) :=
    Finset.sum_congr rfl fun i _ => Finset.sum_congr rfl fun l _ => by rw [← ker_time]; ring
  rw [e2] at h
  rw [h]
  congr 1
  push_cast
  ring

lemma isGaussianProcess_B : IsGaussianProcess B P where
  hasGaussianLaw I := by
    classical
    refine ⟨isGaussian_of_map_eq_gaussianReal fun L => ⟨0, (∑ i : I, ∑ l : I, L (Pi.single i 1) * L (Pi.single l 1) * min ((i : ℝ≥0) : ℝ) (l : ℝ≥0)).toNNReal, ?_⟩⟩
    · have hmB : Measurable fun ω => I.restrict (B · ω) := measurable_pi_lambda _ fun i => measurable_B _
      rw [Measure.map_map L.continuous.measurable hmB]
      have e : (⇑L ∘ fun ω => I.restrict (B · ω)) = fun ω => ∑ i : I, L (Pi.single i 1) * B i ω := by
        ext ω
        exact MvGauss.dual_apply L _
      rw [e]
      exact law_lin (fun i : I => L (Pi.single i 1)) (fun i : I => (i : ℝ≥0))

lemma law_B (t : ℝ≥0) : P.map (B t) = gaussianReal 0 t := by
  have h := law_lin (ι := Unit) (fun _ => 1) (fun _ => t)
  simpa using h

lemma law_sub (s t : ℝ≥0) (hst : s ≤ t) : P.map (fun ω => B t ω - B s ω) = gaussianReal 0 (t - s) := by
  have h := law_lin (ι := Bool) (fun b => if b then 1 else -1) (fun b => if b then t else s)
  have hst' : (s:ℝ) ≤ t := by exact_mod_cast hst
  simp only [Fintype.sum_bool, if_true, Bool.false_eq_true, if_false, one_mul, neg_mul, min_self, mul_neg, mul_one, neg_neg, min_eq_left hst', min_eq_right hst'] at h
  have e : ((t:ℝ) + -(s:ℝ) + (-(s:ℝ) + s)).toNNReal = t - s := by
    rw [show (t:ℝ) + -(s:ℝ) + (-(s:ℝ) + s) = ((t - s : ℝ≥0) : ℝ) from by rw [NNReal.coe_sub hst]; ring, Real.toNNReal_coe]
  rw [e] at h
  rw [← h]
  congr 1

theorem isBM : Spec.IsBM P B where
  law := by
    refine isGaussianProcess_B.isPreBrownianReal_of_covariance (fun t => ?_) (fun s t hst => ?_)
    · have h := integral_map (μ := P) (f := fun x : ℝ => x) (measurable_B t).aemeasurable (by fun_prop)
      rw [law_B, integral_id_gaussianReal] at h
      exact h.symm
    · have hL : ∀ t, MemLp (B t) 2 P := fun t => (isGaussianProcess_B.hasGaussianLaw_eval t).memLp_two
      have hv : ∀ t, Var[B t; P] = t := fun t => by
        have := variance_map (μ := P) (X := id) (Y := B t) (by fun_prop) (measurable_B t).aemeasurable
        rw [law_B, variance_id_gaussianReal] at this
        exact this.symm
      have hd : Var[B t - B s; P] = t - s := by
        have := variance_map (μ := P) (X := id) (Y := fun ω => B t ω - B s ω) (by fun_prop) ((measurable_B t).sub (measurable_B s)).aemeasurable
        rw [law_sub s t hst, variance_id_gaussianReal, NNReal.coe_sub hst] at this
        exact this.symm
      rw [variance_sub (hL t) (hL s), hv, hv, covariance_comm] at hd
      linarith
  meas := measurable_B
  cont := continuous_B

end BmExist

/-- Brownian motion exists. -/
theorem Spec.exists_isBM : ∃ (Ω : Type) (_ : MeasurableSpace Ω) (P : Measure Ω) (B : ℝ≥0 → Ω → ℝ), Spec.IsBM P B :=
  ⟨_, _, BmExist.P, BmExist.B, BmExist.isBM⟩

end PyFENG
