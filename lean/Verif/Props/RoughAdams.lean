import Verif.Model.HestonRough
import Verif.Lemmas.FracInt

/-!
# C126: the fractional Adams scheme of the rough Heston model
-/

namespace PyFENG

open Real MeasureTheory intervalIntegral Set Finset Filter Topology

/-- The piecewise-constant (left) interpolant of the values `y j` at the grid `j δ`. -/
noncomputable def Spec.stepFn (δ : ℝ) (y : ℕ → ℂ) (s : ℝ) : ℂ := y ⌊s / δ⌋₊

/-- The piecewise-linear interpolant of the values `y j` at the grid `j δ`. -/
noncomputable def Spec.linFn (δ : ℝ) (y : ℕ → ℂ) (s : ℝ) : ℂ := y ⌊s / δ⌋₊ + ((s / δ - ⌊s / δ⌋₊ : ℝ) : ℂ) * (y (⌊s / δ⌋₊ + 1) - y ⌊s / δ⌋₊)

namespace RoughHeston

lemma floor_cell {δ : ℝ} (hδ : 0 < δ) {i : ℕ} {s : ℝ} (h1 : i * δ ≤ s) (h2 : s < (i + 1) * δ) : ⌊s / δ⌋₊ = i := by
  rw [Nat.floor_eq_iff (div_nonneg ((by positivity : (0:ℝ) ≤ i * δ).trans h1) hδ.le), le_div_iff₀ hδ, div_lt_iff₀ hδ]
  exact ⟨h1, h2⟩

/-- Splitting a grid integral into cells. -/
lemma grid_split {δ : ℝ} (hδ : 0 < δ) (f : ℝ → ℂ) (g : ℕ → ℝ → ℂ) (n : ℕ) (hg : ∀ i < n, IntervalIntegrable (g i) volume (i * δ) ((i + 1) * δ))
    (hfg : ∀ i < n, ∀ s, i * δ ≤ s → s < (i + 1) * δ → f s = g i s) :
    ∫ s in (0:ℝ)..n * δ, f s = ∑ i ∈ Finset.range n, ∫ s in (i * δ)..((i + 1) * δ), g i s := by
  have hae : ∀ i < n, ∀ᵐ s ∂volume, s ∈ Set.uIoc ((i:ℝ) * δ) ((i + 1) * δ) → g i s = f s := fun i hi => by
    have hle : (i:ℝ) * δ ≤ (i + 1) * δ := by nlinarith
    filter_upwards [(measure_singleton ((i + 1) * δ) : volume {((i:ℝ) + 1) * δ} = 0) |> compl_mem_ae_iff.2] with s hs hm
    rw [uIoc_of_le hle] at hm
    exact (hfg i hi s hm.1.le (lt_of_le_of_ne hm.2 hs)).symm
  have hfi : ∀ i < n, IntervalIntegrable f volume (((i : ℕ) : ℝ) * δ) (((i + 1 : ℕ) : ℝ) * δ) := fun i hi => by
    have := (hg i hi).congr_ae ((ae_restrict_iff' measurableSet_uIoc).2 (hae i hi))
    simpa using this
  have := sum_integral_adjacent_intervals (f := f) (μ := volume) (a := fun i : ℕ => (i : ℝ) * δ) (n := n) hfi
  simp only [Nat.cast_zero, zero_mul] at this
  rw [← this]
  refine Finset.sum_congr rfl fun i hi => ?_
  rw [Nat.cast_add, Nat.cast_one]
  exact (intervalIntegral.integral_congr_ae (hae i (Finset.mem_range.1 hi))).symm

lemma cell_pow {α δ : ℝ} (hδ : 0 < δ) (k i : ℕ) (hi : i ≤ k) : (((k + 1 : ℕ) : ℝ) * δ - i * δ) ^ α = δ ^ α * ((k:ℝ) - i + 1) ^ α ∧
    (((k + 1 : ℕ) : ℝ) * δ - (i + 1) * δ) ^ α = δ ^ α * ((k:ℝ) - i) ^ α := by
  have h : (i:ℝ) ≤ k := by exact_mod_cast hi
  constructor
  · rw [← mul_rpow hδ.le (by linarith)]; congr 1; push_cast; ring
  · rw [← mul_rpow hδ.le (by linarith)]; congr 1; push_cast; ring

/-- **C126.** The predictor weights are the exact fractional integral of the piecewise-constant interpolant. -/
theorem predictor_weights_exact (m : RoughHeston) (hα : 0 < m.alpha) {δ : ℝ} (hδ : 0 < δ) (k : ℕ) (y : ℕ → ℂ) :
    ∑ j ∈ Finset.range (k + 1), (m.bW k δ j : ℂ) * y j = Spec.fracInt m.alpha (Spec.stepFn δ y) ((k + 1 : ℕ) * δ) := by
  unfold Spec.fracInt
  set t : ℝ := (k + 1 : ℕ) * δ with ht
  rw [grid_split hδ _ (fun i s => (((t - s) ^ (m.alpha - 1) : ℝ) : ℂ) * y i) (k + 1) (fun i _ => (FracInt.ofReal_ii (FracInt.kernel_integrable hα t _ _)).mul_const _)
    (fun i _ s h1 h2 => by rw [Spec.stepFn, floor_cell hδ h1 h2]), Finset.sum_div]
  refine Finset.sum_congr rfl fun i hi => ?_
  rw [intervalIntegral.integral_mul_const, FracInt.kernel_intC hα, bW, Gamma_add_one hα.ne']
  have hi' : i ≤ k := by have := Finset.mem_range.1 hi; omega
  obtain ⟨e1, e2⟩ := cell_pow (α := m.alpha) hδ k i hi'
  rw [ht, e1, e2]
  have hG := (Gamma_pos_of_pos hα).ne'
  rw [mul_div_right_comm (_ : ℂ) (y i), ← Complex.ofReal_div]
  congr 2
  field_simp

lemma cell_lin {α : ℝ} (hα : 0 < α) {t a b : ℝ} (hab : a ≤ b) (hbt : b ≤ t) :
    ∫ s in a..b, (t - s) ^ (α - 1) * (s - a) = (t - a) * (((t - a) ^ α - (t - b) ^ α) / α) - ((t - a) ^ (α + 1) - (t - b) ^ (α + 1)) / (α + 1) := by
  have e : ∀ s ∈ uIcc a b, (t - s) ^ (α - 1) * (s - a) = (t - a) * (t - s) ^ (α - 1) - (t - s) ^ ((α + 1) - 1) := fun s hs => by
    rw [uIcc_of_le hab] at hs
    have h0 : (t - s) ^ ((α + 1) - 1) = (t - s) ^ (α - 1) * (t - s) := by
      rw [← rpow_add_one' (by linarith [hs.2]) (by simpa using hα.ne')]; congr 1; ring
    rw [h0]; ring
  rw [intervalIntegral.integral_congr e, intervalIntegral.integral_sub ((FracInt.kernel_integrable hα t a b).const_mul _) (FracInt.kernel_integrable (by linarith) t a b), intervalIntegral.integral_const_mul,
    FracInt.kernel_int hα, FracInt.kernel_int (by linarith)]

lemma left_right_sum (k : ℕ) (L R : ℕ → ℂ) (y : ℕ → ℂ) :
    ∑ i ∈ Finset.range (k + 1), (L i * y i + R i * y (i + 1)) = ∑ j ∈ Finset.range (k + 2), (if j = 0 then L 0 else if j = k + 1 then R k else L j + R (j - 1)) * y j := by
  rw [Finset.sum_add_distrib, Finset.sum_range_succ' _ (k + 1), Finset.sum_range_succ' (fun i => L i * y i), Finset.sum_range_succ (fun i => R i * y (i + 1)),
    Finset.sum_range_succ]
  have e : ∀ i ∈ Finset.range k, (if i + 1 = 0 then L 0 else if i + 1 = k + 1 then R k else L (i + 1) + R (i + 1 - 1)) * y (i + 1) = L (i + 1) * y (i + 1) + R i * y (i + 1) := fun i hi => by
    have := Finset.mem_range.1 hi
    rw [if_neg (by omega), if_neg (by omega), Nat.add_sub_cancel]
    ring
  rw [Finset.sum_congr rfl e, Finset.sum_add_distrib, if_pos rfl, if_neg (by omega), if_pos rfl]
  ring

/-- **C126.** The corrector weights are the exact fractional integral of the piecewise-linear interpolant. -/
theorem corrector_weights_exact (m : RoughHeston) (hα : 0 < m.alpha) {δ : ℝ} (hδ : 0 < δ) (k : ℕ) (y : ℕ → ℂ) :
    ∑ j ∈ Finset.range (k + 2), (m.aW k δ j : ℂ) * y j = Spec.fracInt m.alpha (Spec.linFn δ y) ((k + 1 : ℕ) * δ) := by
  unfold Spec.fracInt
  set t : ℝ := (k + 1 : ℕ) * δ with ht
  set R : ℕ → ℝ := fun i => δ ^ m.alpha * ((((k:ℝ) - i + 1) ^ (m.alpha + 1) - ((k:ℝ) - i) ^ (m.alpha + 1)) / (m.alpha * (m.alpha + 1)) - ((k:ℝ) - i) ^ m.alpha / m.alpha) / Gamma m.alpha with hR
  set L : ℕ → ℝ := fun i => δ ^ m.alpha * (((k:ℝ) - i + 1) ^ m.alpha / m.alpha - (((k:ℝ) - i + 1) ^ (m.alpha + 1) - ((k:ℝ) - i) ^ (m.alpha + 1)) / (m.alpha * (m.alpha + 1))) / Gamma m.alpha with hL
  have hG := (Gamma_pos_of_pos hα).ne'
  have hα1 : m.alpha + 1 ≠ 0 := by positivity
  have hbd : ∀ i < k + 1, ((i:ℝ) + 1) * δ ≤ t := fun i hi => by
    have : (i:ℝ) + 1 ≤ ((k + 1 : ℕ) : ℝ) := by exact_mod_cast hi
    exact mul_le_mul_of_nonneg_right this hδ.le
  rw [grid_split hδ _ (fun i s => (((t - s) ^ (m.alpha - 1) : ℝ) : ℂ) * (y i) + (((t - s) ^ (m.alpha - 1) * (s - i * δ) : ℝ) : ℂ) * ((y (i + 1) - y i) / δ)) (k + 1)
    (fun i _ => ((FracInt.ofReal_ii (FracInt.kernel_integrable hα t _ _)).mul_const _).add ((FracInt.ofReal_ii ((FracInt.kernel_integrable hα t _ _).mul_continuousOn (by fun_prop))).mul_const _))
    (fun i _ s h1 h2 => by
      rw [Spec.linFn, floor_cell hδ h1 h2]
      have : (δ : ℂ) ≠ 0 := by exact_mod_cast hδ.ne'
      push_cast
      field_simp), Finset.sum_div]
  have hcell : ∀ i ∈ Finset.range (k + 1), (∫ s in ((i:ℝ) * δ)..((i + 1) * δ), ((((t - s) ^ (m.alpha - 1) : ℝ) : ℂ) * (y i) + (((t - s) ^ (m.alpha - 1) * (s - i * δ) : ℝ) : ℂ) * ((y (i + 1) - y i) / δ))) / (Gamma m.alpha : ℂ)
      = (L i : ℂ) * y i + (R i : ℂ) * y (i + 1) := fun i hi => by
    have hi' : i ≤ k := by have := Finset.mem_range.1 hi; omega
    rw [intervalIntegral.integral_add ((FracInt.ofReal_ii (FracInt.kernel_integrable hα t _ _)).mul_const _) ((FracInt.ofReal_ii ((FracInt.kernel_integrable hα t _ _).mul_continuousOn (by fun_prop))).mul_const _),
      intervalIntegral.integral_mul_const, intervalIntegral.integral_mul_const, FracInt.kernel_intC hα, intervalIntegral.integral_ofReal, cell_lin hα (by nlinarith) (hbd i (by omega))]
    obtain ⟨e1, e2⟩ := cell_pow (α := m.alpha) hδ k i hi'
    obtain ⟨e3, e4⟩ := cell_pow (α := m.alpha + 1) hδ k i hi'
    have hik : (i:ℝ) ≤ k := by exact_mod_cast hi'
    have ht' : t - i * δ = δ * ((k:ℝ) - i + 1) := by rw [ht]; push_cast; ring
    have p1 : δ ^ (m.alpha + 1) = δ ^ m.alpha * δ := rpow_add_one hδ.ne' _
    have p2 : ((k:ℝ) - i + 1) ^ (m.alpha + 1) = ((k:ℝ) - i + 1) ^ m.alpha * ((k:ℝ) - i + 1) := rpow_add_one (by linarith) _
    have p3 : ((k:ℝ) - i) ^ (m.alpha + 1) = ((k:ℝ) - i) ^ m.alpha * ((k:ℝ) - i) := rpow_add_one' (by linarith) (by positivity)
    rw [← ht] at e1 e2 e3 e4
    rw [e1, e2, e3, e4, ht', hL, hR]
    simp only
    rw [p1, p2, p3]
    have hδc : (δ : ℂ) ≠ 0 := by exact_mod_cast hδ.ne'
    have hGc : (Gamma m.alpha : ℂ) ≠ 0 := by exact_mod_cast hG
    have hαc : (m.alpha : ℂ) ≠ 0 := by exact_mod_cast hα.ne'
    have hα1c : (m.alpha : ℂ) + 1 ≠ 0 := by exact_mod_cast hα1
    generalize ((k:ℝ) - i + 1) ^ m.alpha = P
    generalize ((k:ℝ) - i) ^ m.alpha = Q
    generalize δ ^ m.alpha = D
    push_cast
    field_simp
    ring
  rw [Finset.sum_congr rfl hcell, left_right_sum k (fun i => (L i : ℂ)) (fun i => (R i : ℂ)) y]
  refine Finset.sum_congr rfl fun j hj => ?_
  congr 1
  have hG2 : Gamma (m.alpha + 2) = (m.alpha + 1) * (m.alpha * Gamma m.alpha) := by
    rw [show m.alpha + 2 = m.alpha + 1 + 1 by ring, Gamma_add_one hα1, Gamma_add_one hα.ne']
  unfold aW
  rw [hG2]
  split_ifs with h0 h1
  · rw [hL]
    congr 1
    simp only [Nat.cast_zero, sub_zero]
    rw [rpow_add_one (by positivity : (k:ℝ) + 1 ≠ 0)]
    generalize ((k:ℝ) + 1) ^ m.alpha = P
    generalize (k:ℝ) ^ (m.alpha + 1) = Q
    field_simp
    ring
  · rw [hR]
    congr 1
    simp only [sub_self, zero_add, one_rpow, zero_rpow hα.ne', zero_rpow hα1]
    field_simp
    ring
  · rw [hL, hR, ← Complex.ofReal_add]
    congr 1
    have hj1 : ((j - 1 : ℕ) : ℝ) = (j : ℝ) - 1 := by rw [Nat.cast_sub (by omega)]; norm_num
    simp only [hj1]
    rw [show (k:ℝ) - (j - 1) + 1 = k - j + 2 by ring, show (k:ℝ) - (j - 1) = k - j + 1 by ring]
    generalize ((k:ℝ) - j + 1) ^ m.alpha = P
    generalize ((k:ℝ) - j + 1) ^ (m.alpha + 1) = P1
    generalize ((k:ℝ) - j + 2) ^ (m.alpha + 1) = P2
    generalize ((k:ℝ) - j) ^ (m.alpha + 1) = P3
    field_simp
    ring

/-! ### The recursion -/

/-- The entries of the arrays are final once written. -/
lemma adamArr_stable (m : RoughHeston) (δ : ℝ) (u : ℂ) (n j : ℕ) : (j ≤ n → (m.adamArr δ u n).1 j = (m.adamArr δ u j).1 j ∧ (m.adamArr δ u n).2 j = (m.adamArr δ u j).2 j) ∧
    (n < j → (m.adamArr δ u n).1 j = 0 ∧ (m.adamArr δ u n).2 j = 0) := by
  induction n with
  | zero => 
    refine ⟨fun h => by rw [Nat.le_zero.1 h]; exact ⟨rfl, rfl⟩, fun h => ⟨rfl, ?_⟩⟩
    simp only [adamArr]
    rw [Function.update_of_ne (by omega)]
  | succ n ih =>
    refine ⟨fun h => ?_, fun h => ?_⟩
    · rcases Nat.lt_or_ge n j with h' | h'
      · obtain rfl : j = n + 1 := by omega
        exact ⟨rfl, rfl⟩
      · obtain ⟨e1, e2⟩ := ih.1 h'
        constructor
        · rw [← e1]; simp only [adamArr]; rw [Function.update_of_ne (by omega)]
        · rw [← e2]; simp only [adamArr]; rw [Function.update_of_ne (by omega)]
    · obtain ⟨e1, e2⟩ := ih.2 (by omega)
      constructor
      · rw [← e1]; simp only [adamArr]; rw [Function.update_of_ne (by omega)]
      · rw [← e2]; simp only [adamArr]; rw [Function.update_of_ne (by omega)]

/-- The sequence computed by the loop (`h_hat`). -/
noncomputable def hHat (m : RoughHeston) (δ : ℝ) (u : ℂ) (j : ℕ) : ℂ := (m.adamArr δ u j).1 j

lemma adamArr_fst (m : RoughHeston) (δ : ℝ) (u : ℂ) {n j : ℕ} (h : j ≤ n) : (m.adamArr δ u n).1 j = m.hHat δ u j := ((adamArr_stable m δ u n j).1 h).1

lemma hHat_zero (m : RoughHeston) (δ : ℝ) (u : ℂ) : m.hHat δ u 0 = 0 := rfl

lemma adamArr_snd (m : RoughHeston) (δ : ℝ) (u : ℂ) {n j : ℕ} (h : j ≤ n) : (m.adamArr δ u n).2 j = m.F u (m.hHat δ u (j - 1)) := by
  rw [((adamArr_stable m δ u n j).1 h).2]
  cases j with
  | zero => simp only [adamArr, Function.update_self]; rfl
  | succ j => simp only [adamArr, Function.update_self]; rfl

lemma hHat_succ (m : RoughHeston) (δ : ℝ) (u : ℂ) (k : ℕ) : m.hHat δ u (k + 1) = (∑ i ∈ Finset.range (k + 1), (m.aW k δ i : ℂ) * m.F u (m.hHat δ u (i - 1)))
    + (m.aW k δ (k + 1) : ℂ) * m.F u (∑ i ∈ Finset.range (k + 1), (m.bW k δ i : ℂ) * m.F u (m.hHat δ u (i - 1))) := by
  have e : ∀ i ∈ Finset.range (k + 1), Function.update (m.adamArr δ u k).2 (k + 1) (m.F u ((m.adamArr δ u k).1 k)) i = m.F u (m.hHat δ u (i - 1)) := fun i hi => by
    have := Finset.mem_range.1 hi
    rw [Function.update_of_ne (by omega), adamArr_snd m δ u (by omega)]
  have hw : m.aW (k + 1) δ (k + 2) = m.aW k δ (k + 1) := by unfold aW; simp
  conv_lhs => rw [hHat]
  simp only [adamArr, Function.update_self]
  rw [hw, Finset.sum_congr (g := fun i => (m.aW k δ i : ℂ) * m.F u (m.hHat δ u (i - 1))) rfl fun i hi => by rw [e i hi],
    Finset.sum_congr (f := fun i => (m.bW k δ i : ℂ) * Function.update (m.adamArr δ u k).2 (k + 1) (m.F u ((m.adamArr δ u k).1 k)) i) (g := fun i => (m.bW k δ i : ℂ) * m.F u (m.hHat δ u (i - 1))) rfl fun i hi => by rw [e i hi]]

/-- **C126.** What the loop computes: each value is the fractional integral of the piecewise-linear interpolant of the Riccati right-hand side, with the predictor (the fractional integral of the
piecewise-constant interpolant) at the new point; but at the earlier grid points the right-hand side is evaluated at the *previous* grid value. -/
theorem adam_recursion (m : RoughHeston) (hα : 0 < m.alpha) {δ : ℝ} (hδ : 0 < δ) (u : ℂ) : ∃ h : ℕ → ℂ, (∀ n j, j ≤ n → (m.adamArr δ u n).1 j = h j) ∧ h 0 = 0 ∧
    ∀ k, h (k + 1) = Spec.fracInt m.alpha (Spec.linFn δ fun j => if j ≤ k then m.F u (h (j - 1))
      else m.F u (Spec.fracInt m.alpha (Spec.stepFn δ fun j => m.F u (h (j - 1))) ((k + 1 : ℕ) * δ))) ((k + 1 : ℕ) * δ) := by
  refine ⟨m.hHat δ u, fun n j h => adamArr_fst m δ u h, rfl, fun k => ?_⟩
  rw [← predictor_weights_exact m hα hδ k, ← corrector_weights_exact m hα hδ k, Finset.sum_range_succ, hHat_succ, if_neg (by omega)]
  congr 1
  refine Finset.sum_congr rfl fun i hi => ?_
  have := Finset.mem_range.1 hi
  rw [if_pos (by omega)]

end RoughHeston

/-- The fractional Adams predictor-corrector scheme for `D^α h = f(h)`, `h(0) = 0`, on the grid `j δ` (Diethelm, Ford and Freed). -/
def Spec.IsAdams (α δ : ℝ) (f : ℂ → ℂ) (h : ℕ → ℂ) : Prop := h 0 = 0 ∧ ∀ k, h (k + 1) = Spec.fracInt α (Spec.linFn δ fun j => if j ≤ k then f (h j)
      else f (Spec.fracInt α (Spec.stepFn δ fun j => f (h j)) ((k + 1 : ℕ) * δ))) ((k + 1 : ℕ) * δ)

namespace RoughHeston

/-- **C126 (finding).** The loop is not the fractional Adams scheme: already its second value differs. -/
theorem adam_not_adams : ∃ (m : RoughHeston) (u : ℂ), 0 < m.alpha ∧ ∀ h, Spec.IsAdams m.alpha (1 / 100) (m.F u) h → h 2 ≠ (m.adamArr (1 / 100) u 2).1 2 := by
  refine ⟨⟨0.04, 1, 0, 1, 0.04, 1, 0, 0, false⟩, 2, by norm_num, fun h hh h2 => ?_⟩
  set m : RoughHeston := ⟨0.04, 1, 0, 1, 0.04, 1, 0, 0, false⟩ with hm
  have hα : 0 < m.alpha := by rw [hm]; norm_num
  have hδ : (0:ℝ) < 1 / 100 := by norm_num
  have G2 : Gamma 2 = 1 := by rw [show (2:ℝ) = (1:ℕ) + 1 by norm_num, Gamma_nat_eq_factorial]; norm_num
  have G3 : Gamma 3 = 2 := by rw [show (3:ℝ) = (2:ℕ) + 1 by norm_num, Gamma_nat_eq_factorial]; norm_num [Nat.factorial]
  have key : ∀ k, h (k + 1) = (∑ i ∈ Finset.range (k + 1), (m.aW k (1 / 100) i : ℂ) * m.F 2 (h i))
    + (m.aW k (1 / 100) (k + 1) : ℂ) * m.F 2 (∑ i ∈ Finset.range (k + 1), (m.bW k (1 / 100) i : ℂ) * m.F 2 (h i)) := fun k => by
    rw [hh.2 k, ← predictor_weights_exact m hα hδ k, ← corrector_weights_exact m hα hδ k, Finset.sum_range_succ, if_neg (by omega)]
    congr 1
    refine Finset.sum_congr rfl fun i hi => ?_
    have := Finset.mem_range.1 hi
    rw [if_pos (by omega)]
  have w00 : m.aW 0 (1 / 100) 0 = 1 / 200 := by rw [hm]; unfold aW; norm_num [G3]
  have w01 : m.aW 0 (1 / 100) 1 = 1 / 200 := by rw [hm]; unfold aW; norm_num [G3]
  have w10 : m.aW 1 (1 / 100) 0 = 1 / 200 := by rw [hm]; unfold aW; norm_num [G3]
  have w11 : m.aW 1 (1 / 100) 1 = 1 / 100 := by rw [hm]; unfold aW; norm_num [G3]
  have w12 : m.aW 1 (1 / 100) 2 = 1 / 200 := by rw [hm]; unfold aW; norm_num [G3]
  have b00 : m.bW 0 (1 / 100) 0 = 1 / 100 := by rw [hm]; unfold bW; norm_num [G2]
  have b10 : m.bW 1 (1 / 100) 0 = 1 / 100 := by rw [hm]; unfold bW; norm_num [G2]
  have b11 : m.bW 1 (1 / 100) 1 = 1 / 100 := by rw [hm]; unfold bW; norm_num [G2]
  have hF : ∀ x : ℂ, m.F 2 x = 1 - x + x ^ 2 / 2 := fun x => by rw [hm]; unfold F; norm_num; ring
  rw [adamArr_fst m _ _ le_rfl] at h2
  have k0 := key 0
  have k1 := key 1
  have c0 := hHat_succ m (1 / 100) 2 0
  have c1 := hHat_succ m (1 / 100) 2 1
  simp only [Finset.sum_range_succ, Finset.sum_range_zero, zero_add, w00, w01, w10, w11, w12, b00, b10, b11, hF, hh.1, hHat_zero, Nat.reduceAdd, Nat.zero_sub, Nat.sub_self] at k0 k1 c0 c1
  rw [c1, k1, k0] at h2
  norm_num at h2

/-! ### The transform -/

lemma F_zero_one (m : RoughHeston) : m.F 0 0 = 0 ∧ m.F 1 0 = 0 := by unfold F; norm_num

lemma hHat_eq_zero (m : RoughHeston) (δ : ℝ) {u : ℂ} (hu : m.F u 0 = 0) (j : ℕ) : m.hHat δ u j = 0 := by
  induction j using Nat.strong_induction_on with
  | _ j ih =>
    cases j with
    | zero => rfl
    | succ k =>
      have e : ∀ i ∈ Finset.range (k + 1), m.F u (m.hHat δ u (i - 1)) = 0 := fun i hi => by
        have := Finset.mem_range.1 hi
        rw [ih (i - 1) (by omega), hu]
      rw [hHat_succ, Finset.sum_eq_zero fun i hi => by rw [e i hi, mul_zero], Finset.sum_eq_zero fun i hi => by rw [e i hi, mul_zero], hu, mul_zero, add_zero]

lemma arr_eq (m : RoughHeston) (δ : ℝ) (u : ℂ) (n i : ℕ) : (m.adamArr δ u n).1 i = if i ≤ n then m.hHat δ u i else 0 := by
  split_ifs with h
  · exact adamArr_fst m δ u h
  · exact ((adamArr_stable m δ u n i).2 (by omega)).1

/-- **C126.** The transform is normalised and the forward is a martingale: the method-1 moment generating function is exactly `1` at `u = 0` and at `u = 1`, for all parameters and expiries. -/
theorem adam_mgf_one (m : RoughHeston) (texp : ℝ) : (m.logpMgfAdam [0, 1] texp).1 = [1, 1] := by
  have h : ∀ u : ℂ, m.F u 0 = 0 → m.adamExpo (1 / 100) u texp = 0 := fun u hu => by
    unfold adamExpo Ih
    simp only [arr_eq, hHat_eq_zero m _ hu, ite_self, mul_zero, zero_mul, Finset.sum_const_zero, zero_div, add_zero]
  simp only [logpMgfAdam, List.map_cons, List.map_nil, h 0 m.F_zero_one.1, h 1 m.F_zero_one.2, Complex.exp_zero]

lemma F_conj (m : RoughHeston) (u x : ℂ) : m.F ((starRingEnd ℂ) u) ((starRingEnd ℂ) x) = (starRingEnd ℂ) (m.F u x) := by
  unfold F; simp [Complex.conj_ofNat]

lemma hHat_conj (m : RoughHeston) (δ : ℝ) (u : ℂ) (j : ℕ) : m.hHat δ ((starRingEnd ℂ) u) j = (starRingEnd ℂ) (m.hHat δ u j) := by
  induction j using Nat.strong_induction_on with
  | _ j ih =>
    cases j with
    | zero => simp [hHat_zero]
    | succ k =>
      have e : ∀ i ∈ Finset.range (k + 1), m.F ((starRingEnd ℂ) u) (m.hHat δ ((starRingEnd ℂ) u) (i - 1)) = (starRingEnd ℂ) (m.F u (m.hHat δ u (i - 1))) := fun i hi => by
        have := Finset.mem_range.1 hi
        rw [ih (i - 1) (by omega), F_conj]
      rw [hHat_succ, hHat_succ]
      simp only [map_add, map_mul, map_sum, Complex.conj_ofReal]
      rw [Finset.sum_congr rfl fun i hi => by rw [e i hi], ← F_conj]
      simp only [map_mul, map_sum, Complex.conj_ofReal]
      congr 3
      exact Finset.sum_congr rfl fun i hi => by rw [e i hi]

/-- **C126.** The method-1 transform is symmetric, `mgf(conj u) = conj(mgf(u))`, hence real and positive at real arguments. -/
theorem adam_mgf_conj (m : RoughHeston) (texp : ℝ) (uu : List ℂ) :
    (m.logpMgfAdam (uu.map (starRingEnd ℂ)) texp).1 = (m.logpMgfAdam uu texp).1.map (starRingEnd ℂ) ∧ ∀ u : ℝ, ∃ x : ℝ, 0 < x ∧ (m.logpMgfAdam [(u : ℂ)] texp).1 = [(x : ℂ)] := by
  have h : ∀ u : ℂ, m.adamExpo (1 / 100) ((starRingEnd ℂ) u) texp = (starRingEnd ℂ) (m.adamExpo (1 / 100) u texp) := fun u => by
    unfold adamExpo Ih
    simp only [arr_eq, hHat_conj, map_add, map_mul, map_div₀, map_sum, Complex.conj_ofReal, apply_ite (starRingEnd ℂ), map_zero]
  refine ⟨?_, fun u => ?_⟩
  · simp only [logpMgfAdam, List.map_map]
    refine List.map_congr_left fun u _ => ?_
    simp only [Function.comp_apply, h, Complex.exp_conj]
  · have h1 := h u
    rw [Complex.conj_ofReal] at h1
    obtain ⟨r, hr⟩ := Complex.conj_eq_iff_real.1 h1.symm
    refine ⟨exp r, exp_pos r, ?_⟩
    simp only [logpMgfAdam, List.map_cons, List.map_nil, hr, Complex.ofReal_exp]

/-- **C126 (finding).** Below one internal time step the variance is ignored: for `0 < texp < 1/100` the transform is `1` everywhere, as for a deterministic price. -/
theorem adam_short_expiry (m : RoughHeston) {texp : ℝ} (h1 : texp < 1 / 100) (uu : List ℂ) : (m.logpMgfAdam uu texp).1 = uu.map fun _ => 1 := by
  have hfl : ⌊texp / (1 / 100)⌋₊ = 0 := Nat.floor_eq_zero.2 (by rw [div_lt_iff₀ (by norm_num)]; linarith)
  simp only [logpMgfAdam, List.map_map]
  refine List.map_congr_left fun u _ => ?_
  simp only [Function.comp_apply, adamExpo, hfl, adamArr, Ih, mul_zero, zero_mul, Finset.sum_const_zero, zero_div, add_zero, Complex.exp_zero]

/-- **C126 (finding).** The caller's array of arguments is overwritten by the exponents: the returned values are the exponentials of what is left in it. -/
theorem adam_overwrites (m : RoughHeston) (uu : List ℂ) (texp : ℝ) : (m.logpMgfAdam uu texp).1 = (m.logpMgfAdam uu texp).2.map Complex.exp ∧
    (m.logpMgfAdam uu texp).2.length = uu.length ∧ (m.logpMgfAdam [0, 1] texp).2 = [0, 0] := by
  refine ⟨rfl, by simp [logpMgfAdam], ?_⟩
  have h : ∀ u : ℂ, m.F u 0 = 0 → m.adamExpo (1 / 100) u texp = 0 := fun u hu => by
    unfold adamExpo Ih
    simp only [arr_eq, hHat_eq_zero m _ hu, ite_self, mul_zero, zero_mul, Finset.sum_const_zero, zero_div, add_zero]
  simp only [logpMgfAdam, List.map_cons, List.map_nil, h 0 m.F_zero_one.1, h 1 m.F_zero_one.2, Complex.exp_zero]

/-- **C126 (finding).** The rectangle rule for the singular integral blows up just after a grid time: as the expiry decreases to a positive multiple `k δ` of the internal time step the exponent
tends to infinity in modulus, whenever the `k`-th value of the Riccati solution and the initial variance are not zero. -/
theorem adam_grid_blowup (m : RoughHeston) (hα0 : 0 < m.alpha) (hα1 : m.alpha < 1) (hσ : m.sigma ≠ 0) {δ : ℝ} (hδ : 0 < δ) (u : ℂ) {k : ℕ} (hk : m.hHat δ u k ≠ 0) :
    Tendsto (fun t => ‖m.adamExpo δ u t‖) (𝓝[>] (k * δ)) atTop := by
  have hcell : ∀ᶠ t in 𝓝[>] ((k:ℝ) * δ), t ∈ Set.Ioo ((k:ℝ) * δ) ((k + 1) * δ) := Ioo_mem_nhdsGT (by nlinarith)
  -- the regular part
  set A : ℝ → ℂ := fun t => m.theta * m.mr * ((∑ i ∈ Finset.range (k + 1), (((t - i * δ) ^ ((1:ℝ) - 1) : ℝ) : ℂ) * m.hHat δ u i * δ) / (Gamma 1 : ℂ))
    + m.sigma * ((∑ i ∈ Finset.range k, (((t - i * δ) ^ ((1 - m.alpha) - 1) : ℝ) : ℂ) * m.hHat δ u i * δ) / (Gamma (1 - m.alpha) : ℂ)) with hA
  set B : ℂ := m.sigma * (m.hHat δ u k * δ / (Gamma (1 - m.alpha) : ℂ)) with hB
  have hval : ∀ᶠ t in 𝓝[>] ((k:ℝ) * δ), m.adamExpo δ u t = A t + (((t - k * δ) ^ (-m.alpha) : ℝ) : ℂ) * B := by
    filter_upwards [hcell] with t ht
    have hf : ⌊t / δ⌋₊ = k := floor_cell hδ ht.1.le ht.2
    have hc : ⌈t / δ⌉₊ = k + 1 := by
      rw [Nat.ceil_eq_iff (by omega), Nat.add_sub_cancel, lt_div_iff₀ hδ, div_le_iff₀ hδ]
      push_cast
      exact ⟨ht.1, ht.2.le⟩
    unfold adamExpo Ih
    simp only [hf, hc]
    have e : ∀ r : ℝ, ∑ i ∈ Finset.range (k + 1), (((t - i * δ) ^ r : ℝ) : ℂ) * (m.adamArr δ u k).1 i * δ = ∑ i ∈ Finset.range (k + 1), (((t - i * δ) ^ r : ℝ) : ℂ) * m.hHat δ u i * δ := fun r =>
      Finset.sum_congr rfl fun i hi => by rw [adamArr_fst m δ u (by have := Finset.mem_range.1 hi; omega)]
    rw [e, e, Finset.sum_range_succ (fun i => (((t - (i:ℝ) * δ) ^ (1 - m.alpha - 1) : ℝ) : ℂ) * m.hHat δ u i * δ) k, hA, hB]
    simp only
    rw [show (1 - m.alpha - 1) = -m.alpha by ring]
    ring
  have hAt : Tendsto A (𝓝[>] ((k:ℝ) * δ)) (𝓝 (A (k * δ))) := by
    have hc : ContinuousAt A (k * δ) := by
      rw [hA]
      refine ContinuousAt.add ?_ ?_
      · refine continuousAt_const.mul (ContinuousAt.div_const ?_ _)
        simp only [sub_self, rpow_zero]
        exact continuousAt_const
      · refine continuousAt_const.mul (ContinuousAt.div_const ?_ _)
        refine tendsto_finsetSum _ fun i hi => ?_
        have hik : (i:ℝ) + 1 ≤ k := by exact_mod_cast Finset.mem_range.1 hi
        refine ContinuousAt.mul (ContinuousAt.mul ?_ continuousAt_const) continuousAt_const
        refine Complex.continuous_ofReal.continuousAt.comp (f := fun t : ℝ => (t - i * δ) ^ (1 - m.alpha - 1)) ?_
        refine ContinuousAt.rpow_const (by fun_prop) (Or.inl ?_)
        have : 0 < (k * δ - i * δ) := by nlinarith
        exact this.ne'
    exact hc.tendsto.mono_left nhdsWithin_le_nhds
  have hG : (Gamma (1 - m.alpha) : ℂ) ≠ 0 := by exact_mod_cast (Gamma_pos_of_pos (by linarith : 0 < 1 - m.alpha)).ne'
  have hBne : B ≠ 0 := by
    rw [hB]
    refine mul_ne_zero (by exact_mod_cast hσ) (div_ne_zero (mul_ne_zero hk (by exact_mod_cast hδ.ne')) hG)
  have hpow : Tendsto (fun t : ℝ => (t - k * δ) ^ (-m.alpha)) (𝓝[>] ((k:ℝ) * δ)) atTop := by
    have h1 : Tendsto (fun t : ℝ => t - k * δ) (𝓝[>] ((k:ℝ) * δ)) (𝓝[>] 0) := by
      refine tendsto_nhdsWithin_iff.2 ⟨?_, ?_⟩
      · have : ContinuousAt (fun t : ℝ => t - k * δ) (k * δ) := by fun_prop
        have := this.tendsto
        rw [sub_self] at this
        exact this.mono_left nhdsWithin_le_nhds
      · filter_upwards [self_mem_nhdsWithin] with t ht using sub_pos.2 (Set.mem_Ioi.1 ht)
    have h2 := tendsto_rpow_neg_nhdsGT_zero (neg_lt_zero.2 hα0)
    exact h2.comp h1
  have hlow : ∀ᶠ t in 𝓝[>] ((k:ℝ) * δ), (t - k * δ) ^ (-m.alpha) * ‖B‖ - (‖A (k * δ)‖ + 1) ≤ ‖m.adamExpo δ u t‖ := by
    have hb := (hAt.norm).eventually (Iic_mem_nhds (lt_add_one ‖A (k * δ)‖))
    filter_upwards [hval, hb, hcell] with t h1 h2 h3
    rw [h1]
    have h4 : ‖(((t - k * δ) ^ (-m.alpha) : ℝ) : ℂ) * B‖ = (t - k * δ) ^ (-m.alpha) * ‖B‖ := by
      rw [norm_mul, Complex.norm_real, norm_of_nonneg (rpow_nonneg (by linarith [h3.1]) _)]
    have h5 := norm_sub_norm_le ((((t - k * δ) ^ (-m.alpha) : ℝ) : ℂ) * B) (-A t)
    rw [sub_neg_eq_add, norm_neg, h4, add_comm _ (A t)] at h5
    linarith
  refine tendsto_atTop_mono' _ hlow ?_
  exact tendsto_atTop_add_const_right _ _ (hpow.atTop_mul_const (norm_pos_iff.2 hBne))

/-- The hypothesis of `adam_grid_blowup` is met at the first grid time. -/
example : ∃ (m : RoughHeston) (u : ℂ), 0 < m.alpha ∧ m.alpha < 1 ∧ m.sigma ≠ 0 ∧ m.hHat (1 / 100) u 1 ≠ 0 := by
  refine ⟨⟨0.04, 1, 1 / 2, 1, 0.04, 0.62, 0, 0, false⟩, 2, by norm_num, by norm_num, by norm_num, ?_⟩
  rw [hHat_succ]
  have hF : ∀ x : ℂ, (⟨0.04, 1, 1 / 2, 1, 0.04, 0.62, 0, 0, false⟩ : RoughHeston).F 2 x = 1 + x ^ 2 / 2 := fun x => by unfold F; norm_num
  simp only [hF, zero_add, Finset.range_one, Finset.sum_singleton, Nat.zero_sub, hHat_zero]
  have h1 : 0 < (⟨0.04, 1, 1 / 2, 1, 0.04, 0.62, 0, 0, false⟩ : RoughHeston).aW 0 (1 / 100) 0 := by
    unfold aW
    have := Gamma_pos_of_pos (by norm_num : (0:ℝ) < 0.62 + 2)
    simp only [if_true, Nat.cast_zero, zero_add, zero_sub, one_rpow, mul_one]
    rw [zero_rpow (by norm_num)]
    positivity
  have h2 : 0 < (⟨0.04, 1, 1 / 2, 1, 0.04, 0.62, 0, 0, false⟩ : RoughHeston).aW 0 (1 / 100) 1 := by
    unfold aW
    have := Gamma_pos_of_pos (by norm_num : (0:ℝ) < 0.62 + 2)
    simp
    positivity
  generalize (⟨0.04, 1, 1 / 2, 1, 0.04, 0.62, 0, 0, false⟩ : RoughHeston).aW 0 (1 / 100) 0 = p at h1 ⊢
  generalize (⟨0.04, 1, 1 / 2, 1, 0.04, 0.62, 0, 0, false⟩ : RoughHeston).aW 0 (1 / 100) 1 = q at h2 ⊢
  generalize (⟨0.04, 1, 1 / 2, 1, 0.04, 0.62, 0, 0, false⟩ : RoughHeston).bW 0 (1 / 100) 0 = b
  have : ((p : ℂ) * (1 + 0 ^ 2 / 2) + (q : ℂ) * (1 + ((b : ℂ) * (1 + 0 ^ 2 / 2)) ^ 2 / 2)) = ((p + q * (1 + b ^ 2 / 2) : ℝ) : ℂ) := by push_cast; ring
  rw [this]
  have : 0 < p + q * (1 + b ^ 2 / 2) := by positivity
  exact_mod_cast this.ne'

end RoughHeston

end PyFENG
