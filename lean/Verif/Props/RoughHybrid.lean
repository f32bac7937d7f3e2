import Verif.Props.RoughAdams
import Mathlib.Combinatorics.Enumerative.Catalan.Basic
import Mathlib.Analysis.Normed.Ring.InfiniteSum

/-!
# C127: the fast hybrid scheme of the rough Heston model
-/

namespace PyFENG

open Real MeasureTheory intervalIntegral Set Filter Topology

namespace RoughHeston

/-! ### The power series -/

lemma aArr_stable (m : RoughHeston) (l mu nu : ℂ) (n j : ℕ) : (j ≤ n + 1 → (m.aArr l mu nu n).1 j = (m.aArr l mu nu j).1 j ∧ (m.aArr l mu nu n).2 j = (m.aArr l mu nu j).2 j) ∧
    (n + 1 < j → (m.aArr l mu nu n).1 j = 0 ∧ (m.aArr l mu nu n).2 j = 0) := by
  -- one further pass does not touch an earlier entry
  have step : ∀ n j, j ≤ n + 1 → (m.aArr l mu nu (n + 1)).1 j = (m.aArr l mu nu n).1 j ∧ (m.aArr l mu nu (n + 1)).2 j = (m.aArr l mu nu n).2 j := fun n j h => by
    constructor <;> simp only [aArr] <;> rw [Function.update_of_ne (by omega)]
  have up : ∀ n j d, j ≤ n + 1 → (m.aArr l mu nu (n + d)).1 j = (m.aArr l mu nu n).1 j ∧ (m.aArr l mu nu (n + d)).2 j = (m.aArr l mu nu n).2 j := fun n j d h => by
    induction d with
    | zero => exact ⟨rfl, rfl⟩
    | succ d ih =>
      obtain ⟨e1, e2⟩ := step (n + d) j (by omega)
      rw [← add_assoc]
      exact ⟨e1.trans ih.1, e2.trans ih.2⟩
  constructor
  · intro h
    rcases Nat.lt_or_ge n j with h' | h'
    · obtain rfl : j = n + 1 := by omega
      have := step n (n + 1) le_rfl
      exact ⟨this.1.symm, this.2.symm⟩
    · obtain ⟨d, rfl⟩ := Nat.exists_eq_add_of_le h'
      exact up j j d (by omega)
  · intro h
    induction n with
    | zero => 
      simp only [aArr]
      rw [Function.update_of_ne (by omega)]
      exact ⟨rfl, trivial⟩
    | succ n ih =>
      obtain ⟨e1, e2⟩ := ih (by omega)
      constructor
      · rw [← e1]; simp only [aArr]; rw [Function.update_of_ne (by omega)]
      · rw [← e2]; simp only [aArr]; rw [Function.update_of_ne (by omega)]

/-- The coefficient sequence, without the truncation at `r_0`. -/
noncomputable def coef (m : RoughHeston) (l mu nu : ℂ) (i : ℕ) : ℂ := (m.aArr l mu nu i).1 i

lemma aSeq_eq (m : RoughHeston) (l mu nu : ℂ) {r0 i : ℕ} (hr : 1 ≤ r0) (h : i ≤ r0) : m.aSeq r0 l mu nu i = m.coef l mu nu i :=
  ((aArr_stable m l mu nu (r0 - 1) i).1 (by omega)).1

lemma coef_zero (m : RoughHeston) (l mu nu : ℂ) : m.coef l mu nu 0 = 0 := rfl

lemma coef_one (m : RoughHeston) (l mu nu : ℂ) : m.coef l mu nu 1 = nu / (Gamma (m.alpha + 1) : ℂ) := by
  have := ((aArr_stable m l mu nu 0 1).1 (by omega)).1
  rw [coef, ← this]
  simp only [aArr, Function.update_self]

lemma coef_sq (m : RoughHeston) (l mu nu : ℂ) (n i : ℕ) (hi : i ≤ n + 1) (h1 : 1 ≤ i) : (m.aArr l mu nu n).2 i = ∑ j ∈ Finset.range i, m.coef l mu nu j * m.coef l mu nu (i - 1 - j) := by
  rw [((aArr_stable m l mu nu n i).1 hi).2]
  match i, h1 with
  | 1, _ =>
    have := ((aArr_stable m l mu nu 0 1).1 (by omega)).2
    rw [← this]
    simp [aArr, coef_zero]
  | i + 2, _ =>
    have h2 := ((aArr_stable m l mu nu (i + 1) (i + 2)).1 (by omega)).2
    rw [← h2]
    have e : ∀ j ≤ i + 1, (m.aArr l mu nu (i + 1)).1 j = m.coef l mu nu j := fun j hj => ((aArr_stable m l mu nu (i + 1) j).1 (by omega)).1
    have e2 : (m.aArr l mu nu (i + 1)).2 (i + 2) = ∑ j ∈ Finset.range (i + 2), (m.aArr l mu nu (i + 1)).1 j * (m.aArr l mu nu (i + 1)).1 (i + 2 - 1 - j) := by
      simp only [aArr, Function.update_self]
    rw [e2]
    refine Finset.sum_congr rfl fun j hj => ?_
    have := Finset.mem_range.1 hj
    rw [e j (by omega), e _ (by omega)]

lemma coef_succ (m : RoughHeston) (hα : 0 < m.alpha) (l mu nu : ℂ) {i : ℕ} (h1 : 1 ≤ i) : m.coef l mu nu (i + 1) =
    (l * (∑ j ∈ Finset.range i, m.coef l mu nu j * m.coef l mu nu (i - 1 - j)) + mu * m.coef l mu nu i) * ((Gamma (m.alpha * i + 1) / Gamma (m.alpha * i + m.alpha + 1) : ℝ) : ℂ) := by
  obtain ⟨n, rfl⟩ := Nat.exists_eq_add_of_le' h1
  have h2 := ((aArr_stable m l mu nu (n + 1) (n + 2)).1 (by omega)).1
  rw [coef, ← h2, ← coef_sq m l mu nu n (n + 1) (by omega) (by omega)]
  simp only [aArr, Function.update_self, Nat.add_succ_sub_one]
  rw [((aArr_stable m l mu nu n (n + 1)).1 (by omega)).1]
  have p1 : 0 < Gamma (m.alpha * ((n + 1 : ℕ) : ℝ) + 1) := Gamma_pos_of_pos (by positivity)
  have p2 : 0 < Gamma (m.alpha * ((n + 1 : ℕ) : ℝ) + m.alpha + 1) := Gamma_pos_of_pos (by positivity)
  have e : (((n + 2 : ℕ) : ℝ) - 1) = ((n + 1 : ℕ) : ℝ) := by push_cast; ring
  rw [e, ← log_div p1.ne' p2.ne', exp_log (div_pos p1 p2)]
  rfl

lemma catalan_bounds (n : ℕ) : catalan n ≤ 4 ^ n ∧ catalan n ≤ catalan (n + 1) := by
  constructor
  · rw [catalan_eq_centralBinom_div]
    refine (Nat.div_le_self _ _).trans ?_
    rw [Nat.centralBinom]
    refine (Nat.choose_le_two_pow _ _).trans_eq ?_
    rw [pow_mul]; norm_num
  · rw [catalan_succ]
    have := Finset.single_le_sum (f := fun i : Fin n.succ => catalan i * catalan (n - i)) (fun _ _ => Nat.zero_le _) (Finset.mem_univ 0)
    simpa using this

lemma coef_bound (m : RoughHeston) (hα : 0 < m.alpha) (l mu nu : ℂ) {B : ℝ} (hB : B = 1 + (‖l‖ + ‖mu‖ + ‖nu‖) / Gamma (m.alpha + 1)) (i : ℕ) : ‖m.coef l mu nu i‖ ≤ B ^ i * catalan i := by
  have hG := Gamma_pos_of_pos (by linarith : 0 < m.alpha + 1)
  have hB1 : 1 ≤ B := by rw [hB]; exact le_add_of_nonneg_right (by positivity)
  have hBn : ‖nu‖ / Gamma (m.alpha + 1) ≤ B := by
    rw [hB]
    have : ‖nu‖ / Gamma (m.alpha + 1) ≤ (‖l‖ + ‖mu‖ + ‖nu‖) / Gamma (m.alpha + 1) := div_le_div_of_nonneg_right (by linarith [norm_nonneg l, norm_nonneg mu]) hG.le
    linarith
  have hBlm : (‖l‖ + ‖mu‖) / Gamma (m.alpha + 1) ≤ B := by
    rw [hB]
    have : (‖l‖ + ‖mu‖) / Gamma (m.alpha + 1) ≤ (‖l‖ + ‖mu‖ + ‖nu‖) / Gamma (m.alpha + 1) := div_le_div_of_nonneg_right (by linarith [norm_nonneg nu]) hG.le
    linarith
  have hB0 : 0 < B := by linarith
  induction i using Nat.strong_induction_on with
  | _ i ih =>
    match i with
    | 0 => simp [coef_zero]
    | 1 =>
      rw [coef_one, norm_div, Complex.norm_real, norm_of_nonneg hG.le]
      simpa using hBn
    | i + 2 =>
      rw [coef_succ m hα l mu nu (by omega), norm_mul, Complex.norm_real]
      have hr0 : 0 ≤ Gamma (m.alpha * ((i + 1 : ℕ) : ℝ) + 1) / Gamma (m.alpha * ((i + 1 : ℕ) : ℝ) + m.alpha + 1) :=
        (div_pos (Gamma_pos_of_pos (by positivity)) (Gamma_pos_of_pos (by positivity))).le
      rw [norm_of_nonneg hr0]
      have hr := FracInt.gamma_ratio hα (p := m.alpha * ((i + 1 : ℕ) : ℝ)) (by positivity)
      have hconv : ‖∑ j ∈ Finset.range (i + 1), m.coef l mu nu j * m.coef l mu nu (i + 1 - 1 - j)‖ ≤ B ^ i * catalan (i + 1) := by
        refine (norm_sum_le _ _).trans ?_
        have hc : (catalan (i + 1) : ℝ) = ∑ j ∈ Finset.range (i + 1), (catalan j * catalan (i - j) : ℝ) := by
          rw [catalan_succ, Finset.sum_range]; push_cast; rfl
        rw [hc, Finset.mul_sum]
        refine Finset.sum_le_sum fun j hj => ?_
        have hj' := Finset.mem_range.1 hj
        rw [norm_mul]
        have h1 := ih j (by omega)
        have h2 := ih (i + 1 - 1 - j) (by omega)
        refine (mul_le_mul h1 h2 (norm_nonneg _) (by positivity)).trans_eq ?_
        rw [show i + 1 - 1 - j = i - j by omega]
        have : B ^ i = B ^ j * B ^ (i - j) := by rw [← pow_add]; congr 1; omega
        rw [this]; ring
      have hlin := ih (i + 1) (by omega)
      have hcm : (catalan (i + 1) : ℝ) ≤ catalan (i + 2) := by exact_mod_cast (catalan_bounds (i + 1)).2
      have hBi : B ^ i ≤ B ^ (i + 1) := pow_le_pow_right₀ hB1 (by omega)
      calc _ ≤ (‖l‖ * (B ^ (i + 1) * catalan (i + 1)) + ‖mu‖ * (B ^ (i + 1) * catalan (i + 1))) * (1 / Gamma (m.alpha + 1)) := by
            refine mul_le_mul ((norm_add_le _ _).trans ?_) hr hr0 (by positivity)
            rw [norm_mul, norm_mul]
            refine add_le_add (mul_le_mul_of_nonneg_left (hconv.trans ?_) (norm_nonneg _)) (mul_le_mul_of_nonneg_left hlin (norm_nonneg _))
            exact mul_le_mul_of_nonneg_right hBi (by positivity)
        _ = (‖l‖ + ‖mu‖) / Gamma (m.alpha + 1) * (B ^ (i + 1) * catalan (i + 1)) := by ring
        _ ≤ B * (B ^ (i + 1) * catalan (i + 2)) := by gcongr
        _ = _ := by ring

/-- The coefficients of the right-hand side of the equation that the series solves. -/
noncomputable def rhsCoef (m : RoughHeston) (l mu nu : ℂ) (i : ℕ) : ℂ :=
  (if i = 0 then nu else 0) + mu * m.coef l mu nu i + l * ∑ j ∈ Finset.range i, m.coef l mu nu j * m.coef l mu nu (i - 1 - j)

lemma coef_rhs (m : RoughHeston) (hα : 0 < m.alpha) (l mu nu : ℂ) (i : ℕ) :
    m.coef l mu nu (i + 1) = m.rhsCoef l mu nu i * ((Gamma (m.alpha * i + 1) / Gamma (m.alpha * i + m.alpha + 1) : ℝ) : ℂ) := by
  cases i with
  | zero =>
    rw [coef_one, rhsCoef]
    simp [coef_zero]
    rfl
  | succ i =>
    rw [coef_succ m hα l mu nu (by omega), rhsCoef, if_neg (by omega)]
    ring

lemma coef_geom (m : RoughHeston) (hα : 0 < m.alpha) (l mu nu : ℂ) : ∃ q > 0, ∀ i, ‖m.coef l mu nu i‖ ≤ q ^ i := by
  obtain ⟨B, hB⟩ : ∃ B, B = 1 + (‖l‖ + ‖mu‖ + ‖nu‖) / Gamma (m.alpha + 1) := ⟨_, rfl⟩
  have hG := Gamma_pos_of_pos (by linarith : 0 < m.alpha + 1)
  have hB0 : 0 < B := by rw [hB]; positivity
  refine ⟨B * 4, by positivity, fun i => (coef_bound m hα l mu nu hB i).trans ?_⟩
  rw [mul_pow]
  gcongr
  exact_mod_cast (catalan_bounds i).1

lemma rpow_mul_nat {s : ℝ} (hs : 0 ≤ s) (α : ℝ) (i : ℕ) : s ^ (α * i) = (s ^ α) ^ i := by rw [rpow_mul hs, rpow_natCast]

/-- The power series with coefficients `a`: `ψ(t) = Σ a_i t^(α i)`. -/
noncomputable def Spec.fracSeries (α : ℝ) (a : ℕ → ℂ) (t : ℝ) : ℂ := ∑' i, a i * ((t ^ (α * i) : ℝ) : ℂ)

lemma series_eq (α : ℝ) (a : ℕ → ℂ) {t : ℝ} (ht : 0 ≤ t) : Spec.fracSeries α a t = ∑' i, a i * ((t ^ α : ℝ) : ℂ) ^ i := by
  unfold Spec.fracSeries
  simp only [rpow_mul_nat ht, Complex.ofReal_pow]

lemma series_summable {a : ℕ → ℂ} {q x : ℝ} (ha : ∀ i, ‖a i‖ ≤ q ^ i) (hx : 0 ≤ x) (hq : 0 < q) (h : q * x < 1) : Summable fun i => ‖a i * ((x : ℝ) : ℂ) ^ i‖ := by
  refine Summable.of_nonneg_of_le (fun _ => norm_nonneg _) (fun i => ?_) (summable_geometric_of_lt_one (mul_nonneg hq.le hx) h)
  rw [norm_mul, norm_pow, Complex.norm_real, norm_of_nonneg hx, mul_pow]
  exact mul_le_mul_of_nonneg_right (ha i) (by positivity)

/-- The right-hand side as a series. -/
lemma rhs_hasSum (m : RoughHeston) (l mu nu : ℂ) {q x : ℝ} (ha : ∀ i, ‖m.coef l mu nu i‖ ≤ q ^ i) (hq : 0 < q) (hx : 0 ≤ x) (h : q * x < 1) :
    HasSum (fun i => m.rhsCoef l mu nu i * (x : ℂ) ^ i) (nu + mu * (∑' i, m.coef l mu nu i * (x : ℂ) ^ i) + l * ((x : ℂ) * (∑' i, m.coef l mu nu i * (x : ℂ) ^ i) ^ 2)) := by
  have hs := series_summable ha hx hq h
  have h1 : HasSum (fun i : ℕ => (if i = 0 then nu else 0) * (x : ℂ) ^ i) nu := by
    have := hasSum_ite_eq (0 : ℕ) nu
    refine this.congr_fun fun i => ?_
    rcases Nat.eq_zero_or_pos i with rfl | hi
    · simp
    · rw [if_neg hi.ne', zero_mul]
  have h2 := (hs.of_norm.hasSum).mul_left mu
  have hprod := tsum_mul_tsum_eq_tsum_sum_range_of_summable_norm hs hs
  have hps := (summable_norm_sum_mul_range_of_summable_norm hs hs).of_norm.hasSum
  rw [← hprod, ← sq] at hps
  have h3 : HasSum (fun i : ℕ => (∑ j ∈ Finset.range i, m.coef l mu nu j * m.coef l mu nu (i - 1 - j)) * (x : ℂ) ^ i) ((x : ℂ) * (∑' i, m.coef l mu nu i * (x : ℂ) ^ i) ^ 2) := by
    rw [← hasSum_nat_add_iff' 1]
    simp only [Finset.range_one, Finset.sum_singleton, Finset.range_zero, Finset.sum_empty, zero_mul, sub_zero]
    refine (hps.mul_left (x : ℂ)).congr_fun fun i => ?_
    rw [Finset.mul_sum, Finset.sum_mul]
    refine Finset.sum_congr rfl fun j hj => ?_
    have hj' := Finset.mem_range.1 hj
    have e : (x : ℂ) ^ (i + 1) = x * ((x : ℂ) ^ j * (x : ℂ) ^ (i - j)) := by rw [← pow_add, show j + (i - j) = i by omega, pow_succ']
    rw [e, show i + 1 - 1 - j = i - j by omega]
    ring
  refine ((h1.add h2).add (h3.mul_left l)).congr_fun fun i => ?_
  rw [rhsCoef]; ring

/-- **C127.** The coefficients returned by `a` do not depend on the truncation `r_0`; the series `ψ(t) = Σ a_i t^(α i)` converges near zero, is the limit of the truncated sums `phi_t`, and solves
the fractional integral equation `ψ = I^α(ν + μ ψ + λ s^α ψ²)`. -/
theorem fps_solves (m : RoughHeston) (hα : 0 < m.alpha) (l mu nu : ℂ) : ∃ a : ℕ → ℂ, (∀ r0 ≥ 1, ∀ i ≤ r0, m.aSeq r0 l mu nu i = a i) ∧ ∃ R > 0, ∀ t, 0 < t → t < R →
    Tendsto (fun r0 => m.phiT r0 t (m.aSeq r0 l mu nu)) atTop (𝓝 (Spec.fracSeries m.alpha a t)) ∧
    Spec.fracSeries m.alpha a t = Spec.fracInt m.alpha (fun s => nu + mu * Spec.fracSeries m.alpha a s + l * (((s ^ m.alpha : ℝ) : ℂ) * Spec.fracSeries m.alpha a s ^ 2)) t := by
  obtain ⟨q, hq, ha⟩ := coef_geom m hα l mu nu
  refine ⟨m.coef l mu nu, fun r0 hr i hi => aSeq_eq m l mu nu hr hi, (1 / q) ^ (1 / m.alpha), by positivity, fun t ht0 ht => ?_⟩
  have hx : q * t ^ m.alpha < 1 := by
    have : t ^ m.alpha < ((1 / q) ^ (1 / m.alpha)) ^ m.alpha := rpow_lt_rpow ht0.le ht hα
    rw [← rpow_mul (by positivity), one_div_mul_cancel hα.ne', rpow_one, lt_div_iff₀ hq] at this
    linarith
  have hxs : ∀ s, 0 ≤ s → s ≤ t → q * s ^ m.alpha < 1 := fun s h0 h1 => lt_of_le_of_lt (mul_le_mul_of_nonneg_left (rpow_le_rpow h0 h1 hα.le) hq.le) hx
  have hxn : ∀ s : ℝ, 0 ≤ s → 0 ≤ s ^ m.alpha := fun s h => rpow_nonneg h _
  have hst := (series_summable ha (hxn t ht0.le) hq hx).of_norm.hasSum
  rw [← series_eq _ _ ht0.le] at hst
  constructor
  · have h1 := (tendsto_add_atTop_iff_nat 1).2 hst.tendsto_sum_nat
    refine h1.congr' ?_
    filter_upwards [eventually_ge_atTop 1] with r0 hr
    rw [phiT, Finset.range_eq_Ico, Finset.sum_eq_sum_Ico_succ_bot (by omega), coef_zero, zero_mul, zero_add]
    refine Finset.sum_congr ?_ fun i hi => ?_
    · ext i; simp only [Finset.mem_Ico, Finset.mem_Icc]; omega
    · have := Finset.mem_Icc.1 (by simpa [Finset.mem_Ico, Nat.lt_succ_iff] using hi : i ∈ Finset.Icc 1 r0)
      rw [aSeq_eq m l mu nu hr this.2, rpow_mul_nat ht0.le, Complex.ofReal_pow]
  -- termwise integration
  have hr := fun s h0 h1 => rhs_hasSum m l mu nu ha hq (hxn s h0) (hxs s h0 h1)
  have hd : Summable fun i => ‖m.rhsCoef l mu nu i‖ * (t ^ m.alpha) ^ i := by
    obtain ⟨z, hz1, hz2⟩ : ∃ z, t ^ m.alpha < z ∧ q * z < 1 := by
      obtain ⟨z, h1, h2⟩ := exists_between ((lt_div_iff₀' hq).2 hx)
      exact ⟨z, h1, (lt_div_iff₀' hq).1 h2⟩
    have hz0 : 0 < z := lt_of_le_of_lt (hxn t ht0.le) hz1
    have := (rhs_hasSum m l mu nu ha hq hz0.le hz2).summable.norm
    refine Summable.of_nonneg_of_le (fun _ => by positivity) (fun i => ?_) this
    rw [norm_mul, norm_pow, Complex.norm_real, norm_of_nonneg hz0.le]
    gcongr
  have hint : HasSum (fun i => ∫ s in (0:ℝ)..t, (((t - s) ^ (m.alpha - 1) : ℝ) : ℂ) * (m.rhsCoef l mu nu i * ((s ^ (m.alpha * i) : ℝ) : ℂ)))
      (∫ s in (0:ℝ)..t, (((t - s) ^ (m.alpha - 1) : ℝ) : ℂ) * (nu + mu * Spec.fracSeries m.alpha (m.coef l mu nu) s + l * (((s ^ m.alpha : ℝ) : ℂ) * Spec.fracSeries m.alpha (m.coef l mu nu) s ^ 2))) := by
    refine intervalIntegral.hasSum_integral_of_dominated_convergence (fun i s => (t - s) ^ (m.alpha - 1) * (‖m.rhsCoef l mu nu i‖ * (t ^ m.alpha) ^ i)) (fun i => ?_) (fun i => ?_) ?_ ?_ ?_
    · exact (Measurable.aestronglyMeasurable (by fun_prop))
    · refine ae_of_all _ fun s hs => ?_
      rw [uIoc_of_le ht0.le] at hs
      rw [norm_mul, norm_mul, Complex.norm_real, Complex.norm_real, norm_of_nonneg (rpow_nonneg (by linarith [hs.2]) _), norm_of_nonneg (rpow_nonneg hs.1.le _), rpow_mul_nat hs.1.le]
      have h1 : s ^ m.alpha ≤ t ^ m.alpha := rpow_le_rpow hs.1.le hs.2 hα.le
      have h2 := hxn s hs.1.le
      gcongr
      exact rpow_nonneg (by linarith [hs.2]) _
    · exact ae_of_all _ fun s _ => hd.mul_left _
    · have : (fun s : ℝ => ∑' i, (t - s) ^ (m.alpha - 1) * (‖m.rhsCoef l mu nu i‖ * (t ^ m.alpha) ^ i)) = fun s => (t - s) ^ (m.alpha - 1) * ∑' i, ‖m.rhsCoef l mu nu i‖ * (t ^ m.alpha) ^ i := by
        funext s; rw [tsum_mul_left]
      rw [this]
      exact (FracInt.kernel_integrable hα t 0 t).mul_const _
    · refine ae_of_all _ fun s hs => ?_
      rw [uIoc_of_le ht0.le] at hs
      have h1 := hr s hs.1.le hs.2
      rw [← series_eq _ _ hs.1.le] at h1
      refine HasSum.mul_left _ (h1.congr_fun fun i => ?_)
      rw [rpow_mul_nat hs.1.le, Complex.ofReal_pow]
  unfold Spec.fracInt
  refine HasSum.unique (f := fun i => m.coef l mu nu (i + 1) * ((t ^ m.alpha : ℝ) : ℂ) ^ (i + 1)) ?_ ((hint.div_const (Gamma m.alpha : ℂ)).congr_fun fun i => ?_)
  · have := (hasSum_nat_add_iff' 1).2 hst
    simpa [coef_zero] using this
  · have e : ∫ s in (0:ℝ)..t, (((t - s) ^ (m.alpha - 1) : ℝ) : ℂ) * (m.rhsCoef l mu nu i * ((s ^ (m.alpha * i) : ℝ) : ℂ)) =
        m.rhsCoef l mu nu i * ∫ s in (0:ℝ)..t, (((t - s) ^ (m.alpha - 1) : ℝ) : ℂ) * ((s ^ (m.alpha * i) : ℝ) : ℂ) := by
      rw [← intervalIntegral.integral_const_mul]
      congr 1; funext s; ring
    have hp := FracInt.frac_pow hα (p := m.alpha * i) (by positivity) ht0
    unfold Spec.fracInt at hp
    rw [e, mul_div_assoc, hp, coef_rhs m hα, mul_assoc]
    congr 1
    rw [Complex.ofReal_mul]
    congr 1
    rw [← Complex.ofReal_pow, ← rpow_natCast, ← rpow_mul ht0.le]
    congr 2
    push_cast; ring

lemma series_cont (m : RoughHeston) (hα : 0 < m.alpha) (l mu nu : ℂ) {q t : ℝ} (ha : ∀ i, ‖m.coef l mu nu i‖ ≤ q ^ i) (hq : 0 < q) (ht0 : 0 < t) (hx : q * t ^ m.alpha < 1) :
    ContinuousOn (fun s => Spec.fracSeries m.alpha (m.coef l mu nu) s) (Icc 0 t) := by
  unfold Spec.fracSeries
  refine continuousOn_tsum (u := fun i => (q * t ^ m.alpha) ^ i) (fun i => ?_) (summable_geometric_of_lt_one (by positivity) hx) fun i s hs => ?_
  · refine (continuous_const.mul (Complex.continuous_ofReal.comp (continuous_id.rpow_const fun _ => Or.inr (by positivity)))).continuousOn
  · rw [norm_mul, Complex.norm_real, norm_of_nonneg (rpow_nonneg hs.1 _), rpow_mul_nat hs.1, mul_pow]
    exact mul_le_mul (ha i) (pow_le_pow_left₀ (rpow_nonneg hs.1 _) (rpow_le_rpow hs.1 hs.2 hα.le) _) (pow_nonneg (rpow_nonneg hs.1 _) _) (by positivity)

/-- Near zero the series behaves like its first term. -/
lemma series_near (m : RoughHeston) (l mu nu : ℂ) {q x : ℝ} (ha : ∀ i, ‖m.coef l mu nu i‖ ≤ q ^ i) (hq : 0 < q) (hx : 0 ≤ x) (h : q * x ≤ 1 / 2) :
    ‖(∑' i, m.coef l mu nu i * (x : ℂ) ^ i) - m.coef l mu nu 1 * x‖ ≤ 2 * (q * x) ^ 2 := by
  have h1 : q * x < 1 := by linarith
  have hs := (series_summable ha hx hq h1).of_norm.hasSum
  have h2 := (hasSum_nat_add_iff' 2).2 hs
  simp only [Finset.sum_range_succ, Finset.sum_range_zero, coef_zero, zero_mul, zero_add, pow_one] at h2
  rw [← h2.tsum_eq]
  have hg := (hasSum_geometric_of_lt_one (mul_nonneg hq.le hx) h1).mul_left ((q * x) ^ 2)
  refine (tsum_of_norm_bounded hg fun i => ?_).trans ?_
  · rw [norm_mul, norm_pow, Complex.norm_real, norm_of_nonneg hx, ← pow_add, mul_pow, add_comm 2 i]
    exact mul_le_mul_of_nonneg_right (ha _) (by positivity)
  · rw [mul_comm]
    refine mul_le_mul_of_nonneg_right ?_ (by positivity)
    rw [inv_le_comm₀ (by linarith) (by norm_num)]
    linarith

/-- **C127 (finding).** The quadratic term is off by one power: unless `λ = 0` or `ν = 0`, the series does *not* solve the fractional Riccati equation `ψ = I^α(ν + μ ψ + λ ψ²)` of the rough
Heston model, on any interval. -/
theorem fps_not_riccati (m : RoughHeston) (hα : 0 < m.alpha) {l mu nu : ℂ} (hl : l ≠ 0) (hnu : nu ≠ 0) (a : ℕ → ℂ) (haq : ∀ r0 ≥ 1, ∀ i ≤ r0, m.aSeq r0 l mu nu i = a i) {R : ℝ} (hR : 0 < R) :
    ¬ ∀ t, 0 < t → t < R → Spec.fracSeries m.alpha a t = Spec.fracInt m.alpha (fun s => nu + mu * Spec.fracSeries m.alpha a s + l * Spec.fracSeries m.alpha a s ^ 2) t := by
  obtain rfl : a = m.coef l mu nu := by
    funext i
    rw [← haq (max 1 i) (le_max_left _ _) i (le_max_right _ _), aSeq_eq m l mu nu (le_max_left _ _) (le_max_right _ _)]
  intro hsol
  obtain ⟨q, hq, ha⟩ := coef_geom m hα l mu nu
  obtain ⟨a', ha', R', hR', hsol'⟩ := fps_solves m hα l mu nu
  obtain rfl : a' = m.coef l mu nu := by
    funext i
    rw [← ha' (max 1 i) (le_max_left _ _) i (le_max_right _ _), aSeq_eq m l mu nu (le_max_left _ _) (le_max_right _ _)]
  have hG := Gamma_pos_of_pos (by linarith : 0 < m.alpha + 1)
  set a1 : ℂ := m.coef l mu nu 1 with ha1
  have ha1' : a1 ≠ 0 := by rw [ha1, coef_one]; exact div_ne_zero hnu (by exact_mod_cast hG.ne')
  have hn1 : 0 < ‖a1‖ := norm_pos_iff.2 ha1'
  -- a small time
  set x0 : ℝ := min (1 / (2 * q)) (min (‖a1‖ / (8 * q ^ 2)) (1 / 2)) with hx0
  have hx0p : 0 < x0 := by rw [hx0]; positivity
  obtain ⟨t, ht0, ht⟩ : ∃ t, 0 < t ∧ t < min (x0 ^ (1 / m.alpha)) (min R R') := exists_between (by positivity)
  have htR : t < R := ht.trans_le ((min_le_right _ _).trans (min_le_left _ _))
  have htR' : t < R' := ht.trans_le ((min_le_right _ _).trans (min_le_right _ _))
  have hx : ∀ s, 0 ≤ s → s ≤ t → s ^ m.alpha ≤ x0 := fun s h0 h1 => by
    have h2 : s ^ m.alpha ≤ (x0 ^ (1 / m.alpha)) ^ m.alpha := rpow_le_rpow h0 (h1.trans (ht.le.trans (min_le_left _ _))) hα.le
    rwa [← rpow_mul hx0p.le, one_div_mul_cancel hα.ne', rpow_one] at h2
  have hb1 : x0 ≤ 1 / (2 * q) := min_le_left _ _
  have hb2 : x0 ≤ ‖a1‖ / (8 * q ^ 2) := (min_le_right _ _).trans (min_le_left _ _)
  have hb3 : x0 ≤ 1 / 2 := (min_le_right _ _).trans (min_le_right _ _)
  have hqx : ∀ x, x ≤ x0 → q * x ≤ 1 / 2 := fun x h => by
    have := h.trans hb1
    rw [le_div_iff₀ (by positivity)] at this
    linarith
  set ψ : ℝ → ℂ := fun s => Spec.fracSeries m.alpha (m.coef l mu nu) s with hψ
  have hpos : ∀ s, 0 < s → s ≤ t → 0 < (ψ s ^ 2 / a1 ^ 2).re := fun s h0 h1 => by
    have hxs := hx s h0.le h1
    have hsp : 0 < s ^ m.alpha := rpow_pos_of_pos h0 _
    have h2 := series_near m l mu nu ha hq hsp.le (hqx _ hxs)
    rw [← series_eq _ _ h0.le] at h2
    set w : ℂ := ψ s / (a1 * ((s ^ m.alpha : ℝ) : ℂ)) with hw
    have hxc : ((s ^ m.alpha : ℝ) : ℂ) ≠ 0 := by exact_mod_cast hsp.ne'
    have h3 : ‖w - 1‖ ≤ 1 / 4 := by
      have e : w - 1 = (ψ s - a1 * ((s ^ m.alpha : ℝ) : ℂ)) / (a1 * ((s ^ m.alpha : ℝ) : ℂ)) := by rw [hw]; field_simp
      rw [e, norm_div, norm_mul, Complex.norm_real, norm_of_nonneg hsp.le, div_le_iff₀ (by positivity)]
      refine h2.trans ?_
      have h4 := hxs.trans hb2
      rw [le_div_iff₀ (by positivity)] at h4
      nlinarith
    have h4 := (Complex.abs_re_le_norm (w - 1)).trans h3
    have h5 := (Complex.abs_im_le_norm (w - 1)).trans h3
    rw [abs_le] at h4 h5
    simp only [Complex.sub_re, Complex.one_re, Complex.sub_im, Complex.one_im, sub_zero] at h4 h5
    have e : ψ s ^ 2 / a1 ^ 2 = (((s ^ m.alpha) ^ 2 : ℝ) : ℂ) * w ^ 2 := by
      rw [hw]; push_cast; field_simp
    rw [e, Complex.re_ofReal_mul, sq w, Complex.mul_re]
    have : 0 < w.re * w.re - w.im * w.im := by nlinarith [h4.1, h4.2, h5.1, h5.2]
    positivity
  have hcont : ContinuousOn ψ (Icc 0 t) := series_cont m hα l mu nu ha hq ht0 (by linarith [hqx _ (hx t ht0.le le_rfl)])
  have hK := FracInt.ofReal_ii (FracInt.kernel_integrable hα t 0 t)
  have huI : Set.uIcc (0:ℝ) t = Icc 0 t := uIcc_of_le ht0.le
  have hpowc : Continuous fun s : ℝ => ((s ^ m.alpha : ℝ) : ℂ) := Complex.continuous_ofReal.comp (continuous_id.rpow_const fun _ => Or.inr hα.le)
  -- the difference of the two equations
  have hdiff : ∫ s in (0:ℝ)..t, (((t - s) ^ (m.alpha - 1) : ℝ) : ℂ) * ((1 - ((s ^ m.alpha : ℝ) : ℂ)) * (ψ s ^ 2 / a1 ^ 2)) = 0 := by
    have e1 := hsol t ht0 htR
    rw [(hsol' t ht0 htR').2] at e1
    unfold Spec.fracInt at e1
    have hGα : (Gamma m.alpha : ℂ) ≠ 0 := by exact_mod_cast (Gamma_pos_of_pos hα).ne'
    rw [div_left_inj' hGα] at e1
    have i1 : IntervalIntegrable (fun s => (((t - s) ^ (m.alpha - 1) : ℝ) : ℂ) * (nu + mu * ψ s + l * ψ s ^ 2)) volume 0 t :=
      hK.mul_continuousOn (by rw [huI]; exact (continuousOn_const.add (continuousOn_const.mul hcont)).add (continuousOn_const.mul (hcont.pow 2)))
    have i2 : IntervalIntegrable (fun s => (((t - s) ^ (m.alpha - 1) : ℝ) : ℂ) * (nu + mu * ψ s + l * (((s ^ m.alpha : ℝ) : ℂ) * ψ s ^ 2))) volume 0 t :=
      hK.mul_continuousOn (by rw [huI]; exact (continuousOn_const.add (continuousOn_const.mul hcont)).add (continuousOn_const.mul (hpowc.continuousOn.mul (hcont.pow 2))))
    have e2 : ∀ s, (((t - s) ^ (m.alpha - 1) : ℝ) : ℂ) * ((1 - ((s ^ m.alpha : ℝ) : ℂ)) * (ψ s ^ 2 / a1 ^ 2)) = (l * a1 ^ 2)⁻¹ *
        ((((t - s) ^ (m.alpha - 1) : ℝ) : ℂ) * (nu + mu * ψ s + l * ψ s ^ 2) - (((t - s) ^ (m.alpha - 1) : ℝ) : ℂ) * (nu + mu * ψ s + l * (((s ^ m.alpha : ℝ) : ℂ) * ψ s ^ 2))) := fun s => by
      field_simp
      ring
    simp only [e2]
    rw [intervalIntegral.integral_const_mul, intervalIntegral.integral_sub i1 i2]
    have e3 : (∫ s in (0:ℝ)..t, (((t - s) ^ (m.alpha - 1) : ℝ) : ℂ) * (nu + mu * ψ s + l * ψ s ^ 2)) = ∫ s in (0:ℝ)..t, (((t - s) ^ (m.alpha - 1) : ℝ) : ℂ) * (nu + mu * ψ s + l * (((s ^ m.alpha : ℝ) : ℂ) * ψ s ^ 2)) := e1.symm
    rw [e3, sub_self, mul_zero]
  have hi : IntervalIntegrable (fun s => (((t - s) ^ (m.alpha - 1) : ℝ) : ℂ) * ((1 - ((s ^ m.alpha : ℝ) : ℂ)) * (ψ s ^ 2 / a1 ^ 2))) volume 0 t :=
    hK.mul_continuousOn (by rw [huI]; exact (continuousOn_const.sub hpowc.continuousOn).mul ((hcont.pow 2).div_const _))
  have hre := Complex.reCLM.intervalIntegral_comp_comm hi
  rw [hdiff, map_zero] at hre
  have hip : IntervalIntegrable (fun s => Complex.reCLM ((((t - s) ^ (m.alpha - 1) : ℝ) : ℂ) * ((1 - ((s ^ m.alpha : ℝ) : ℂ)) * (ψ s ^ 2 / a1 ^ 2)))) volume 0 t := ⟨hi.1.re, hi.2.re⟩
  have hlt := intervalIntegral_pos_of_pos_on hip (fun s hs => ?_) ht0
  · exact hlt.ne' hre
  · rw [Complex.reCLM_apply, Complex.re_ofReal_mul, show (1 - ((s ^ m.alpha : ℝ) : ℂ)) = ((1 - s ^ m.alpha : ℝ) : ℂ) by push_cast; ring, Complex.re_ofReal_mul]
    have h1 := hpos s hs.1 hs.2.le
    have h2 : 0 < (t - s) ^ (m.alpha - 1) := rpow_pos_of_pos (by linarith [hs.2]) _
    have h3 : 0 < 1 - s ^ m.alpha := by linarith [hx s hs.1.le hs.2.le]
    positivity

/-! ### The integrals of the truncated series -/

/-- **C127.** The two integrals in the exponent are exact for the truncated series: `I_1_FPS` is its integral and `I_2_FPS` its fractional integral of order `1 - α`. -/
theorem fps_integrals (m : RoughHeston) (hα0 : 0 < m.alpha) (hα1 : m.alpha < 1) (l mu nu : ℂ) {r0 : ℕ} (hr : 1 ≤ r0) {t : ℝ} (ht : 0 < t) :
    m.I1Fps t r0 (m.aSeq r0 l mu nu) = (∫ s in (0:ℝ)..t, m.phiT r0 s (m.aSeq r0 l mu nu)) ∧
    m.I2Fps t nu r0 (m.aSeq r0 l mu nu) = Spec.fracInt (1 - m.alpha) (fun s => m.phiT r0 s (m.aSeq r0 l mu nu)) t := by
  set a := m.aSeq r0 l mu nu with ha
  have hpc : ∀ i : ℕ, Continuous fun s : ℝ => ((s ^ (m.alpha * i) : ℝ) : ℂ) := fun i => Complex.continuous_ofReal.comp (continuous_id.rpow_const fun _ => Or.inr (by positivity))
  have hm1 : ∀ i : ℕ, -1 < m.alpha * i := fun i => by
    have : 0 ≤ m.alpha * i := by positivity
    linarith
  have hci : ∀ i : ℕ, Continuous fun s : ℝ => a i * ((s ^ (m.alpha * i) : ℝ) : ℂ) := fun i => continuous_const.mul (hpc i)
  constructor
  · unfold I1Fps phiT
    rw [intervalIntegral.integral_finsetSum fun i _ => (hci i).intervalIntegrable _ _, Finset.mul_sum]
    refine Finset.sum_congr rfl fun i _ => ?_
    rw [intervalIntegral.integral_const_mul, intervalIntegral.integral_ofReal, integral_rpow (Or.inl (hm1 i)), zero_rpow (by positivity), sub_zero, rpow_add_one ht.ne']
    push_cast
    ring
  · have hβ : 0 < 1 - m.alpha := by linarith
    have hK := FracInt.ofReal_ii (FracInt.kernel_integrable hβ t 0 t)
    have e1 : Spec.fracInt (1 - m.alpha) (fun s => m.phiT r0 s a) t = ∑ i ∈ Finset.Icc 1 r0, a i * Spec.fracInt (1 - m.alpha) (fun s => ((s ^ (m.alpha * i) : ℝ) : ℂ)) t := by
      unfold Spec.fracInt phiT
      simp only [Finset.mul_sum]
      rw [intervalIntegral.integral_finsetSum fun i _ => hK.mul_continuousOn (hci i).continuousOn, Finset.sum_div]
      refine Finset.sum_congr rfl fun i _ => ?_
      rw [← mul_div_assoc, ← intervalIntegral.integral_const_mul]
      congr 2
      funext s; ring
    rw [e1, ← Finset.add_sum_Ioc_eq_sum_Icc hr]
    unfold I2Fps
    rw [mul_add]
    have ha1 : a 1 = nu / (Gamma (m.alpha + 1) : ℂ) := by rw [ha, aSeq_eq m l mu nu hr hr, coef_one]
    have hG1 : (Gamma (m.alpha + 1) : ℂ) ≠ 0 := by exact_mod_cast (Gamma_pos_of_pos (by linarith : 0 < m.alpha + 1)).ne'
    congr 1
    · rw [FracInt.frac_pow hβ (by positivity) ht, ha1, Nat.cast_one, mul_one, show m.alpha + (1 - m.alpha) = 1 by ring, show (1:ℝ) + 1 = (1:ℕ) + 1 by norm_num, Gamma_nat_eq_factorial, rpow_one,
        show ((t ^ (1 - m.alpha) : ℝ) : ℂ) * (nu * ((t ^ m.alpha : ℝ) : ℂ)) = nu * ((t ^ (1 - m.alpha) * t ^ m.alpha : ℝ) : ℂ) by push_cast; ring, ← rpow_add ht, show (1 - m.alpha + m.alpha) = 1 by ring, rpow_one]
      push_cast
      simp only [Nat.factorial_one, Nat.cast_one, div_one]
      field_simp
    · rw [Finset.mul_sum]
      refine Finset.sum_congr (by ext i; simp only [Finset.mem_Icc, Finset.mem_Ioc]; omega) fun i hi => ?_
      have hi2 : 2 ≤ i := by have := Finset.mem_Ioc.1 hi; omega
      have hiR : (2:ℝ) ≤ i := by exact_mod_cast hi2
      rw [FracInt.frac_pow hβ (by positivity) ht]
      have p1 : 0 < m.alpha * i := by positivity
      have p2 : 0 < m.alpha * i - m.alpha := by nlinarith
      have g1 := Gamma_pos_of_pos p1
      have g2 := Gamma_pos_of_pos p2
      rw [← log_div g1.ne' g2.ne', exp_log (div_pos g1 g2), Gamma_add_one p1.ne', show m.alpha * i + (1 - m.alpha) + 1 = (m.alpha * i - m.alpha + 1) + 1 by ring,
        Gamma_add_one (by linarith), Gamma_add_one p2.ne', rpow_add ht, mul_comm (i:ℝ) m.alpha]
      have hα' : m.alpha ≠ 0 := hα0.ne'
      have hi0 : (i:ℝ) ≠ 0 := by linarith
      have hi1 : (i:ℝ) - 1 ≠ 0 := by linarith
      have e3 : m.alpha * i * Gamma (m.alpha * i) / ((m.alpha * i - m.alpha + 1) * ((m.alpha * i - m.alpha) * Gamma (m.alpha * i - m.alpha)))
          = (Gamma (m.alpha * i) / Gamma (m.alpha * i - m.alpha)) / ((1 - 1 / (i:ℝ)) * (m.alpha * i + 1 - m.alpha)) := by
        have p3 : m.alpha * i + 1 - m.alpha ≠ 0 := by linarith
        have e4 : m.alpha * i - m.alpha + 1 = m.alpha * i + 1 - m.alpha := by ring
        have e5 : m.alpha * i - m.alpha = m.alpha * (i - 1) := by ring
        have e6 : (1 - 1 / (i:ℝ)) = (i - 1) / i := by field_simp
        rw [e4, e6]
        generalize Gamma (m.alpha * i - m.alpha) = g at g2 ⊢
        generalize Gamma (m.alpha * i) = g'
        rw [e5]
        obtain ⟨p, hp⟩ : ∃ p, p = m.alpha * i + 1 - m.alpha := ⟨_, rfl⟩
        rw [← hp] at p3 ⊢
        have := g2.ne'
        obtain ⟨j, hj⟩ : ∃ j, j = (i:ℝ) - 1 := ⟨_, rfl⟩
        rw [← hj] at hi1 ⊢
        field_simp
      rw [e3]
      push_cast
      ring

/-! ### The transform -/

lemma aArr_zero (m : RoughHeston) (l mu : ℂ) (n i : ℕ) : (m.aArr l mu 0 n).1 i = 0 ∧ (m.aArr l mu 0 n).2 i = 0 := by
  induction n generalizing i with
  | zero =>
    simp only [aArr, zero_div, and_true]
    rcases eq_or_ne i 1 with rfl | h
    · rw [Function.update_self]
    · rw [Function.update_of_ne h]
  | succ n ih =>
    have h1 : (m.aArr l mu 0 (n + 1)).1 i = 0 := by
      simp only [aArr]
      rcases eq_or_ne i (n + 2) with rfl | h
      · rw [Function.update_self, (ih _).1, (ih _).2]; simp
      · rw [Function.update_of_ne h, (ih i).1]
    refine ⟨h1, ?_⟩
    simp only [aArr]
    rcases eq_or_ne i (n + 2) with rfl | h
    · rw [Function.update_self]
      refine Finset.sum_eq_zero fun j hj => ?_
      have := Finset.mem_range.1 hj
      rw [Function.update_of_ne (by omega), (ih j).1, zero_mul]
    · rw [Function.update_of_ne h, (ih i).2]

/-- **C127.** In the power-series branch (`texp ≤ 0.198`) every argument is replaced by its transform, which is exactly `1` at `u = 0` and `u = 1`. -/
theorem hybrid_short (m : RoughHeston) {texp : ℝ} (h : texp ≤ 0.198) : (∀ uu, ∃ r, m.logpMgfHybrid uu texp = .ok r ∧ r.length = uu.length) ∧ m.logpMgfHybrid [0, 1] texp = .ok [1, 1] := by
  have h' : texp ≤ 0.9 * 0.22 := by norm_num at h ⊢; linarith
  refine ⟨fun uu => ⟨_, if_pos h', by simp⟩, ?_⟩
  rw [logpMgfHybrid]
  simp only [if_pos h', List.map_cons, List.map_nil]
  have hv : ∀ u : ℂ, nuR u = 0 → m.hybridFps 250 u texp = 1 := fun u hu => by
    unfold hybridFps I1Fps I2Fps aSeq
    simp only [hu, (aArr_zero m _ _ _ _).1, zero_mul, zero_div, Finset.sum_const_zero, mul_zero, add_zero, Complex.exp_zero]
  rw [hv 0 (by unfold nuR; norm_num), hv 1 (by unfold nuR; norm_num)]

lemma hybridLoop_spec (r0 : ℕ) (val : ℂ → ℂ) (is : List ℕ) : ∀ LL : List ℂ, (r0 < LL.length → ∃ r, hybridLoop r0 val is LL = .ok r ∧ r.length = LL.length ∧ ∀ i, i ≠ r0 → r[i]? = LL[i]?) ∧
    (LL.length ≤ r0 → is ≠ [] → hybridLoop r0 val is LL = .error .indexError) := by
  induction is with
  | nil => exact fun LL => ⟨fun _ => ⟨LL, rfl, rfl, fun _ _ => rfl⟩, fun _ h => absurd rfl h⟩
  | cons k is ih =>
    intro LL
    constructor
    · intro h
      obtain ⟨r, h1, h2, h3⟩ := (ih (LL.set r0 (val (LL.getD k 0)))).1 (by simpa using h)
      refine ⟨r, ?_, by simpa using h2, fun i hi => ?_⟩
      · simp only [hybridLoop, setItem, if_pos h, Bind.bind, Except.bind]
        exact h1
      · rw [h3 i hi, List.getElem?_set_ne (Ne.symm hi)]
    · intro h _
      simp only [hybridLoop, setItem, if_neg (not_lt.2 h), Bind.bind, Except.bind]

/-- **C127 (finding).** For `texp > 0.198` the loop variable is reused, so every value is written to position 250: with 250 or fewer arguments the call raises `IndexError`, and otherwise all
entries except number 250 come back as the arguments themselves, not as values of the transform. -/
theorem hybrid_long (m : RoughHeston) {texp : ℝ} (h : 0.198 < texp) (uu : List ℂ) : (uu ≠ [] → uu.length ≤ 250 → m.logpMgfHybrid uu texp = .error .indexError) ∧
    (250 < uu.length → ∃ r, m.logpMgfHybrid uu texp = .ok r ∧ r.length = uu.length ∧ ∀ i, i ≠ 250 → r[i]? = uu[i]?) := by
  have h' : ¬ texp ≤ 0.9 * 0.22 := by norm_num at h ⊢; linarith
  rw [logpMgfHybrid]
  simp only [if_neg h']
  obtain ⟨h1, h2⟩ := hybridLoop_spec 250 (fun u => m.hybridPed 250 128 ⌊((128 : ℕ) : ℝ) * 0.9 * 0.22 / texp⌋₊ u texp) (List.range uu.length) uu
  refine ⟨fun hne hle => h2 hle ?_, fun hlt => h1 hlt⟩
  have : uu.length ≠ 0 := fun h0 => hne (List.length_eq_zero_iff.1 h0)
  intro h0
  exact this (by simpa using congrArg List.length h0)

/-! ### The Euler branch -/

lemma phiArr_stable (m : RoughHeston) (texp : ℝ) (n k0 : ℕ) (l mu nu : ℂ) (init : ℕ → ℂ) (q i : ℕ) :
    (i ≤ k0 → m.phiArr texp n k0 l mu nu init q i = init i) ∧ ∀ d, i ≤ k0 + q → m.phiArr texp n k0 l mu nu init (q + d) i = m.phiArr texp n k0 l mu nu init q i := by
  constructor
  · intro h
    induction q with
    | zero => rfl
    | succ q ih => rw [phiArr, Function.update_of_ne (by omega), ih]
  · intro d h
    induction d with
    | zero => rfl
    | succ d ih => rw [← add_assoc, phiArr, Function.update_of_ne (by omega), ih]

/-- **C127.** The Euler recursion `phi_n`: the array starts with `0` and the power-series values up to index `k_0`, and every later value is the exact fractional integral of the piecewise-constant
interpolant of the Riccati right-hand side `ν + μ φ + λ φ²` at the earlier grid points. -/
theorem phi_n_recursion (m : RoughHeston) (hα : 0 < m.alpha) {texp : ℝ} (hT : 0 < texp) {n k0 : ℕ} (hn : 0 < n) (r0 : ℕ) (l mu nu : ℂ) (a : ℕ → ℂ) {k : ℕ} (hk : k0 ≤ k) :
    let φ := m.phiN texp n r0 k0 k l mu nu a
    φ 0 = 0 ∧ (∀ i, 1 ≤ i → i ≤ k0 → φ i = m.phiT r0 (texp * i / n) a) ∧
    ∀ i, k0 < i → i ≤ k → φ i = Spec.fracInt m.alpha (Spec.stepFn (texp / n) fun j => nu + mu * φ j + l * φ j ^ 2) (i * (texp / n)) := by
  set init : ℕ → ℂ := fun i => if 1 ≤ i ∧ i ≤ k0 then m.phiT r0 (texp * i / n) a else 0 with hinit
  set P := m.phiArr texp n k0 l mu nu init with hP
  intro φ
  have hφ : φ = P (k - k0) := rfl
  have h0 : ∀ i ≤ k0, φ i = init i := fun i h => by rw [hφ]; exact (phiArr_stable m texp n k0 l mu nu init _ i).1 h
  have hz : φ 0 = 0 := by rw [h0 0 (by omega), hinit]; simp
  refine ⟨hz, fun i h1 h2 => by rw [h0 i h2, hinit]; simp only; rw [if_pos ⟨h1, h2⟩], fun i h1 h2 => ?_⟩
  have hδ : 0 < texp / n := by positivity
  obtain ⟨q, rfl⟩ := Nat.exists_eq_add_of_lt h1
  have hlast : ∀ j ≤ k0 + (q + 1), φ j = P (q + 1) j := fun j hj => by
    obtain ⟨d, hd⟩ := Nat.exists_eq_add_of_le (show q + 1 ≤ k - k0 by omega)
    rw [hφ, hd]
    exact (phiArr_stable m texp n k0 l mu nu init (q + 1) j).2 d hj
  have hprev : ∀ j ≤ k0 + q, P q j = φ j := fun j hj => by
    rw [hlast j (by omega)]
    exact ((phiArr_stable m texp n k0 l mu nu init q j).2 1 hj).symm
  rw [show k0 + q + 1 = (k0 + q) + 1 by ring, ← predictor_weights_exact m hα hδ (k0 + q), hlast _ (by omega)]
  have hstep : P (q + 1) (k0 + q + 1) = (((texp / n) ^ m.alpha : ℝ) : ℂ) *
      (nu * ((((k0 + q + 1 : ℕ) : ℝ) ^ m.alpha : ℝ) : ℂ) + ∑ j ∈ Finset.Ico 1 (k0 + q + 1), (m.c (k0 + q + 1 - j - 1) : ℂ) * P q j * (l * P q j + mu)) / (Gamma (m.alpha + 1) : ℂ) := by
    rw [hP, phiArr]
    simp only [Function.update_self]
  rw [hstep]
  set K := k0 + q with hK
  have hw : ∀ j ≤ K, m.bW K (texp / n) j = (texp / n) ^ m.alpha * m.c (K - j) / Gamma (m.alpha + 1) := fun j hj => by
    rw [bW, c, Nat.cast_sub hj]
  have htel : ∑ j ∈ Finset.range (K + 1), m.c (K - j) = ((K + 1 : ℕ) : ℝ) ^ m.alpha := by
    rw [Finset.sum_range_reflect (fun j => m.c j) (K + 1) |> fun h => (by simpa using h : ∑ j ∈ Finset.range (K + 1), m.c (K - j) = ∑ j ∈ Finset.range (K + 1), m.c j)]
    have e := Finset.sum_range_sub (fun j : ℕ => (j:ℝ) ^ m.alpha) (K + 1)
    simp only [Nat.cast_add, Nat.cast_one, Nat.cast_zero, zero_rpow hα.ne', sub_zero] at e
    unfold c
    rw [e]; push_cast; rfl
  have hsum : ∑ j ∈ Finset.range (K + 1), (m.bW K (texp / n) j : ℂ) * (nu + mu * φ j + l * φ j ^ 2) =
      (((texp / n) ^ m.alpha : ℝ) : ℂ) * (nu * ((∑ j ∈ Finset.range (K + 1), m.c (K - j) : ℝ) : ℂ) + ∑ j ∈ Finset.range (K + 1), (m.c (K - j) : ℂ) * φ j * (l * φ j + mu)) / (Gamma (m.alpha + 1) : ℂ) := by
    rw [Complex.ofReal_sum, Finset.mul_sum, ← Finset.sum_add_distrib, Finset.mul_sum, Finset.sum_div]
    refine Finset.sum_congr rfl fun j hj => ?_
    rw [hw j (by have := Finset.mem_range.1 hj; omega)]
    push_cast
    ring
  rw [hsum, htel, Finset.range_eq_Ico, Finset.sum_eq_sum_Ico_succ_bot (by omega : 0 < K + 1), hz, mul_zero, zero_mul, zero_add]
  congr 3
  refine Finset.sum_congr rfl fun j hj => ?_
  have := Finset.mem_Ico.1 hj
  rw [hprev j (by omega), show K + 1 - j - 1 = K - j by omega]

lemma cAlpha_mem (m : RoughHeston) (hα0 : 0 < m.alpha) (hα1 : m.alpha < 1) (l : ℕ) : 0 < m.cAlpha l ∧ m.cAlpha l ≤ 1 ∧ (1 ≤ l → m.cAlpha l < 1) := by
  unfold cAlpha
  have hb : 0 < 1 - m.alpha := by linarith
  have hl0 : (0:ℝ) ≤ l := Nat.cast_nonneg l
  refine ⟨sub_pos.2 (rpow_lt_rpow hl0 (by linarith) hb), ?_, fun h => ?_⟩
  · have := rpow_add_le_add_rpow hl0 zero_le_one hb.le (by linarith : 1 - m.alpha ≤ 1)
    rw [one_rpow] at this
    linarith
  · have h1 : (1:ℝ) ≤ l := by exact_mod_cast h
    have hlt : ((l:ℝ) + 1) ^ (1 - m.alpha) < (l:ℝ) ^ (1 - m.alpha) + 1 := by
      have e1 : ((l:ℝ) + 1) ^ (1 - m.alpha) = (l:ℝ) * ((l:ℝ) + 1) ^ (-m.alpha) + ((l:ℝ) + 1) ^ (-m.alpha) := by
        rw [show (1 - m.alpha) = -m.alpha + 1 by ring, rpow_add_one (by positivity)]; ring
      have e2 : (l:ℝ) ^ (1 - m.alpha) = (l:ℝ) * (l:ℝ) ^ (-m.alpha) := by
        rw [show (1 - m.alpha) = -m.alpha + 1 by ring, rpow_add_one (by linarith)]; ring
      have h2 : ((l:ℝ) + 1) ^ (-m.alpha) < (l:ℝ) ^ (-m.alpha) := rpow_lt_rpow_of_neg (by linarith) (by linarith) (by linarith)
      have h3 : ((l:ℝ) + 1) ^ (-m.alpha) ≤ 1 := rpow_le_one_of_one_le_of_nonpos (by linarith) (by linarith)
      rw [e1, e2]
      nlinarith
    linarith

/-- **C127 (finding).** `I_2_PED` applies the power `1 - α` twice: for non-negative values with `φ_0 = 0` it is never below the fractional integral of order `1 - α` of their piecewise-constant
interpolant, and strictly above it as soon as one value before the last is positive. -/
theorem i2_ped_overstates (m : RoughHeston) (hα0 : 0 < m.alpha) (hα1 : m.alpha < 1) {texp : ℝ} (hT : 0 < texp) {n k : ℕ} (hn : 0 < n) (φ : ℕ → ℝ) (h0 : φ 0 = 0) (hφ : ∀ i, 0 ≤ φ i) :
    (Spec.fracInt (1 - m.alpha) (Spec.stepFn (texp / n) fun i => (φ i : ℂ)) ((k + 1 : ℕ) * (texp / n))).re ≤ (m.I2Ped texp n (k + 1) fun i => (φ i : ℂ)).re ∧
    ((∃ i, 1 ≤ i ∧ i < k ∧ 0 < φ i) → (Spec.fracInt (1 - m.alpha) (Spec.stepFn (texp / n) fun i => (φ i : ℂ)) ((k + 1 : ℕ) * (texp / n))).re < (m.I2Ped texp n (k + 1) fun i => (φ i : ℂ)).re) := by
  have hδ : 0 < texp / n := by positivity
  have hb : 0 < 1 - m.alpha := by linarith
  set m' : RoughHeston := { m with alpha := 1 - m.alpha } with hm'
  have hG : 0 < Gamma (2 - m.alpha) := Gamma_pos_of_pos (by linarith)
  have e1 : Spec.fracInt (1 - m.alpha) (Spec.stepFn (texp / n) fun i => (φ i : ℂ)) ((k + 1 : ℕ) * (texp / n)) =
      (((texp / n) ^ (1 - m.alpha) * (∑ i ∈ Finset.Ico 1 (k + 1), m.cAlpha (k - i) * φ i) / Gamma (2 - m.alpha) : ℝ) : ℂ) := by
    have h1 := predictor_weights_exact m' hb hδ k fun i => (φ i : ℂ)
    rw [show m'.alpha = 1 - m.alpha from rfl] at h1
    rw [← h1, Finset.range_eq_Ico, Finset.sum_eq_sum_Ico_succ_bot (by omega), h0, Complex.ofReal_zero, mul_zero, zero_add]
    push_cast
    rw [Finset.mul_sum, Finset.sum_div]
    refine Finset.sum_congr rfl fun i hi => ?_
    have := Finset.mem_Ico.1 hi
    rw [bW, cAlpha, Nat.cast_sub (by omega), show m'.alpha = 1 - m.alpha from rfl, show 1 - m.alpha + 1 = 2 - m.alpha by ring]
    push_cast
    ring
  have e2 : (m.I2Ped texp n (k + 1) fun i => (φ i : ℂ)) = (((texp / n) ^ (1 - m.alpha) * (∑ i ∈ Finset.Ico 1 (k + 1), m.cAlpha (k - i) ^ (1 - m.alpha) * φ i) / Gamma (2 - m.alpha) : ℝ) : ℂ) := by
    unfold I2Ped
    push_cast
    congr 2
    refine Finset.sum_congr rfl fun i hi => ?_
    have := Finset.mem_Ico.1 hi
    rw [show k + 1 - i - 1 = k - i by omega]
  rw [e1, e2, Complex.ofReal_re, Complex.ofReal_re]
  have hle : ∀ l, m.cAlpha l ≤ m.cAlpha l ^ (1 - m.alpha) := fun l => by
    obtain ⟨h1, h2, _⟩ := cAlpha_mem m hα0 hα1 l
    have := rpow_le_rpow_of_exponent_ge h1 h2 (by linarith : 1 - m.alpha ≤ 1)
    rwa [rpow_one] at this
  have hlt : ∀ l, 1 ≤ l → m.cAlpha l < m.cAlpha l ^ (1 - m.alpha) := fun l hl => by
    obtain ⟨h1, _, h3⟩ := cAlpha_mem m hα0 hα1 l
    have := rpow_lt_rpow_of_exponent_gt h1 (h3 hl) (by linarith : 1 - m.alpha < 1)
    rwa [rpow_one] at this
  have hp : 0 < (texp / n) ^ (1 - m.alpha) := rpow_pos_of_pos hδ _
  constructor
  · refine div_le_div_of_nonneg_right (mul_le_mul_of_nonneg_left (Finset.sum_le_sum fun i _ => mul_le_mul_of_nonneg_right (hle _) (hφ i)) hp.le) hG.le
  · rintro ⟨i, h1, h2, h3⟩
    refine div_lt_div_of_pos_right (mul_lt_mul_of_pos_left (Finset.sum_lt_sum (fun j _ => mul_le_mul_of_nonneg_right (hle _) (hφ j)) ⟨i, Finset.mem_Ico.2 ⟨h1, by omega⟩, ?_⟩) hp) hG
    exact mul_lt_mul_of_pos_right (hlt _ (by omega)) h3

/-- The hypotheses of `fps_not_riccati` are met at the arguments used by the transform for the default roughness. -/
example : ∃ (m : RoughHeston) (u : ℂ), 0 < m.alpha ∧ m.lambd ≠ 0 ∧ nuR u ≠ 0 := by
  refine ⟨⟨0.04, 1, 0, 1, 0.04, 0.62, 0, 0, false⟩, 2, by norm_num, ?_, ?_⟩
  · unfold lambd; norm_num
  · unfold nuR; norm_num

end RoughHeston

end PyFENG
