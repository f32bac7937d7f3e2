import Verif.Lemmas.QuadVar

/-!
# Pathwise Itô calculus (Föllmer)
-/

namespace PyFENG

open MeasureTheory ProbabilityTheory Real Set Filter Topology
open scoped NNReal ENNReal

/-- The path `x` has quadratic variation `∫ q` on `[0, T]` along the grids of `N n` equal intervals: for every `t` the sum of the squared increments that start before `t` tends to `∫_0^t q`. -/
def Spec.HasQuadVar (x q : ℝ → ℝ) (T : ℝ) (N : ℕ → ℕ) : Prop :=
  Tendsto N atTop atTop ∧ ∀ t ∈ Icc 0 T, Tendsto (fun n => ∑ i ∈ (Finset.range (N n)).filter (fun i : ℕ => (i : ℝ) * (T / N n) < t),
    (x ((i + 1 : ℕ) * (T / N n)) - x (i * (T / N n))) ^ 2) atTop (𝓝 (∫ s in (0:ℝ)..t, q s))

/-- The integral of `H` against `y` over `[0, T]` along the grids of `N n` equal intervals: the limit of the sums with the integrand at the left end points. -/
def Spec.IsPathIntegral (H y : ℝ → ℝ) (T : ℝ) (N : ℕ → ℕ) (I : ℝ) : Prop :=
  Tendsto (fun n => ∑ i ∈ Finset.range (N n), H (i * (T / N n)) * (y ((i + 1 : ℕ) * (T / N n)) - y (i * (T / N n)))) atTop (𝓝 I)

namespace Follmer

lemma filter_diff {ι : Type*} (s : Finset ι) (τ F : ι → ℝ) {a b : ℝ} (hab : a ≤ b) :
    ∑ i ∈ s.filter (fun i => τ i < b), F i - ∑ i ∈ s.filter (fun i => τ i < a), F i = ∑ i ∈ s.filter (fun i => a ≤ τ i ∧ τ i < b), F i := by
  simp only [Finset.sum_filter]
  rw [← Finset.sum_sub_distrib]
  refine Finset.sum_congr rfl fun i _ => ?_
  by_cases h1 : τ i < a
  · have h2 : τ i < b := h1.trans_le hab
    simp [h1, h2, not_le.2 h1]
  · have h3 : a ≤ τ i := not_lt.1 h1
    by_cases h2 : τ i < b <;> simp [h1, h2, h3]

/-- Convergence of the weights of intervals gives convergence of the weighted sums of continuous functions. -/
lemma weak {T : ℝ} (hT : 0 < T) {N : ℕ → ℕ} {w : ℕ → ℕ → ℝ} (hw : ∀ n i, 0 ≤ w n i) {q : ℝ → ℝ} (hq : ∀ a b, IntervalIntegrable q volume a b)
    (h : ∀ t ∈ Icc 0 T, Tendsto (fun n => ∑ i ∈ (Finset.range (N n)).filter (fun i : ℕ => (i : ℝ) * (T / N n) < t), w n i) atTop (𝓝 (∫ s in (0:ℝ)..t, q s)))
    {g : ℝ → ℝ} (hg : Continuous g) :
    Tendsto (fun n => ∑ i ∈ Finset.range (N n), g (i * (T / N n)) * w n i) atTop (𝓝 (∫ s in (0:ℝ)..T, g s * q s)) := by
  set S : ℕ → ℝ → ℝ := fun n t => ∑ i ∈ (Finset.range (N n)).filter (fun i : ℕ => (i : ℝ) * (T / N n) < t), w n i with hS
  set G : ℕ → ℝ → ℝ := fun n t => ∑ i ∈ (Finset.range (N n)).filter (fun i : ℕ => (i : ℝ) * (T / N n) < t), g (i * (T / N n)) * w n i with hG
  set QA := ∫ s in (0:ℝ)..T, |q s| with hQA
  have hQ0 : 0 ≤ QA := intervalIntegral.integral_nonneg hT.le fun _ _ => abs_nonneg _
  have hST := h T ⟨hT.le, le_rfl⟩
  have hQT : |∫ s in (0:ℝ)..T, q s| ≤ QA := by
    have := intervalIntegral.norm_integral_le_integral_norm (f := q) (μ := volume) hT.le
    simpa using this
  have hall : ∀ n t, T ≤ t → ∀ F : ℕ → ℝ, ∑ i ∈ (Finset.range (N n)).filter (fun i : ℕ => (i : ℝ) * (T / N n) < t), F i = ∑ i ∈ Finset.range (N n), F i := fun n t ht F => by
    rw [Finset.filter_true_of_mem]
    intro i hi
    have hi' := Finset.mem_range.1 hi
    have hN0 : (0:ℝ) < N n := by exact_mod_cast (by omega : 0 < N n)
    have : (i : ℝ) < N n := by exact_mod_cast hi'
    refine lt_of_lt_of_le ?_ ht
    rw [mul_div_assoc', div_lt_iff₀ hN0]
    nlinarith
  have hnone : ∀ n, ∀ F : ℕ → ℝ, ∑ i ∈ (Finset.range (N n)).filter (fun i : ℕ => (i : ℝ) * (T / N n) < 0), F i = 0 := fun n F => by
    rw [Finset.filter_false_of_mem, Finset.sum_empty]
    intro i _
    push Not
    positivity
  rw [Metric.tendsto_atTop]
  intro ε hε
  set η := ε / (2 * QA + 3) with hη
  have hη0 : 0 < η := by positivity
  have huc : UniformContinuousOn g (Icc 0 T) := isCompact_Icc.uniformContinuousOn_of_continuous hg.continuousOn
  obtain ⟨δ, hδ, hδg⟩ := Metric.uniformContinuousOn_iff.1 huc η hη0
  obtain ⟨M0, hM0⟩ := exists_nat_gt (T / δ)
  set M := M0 + 1 with hM
  have hMp : (0:ℝ) < M := by positivity
  have hMd : T / M < δ := by
    rw [div_lt_iff₀ hMp]
    have : T / δ < M := hM0.trans (by rw [hM]; push_cast; linarith)
    rw [div_lt_iff₀ hδ] at this
    linarith
  set s : ℕ → ℝ := fun k => k * (T / M) with hs
  have hs0 : s 0 = 0 := by simp [hs]
  have hsM : s M = T := by simp only [hs]; field_simp
  have hsstep : ∀ k, s (k + 1) - s k = T / M := fun k => by simp only [hs]; push_cast; ring
  have hTM : 0 < T / M := by positivity
  have hsle : ∀ k, s k ≤ s (k + 1) := fun k => by linarith [hsstep k]
  have hsmono : Monotone s := monotone_nat_of_le_succ hsle
  have hsIcc : ∀ k, k ≤ M → s k ∈ Icc 0 T := fun k hk => ⟨by rw [← hs0]; exact hsmono (Nat.zero_le k), by rw [← hsM]; exact hsmono hk⟩
  -- discretisation of the sums
  have hA : ∀ n, |∑ i ∈ Finset.range (N n), g (i * (T / N n)) * w n i - ∑ k ∈ Finset.range M, g (s k) * (S n (s (k + 1)) - S n (s k))| ≤ η * S n T := fun n => by
    have e1 : ∑ i ∈ Finset.range (N n), g (i * (T / N n)) * w n i = ∑ k ∈ Finset.range M, (G n (s (k + 1)) - G n (s k)) := by
      rw [Finset.sum_range_sub (fun k => G n (s k)), hs0, hsM]
      simp only [hG]
      rw [hall n T le_rfl, hnone, sub_zero]
    have e2 : S n T = ∑ k ∈ Finset.range M, (S n (s (k + 1)) - S n (s k)) := by
      rw [Finset.sum_range_sub (fun k => S n (s k)), hs0, hsM]
      simp only [hS]
      rw [hnone n, sub_zero]
    rw [e1, e2, ← Finset.sum_sub_distrib, Finset.mul_sum]
    refine (Finset.abs_sum_le_sum_abs _ _).trans (Finset.sum_le_sum fun k hk => ?_)
    have hk' := Finset.mem_range.1 hk
    simp only [hG, hS]
    rw [filter_diff _ _ _ (hsle k), filter_diff _ _ _ (hsle k), Finset.mul_sum, Finset.mul_sum, ← Finset.sum_sub_distrib]
    refine (Finset.abs_sum_le_sum_abs _ _).trans (Finset.sum_le_sum fun i hi => ?_)
    obtain ⟨hiN, h1, h2⟩ := Finset.mem_filter.1 hi
    rw [← sub_mul, abs_mul, abs_of_nonneg (hw n i)]
    refine mul_le_mul_of_nonneg_right ?_ (hw n i)
    have hk1 := hsIcc k hk'.le
    have hk2 := hsIcc (k + 1) hk'
    rw [← Real.dist_eq]
    refine (hδg _ ⟨hk1.1.trans h1, h2.le.trans hk2.2⟩ _ hk1 ?_).le
    rw [Real.dist_eq, abs_of_nonneg (by linarith)]
    linarith [hsstep k]
  -- discretisation of the integral
  have igq : ∀ a b, IntervalIntegrable (fun s => g s * q s) volume a b := fun a b => (hq a b).continuousOn_mul hg.continuousOn
  have hB : |∑ k ∈ Finset.range M, g (s k) * (∫ r in (s k)..(s (k + 1)), q r) - ∫ r in (0:ℝ)..T, g r * q r| ≤ η * QA := by
    have e1 : ∫ r in (0:ℝ)..T, g r * q r = ∑ k ∈ Finset.range M, ∫ r in (s k)..(s (k + 1)), g r * q r := by
      rw [intervalIntegral.sum_integral_adjacent_intervals fun i _ => igq _ _, hs0, hsM]
    have e2 : QA = ∑ k ∈ Finset.range M, ∫ r in (s k)..(s (k + 1)), |q r| := by
      rw [intervalIntegral.sum_integral_adjacent_intervals fun i _ => (hq _ _).abs, hs0, hsM]
    rw [e1, e2, ← Finset.sum_sub_distrib, Finset.mul_sum]
    refine (Finset.abs_sum_le_sum_abs _ _).trans (Finset.sum_le_sum fun k hk => ?_)
    have hk' := Finset.mem_range.1 hk
    rw [← intervalIntegral.integral_const_mul, ← intervalIntegral.integral_sub ((hq _ _).const_mul _) (igq _ _), ← intervalIntegral.integral_const_mul, ← Real.norm_eq_abs]
    refine intervalIntegral.norm_integral_le_of_norm_le (hsle k) (ae_of_all _ fun r hr => ?_) ((hq _ _).abs.const_mul _)
    rw [← sub_mul, norm_mul, Real.norm_eq_abs (q r)]
    refine mul_le_mul_of_nonneg_right ?_ (abs_nonneg _)
    have hk1 := hsIcc k hk'.le
    have hk2 := hsIcc (k + 1) hk'
    rw [← dist_eq_norm, dist_comm]
    refine (hδg _ ⟨hk1.1.trans hr.1.le, hr.2.trans hk2.2⟩ _ hk1 ?_).le
    rw [Real.dist_eq, abs_of_nonneg (by linarith [hr.1])]
    linarith [hsstep k, hr.2]
  -- the middle sums
  have hC : Tendsto (fun n => ∑ k ∈ Finset.range M, g (s k) * (S n (s (k + 1)) - S n (s k))) atTop (𝓝 (∑ k ∈ Finset.range M, g (s k) * (∫ r in (s k)..(s (k + 1)), q r))) := by
    refine tendsto_finsetSum _ fun k hk => ?_
    have hk' := Finset.mem_range.1 hk
    have h3 := ((h _ (hsIcc (k + 1) hk')).sub (h _ (hsIcc k hk'.le))).const_mul (g (s k))
    rw [intervalIntegral.integral_interval_sub_left (hq _ _) (hq _ _)] at h3
    exact h3
  obtain ⟨n1, hn1⟩ := Metric.tendsto_atTop.1 hC η hη0
  obtain ⟨n2, hn2⟩ := Metric.tendsto_atTop.1 hST 1 one_pos
  refine ⟨max n1 n2, fun n hn => ?_⟩
  have a1 := hn1 n ((le_max_left _ _).trans hn)
  have a2 := hn2 n ((le_max_right _ _).trans hn)
  rw [Real.dist_eq] at a1 a2 ⊢
  have a3 := hA n
  have a4 : S n T < QA + 1 := by
    have := (abs_lt.1 a2).2
    have := (abs_le.1 hQT).2
    simp only [hS]
    linarith
  have a5 : η * S n T ≤ η * (QA + 1) := mul_le_mul_of_nonneg_left a4.le hη0.le
  have a6 : η * (2 * QA + 3) = ε := by rw [hη]; field_simp
  have t1 := abs_sub_le (∑ i ∈ Finset.range (N n), g (i * (T / N n)) * w n i) (∑ k ∈ Finset.range M, g (s k) * (S n (s (k + 1)) - S n (s k))) (∫ r in (0:ℝ)..T, g r * q r)
  have t2 := abs_sub_le (∑ k ∈ Finset.range M, g (s k) * (S n (s (k + 1)) - S n (s k))) (∑ k ∈ Finset.range M, g (s k) * (∫ r in (s k)..(s (k + 1)), q r)) (∫ r in (0:ℝ)..T, g r * q r)
  nlinarith

lemma taylor2 {f f' f'' : ℝ → ℝ} {x y ε : ℝ} (h1 : ∀ z ∈ uIcc x y, HasDerivAt f (f' z) z) (h2 : ∀ z ∈ uIcc x y, HasDerivAt f' (f'' z) z)
    (hε : ∀ z ∈ uIcc x y, |f'' z - f'' x| ≤ ε) : |f y - f x - f' x * (y - x) - f'' x / 2 * (y - x) ^ 2| ≤ ε * (y - x) ^ 2 := by
  have hε0 : 0 ≤ ε := (abs_nonneg _).trans (hε x left_mem_uIcc)
  have d1 : ∀ z ∈ uIcc x y, |(f' z - f'' x * z) - (f' x - f'' x * x)| ≤ ε * |z - x| := fun z hz => by
    refine (convex_uIcc x y).norm_image_sub_le_of_norm_hasDerivWithin_le (f := fun z => f' z - f'' x * z) (f' := fun z => f'' z - f'' x) (fun r hr => ?_) (fun r hr => hε r hr) left_mem_uIcc hz
    refine (HasDerivAt.hasDerivWithinAt ?_)
    exact ((h2 r hr).fun_sub ((hasDerivAt_id' r).const_mul _)).congr_deriv (by ring)
  have d2 : |(f y - f' x * y - f'' x / 2 * (y - x) ^ 2) - (f x - f' x * x - f'' x / 2 * (x - x) ^ 2)| ≤ ε * |y - x| * |y - x| := by
    refine (convex_uIcc x y).norm_image_sub_le_of_norm_hasDerivWithin_le (f := fun z => f z - f' x * z - f'' x / 2 * (z - x) ^ 2)
      (f' := fun z => (f' z - f'' x * z) - (f' x - f'' x * x)) (fun r hr => ?_) (fun r hr => ?_) left_mem_uIcc right_mem_uIcc
    · refine (HasDerivAt.hasDerivWithinAt ?_)
      exact (((h1 r hr).fun_sub ((hasDerivAt_id' r).const_mul _)).fun_sub ((((hasDerivAt_id' r).sub_const x).fun_pow 2).const_mul _)).congr_deriv (by ring)
    · refine (d1 r hr).trans (mul_le_mul_of_nonneg_left ?_ hε0)
      exact abs_sub_left_of_mem_uIcc hr
  rw [mul_assoc, abs_mul_abs_self] at d2
  have e : f y - f x - f' x * (y - x) - f'' x / 2 * (y - x) ^ 2 = (f y - f' x * y - f'' x / 2 * (y - x) ^ 2) - (f x - f' x * x - f'' x / 2 * (x - x) ^ 2) := by ring
  rw [e]
  refine d2.trans (le_of_eq ?_)
  ring

/-- Riemann sums with the integrand at the left end points, along a sequence of grids. -/
lemma riemann {f g : ℝ → ℝ} (hf : Continuous f) (hg : Continuous g) {T : ℝ} (hT : 0 < T) {N : ℕ → ℕ} (hN : Tendsto N atTop atTop) :
    Tendsto (fun n => ∑ i ∈ Finset.range (N n), f (i * (T / N n)) * ∫ s in (i * (T / N n))..((i + 1 : ℕ) * (T / N n)), g s) atTop (𝓝 (∫ s in (0:ℝ)..T, f s * g s)) := by
  have h := QuadVar.riemann (f := fun s => f (T - s)) (g := fun s => g (T - s)) (by fun_prop) (by fun_prop) hT.le
  have hlim : ∫ s in (0:ℝ)..T, f (T - s) * g (T - s) = ∫ s in (0:ℝ)..T, f s * g s := by
    rw [intervalIntegral.integral_comp_sub_left (fun s => f s * g s)]
    simp
  rw [hlim] at h
  have h2 := h.comp hN
  refine h2.congr' ?_
  filter_upwards [hN.eventually_gt_atTop 0] with n hn
  have hn' : (N n : ℝ) ≠ 0 := by positivity
  simp only [Function.comp_apply]
  rw [← Finset.sum_range_reflect]
  refine Finset.sum_congr rfl fun i hi => ?_
  have hi' := Finset.mem_range.1 hi
  have e1 : ((N n - 1 - i + 1 : ℕ) : ℝ) = N n - i := by
    rw [show N n - 1 - i + 1 = N n - i by omega, Nat.cast_sub hi'.le]
  have e2 : ((N n - 1 - i : ℕ) : ℝ) = N n - (i + 1 : ℕ) := by
    rw [show N n - 1 - i = N n - (i + 1) by omega, Nat.cast_sub hi']
  rw [e1, e2, intervalIntegral.integral_comp_sub_left]
  have e3 : T - (N n - (i : ℝ)) * (T / N n) = i * (T / N n) := by field_simp; ring
  have e4 : T - (N n - ((i + 1 : ℕ) : ℝ)) * (T / N n) = (i + 1 : ℕ) * (T / N n) := by field_simp; ring
  rw [e3, e4]

lemma grid_mem {T : ℝ} (hT : 0 < T) {n i : ℕ} (hi : i < n) : (i : ℝ) * (T / n) ∈ Icc 0 T ∧ ((i + 1 : ℕ) : ℝ) * (T / n) ∈ Icc 0 T := by
  have hn : (0:ℝ) < n := by exact_mod_cast (by omega : 0 < n)
  have h1 : (i : ℝ) ≤ n := by exact_mod_cast hi.le
  have h2 : ((i + 1 : ℕ) : ℝ) ≤ n := by exact_mod_cast hi
  refine ⟨⟨by positivity, ?_⟩, ⟨by positivity, ?_⟩⟩
  · rw [mul_div_assoc', div_le_iff₀ hn]; nlinarith
  · rw [mul_div_assoc', div_le_iff₀ hn]; nlinarith

/-- The weighted squared increments. -/
lemma weak_qv {x q : ℝ → ℝ} {T : ℝ} (hT : 0 < T) {N : ℕ → ℕ} (h : Spec.HasQuadVar x q T N) (hq : Continuous q) {g : ℝ → ℝ} (hg : Continuous g) :
    Tendsto (fun n => ∑ i ∈ Finset.range (N n), g (i * (T / N n)) * (x ((i + 1 : ℕ) * (T / N n)) - x (i * (T / N n))) ^ 2) atTop (𝓝 (∫ s in (0:ℝ)..T, g s * q s)) :=
  weak hT (w := fun n i => (x ((i + 1 : ℕ) * (T / N n)) - x (i * (T / N n))) ^ 2) (fun _ _ => sq_nonneg _) (fun a b => hq.intervalIntegrable a b) h.2 hg

/-- A remainder that is uniformly small against the squared increments vanishes in the limit. -/
lemma remainder {x q : ℝ → ℝ} {T : ℝ} (hT : 0 < T) {N : ℕ → ℕ} (h : Spec.HasQuadVar x q T N) (hq : Continuous q) {r : ℕ → ℕ → ℝ}
    (hr : ∀ ε > 0, ∀ᶠ n in atTop, ∀ i < N n, |r n i| ≤ ε * (x ((i + 1 : ℕ) * (T / N n)) - x (i * (T / N n))) ^ 2) :
    Tendsto (fun n => ∑ i ∈ Finset.range (N n), r n i) atTop (𝓝 0) := by
  have h1 := weak_qv hT h hq (g := fun _ => 1) continuous_const
  simp only [one_mul] at h1
  rw [Metric.tendsto_nhds]
  intro ε hε
  set Q := ∫ s in (0:ℝ)..T, q s
  have h2 := hr (ε / (|Q| + 2)) (by positivity)
  filter_upwards [h2, (Metric.tendsto_nhds.1 h1) 1 one_pos] with n hn hS
  rw [Real.dist_eq] at hS ⊢
  rw [sub_zero]
  have h3 : |∑ i ∈ Finset.range (N n), r n i| ≤ ε / (|Q| + 2) * ∑ i ∈ Finset.range (N n), (x ((i + 1 : ℕ) * (T / N n)) - x (i * (T / N n))) ^ 2 := by
    rw [Finset.mul_sum]
    exact (Finset.abs_sum_le_sum_abs _ _).trans (Finset.sum_le_sum fun i hi => hn i (Finset.mem_range.1 hi))
  refine lt_of_le_of_lt h3 ?_
  have h4 : ∑ i ∈ Finset.range (N n), (x ((i + 1 : ℕ) * (T / N n)) - x (i * (T / N n))) ^ 2 < |Q| + 2 := by
    have := (abs_lt.1 hS).2
    have := le_abs_self Q
    linarith
  rw [div_mul_eq_mul_div, div_lt_iff₀ (by positivity)]
  nlinarith

/-- Uniform smallness of the increments of a continuous path over fine grids. -/
lemma small_incr {x : ℝ → ℝ} (hx : Continuous x) {T : ℝ} (hT : 0 < T) {N : ℕ → ℕ} (hN : Tendsto N atTop atTop) {δ : ℝ} (hδ : 0 < δ) :
    ∀ᶠ n in atTop, ∀ i < N n, |x ((i + 1 : ℕ) * (T / N n)) - x (i * (T / N n))| < δ := by
  have huc : UniformContinuousOn x (Icc 0 T) := isCompact_Icc.uniformContinuousOn_of_continuous hx.continuousOn
  obtain ⟨η, hη, h⟩ := Metric.uniformContinuousOn_iff.1 huc δ hδ
  obtain ⟨M, hM⟩ := exists_nat_gt (T / η)
  filter_upwards [hN.eventually_gt_atTop M] with n hn i hi
  obtain ⟨h1, h2⟩ := grid_mem hT hi
  have hn0 : (0:ℝ) < N n := by exact_mod_cast (by omega : 0 < N n)
  have h3 := h _ h2 _ h1
  rw [Real.dist_eq, Real.dist_eq] at h3
  refine h3 ?_
  have e : ((i + 1 : ℕ) : ℝ) * (T / N n) - i * (T / N n) = T / N n := by push_cast; ring
  rw [e, abs_of_pos (by positivity), div_lt_iff₀ hn0]
  have : T / η < N n := hM.trans (by exact_mod_cast hn)
  rw [div_lt_iff₀ hη] at this
  linarith

/-- Itô's formula for positive paths. -/
theorem ito {x q a : ℝ → ℝ} {T : ℝ} (hT : 0 < T) {N : ℕ → ℕ} (hx : Continuous x) (hpos : ∀ t, 0 < x t) (hq : Continuous q) (ha : Continuous a)
    (h : Spec.HasQuadVar x q T N) {f f' f'' : ℝ → ℝ} (h1 : ∀ z, 0 < z → HasDerivAt f (f' z) z) (h2 : ∀ z, 0 < z → HasDerivAt f' (f'' z) z) (h3 : ContinuousOn f'' (Ioi 0)) :
    Spec.IsPathIntegral (fun t => f' (x t)) (fun t => x t - x 0 - ∫ s in (0:ℝ)..t, a s) T N
      (f (x T) - f (x 0) - ∫ s in (0:ℝ)..T, (f' (x s) * a s + f'' (x s) / 2 * q s)) := by
  have hf1 : ContinuousOn f' (Ioi 0) := fun z hz => (h2 z hz).continuousAt.continuousWithinAt
  have c1 : Continuous fun t => f' (x t) := hf1.comp_continuous hx hpos
  have c2 : Continuous fun t => f'' (x t) := h3.comp_continuous hx hpos
  -- the drift
  have D := riemann c1 ha hT h.1
  -- the second-order term
  have Q := weak_qv hT h hq (g := fun t => f'' (x t) / 2) (c2.div_const 2)
  -- the remainder
  set r : ℕ → ℕ → ℝ := fun n i => f (x ((i + 1 : ℕ) * (T / N n))) - f (x (i * (T / N n))) - f' (x (i * (T / N n))) * (x ((i + 1 : ℕ) * (T / N n)) - x (i * (T / N n)))
    - f'' (x (i * (T / N n))) / 2 * (x ((i + 1 : ℕ) * (T / N n)) - x (i * (T / N n))) ^ 2 with hr
  obtain ⟨tl, htl, hlo⟩ := isCompact_Icc.exists_isMinOn (nonempty_Icc.2 hT.le) hx.continuousOn
  obtain ⟨th, hth, hhi⟩ := isCompact_Icc.exists_isMaxOn (nonempty_Icc.2 hT.le) hx.continuousOn
  have R : Tendsto (fun n => ∑ i ∈ Finset.range (N n), r n i) atTop (𝓝 0) := by
    refine remainder hT h hq fun ε hε => ?_
    have huc : UniformContinuousOn f'' (Icc (x tl) (x th)) := isCompact_Icc.uniformContinuousOn_of_continuous (h3.mono fun z hz => (hpos tl).trans_le hz.1)
    obtain ⟨δ, hδ, hd⟩ := Metric.uniformContinuousOn_iff.1 huc ε hε
    filter_upwards [small_incr hx hT h.1 hδ] with n hn i hi
    obtain ⟨m1, m2⟩ := grid_mem hT hi
    have i1 : x (i * (T / N n)) ∈ Icc (x tl) (x th) := ⟨hlo m1, hhi m1⟩
    have i2 : x ((i + 1 : ℕ) * (T / N n)) ∈ Icc (x tl) (x th) := ⟨hlo m2, hhi m2⟩
    have hsub : uIcc (x (i * (T / N n))) (x ((i + 1 : ℕ) * (T / N n))) ⊆ Icc (x tl) (x th) := ordConnected_Icc.uIcc_subset i1 i2
    have hp : ∀ z ∈ uIcc (x (i * (T / N n))) (x ((i + 1 : ℕ) * (T / N n))), 0 < z := fun z hz => (hpos tl).trans_le (hsub hz).1
    refine taylor2 (fun z hz => h1 z (hp z hz)) (fun z hz => h2 z (hp z hz)) fun z hz => ?_
    rw [← Real.dist_eq]
    refine (hd z (hsub hz) _ i1 ?_).le
    rw [Real.dist_eq]
    exact lt_of_le_of_lt (abs_sub_left_of_mem_uIcc hz) (hn i hi)
  have tot := (((tendsto_const_nhds (x := f (x T) - f (x 0))).sub Q).sub R).sub D
  have hlim : f (x T) - f (x 0) - (∫ s in (0:ℝ)..T, f'' (x s) / 2 * q s) - 0 - ∫ s in (0:ℝ)..T, f' (x s) * a s
      = f (x T) - f (x 0) - ∫ s in (0:ℝ)..T, (f' (x s) * a s + f'' (x s) / 2 * q s) := by
    have k1 : Continuous fun s => f' (x s) * a s := c1.mul ha
    have k2 : Continuous fun s => f'' (x s) / 2 * q s := (c2.div_const 2).mul hq
    rw [intervalIntegral.integral_add (k1.intervalIntegrable _ _) (k2.intervalIntegrable _ _)]
    ring
  rw [hlim] at tot
  unfold Spec.IsPathIntegral
  refine tot.congr' ?_
  filter_upwards [h.1.eventually_gt_atTop 0] with n hn
  have hn' : (N n : ℝ) ≠ 0 := by positivity
  have tel : f (x T) - f (x 0) = ∑ i ∈ Finset.range (N n), (f (x ((i + 1 : ℕ) * (T / N n))) - f (x (i * (T / N n)))) := by
    rw [Finset.sum_range_sub (fun i : ℕ => f (x (i * (T / N n))))]
    simp only [Nat.cast_zero, zero_mul]
    rw [mul_div_cancel₀ _ hn']
  rw [tel, ← Finset.sum_sub_distrib, ← Finset.sum_sub_distrib, ← Finset.sum_sub_distrib]
  refine Finset.sum_congr rfl fun i _ => ?_
  have e : (∫ s in (0:ℝ)..((i + 1 : ℕ) * (T / N n)), a s) - (∫ s in (0:ℝ)..(i * (T / N n)), a s) = ∫ s in (i * (T / N n))..((i + 1 : ℕ) * (T / N n)), a s :=
    intervalIntegral.integral_interval_sub_left (ha.intervalIntegrable _ _) (ha.intervalIntegrable _ _)
  rw [← e]
  simp only [hr]
  ring

/-- `weak` for the sums up to a time `t`. -/
lemma weak_upto {T : ℝ} (hT : 0 < T) {N : ℕ → ℕ} {w : ℕ → ℕ → ℝ} (hw : ∀ n i, 0 ≤ w n i) {q : ℝ → ℝ} (hq : Continuous q)
    (h : ∀ t ∈ Icc 0 T, Tendsto (fun n => ∑ i ∈ (Finset.range (N n)).filter (fun i : ℕ => (i : ℝ) * (T / N n) < t), w n i) atTop (𝓝 (∫ s in (0:ℝ)..t, q s)))
    {g : ℝ → ℝ} (hg : Continuous g) {t : ℝ} (ht : t ∈ Icc 0 T) :
    Tendsto (fun n => ∑ i ∈ (Finset.range (N n)).filter (fun i : ℕ => (i : ℝ) * (T / N n) < t), g (i * (T / N n)) * w n i) atTop (𝓝 (∫ s in (0:ℝ)..t, g s * q s)) := by
  have hind : ∀ u : ℝ → ℝ, ∀ s ∈ Icc 0 T, (∫ r in (0:ℝ)..s, (Iic t).indicator u r) = ∫ r in (0:ℝ)..(min s t), u r := fun u s hs => by
    rw [intervalIntegral.integral_of_le hs.1, intervalIntegral.integral_of_le (le_min hs.1 ht.1), setIntegral_indicator measurableSet_Iic]
    congr 1
    congr 1
    ext r
    simp only [mem_inter_iff, mem_Ioc, mem_Iic, le_min_iff]
    tauto
  have key := weak hT (N := N) (w := fun n i => if (i : ℝ) * (T / N n) < t then w n i else 0) (q := (Iic t).indicator q) (fun n i => by
      split_ifs
      · exact hw n i
      · exact le_rfl) (fun a b => by
      rw [intervalIntegrable_iff]
      exact (intervalIntegrable_iff.1 (hq.intervalIntegrable a b)).indicator measurableSet_Iic) (fun s hs => by
      rw [hind q s hs]
      refine (h (min s t) ⟨le_min hs.1 ht.1, (min_le_left _ _).trans hs.2⟩).congr fun n => ?_
      rw [Finset.sum_filter, Finset.sum_filter]
      refine Finset.sum_congr rfl fun i _ => ?_
      simp only [lt_min_iff]
      by_cases h1 : (i : ℝ) * (T / N n) < s <;> by_cases h2 : (i : ℝ) * (T / N n) < t <;> simp [h1, h2]) hg
  have e : (fun s => g s * (Iic t).indicator q s) = (Iic t).indicator (fun s => g s * q s) := by
    ext s
    by_cases hs : s ∈ Iic t
    · rw [indicator_of_mem hs, indicator_of_mem hs]
    · rw [indicator_of_notMem hs, indicator_of_notMem hs, mul_zero]
  rw [e, hind _ T ⟨hT.le, le_rfl⟩, min_eq_right ht.2] at key
  refine key.congr fun n => ?_
  rw [Finset.sum_filter]
  refine Finset.sum_congr rfl fun i _ => ?_
  split_ifs <;> simp

/-- The quadratic variation of a smooth function of a path. -/
theorem qv_comp {x q : ℝ → ℝ} {T : ℝ} (hT : 0 < T) {N : ℕ → ℕ} (hx : Continuous x) (hq : Continuous q)
    (h : Spec.HasQuadVar x q T N) {lo up : ℝ} (hr : ∀ t, x t ∈ Icc lo up) {f f' : ℝ → ℝ} (h1 : ∀ y ∈ Icc lo up, HasDerivAt f (f' y) y) (hf' : ContinuousOn f' (Icc lo up)) :
    Spec.HasQuadVar (fun t => f (x t)) (fun t => f' (x t) ^ 2 * q t) T N := by
  have c1 : Continuous fun t => f' (x t) := hf'.comp_continuous hx hr
  refine ⟨h.1, fun t ht => ?_⟩
  have key := weak_upto hT (w := fun n i => (x ((i + 1 : ℕ) * (T / N n)) - x (i * (T / N n))) ^ 2) (fun _ _ => sq_nonneg _) hq h.2 (g := fun t => f' (x t) ^ 2) (c1.pow 2) ht
  obtain ⟨B, hB⟩ := isCompact_Icc.exists_bound_of_continuousOn hf'
  have hB0 : 0 ≤ B := (norm_nonneg _).trans (hB (x 0) (hr 0))
  set r : ℕ → ℕ → ℝ := fun n i => if (i : ℝ) * (T / N n) < t then (f (x ((i + 1 : ℕ) * (T / N n))) - f (x (i * (T / N n)))) ^ 2
    - f' (x (i * (T / N n))) ^ 2 * (x ((i + 1 : ℕ) * (T / N n)) - x (i * (T / N n))) ^ 2 else 0 with hrdef
  have R : Tendsto (fun n => ∑ i ∈ Finset.range (N n), r n i) atTop (𝓝 0) := by
    refine remainder hT h hq fun ε hε => ?_
    have huc : UniformContinuousOn f' (Icc lo up) := isCompact_Icc.uniformContinuousOn_of_continuous hf'
    obtain ⟨η, hη, hη1, hηε⟩ : ∃ η : ℝ, 0 < η ∧ η ≤ 1 ∧ η * (2 * B + 1) ≤ ε := by
      refine ⟨min 1 (ε / (2 * B + 1)), by positivity, min_le_left _ _, ?_⟩
      have h := min_le_right 1 (ε / (2 * B + 1))
      calc min 1 (ε / (2 * B + 1)) * (2 * B + 1) ≤ ε / (2 * B + 1) * (2 * B + 1) := by gcongr
        _ = ε := by field_simp
    obtain ⟨δ, hδ, hd⟩ := Metric.uniformContinuousOn_iff.1 huc η hη
    filter_upwards [small_incr hx hT h.1 hδ] with n hn i hi
    simp only [hrdef]
    split_ifs
    swap
    · rw [abs_zero]; positivity
    set u := x (i * (T / N n)) with hu
    set v := x ((i + 1 : ℕ) * (T / N n)) with hv
    have i1 : u ∈ Icc lo up := hr _
    have i2 : v ∈ Icc lo up := hr _
    have hsub : uIcc u v ⊆ Icc lo up := ordConnected_Icc.uIcc_subset i1 i2
    have hmv : |f v - f u - f' u * (v - u)| ≤ η * |v - u| := by
      have h2 := (convex_uIcc u v).norm_image_sub_le_of_norm_hasDerivWithin_le (f := fun z => f z - f' u * z) (f' := fun z => f' z - f' u) (C := η)
        (fun z hz => (((h1 z (hsub hz)).fun_sub ((hasDerivAt_id' z).const_mul _)).congr_deriv (by ring)).hasDerivWithinAt) (fun z hz => by
          rw [← dist_eq_norm]
          refine (hd z (hsub hz) u i1 ?_).le
          rw [Real.dist_eq]
          exact lt_of_le_of_lt (abs_sub_left_of_mem_uIcc hz) (hn i hi)) left_mem_uIcc right_mem_uIcc
      rw [Real.norm_eq_abs, Real.norm_eq_abs] at h2
      rwa [show f v - f' u * v - (f u - f' u * u) = f v - f u - f' u * (v - u) by ring] at h2
    have hb : |f' u| ≤ B := hB u i1
    have e : (f v - f u) ^ 2 - f' u ^ 2 * (v - u) ^ 2 = (f v - f u - f' u * (v - u)) * ((f v - f u - f' u * (v - u)) + 2 * (f' u * (v - u))) := by ring
    rw [e, abs_mul]
    have h3 : |f v - f u - f' u * (v - u) + 2 * (f' u * (v - u))| ≤ (2 * B + 1) * |v - u| := by
      refine (abs_add_le _ _).trans ?_
      rw [abs_mul, abs_mul, abs_two]
      have h4 : |f' u| * |v - u| ≤ B * |v - u| := mul_le_mul_of_nonneg_right hb (abs_nonneg _)
      have h5 : η * |v - u| ≤ 1 * |v - u| := mul_le_mul_of_nonneg_right hη1 (abs_nonneg _)
      linarith
    calc |f v - f u - f' u * (v - u)| * |f v - f u - f' u * (v - u) + 2 * (f' u * (v - u))| ≤ (η * |v - u|) * ((2 * B + 1) * |v - u|) :=
          mul_le_mul hmv h3 (abs_nonneg _) (by positivity)
      _ = η * (2 * B + 1) * (v - u) ^ 2 := by rw [← sq_abs (v - u)]; ring
      _ ≤ ε * (v - u) ^ 2 := mul_le_mul_of_nonneg_right hηε (sq_nonneg _)
  have tot := key.add R
  rw [add_zero] at tot
  refine tot.congr fun n => ?_
  rw [Finset.sum_filter, Finset.sum_filter, ← Finset.sum_add_distrib]
  refine Finset.sum_congr rfl fun i _ => ?_
  simp only [hrdef]
  split_ifs <;> ring

/-- The grid points before `t`. -/
lemma filter_card {T t : ℝ} (hT : 0 < T) (ht : t ∈ Icc 0 T) {n : ℕ} (hn : 0 < n) :
    (((Finset.range n).filter (fun i : ℕ => (i : ℝ) * (T / n) < t)).card : ℝ) * (T / n) ∈ Icc t (t + T / n) ∧ ((Finset.range n).filter (fun i : ℕ => (i : ℝ) * (T / n) < t)).card ≤ n := by
  have hn' : (0:ℝ) < n := by exact_mod_cast hn
  have hh : 0 < T / n := by positivity
  have hc : ⌈t / (T / n)⌉₊ ≤ n := by
    rw [Nat.ceil_le, div_le_iff₀ hh, mul_div_cancel₀ _ hn'.ne']
    exact ht.2
  have e : (Finset.range n).filter (fun i : ℕ => (i : ℝ) * (T / n) < t) = Finset.range ⌈t / (T / n)⌉₊ := by
    ext i
    rw [Finset.mem_filter, Finset.mem_range, Finset.mem_range, Nat.lt_ceil, lt_div_iff₀ hh]
    constructor
    · exact fun h => h.2
    · intro h
      refine ⟨?_, h⟩
      have : i < ⌈t / (T / n)⌉₊ := by rw [Nat.lt_ceil, lt_div_iff₀ hh]; exact h
      omega
  rw [e, Finset.card_range]
  refine ⟨⟨?_, ?_⟩, hc⟩
  · have := Nat.le_ceil (t / (T / n))
    rwa [div_le_iff₀ hh] at this
  · have := (Nat.ceil_lt_add_one (a := t / (T / n)) (div_nonneg ht.1 hh.le)).le
    have h2 := mul_le_mul_of_nonneg_right this hh.le
    rwa [add_mul, one_mul, div_mul_cancel₀ _ hh.ne'] at h2

/-- Almost every Brownian path has quadratic variation `t` along the dyadic grids. -/
theorem bm_path {Ω : Type*} {mΩ : MeasurableSpace Ω} {P : Measure Ω} {W : ℝ≥0 → Ω → ℝ} (hB : Spec.IsBM P W) {T : ℝ≥0} (hT : 0 < T) :
    ∀ᵐ ω ∂P, Spec.HasQuadVar (fun t => W t.toNNReal ω) (fun _ => 1) T (fun n => 2 ^ n) := by
  haveI := BmExp.isProb hB
  have hT' : (0:ℝ) < T := by exact_mod_cast hT
  obtain ⟨mom, hmean, hL2, hvar⟩ := QuadVar.incr hB T
  set F : ℕ → ℝ → Finset ℕ := fun n t => (Finset.range (2 ^ n)).filter (fun i : ℕ => (i : ℝ) * ((T : ℝ) / (2 ^ n : ℕ)) < t) with hF
  set S : ℕ → ℝ → Ω → ℝ := fun n t ω => ∑ i ∈ F n t, (W ((i + 1 : ℕ) * (T / (2 ^ n : ℕ))) ω - W (i * (T / (2 ^ n : ℕ))) ω) ^ 2 with hS
  have hfix : ∀ t ∈ Icc (0:ℝ) T, ∀ᵐ ω ∂P, Tendsto (fun n => S n t ω) atTop (𝓝 t) := fun t ht => by
    have hcard := fun n : ℕ => filter_card hT' ht (n := 2 ^ n) (by positivity)
    have hmem : ∀ n, MemLp (S n t) 2 P := fun n => memLp_finsetSum _ fun i _ => hL2 (2 ^ n) i
    have hE : ∀ n, ∫ ω, S n t ω ∂P = ((F n t).card : ℝ) * (T / (2 ^ n : ℕ)) := fun n => by
      simp only [hS]
      rw [integral_finsetSum _ fun i _ => mom (2 ^ n) i 2]
      simp only [hmean]
      rw [Finset.sum_const, nsmul_eq_mul]
      push_cast
      rfl
    have hElim : Tendsto (fun n => ∫ ω, S n t ω ∂P) atTop (𝓝 t) := by
      have hz : Tendsto (fun n : ℕ => t + (T : ℝ) / (2 ^ n : ℕ)) atTop (𝓝 (t + 0)) := by
        refine tendsto_const_nhds.add ?_
        have := (tendsto_const_div_atTop_nhds_zero_nat (T : ℝ)).comp (tendsto_pow_atTop_atTop_of_one_lt (one_lt_two : (1:ℕ) < 2))
        exact this
      rw [add_zero] at hz
      refine tendsto_of_tendsto_of_tendsto_of_le_of_le tendsto_const_nhds hz (fun n => ?_) fun n => ?_
      · rw [hE]; exact (hcard n).1.1
      · rw [hE]; exact (hcard n).1.2
    have hv : ∀ n, variance (S n t) P ≤ 3 * (T : ℝ) ^ 2 * (1 / 2) ^ n := fun n => by
      refine (hvar (2 ^ n) (F n t)).trans ?_
      have h1 : ((F n t).card : ℝ) ≤ 2 ^ n := by exact_mod_cast (hcard n).2
      push_cast
      calc ((F n t).card : ℝ) * (3 * ((T : ℝ) / 2 ^ n) ^ 2) ≤ 2 ^ n * (3 * ((T : ℝ) / 2 ^ n) ^ 2) := by gcongr
        _ = _ := by rw [one_div, inv_pow]; field_simp
    have hsum : ∫⁻ ω, ∑' n, ENNReal.ofReal ((S n t ω - ∫ ω, S n t ω ∂P) ^ 2) ∂P ≠ ∞ := by
      rw [lintegral_tsum fun n => ((((hmem n).aestronglyMeasurable.aemeasurable).sub_const _).pow_const 2).ennreal_ofReal]
      have h1 : ∀ n, ∫⁻ ω, ENNReal.ofReal ((S n t ω - ∫ ω, S n t ω ∂P) ^ 2) ∂P ≤ ENNReal.ofReal (3 * (T : ℝ) ^ 2 * (1 / 2) ^ n) := fun n => by
        have hsq : Integrable (fun ω => (S n t ω - ∫ ω, S n t ω ∂P) ^ 2) P := ((hmem n).sub (memLp_const _)).integrable_sq
        rw [← ofReal_integral_eq_lintegral_ofReal hsq (ae_of_all _ fun _ => sq_nonneg _)]
        refine ENNReal.ofReal_le_ofReal ?_
        have h2 := variance_eq_integral (hmem n).aestronglyMeasurable.aemeasurable
        have := hv n
        rw [h2] at this
        exact this
      refine ne_top_of_le_ne_top ?_ (ENNReal.tsum_le_tsum h1)
      rw [← ENNReal.ofReal_tsum_of_nonneg (fun n => by positivity) (summable_geometric_two.mul_left _)]
      exact ENNReal.ofReal_ne_top
    have hae := ae_lt_top' (AEMeasurable.tsum fun n => ((((hmem n).aestronglyMeasurable.aemeasurable).sub_const _).pow_const 2).ennreal_ofReal) hsum
    filter_upwards [hae] with ω hω
    have h0 := ENNReal.tendsto_atTop_zero_of_tsum_ne_top hω.ne
    have h1 : Tendsto (fun n => (S n t ω - ∫ ω, S n t ω ∂P) ^ 2) atTop (𝓝 0) := by
      have := (ENNReal.tendsto_toReal ENNReal.zero_ne_top).comp h0
      refine this.congr fun n => ?_
      simp only [Function.comp_apply]
      exact ENNReal.toReal_ofReal (sq_nonneg _)
    have h2 : Tendsto (fun n => S n t ω - ∫ ω, S n t ω ∂P) atTop (𝓝 0) := by
      have h3 := h1.sqrt
      rw [Real.sqrt_zero] at h3
      simp only [Real.sqrt_sq_eq_abs] at h3
      exact (tendsto_zero_iff_abs_tendsto_zero _).2 h3
    have h3 := h2.add hElim
    rw [zero_add] at h3
    refine h3.congr fun n => ?_
    ring
  have hrat : ∀ᵐ ω ∂P, ∀ r : ℚ, (r : ℝ) ∈ Icc (0:ℝ) T → Tendsto (fun n => S n r ω) atTop (𝓝 r) := by
    rw [ae_all_iff]
    intro r
    by_cases hr : (r : ℝ) ∈ Icc (0:ℝ) T
    · filter_upwards [hfix r hr] with ω hω _
      exact hω
    · exact ae_of_all _ fun ω h => absurd h hr
  filter_upwards [hrat, hfix T ⟨hT'.le, le_rfl⟩, hfix 0 ⟨le_rfl, hT'.le⟩] with ω h1 h2 h3
  refine ⟨tendsto_pow_atTop_atTop_of_one_lt (one_lt_two : (1:ℕ) < 2), fun t ht => ?_⟩
  have hmono : ∀ n, ∀ {a b : ℝ}, a ≤ b → S n a ω ≤ S n b ω := fun n a b hab => by
    simp only [hS]
    refine Finset.sum_le_sum_of_subset_of_nonneg ?_ fun _ _ _ => sq_nonneg _
    intro i hi
    simp only [hF, Finset.mem_filter] at hi ⊢
    exact ⟨hi.1, hi.2.trans_le hab⟩
  have key : Tendsto (fun n => S n t ω) atTop (𝓝 t) := by
    rcases eq_or_lt_of_le ht.1 with h0 | h0
    · rw [← h0]; exact h3
    rcases eq_or_lt_of_le ht.2 with hTt | hTt
    · rw [hTt]; exact h2
    refine tendsto_order.2 ⟨fun a ha => ?_, fun a ha => ?_⟩
    · obtain ⟨r, hr1, hr2⟩ := exists_rat_btwn (max_lt ha h0)
      have hr := h1 r ⟨((le_max_right _ _).trans hr1.le), hr2.le.trans ht.2⟩
      filter_upwards [(tendsto_order.1 hr).1 a ((le_max_left _ _).trans_lt hr1)] with n hn
      exact hn.trans_le (hmono n hr2.le)
    · obtain ⟨r, hr1, hr2⟩ := exists_rat_btwn (lt_min ha hTt)
      have hr := h1 r ⟨ht.1.trans hr1.le, hr2.le.trans (min_le_right _ _)⟩
      filter_upwards [(tendsto_order.1 hr).2 a (hr2.trans_le (min_le_left _ _))] with n hn
      exact (hmono n hr1.le).trans_lt hn
  rw [intervalIntegral.integral_const, smul_eq_mul, mul_one, sub_zero]
  refine key.congr fun n => ?_
  have e : ∀ k : ℕ, ((k : ℝ) * ((T : ℝ) / (2 ^ n : ℕ))).toNNReal = (k : ℝ≥0) * (T / (2 ^ n : ℕ)) := fun k => by
    rw [← Real.toNNReal_coe (r := (k : ℝ≥0) * (T / (2 ^ n : ℕ)))]
    push_cast
    rfl
  simp only [e]
  rfl

/-- A bounded continuous path with quadratic variation `t`. -/
theorem exists_path : ∃ x : ℝ → ℝ, ∃ B : ℝ, Continuous x ∧ (∀ t, |x t| ≤ B) ∧ Spec.HasQuadVar x (fun _ => 1) 1 (fun n => 2 ^ n) := by
  obtain ⟨Ω, mΩ, P, W, hB⟩ := Spec.exists_isBM
  haveI := BmExp.isProb hB
  obtain ⟨ω, hω⟩ := (bm_path hB one_pos).exists
  have hc : Continuous fun t : ℝ => W t.toNNReal ω := (hB.cont ω).comp continuous_real_toNNReal
  obtain ⟨B, hB⟩ := isCompact_Icc.exists_bound_of_continuousOn (s := Icc (0:ℝ) 1) hc.continuousOn
  refine ⟨fun t => W (max 0 (min t 1)).toNNReal ω, B, hc.comp (by fun_prop), fun t => hB _ ⟨le_max_left _ _, max_le zero_le_one (min_le_right _ _)⟩, hω.1, fun t ht => ?_⟩
  refine (hω.2 t ht).congr fun n => Finset.sum_congr rfl fun i hi => ?_
  obtain ⟨h1, h2⟩ := grid_mem one_pos (Finset.mem_range.1 (Finset.mem_filter.1 hi).1)
  rw [NNReal.coe_one]
  have e : ∀ s : ℝ, s ∈ Icc (0:ℝ) 1 → max 0 (min s 1) = s := fun s hs => by rw [min_eq_left hs.2, max_eq_right hs.1]
  beta_reduce at h1 h2 ⊢
  rw [e _ h1, e _ h2]

end Follmer

end PyFENG
