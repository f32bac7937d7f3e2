import Verif.Lemmas.Follmer

/-!
# Quadratic variation: change of path on the interval, smooth perturbations
-/

namespace PyFENG

open MeasureTheory ProbabilityTheory Real Set Filter Topology
open scoped NNReal ENNReal

namespace Follmer

lemma qv_congr {x y q : ℝ → ℝ} {T : ℝ} (hT : 0 < T) {N : ℕ → ℕ} (h : Spec.HasQuadVar x q T N) (hxy : ∀ t ∈ Icc 0 T, y t = x t) : Spec.HasQuadVar y q T N := by
  refine ⟨h.1, fun t ht => ?_⟩
  refine (h.2 t ht).congr fun n => Finset.sum_congr rfl fun i hi => ?_
  obtain ⟨h1, h2⟩ := grid_mem hT (Finset.mem_range.1 (Finset.mem_filter.1 hi).1)
  rw [hxy _ h1, hxy _ h2]

lemma qv_congr_density {x q r : ℝ → ℝ} {T : ℝ} {N : ℕ → ℕ} (h : Spec.HasQuadVar x q T N) (hqr : ∀ t ∈ Icc 0 T, r t = q t) : Spec.HasQuadVar x r T N := by
  refine ⟨h.1, fun t ht => ?_⟩
  have : ∫ s in (0:ℝ)..t, r s = ∫ s in (0:ℝ)..t, q s := intervalIntegral.integral_congr fun s hs => by
    rw [uIcc_of_le ht.1] at hs
    exact hqr s ⟨hs.1, hs.2.trans ht.2⟩
  rw [this]
  exact h.2 t ht

/-- Adding a Lipschitz function does not change the quadratic variation. -/
theorem qv_add {x q g : ℝ → ℝ} {T L : ℝ} (hT : 0 < T) {N : ℕ → ℕ} (hx : Continuous x) (h : Spec.HasQuadVar x q T N) (hL : 0 ≤ L)
    (hg : ∀ s ∈ Icc 0 T, ∀ t ∈ Icc 0 T, |g t - g s| ≤ L * |t - s|) : Spec.HasQuadVar (fun t => x t + g t) q T N := by
  refine ⟨h.1, fun t ht => ?_⟩
  set F : ℕ → Finset ℕ := fun n => (Finset.range (N n)).filter (fun i : ℕ => (i : ℝ) * (T / N n) < t) with hF
  have hgi : ∀ n i, i < N n → |g ((i + 1 : ℕ) * (T / N n)) - g (i * (T / N n))| ≤ L * (T / N n) := fun n i hi => by
    obtain ⟨h1, h2⟩ := grid_mem hT hi
    refine (hg _ h1 _ h2).trans (le_of_eq ?_)
    have e : ((i + 1 : ℕ) : ℝ) * (T / N n) - i * (T / N n) = T / N n := by push_cast; ring
    rw [e, abs_of_nonneg (by positivity)]
  -- the perturbation
  have key : Tendsto (fun n => ∑ i ∈ F n, (((x ((i + 1 : ℕ) * (T / N n)) + g ((i + 1 : ℕ) * (T / N n))) - (x (i * (T / N n)) + g (i * (T / N n)))) ^ 2 -
      (x ((i + 1 : ℕ) * (T / N n)) - x (i * (T / N n))) ^ 2)) atTop (𝓝 0) := by
    rw [Metric.tendsto_nhds]
    intro ε hε
    set δ := ε / (3 * (L + 1) * T) with hδ
    have hδ0 : 0 < δ := by positivity
    obtain ⟨M, hM⟩ := exists_nat_gt (L * T / δ)
    filter_upwards [small_incr hx hT h.1 hδ0, h.1.eventually_gt_atTop M] with n hn hNM
    rw [Real.dist_eq, sub_zero]
    have hN0 : (0:ℝ) < N n := by exact_mod_cast (by omega : 0 < N n)
    have hLT : L * (T / N n) ≤ δ := by
      rw [mul_div_assoc', div_le_iff₀ hN0]
      have h1 : L * T / δ < N n := hM.trans (by exact_mod_cast hNM)
      rw [div_lt_iff₀ hδ0] at h1
      linarith
    have hb : ∀ i ∈ F n, |((x ((i + 1 : ℕ) * (T / N n)) + g ((i + 1 : ℕ) * (T / N n))) - (x (i * (T / N n)) + g (i * (T / N n)))) ^ 2 -
      (x ((i + 1 : ℕ) * (T / N n)) - x (i * (T / N n))) ^ 2| ≤ 3 * δ * (L * (T / N n)) := fun i hi => by
      have hi' := Finset.mem_range.1 (Finset.mem_filter.1 hi).1
      have a1 := hn i hi'
      have a2 := hgi n i hi'
      generalize x ((i + 1 : ℕ) * (T / N n)) = x1 at *
      generalize x (i * (T / N n)) = x0 at *
      generalize g ((i + 1 : ℕ) * (T / N n)) = g1 at *
      generalize g (i * (T / N n)) = g0 at *
      have e : (x1 + g1 - (x0 + g0)) ^ 2 - (x1 - x0) ^ 2 = (g1 - g0) * (2 * (x1 - x0) + (g1 - g0)) := by ring
      rw [e, abs_mul]
      have a3 : |2 * (x1 - x0) + (g1 - g0)| ≤ 3 * δ := by
        refine (abs_add_le _ _).trans ?_
        rw [abs_mul, abs_two]
        linarith
      calc |g1 - g0| * |2 * (x1 - x0) + (g1 - g0)| ≤ (L * (T / N n)) * (3 * δ) := mul_le_mul a2 a3 (abs_nonneg _) (by positivity)
        _ = _ := by ring
    have hc : ((F n).card : ℝ) ≤ N n := by
      have := Finset.card_filter_le (Finset.range (N n)) (fun i : ℕ => (i : ℝ) * (T / N n) < t)
      rw [Finset.card_range] at this
      exact_mod_cast this
    refine lt_of_le_of_lt ((Finset.abs_sum_le_sum_abs _ _).trans (Finset.sum_le_sum hb)) ?_
    rw [Finset.sum_const, nsmul_eq_mul]
    have h5 : ((F n).card : ℝ) * (3 * δ * (L * (T / N n))) ≤ N n * (3 * δ * (L * (T / N n))) := mul_le_mul_of_nonneg_right hc (by positivity)
    refine lt_of_le_of_lt h5 ?_
    have e : (N n : ℝ) * (3 * δ * (L * (T / N n))) = 3 * δ * L * T := by field_simp
    rw [e, hδ]
    have e2 : 3 * (ε / (3 * (L + 1) * T)) * L * T = ε * (L / (L + 1)) := by field_simp
    rw [e2]
    have : L / (L + 1) < 1 := by rw [div_lt_one (by positivity)]; linarith
    nlinarith
  have := key.add (h.2 t ht)
  rw [zero_add] at this
  refine this.congr fun n => ?_
  rw [← Finset.sum_add_distrib]
  exact Finset.sum_congr rfl fun i _ => by ring

/-- The quadratic variation of a smooth function of a path; only the values on the interval matter. -/
theorem qv_comp' {x q : ℝ → ℝ} {T : ℝ} (hT : 0 < T) {N : ℕ → ℕ} (hx : Continuous x) (hq : Continuous q)
    (h : Spec.HasQuadVar x q T N) {f f' : ℝ → ℝ} (h1 : ∀ y, HasDerivAt f (f' y) y) (hf' : Continuous f') :
    Spec.HasQuadVar (fun t => f (x t)) (fun t => f' (x t) ^ 2 * q t) T N := by
  obtain ⟨tl, _, hlo⟩ := isCompact_Icc.exists_isMinOn (nonempty_Icc.2 hT.le) hx.continuousOn
  obtain ⟨tu, _, hup⟩ := isCompact_Icc.exists_isMaxOn (nonempty_Icc.2 hT.le) hx.continuousOn
  set pr : ℝ → ℝ := fun t => max 0 (min t T) with hpr
  have hprm : ∀ t, pr t ∈ Icc 0 T := fun t => ⟨le_max_left _ _, max_le hT.le (min_le_right _ _)⟩
  have hpre : ∀ t ∈ Icc 0 T, pr t = t := fun t ht => by simp only [hpr]; rw [min_eq_left ht.2, max_eq_right ht.1]
  have hprc : Continuous pr := by simp only [hpr]; fun_prop
  have hx' : Continuous fun t => x (pr t) := hx.comp hprc
  have hq' := qv_congr hT h (y := fun t => x (pr t)) fun t ht => by rw [hpre t ht]
  have key := qv_comp hT hx' hq hq' (lo := x tl) (up := x tu) (fun t => ⟨hlo (hprm t), hup (hprm t)⟩) (fun y _ => h1 y) hf'.continuousOn
  refine qv_congr_density (qv_congr hT key fun t ht => ?_) fun t ht => ?_
  · simp only [hpre t ht]
  · simp only [hpre t ht]

end Follmer

end PyFENG
