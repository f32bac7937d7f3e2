import Mathlib.Analysis.SpecialFunctions.Gamma.Beta
import Mathlib.Analysis.Calculus.SmoothSeries
import Mathlib.Analysis.SpecificLimits.Normed
import Mathlib.Analysis.Normed.Algebra.Exponential
import Mathlib.Analysis.SpecialFunctions.Exponential

/-!
# The confluent hypergeometric function `1F1` (Kummer's function)
-/

namespace PyFENG

open Filter Topology MeasureTheory

/-- Kummer's series `1F1(a; b; x) = ∑ (a)_k / (b)_k x^k / k!`. -/
noncomputable def Spec.kummer (a b x : ℂ) : ℂ := ∑' k : ℕ, x ^ k / k.factorial * ∏ j ∈ Finset.range k, (a + j) / (b + j)

namespace Kummer

/-- Exponential-type series. -/
noncomputable def E (c : ℕ → ℂ) (x : ℂ) : ℂ := ∑' k : ℕ, x ^ k / k.factorial * c k

lemma summable_E {c : ℕ → ℂ} {C D : ℝ} (hc : ∀ k, ‖c k‖ ≤ C * D ^ k) (x : ℂ) : Summable fun k : ℕ => x ^ k / k.factorial * c k := by
  refine Summable.of_norm_bounded ((Real.summable_pow_div_factorial (‖x‖ * D)).mul_right C) fun k => ?_
  rw [norm_mul, norm_div, norm_pow, Complex.norm_natCast, mul_pow]
  refine (mul_le_mul_of_nonneg_left (hc k) (by positivity)).trans (le_of_eq ?_)
  ring

lemma hasDerivAt_E {c : ℕ → ℂ} {C D : ℝ} (hD : 0 ≤ D) (hc : ∀ k, ‖c k‖ ≤ C * D ^ k) (x : ℂ) : HasDerivAt (E c) (E (fun k => c (k + 1)) x) x := by
  have hC : 0 ≤ C := by have := (norm_nonneg _).trans (hc 0); simpa using this
  have e : E c = fun m => c 0 + ∑' j : ℕ, m ^ (j + 1) / (j + 1).factorial * c (j + 1) := by
    ext m
    unfold E
    rw [(summable_E hc m).tsum_eq_zero_add]
    simp
  rw [e]
  refine HasDerivAt.const_add _ ?_
  unfold E
  refine hasDerivAt_tsum_of_isPreconnected (u := fun j : ℕ => ((‖x‖ + 1) * D) ^ j / j.factorial * (C * D)) (t := Metric.ball 0 (‖x‖ + 1))
    (g := fun (j : ℕ) m => m ^ (j + 1) / (j + 1).factorial * c (j + 1))
    (g' := fun (j : ℕ) m => m ^ j / j.factorial * c (j + 1)) (y₀ := 0)
    ((Real.summable_pow_div_factorial _).mul_right _) Metric.isOpen_ball
    (convex_ball _ _).isPreconnected ?_ ?_ ?_ ?_ ?_
  · intro j m _
    refine (((hasDerivAt_pow (j + 1) m).div_const _).mul_const _).congr_deriv ?_
    rw [Nat.factorial_succ]
    have h1 : ((j.factorial : ℕ) : ℂ) ≠ 0 := by exact_mod_cast (Nat.factorial_pos j).ne'
    have h2 : ((j : ℂ) + 1) ≠ 0 := by exact_mod_cast Nat.succ_ne_zero j
    push_cast
    field_simp
  · intro j m hm
    rw [mem_ball_zero_iff] at hm
    rw [norm_mul, norm_div, norm_pow, Complex.norm_natCast, mul_pow]
    have h1 := hc (j + 1)
    calc ‖m‖ ^ j / j.factorial * ‖c (j + 1)‖ ≤ (‖x‖ + 1) ^ j / j.factorial * (C * D ^ (j + 1)) := by gcongr
      _ = _ := by ring
  · simp; positivity
  · simp
  · simp

/-- `x F' = ∑ k c_k x^k / k!`. -/
lemma mul_E {c : ℕ → ℂ} {C D : ℝ} (hD : 0 ≤ D) (hc : ∀ k, ‖c k‖ ≤ C * D ^ k) (x : ℂ) :
    HasSum (fun k : ℕ => x ^ k / k.factorial * (k * c k)) (x * E (fun k => c (k + 1)) x) := by
  have hc' : ∀ k, ‖c (k + 1)‖ ≤ C * D * D ^ k := fun k => (hc (k + 1)).trans (le_of_eq (by ring))
  have h := (summable_E hc' x).hasSum.mul_left x
  rw [← hasSum_nat_add_iff' 1]
  simp only [Finset.range_one, Finset.sum_singleton, Nat.cast_zero, zero_mul, mul_zero, sub_zero]
  refine h.congr_fun ?_ |> fun h => h
  intro k
  rw [Nat.factorial_succ]
  have h1 : ((k.factorial : ℕ) : ℂ) ≠ 0 := by exact_mod_cast (Nat.factorial_pos k).ne'
  have h2 : ((k : ℂ) + 1) ≠ 0 := by exact_mod_cast Nat.succ_ne_zero k
  push_cast
  field_simp
  ring

/-- The coefficients `(a)_k / (b)_k`. -/
noncomputable def co (a b : ℂ) (k : ℕ) : ℂ := ∏ j ∈ Finset.range k, (a + j) / (b + j)

lemma co_bound {a b : ℂ} {D : ℝ} (hD : ∀ j : ℕ, ‖(a + j) / (b + j)‖ ≤ D) (k : ℕ) : ‖co a b k‖ ≤ 1 * D ^ k := by
  unfold co
  rw [norm_prod, one_mul]
  refine (Finset.prod_le_prod (fun _ _ => norm_nonneg _) fun j _ => hD j).trans (le_of_eq ?_)
  simp

lemma exists_bound (a b : ℂ) : ∃ D : ℝ, 0 ≤ D ∧ ∀ j : ℕ, ‖(a + j) / (b + j)‖ ≤ D := by
  have h := tendsto_add_mul_div_add_mul_atTop_nhds a b 1 (d := (1:ℂ)) one_ne_zero
  simp only [one_mul] at h
  obtain ⟨D, hD⟩ := h.norm.bddAbove_range
  have hD' : ∀ j : ℕ, ‖(a + j) / (b + j)‖ ≤ D := fun j => hD ⟨j, rfl⟩
  exact ⟨D, (norm_nonneg _).trans (hD' 0), hD'⟩

lemma kummer_eq (a b x : ℂ) : Spec.kummer a b x = E (co a b) x := rfl

/-- Kummer's equation `x M'' + (b - x) M' - a M = 0`. -/
lemma ode (a : ℂ) {b : ℂ} (hb : ∀ k : ℕ, b + k ≠ 0) (x : ℂ) : ∃ M1 : ℂ → ℂ, ∃ M2 : ℂ,
    (∀ y, HasDerivAt (Spec.kummer a b) (M1 y) y) ∧ HasDerivAt M1 M2 x ∧ x * M2 + (b - x) * M1 x - a * Spec.kummer a b x = 0 := by
  obtain ⟨D, hD0, hD⟩ := exists_bound a b
  have c0 := co_bound hD
  have c1 : ∀ k, ‖co a b (k + 1)‖ ≤ D * D ^ k := fun k => (c0 (k + 1)).trans (le_of_eq (by ring))
  have c2 : ∀ k, ‖co a b (k + 1 + 1)‖ ≤ D * D * D ^ k := fun k => (c0 (k + 1 + 1)).trans (le_of_eq (by ring))
  have hk : Spec.kummer a b = E (co a b) := rfl
  refine ⟨E fun k => co a b (k + 1), E (fun k => co a b (k + 1 + 1)) x, fun y => hasDerivAt_E hD0 c0 y, hasDerivAt_E hD0 c1 x, ?_⟩
  have s0 := (summable_E c0 x).hasSum
  have s1 := (summable_E c1 x).hasSum
  have t0 := mul_E hD0 c0 x
  have t1 := mul_E hD0 c1 x
  have h := ((t1.add (s1.mul_left b)).sub t0).sub (s0.mul_left a)
  have e : x * E (fun k => co a b (k + 1 + 1)) x + (b - x) * E (fun k => co a b (k + 1)) x - a * Spec.kummer a b x
      = x * E (fun k => co a b (k + 1 + 1)) x + b * E (fun k => co a b (k + 1)) x - x * E (fun k => co a b (k + 1)) x - a * E (co a b) x := by
    rw [hk]; ring
  rw [e]
  refine h.unique ?_
  convert hasSum_zero using 1
  ext k
  have : co a b (k + 1) = co a b k * ((a + k) / (b + k)) := by unfold co; rw [Finset.prod_range_succ]
  rw [this]
  have := hb k
  field_simp
  ring

lemma co_gamma {a b : ℂ} (ha : 0 < a.re) (hb : 0 < b.re) (k : ℕ) : co a b k * Complex.Gamma a * Complex.Gamma (b + k) = Complex.Gamma (a + k) * Complex.Gamma b := by
  have hne : ∀ {z : ℂ}, 0 < z.re → z ≠ 0 := fun {z} hz h => by rw [h] at hz; simp at hz
  have hp : ∀ {z : ℂ}, 0 < z.re → ∀ n : ℕ, 0 < (z + n).re := fun {z} hz n => by simp; positivity
  induction k with
  | zero => simp [co]
  | succ k ih =>
    have h1 : co a b (k + 1) = co a b k * ((a + k) / (b + k)) := by unfold co; rw [Finset.prod_range_succ]
    have h2 : Complex.Gamma (a + (k + 1 : ℕ)) = (a + k) * Complex.Gamma (a + k) := by
      rw [← Complex.Gamma_add_one _ (hne (hp ha k))]; push_cast; ring_nf
    have h3 : Complex.Gamma (b + (k + 1 : ℕ)) = (b + k) * Complex.Gamma (b + k) := by
      rw [← Complex.Gamma_add_one _ (hne (hp hb k))]; push_cast; ring_nf
    have h4 := hne (hp hb k)
    rw [h1, h2, h3]
    calc co a b k * ((a + k) / (b + k)) * Complex.Gamma a * ((b + k) * Complex.Gamma (b + k))
        = (a + k) * (co a b k * Complex.Gamma a * Complex.Gamma (b + k)) := by field_simp
      _ = _ := by rw [ih]; ring

/-- Euler's integral for Kummer's function. -/
lemma integral_rep {a b : ℂ} (ha : 0 < a.re) (hb : 0 < (b - a).re) (x : ℂ) :
    Complex.Gamma a * (Complex.Gamma (b - a) / Complex.Gamma b) * Spec.kummer a b x =
      ∫ s in (0:ℝ)..1, Complex.exp (x * s) * ((s : ℂ) ^ (a - 1) * (1 - (s : ℂ)) ^ (b - a - 1)) := by
  have hbr : 0 < b.re := by simp at hb; linarith
  have hG : ∀ k : ℕ, Complex.Gamma (b + k) ≠ 0 := fun k => Complex.Gamma_ne_zero_of_re_pos (by simp; positivity)
  have hGb : Complex.Gamma b ≠ 0 := Complex.Gamma_ne_zero_of_re_pos hbr
  have hterm : ∀ k : ℕ, Complex.Gamma a * (Complex.Gamma (b - a) / Complex.Gamma b) * (x ^ k / k.factorial * co a b k) =
      ∫ s in (0:ℝ)..1, x ^ k / k.factorial * ((s : ℂ) ^ k * ((s : ℂ) ^ (a - 1) * (1 - (s : ℂ)) ^ (b - a - 1))) := fun k => by
    rw [intervalIntegral.integral_const_mul]
    have e : ∫ s in (0:ℝ)..1, ((s : ℂ) ^ k * ((s : ℂ) ^ (a - 1) * (1 - (s : ℂ)) ^ (b - a - 1))) = Complex.betaIntegral (a + k) (b - a) := by
      unfold Complex.betaIntegral
      refine intervalIntegral.integral_congr_ae (ae_of_all _ fun s hs => ?_)
      rw [Set.uIoc_of_le zero_le_one] at hs
      have : (s : ℂ) ≠ 0 := by exact_mod_cast hs.1.ne'
      rw [← mul_assoc, ← Complex.cpow_natCast, ← Complex.cpow_add _ _ this]
      congr 2
      ring
    rw [e]
    have h1 := Complex.Gamma_mul_Gamma_eq_betaIntegral (s := a + k) (t := b - a) (by simp; positivity) hb
    rw [show a + k + (b - a) = b + k by ring] at h1
    have h2 := co_gamma ha hbr k
    have h3 : Complex.betaIntegral (a + k) (b - a) = Complex.Gamma (a + k) * Complex.Gamma (b - a) / Complex.Gamma (b + k) := by
      rw [h1]; have := hG k; field_simp
    have h4 : Complex.Gamma (a + k) = co a b k * Complex.Gamma a * Complex.Gamma (b + k) / Complex.Gamma b := by rw [h2]; field_simp
    rw [h3, h4]
    have := hG k
    field_simp
  have hconv := Complex.betaIntegral_convergent ha hb
  have hint := hconv.norm
  have hS : HasSum (fun k : ℕ => ∫ s in (0:ℝ)..1, x ^ k / k.factorial * ((s : ℂ) ^ k * ((s : ℂ) ^ (a - 1) * (1 - (s : ℂ)) ^ (b - a - 1))))
      (∫ s in (0:ℝ)..1, Complex.exp (x * s) * ((s : ℂ) ^ (a - 1) * (1 - (s : ℂ)) ^ (b - a - 1))) := by
    refine intervalIntegral.hasSum_integral_of_dominated_convergence
      (fun k s => ‖x‖ ^ k / k.factorial * ‖(s : ℂ) ^ (a - 1) * (1 - (s : ℂ)) ^ (b - a - 1)‖) (fun k => ?_) (fun k => ?_) ?_ ?_ ?_
    · have hm := hconv.aestronglyMeasurable
      rw [Set.uIoc_of_le zero_le_one]
      refine AEStronglyMeasurable.mul (by fun_prop) (AEStronglyMeasurable.mul ?_ hm)
      exact Continuous.aestronglyMeasurable (by fun_prop)
    · refine ae_of_all _ fun s hs => ?_
      rw [Set.uIoc_of_le zero_le_one] at hs
      rw [norm_mul, norm_mul, norm_div, norm_pow, norm_pow, Complex.norm_natCast, Complex.norm_real, Real.norm_eq_abs, abs_of_pos hs.1]
      have : s ^ k ≤ 1 := pow_le_one₀ hs.1.le hs.2
      refine mul_le_mul_of_nonneg_left ?_ (by positivity)
      exact mul_le_of_le_one_left (norm_nonneg _) this
    · exact ae_of_all _ fun s _ => (Real.summable_pow_div_factorial ‖x‖).mul_right _
    · simp_rw [tsum_mul_right]
      exact hint.const_mul _
    · refine ae_of_all _ fun s _ => ?_
      have h1 := NormedSpace.expSeries_div_hasSum_exp (x * (s : ℂ))
      rw [← Complex.exp_eq_exp_ℂ] at h1
      have h2 := h1.mul_right ((s : ℂ) ^ (a - 1) * (1 - (s : ℂ)) ^ (b - a - 1))
      refine h2.congr_fun fun k => ?_
      rw [mul_pow]
      ring
  obtain ⟨D, hD0, hD⟩ := exists_bound a b
  have hK := (summable_E (co_bound hD) x).hasSum.mul_left (Complex.Gamma a * (Complex.Gamma (b - a) / Complex.Gamma b))
  simp only [hterm] at hK
  exact hK.unique hS

/-- The scaled function `X^a Γ(b-a)/Γ(b) 1F1(a; b; -X)`. -/
noncomputable def R (a b : ℂ) (X : ℝ) : ℂ := (X : ℂ) ^ a * (Complex.Gamma (b - a) / Complex.Gamma b) * Spec.kummer a b (-(X : ℂ))

lemma scaled_rep {a b : ℂ} (ha : 0 < a.re) (hb : 0 < (b - a).re) {X : ℝ} (hX : 0 < X) :
    Complex.Gamma a * R a b X = ∫ y in (0:ℝ)..X, ((Real.exp (-y) : ℝ) : ℂ) * (y : ℂ) ^ (a - 1) * (1 - ((y / X : ℝ) : ℂ)) ^ (b - a - 1) := by
  have hX' : (X : ℂ) ≠ 0 := by exact_mod_cast hX.ne'
  have h := integral_rep ha hb (-(X : ℂ))
  have h1 := intervalIntegral.integral_comp_div (a := 0) (b := X) (fun s : ℝ => Complex.exp (-(X : ℂ) * s) * ((s : ℂ) ^ (a - 1) * (1 - (s : ℂ)) ^ (b - a - 1))) hX.ne'
  rw [zero_div, div_self hX.ne', ← h] at h1
  have h2 : Complex.Gamma a * R a b X = (X : ℂ) ^ (a - 1) * ∫ y in (0:ℝ)..X, Complex.exp (-(X : ℂ) * ((y / X : ℝ) : ℂ)) * (((y / X : ℝ) : ℂ) ^ (a - 1) * (1 - ((y / X : ℝ) : ℂ)) ^ (b - a - 1)) := by
    rw [h1, Complex.real_smul, Complex.cpow_sub _ _ hX', Complex.cpow_one]
    unfold R
    field_simp
  rw [h2, ← intervalIntegral.integral_const_mul]
  refine intervalIntegral.integral_congr_ae (ae_of_all _ fun y hy => ?_)
  rw [Set.uIoc_of_le hX.le] at hy
  have e1 : Complex.exp (-(X : ℂ) * ((y / X : ℝ) : ℂ)) = ((Real.exp (-y) : ℝ) : ℂ) := by
    rw [Complex.ofReal_exp]; congr 1; push_cast; field_simp
  have e2 : (y : ℂ) ^ (a - 1) = (X : ℂ) ^ (a - 1) * ((y / X : ℝ) : ℂ) ^ (a - 1) := by
    rw [← Complex.mul_cpow_ofReal_nonneg hX.le (by have := hy.1; positivity), ← Complex.ofReal_mul]
    congr 2
    field_simp
  rw [e1, e2]
  ring

/-- As the argument grows, `X^a Γ(b-a)/Γ(b) 1F1(a; b; -X) → 1`. -/
lemma tendsto_R {a b : ℂ} (ha : 0 < a.re) (hb : 1 ≤ (b - a).re) : Tendsto (R a b) atTop (𝓝 1) := by
  have hG : Complex.Gamma a ≠ 0 := Complex.Gamma_ne_zero_of_re_pos ha
  have hb0 : 0 < (b - a).re := by linarith
  have key : Tendsto (fun X : ℝ => Complex.Gamma a * R a b X) atTop (𝓝 (Complex.Gamma a)) := by
    have e : (fun X : ℝ => Complex.Gamma a * R a b X) =ᶠ[atTop] fun X : ℝ => ∫ y in Set.Ioi (0:ℝ), (Set.Ioo 0 X).indicator
        (fun y : ℝ => ((Real.exp (-y) : ℝ) : ℂ) * (y : ℂ) ^ (a - 1) * (1 - ((y / X : ℝ) : ℂ)) ^ (b - a - 1)) y := by
      filter_upwards [eventually_gt_atTop 0] with X hX
      rw [scaled_rep ha hb0 hX, intervalIntegral.integral_of_le hX.le, integral_indicator measurableSet_Ioo, Measure.restrict_restrict measurableSet_Ioo,
        Set.inter_eq_self_of_subset_left Set.Ioo_subset_Ioi_self, integral_Ioc_eq_integral_Ioo]
    refine Tendsto.congr' e.symm ?_
    rw [Complex.Gamma_eq_integral ha]
    unfold Complex.GammaIntegral
    have hc := Complex.GammaIntegral_convergent ha
    refine tendsto_integral_filter_of_dominated_convergence (fun y => ‖((Real.exp (-y) : ℝ) : ℂ) * (y : ℂ) ^ (a - 1)‖) ?_ ?_ hc.norm ?_
    · filter_upwards with X
      refine AEStronglyMeasurable.indicator ?_ measurableSet_Ioo
      refine (hc.aestronglyMeasurable).mul ?_
      exact (by fun_prop : Measurable fun y : ℝ => (1 - ((y / X : ℝ) : ℂ)) ^ (b - a - 1)).aestronglyMeasurable
    · filter_upwards [eventually_gt_atTop 0] with X hX
      refine ae_of_all _ fun y => ?_
      by_cases hy : y ∈ Set.Ioo 0 X
      · rw [Set.indicator_of_mem hy, norm_mul]
        refine mul_le_of_le_one_right (norm_nonneg _) ?_
        have h1 : 0 < 1 - y / X := by rw [sub_pos, div_lt_one hX]; exact hy.2
        have h2 : (1 - ((y / X : ℝ) : ℂ)) = ((1 - y / X : ℝ) : ℂ) := by push_cast; ring
        rw [h2, Complex.norm_cpow_eq_rpow_re_of_pos h1]
        refine Real.rpow_le_one h1.le ?_ ?_
        · have : 0 < y / X := div_pos hy.1 hX
          linarith
        · simp at hb ⊢; linarith
      · rw [Set.indicator_of_notMem hy, norm_zero]; positivity
    · refine (ae_restrict_iff' measurableSet_Ioi).2 (ae_of_all _ fun y hy => ?_)
      have hy' : 0 < y := hy
      have h1 : Tendsto (fun X : ℝ => (1 - ((y / X : ℝ) : ℂ)) ^ (b - a - 1)) atTop (𝓝 1) := by
        have h2 : Tendsto (fun X : ℝ => (1 - ((y / X : ℝ) : ℂ))) atTop (𝓝 1) := by
          have h3 : Tendsto (fun X : ℝ => y / X) atTop (𝓝 0) := tendsto_const_nhds.div_atTop tendsto_id
          have h4 := (Complex.continuous_ofReal.tendsto 0).comp h3
          have h5 := (tendsto_const_nhds (x := (1:ℂ))).sub h4
          simpa using h5
        have h3 : ContinuousAt (fun z : ℂ => z ^ (b - a - 1)) 1 := continuousAt_cpow_const (by simp)
        have h4 := h3.tendsto.comp h2
        simp only [Complex.one_cpow] at h4
        exact h4
      have h2 := h1.const_mul (((Real.exp (-y) : ℝ) : ℂ) * (y : ℂ) ^ (a - 1))
      rw [mul_one] at h2
      refine h2.congr' ?_
      filter_upwards [eventually_gt_atTop y] with X hX
      rw [Set.indicator_of_mem (show y ∈ Set.Ioo 0 X from ⟨hy', hX⟩)]
  have := key.const_mul (Complex.Gamma a)⁻¹
  rw [inv_mul_cancel₀ hG] at this
  refine this.congr fun X => ?_
  rw [← mul_assoc, inv_mul_cancel₀ hG, one_mul]

/-- At real parameters the scaled function is real and strictly between 0 and 1. -/
lemma real_R {a b X : ℝ} (ha : 0 < a) (hb : 1 ≤ b - a) (hX : 0 < X) : ∃ r : ℝ, R a b X = r ∧ 0 < r ∧ r < 1 := by
  have hGa : 0 < Real.Gamma a := Real.Gamma_pos_of_pos ha
  have h := scaled_rep (a := (a : ℂ)) (b := (b : ℂ)) (by simpa using ha) (by simp; linarith) hX
  have e : ∀ y ∈ Set.uIcc 0 X, ((Real.exp (-y) : ℝ) : ℂ) * (y : ℂ) ^ ((a : ℂ) - 1) * (1 - ((y / X : ℝ) : ℂ)) ^ ((b : ℂ) - a - 1)
      = ((Real.exp (-y) * y ^ (a - 1) * (1 - y / X) ^ (b - a - 1) : ℝ) : ℂ) := fun y hy => by
    rw [Set.uIcc_of_le hX.le] at hy
    have h1 : 0 ≤ 1 - y / X := by rw [sub_nonneg, div_le_one hX]; exact hy.2
    rw [Complex.ofReal_mul, Complex.ofReal_mul, Complex.ofReal_cpow hy.1, Complex.ofReal_cpow h1]
    push_cast
    rfl
  rw [intervalIntegral.integral_congr e, intervalIntegral.integral_ofReal, Complex.Gamma_ofReal] at h
  have hgi : IntegrableOn (fun y : ℝ => Real.exp (-y) * y ^ (a - 1)) (Set.Ioi 0) := Real.GammaIntegral_convergent ha
  have hm : AEStronglyMeasurable (fun y : ℝ => Real.exp (-y) * y ^ (a - 1) * (1 - y / X) ^ (b - a - 1)) (volume.restrict (Set.Ioc 0 X)) :=
    (by fun_prop : Measurable fun y : ℝ => Real.exp (-y) * y ^ (a - 1) * (1 - y / X) ^ (b - a - 1)).aestronglyMeasurable
  have hle : ∀ y ∈ Set.Ioc 0 X, Real.exp (-y) * y ^ (a - 1) * (1 - y / X) ^ (b - a - 1) ≤ Real.exp (-y) * y ^ (a - 1) := fun y hy => by
    have h1 : 0 ≤ 1 - y / X := by rw [sub_nonneg, div_le_one hX]; exact hy.2
    have h2 : 0 < y / X := div_pos hy.1 hX
    have h3 : 0 < y := hy.1
    exact mul_le_of_le_one_right (by positivity) (Real.rpow_le_one h1 (by linarith) (by linarith))
  have hnn : ∀ y ∈ Set.Ioc 0 X, 0 ≤ Real.exp (-y) * y ^ (a - 1) * (1 - y / X) ^ (b - a - 1) := fun y hy => by
    have h1 : 0 ≤ 1 - y / X := by rw [sub_nonneg, div_le_one hX]; exact hy.2
    have h3 : 0 < y := hy.1
    positivity
  have hgX : IntegrableOn (fun y : ℝ => Real.exp (-y) * y ^ (a - 1)) (Set.Ioc 0 X) := hgi.mono_set Set.Ioc_subset_Ioi_self
  have hi : IntegrableOn (fun y : ℝ => Real.exp (-y) * y ^ (a - 1) * (1 - y / X) ^ (b - a - 1)) (Set.Ioc 0 X) := by
    refine Integrable.mono' hgX hm ?_
    refine (ae_restrict_iff' measurableSet_Ioc).2 (ae_of_all _ fun y hy => ?_)
    rw [Real.norm_eq_abs, abs_of_nonneg (hnn y hy)]
    exact hle y hy
  set I := ∫ y in (0:ℝ)..X, Real.exp (-y) * y ^ (a - 1) * (1 - y / X) ^ (b - a - 1) with hI
  have hIpos : 0 < I := by
    refine intervalIntegral.intervalIntegral_pos_of_pos_on ?_ (fun y hy => ?_) hX
    · rw [intervalIntegrable_iff_integrableOn_Ioc_of_le hX.le]; exact hi
    · have h1 : 0 < 1 - y / X := by rw [sub_pos, div_lt_one hX]; exact hy.2
      have h3 : 0 < y := hy.1
      positivity
  have hIlt : I < Real.Gamma a := by
    have h1 : I ≤ ∫ y in Set.Ioc 0 X, Real.exp (-y) * y ^ (a - 1) := by
      rw [hI, intervalIntegral.integral_of_le hX.le]
      exact setIntegral_mono_on hi hgX measurableSet_Ioc hle
    have h2 : Real.Gamma a = (∫ y in Set.Ioc 0 X, Real.exp (-y) * y ^ (a - 1)) + ∫ y in Set.Ioi X, Real.exp (-y) * y ^ (a - 1) := by
      rw [Real.Gamma_eq_integral ha, ← setIntegral_union Set.Ioc_disjoint_Ioi_same measurableSet_Ioi hgX (hgi.mono_set (Set.Ioi_subset_Ioi hX.le)), Set.Ioc_union_Ioi_eq_Ioi hX.le]
    have h3 : 0 < ∫ y in Set.Ioi X, Real.exp (-y) * y ^ (a - 1) := by
      rw [setIntegral_pos_iff_support_of_nonneg_ae]
      · have : Set.Ioi X ⊆ Function.support (fun y : ℝ => Real.exp (-y) * y ^ (a - 1)) ∩ Set.Ioi X := fun y hy => by
          have h3 : 0 < y := hX.trans hy
          exact ⟨by simp only [Function.mem_support]; positivity, hy⟩
        exact lt_of_lt_of_le (by simp) (measure_mono this)
      · refine (ae_restrict_iff' measurableSet_Ioi).2 (ae_of_all _ fun y hy => ?_)
        have h3 : 0 < y := hX.trans hy
        simp only [Pi.zero_apply]
        positivity
      · exact hgi.mono_set (Set.Ioi_subset_Ioi hX.le)
    linarith
  refine ⟨I / Real.Gamma a, ?_, by positivity, by rw [div_lt_one hGa]; exact hIlt⟩
  have hG' : (Real.Gamma a : ℂ) ≠ 0 := by exact_mod_cast hGa.ne'
  push_cast
  rw [eq_div_iff hG', mul_comm]
  exact h

end Kummer

end PyFENG
