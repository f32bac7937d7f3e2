import Verif.Lemmas.Sawtooth
import Mathlib.MeasureTheory.Integral.DominatedConvergence
import Mathlib.MeasureTheory.Integral.Bochner.Set
import Mathlib.MeasureTheory.Constructions.BorelSpace.Metrizable
import Mathlib.Algebra.Order.ToIntervalMod

/-!
# Distribution functions from Fourier series

For a non-negative random variable with `c k = E cos(h k X)`, the series `(h x + 2 ∑ sin(h k x)/k c k)/π` converges to the expectation of a periodic function which is the indicator of `[0, x)` on
`[0, 2π/h - x)`: it is the distribution function at `x` up to the probability of the values above `2π/h - x`.
-/

namespace PyFENG

open Real Filter Topology MeasureTheory

/-- Specification: the `N`-th partial sum of the Fourier series of the distribution function at `x`. -/
noncomputable def Spec.cdfSum (h x : ℝ) (c : ℕ → ℝ) (N : ℕ) : ℝ :=
  (h * x + 2 * ∑ k ∈ Finset.range N, sin (h * x * (k + 1 : ℕ)) / (k + 1 : ℕ) * c (k + 1)) / π

namespace Sawtooth

lemma S_int (N : ℕ) (a : ℝ) (z : ℤ) : S N (a + z * (2 * π)) = S N a := by
  have hp : Function.Periodic (S N) (2 * π) := fun θ => S_periodic N θ
  exact hp.int_mul z a

lemma tendsto_S_zero : Tendsto (fun N => S N 0) atTop (𝓝 0) := by simp only [S_at_zero]; exact tendsto_const_nhds

lemma osc_tendsto {a d : ℝ} (hd : 0 < d) (hd2 : d ≤ 2 * π) (ha : 0 ≤ a) (ha2 : a < 2 * π) :
    ∃ l, Tendsto (fun N => (d / 2 + S N a + S N (d - a)) / π) atTop (𝓝 l) ∧ 0 ≤ l ∧ l ≤ 1 ∧ (0 < a → a < d → l = 1) ∧ (d < a → l = 0) := by
  have hpi := pi_pos
  have fin : ∀ {l1 l2 : ℝ}, Tendsto (fun N => S N a) atTop (𝓝 l1) → Tendsto (fun N => S N (d - a)) atTop (𝓝 l2) →
      Tendsto (fun N => (d / 2 + S N a + S N (d - a)) / π) atTop (𝓝 ((d / 2 + l1 + l2) / π)) := fun h1 h2 => ((h1.const_add _).add h2).div_const π
  rcases ha.eq_or_lt with h0 | h0
  · subst h0
    rcases hd2.eq_or_lt with h2 | h2
    · have : Tendsto (fun N => S N (d - 0)) atTop (𝓝 0) := by
        rw [h2, show 2 * π - 0 = 0 + 2 * π by ring]
        simp only [S_periodic]
        exact tendsto_S_zero
      refine ⟨_, fin tendsto_S_zero this, ?_, ?_, fun h => absurd h (lt_irrefl _), fun h => absurd h (not_lt.2 hd.le)⟩
      · positivity
      · rw [h2, div_le_one hpi]; linarith
    · have := S_tendsto hd h2
      refine ⟨_, fin tendsto_S_zero (by rw [sub_zero]; exact this), ?_, ?_, fun h => absurd h (lt_irrefl _), fun h => absurd h (not_lt.2 hd.le)⟩
      · rw [show d / 2 + 0 + (π - d) / 2 = π / 2 by ring]; positivity
      · rw [show d / 2 + 0 + (π - d) / 2 = π / 2 by ring, div_le_one hpi]; linarith
  · have ta := S_tendsto h0 ha2
    rcases lt_trichotomy a d with h | h | h
    · have tb := S_tendsto (θ := d - a) (by linarith) (by linarith)
      have e : (d / 2 + (π - a) / 2 + (π - (d - a)) / 2) / π = 1 := by field_simp; ring
      have := fin ta tb
      rw [e] at this
      exact ⟨1, this, by norm_num, le_rfl, fun _ _ => rfl, fun h' => absurd h' (not_lt.2 h.le)⟩
    · have tb : Tendsto (fun N => S N (d - a)) atTop (𝓝 0) := by rw [h, sub_self]; exact tendsto_S_zero
      have := fin ta tb
      have e : d / 2 + (π - a) / 2 + 0 = π / 2 := by rw [h]; ring
      rw [e] at this
      refine ⟨_, this, by positivity, ?_, fun _ h' => absurd h' (by rw [h]; exact lt_irrefl _), fun h' => absurd h' (by rw [h]; exact lt_irrefl _)⟩
      rw [div_le_one hpi]; linarith
    · have tb : Tendsto (fun N => S N (d - a)) atTop (𝓝 (-((π - (a - d)) / 2))) := by
        have := (S_tendsto (θ := a - d) (by linarith) (by linarith)).neg
        refine this.congr fun N => ?_
        rw [← S_neg]; congr 1; ring
      have := fin ta tb
      have e : d / 2 + (π - a) / 2 + -((π - (a - d)) / 2) = 0 := by ring
      rw [e, zero_div] at this
      exact ⟨0, this, le_rfl, by norm_num, fun _ h' => absurd h' (not_lt.2 h.le), fun _ => rfl⟩

/-- The integrand of the partial sums. -/
noncomputable def osc (h x : ℝ) (N : ℕ) (y : ℝ) : ℝ := (h * x + S N (h * (x + y)) + S N (h * (x - y))) / π

lemma osc_lim {h x : ℝ} (hh : 0 < h) (hx : 0 < x) (hhx : h * x ≤ π) (y : ℝ) :
    ∃ l, Tendsto (fun N => osc h x N y) atTop (𝓝 l) ∧ 0 ≤ l ∧ l ≤ 1 ∧ (0 ≤ y → y < x → l = 1) ∧ (x < y → y < 2 * π / h - x → l = 0) := by
  have hp : (0:ℝ) < 2 * π := by positivity
  obtain ⟨a, hae⟩ : ∃ a, a = toIcoMod hp 0 (h * (x + y)) := ⟨_, rfl⟩
  have hmem := toIcoMod_mem_Ico hp 0 (h * (x + y))
  rw [← hae, zero_add] at hmem
  have hA : h * (x + y) = a + (toIcoDiv hp 0 (h * (x + y)) : ℝ) * (2 * π) := by
    have := toIcoMod_add_toIcoDiv_zsmul hp 0 (h * (x + y))
    rw [zsmul_eq_mul, ← hae] at this
    exact this.symm
  generalize toIcoDiv hp 0 (h * (x + y)) = z at hA
  obtain ⟨l, h1, h2, h3, h4, h5⟩ := osc_tendsto (a := a) (d := 2 * (h * x)) (by positivity) (by linarith) hmem.1 hmem.2
  have heq : ∀ N, osc h x N y = (2 * (h * x) / 2 + S N a + S N (2 * (h * x) - a)) / π := fun N => by
    unfold osc
    rw [hA, S_int, show h * (x - y) = (2 * (h * x) - a) + ((-z : ℤ) : ℝ) * (2 * π) by push_cast; linear_combination -hA, S_int]
    ring
  have hself : h * (x + y) ∈ Set.Ico 0 (2 * π) → a = h * (x + y) := fun hm => by
    rw [hae]
    exact (toIcoMod_eq_self hp).2 (by rw [zero_add]; exact hm)
  refine ⟨l, ?_, h2, h3, fun hy0 hyx => ?_, fun hxy hyu => ?_⟩
  · simp only [heq]; exact h1
  · have : a = h * (x + y) := hself ⟨by positivity, by nlinarith⟩
    refine h4 ?_ ?_
    · rw [this]; positivity
    · rw [this]; nlinarith
  · have hu : h * (x + y) < 2 * π := by
      have := mul_lt_mul_of_pos_left hyu hh
      rw [mul_sub, mul_div_cancel₀ _ hh.ne'] at this
      linarith
    have : a = h * (x + y) := hself ⟨mul_nonneg hh.le (by linarith), hu⟩
    refine h5 ?_
    rw [this]; nlinarith

lemma osc_bound {h x : ℝ} (hhx : |h * x| ≤ π) (N : ℕ) (y : ℝ) : |osc h x N y| ≤ (π + 10) / π := by
  have h1 := abs_le.1 (S_bounded N (h * (x + y)))
  have h2 := abs_le.1 (S_bounded N (h * (x - y)))
  have h3 := abs_le.1 hhx
  unfold osc
  rw [abs_div, abs_of_pos pi_pos, div_le_div_iff_of_pos_right pi_pos, abs_le]
  constructor <;> linarith

lemma continuous_S (N : ℕ) : Continuous (S N) := by unfold S; fun_prop

lemma cdfSum_eq (μ : Measure ℝ) [IsProbabilityMeasure μ] (h x : ℝ) (N : ℕ) :
    Spec.cdfSum h x (fun k => ∫ y, cos (h * k * y) ∂μ) N = ∫ y, osc h x N y ∂μ := by
  have hint : ∀ k : ℕ, Integrable (fun y => cos (h * (k + 1 : ℕ) * y)) μ := fun k =>
    Integrable.of_bound (by fun_prop : Continuous fun y => cos (h * (k + 1 : ℕ) * y)).aestronglyMeasurable 1 (Eventually.of_forall fun y => by
      rw [norm_eq_abs]; exact abs_cos_le_one _)
  have e : ∀ y, osc h x N y = (h * x + ∑ k ∈ Finset.range N, 2 * (sin (h * x * (k + 1 : ℕ)) / (k + 1 : ℕ)) * cos (h * (k + 1 : ℕ) * y)) / π := fun y => by
    unfold osc S
    rw [add_assoc, ← Finset.sum_add_distrib]
    congr 2
    refine Finset.sum_congr rfl fun k _ => ?_
    rw [show ((k + 1 : ℕ) : ℝ) * (h * (x + y)) = h * x * (k + 1 : ℕ) + h * (k + 1 : ℕ) * y by ring, show ((k + 1 : ℕ) : ℝ) * (h * (x - y)) = h * x * (k + 1 : ℕ) - h * (k + 1 : ℕ) * y by ring,
      sin_add, sin_sub]
    ring
  simp only [e]
  rw [integral_div, integral_add (integrable_const _) (integrable_finsetSum _ fun k _ => (hint k).const_mul _), integral_finsetSum _ fun k _ => (hint k).const_mul _]
  simp only [integral_const_mul, integral_const, probReal_univ, one_smul]
  unfold Spec.cdfSum
  rw [Finset.mul_sum]
  congr 2
  refine Finset.sum_congr rfl fun k _ => ?_
  ring

/-- The Fourier series converges to the distribution function, up to the probability above `2π/h - x` and the atom at `x`. -/
theorem cdf_series (μ : Measure ℝ) [IsProbabilityMeasure μ] (hμ : μ (Set.Iio 0) = 0) {h x : ℝ} (hh : 0 < h) (hx : 0 < x) (hhx : h * x ≤ π) :
    ∃ L, Tendsto (Spec.cdfSum h x fun k => ∫ y, cos (h * k * y) ∂μ) atTop (𝓝 L) ∧
      |L - μ.real (Set.Iic x)| ≤ μ.real (Set.Ici (2 * π / h - x)) + μ.real {x} := by
  choose l h1 h2 h3 h4 h5 using osc_lim hh hx hhx
  have hbd : |h * x| ≤ π := by rw [abs_of_pos (by positivity)]; exact hhx
  have hcont : ∀ N, Continuous (osc h x N) := fun N => by
    have := continuous_S N
    unfold osc
    fun_prop
  have hlim : Tendsto (Spec.cdfSum h x fun k => ∫ y, cos (h * k * y) ∂μ) atTop (𝓝 (∫ y, l y ∂μ)) := by
    have : (Spec.cdfSum h x fun k => ∫ y, cos (h * k * y) ∂μ) = fun N => ∫ y, osc h x N y ∂μ := funext fun N => cdfSum_eq μ h x N
    rw [this]
    refine tendsto_integral_of_dominated_convergence (fun _ => (π + 10) / π) (fun N => (hcont N).aestronglyMeasurable) (integrable_const _) ?_ ?_
    · exact fun N => Eventually.of_forall fun y => by rw [norm_eq_abs]; exact osc_bound hbd N y
    · exact Eventually.of_forall h1
  refine ⟨_, hlim, ?_⟩
  have hlm : Measurable l := measurable_of_tendsto_metrizable (fun N => (hcont N).measurable) (tendsto_pi_nhds.2 h1)
  have hli : Integrable l μ := Integrable.of_bound hlm.aestronglyMeasurable 1 (Eventually.of_forall fun y => by rw [norm_eq_abs, abs_of_nonneg (h2 y)]; exact h3 y)
  have hi : ∀ {s : Set ℝ}, MeasurableSet s → Integrable (s.indicator fun _ => (1:ℝ)) μ := fun hs => (integrable_const (1:ℝ)).indicator hs
  have hr : ∀ {s : Set ℝ}, MeasurableSet s → ∫ y, s.indicator (fun _ => (1:ℝ)) y ∂μ = μ.real s := fun {s} hs => by
    rw [integral_indicator hs, setIntegral_const, smul_eq_mul, mul_one]
  have mI : MeasurableSet (Set.Iic x) := measurableSet_Iic
  have mC : MeasurableSet (Set.Ici (2 * π / h - x)) := measurableSet_Ici
  have mS : MeasurableSet ({x} : Set ℝ) := measurableSet_singleton x
  rw [← hr mI, ← hr mC, ← hr mS, ← integral_sub hli (hi mI), ← integral_add (hi mC) (hi mS)]
  refine (abs_integral_le_integral_abs).trans ?_
  refine integral_mono_ae (hli.sub (hi mI)).abs ((hi mC).add (hi mS)) ?_
  have hae : ∀ᵐ y ∂μ, 0 ≤ y := by
    rw [ae_iff]
    convert hμ using 2
    ext y; simp
  filter_upwards [hae] with y hy
  have hnn : ∀ s : Set ℝ, 0 ≤ s.indicator (fun _ => (1:ℝ)) y := fun s => Set.indicator_nonneg (fun _ _ => zero_le_one) y
  show |l y - (Set.Iic x).indicator (fun _ => (1:ℝ)) y| ≤ (Set.Ici (2 * π / h - x)).indicator (fun _ => (1:ℝ)) y + ({x} : Set ℝ).indicator (fun _ => (1:ℝ)) y
  have hgen : |l y - (Set.Iic x).indicator (fun _ => (1:ℝ)) y| ≤ 1 := by
    have b1 := h2 y; have b2 := h3 y
    by_cases hm : y ∈ Set.Iic x
    · rw [Set.indicator_of_mem hm, abs_le]; constructor <;> linarith
    · rw [Set.indicator_of_notMem hm, abs_le]; constructor <;> linarith
  rcases lt_trichotomy y x with hlt | heq | hgt
  · rw [h4 y hy hlt, Set.indicator_of_mem (show y ∈ Set.Iic x from hlt.le), sub_self, abs_zero]
    exact add_nonneg (hnn _) (hnn _)
  · have : ({x} : Set ℝ).indicator (fun _ => (1:ℝ)) y = 1 := Set.indicator_of_mem (by rw [heq]; rfl) _
    rw [this]
    linarith [hnn (Set.Ici (2 * π / h - x))]
  · by_cases hu : y < 2 * π / h - x
    · rw [h5 y hgt hu, Set.indicator_of_notMem (show y ∉ Set.Iic x from not_le.2 hgt), sub_self, abs_zero]
      exact add_nonneg (hnn _) (hnn _)
    · have : (Set.Ici (2 * π / h - x)).indicator (fun _ => (1:ℝ)) y = 1 := Set.indicator_of_mem (by exact not_lt.1 hu) _
      rw [this]
      linarith [hnn ({x} : Set ℝ)]

/-- The same for a partial sum: the extra error is `2/π` times a bound `E` of the sums of `|c k|/k` over the omitted terms. -/
theorem cdf_partial_sum (μ : Measure ℝ) [IsProbabilityMeasure μ] (hμ : μ (Set.Iio 0) = 0) {h x : ℝ} (hh : 0 < h) (hx : 0 < x) (hhx : h * x ≤ π) (N : ℕ) {E : ℝ}
    (hE : ∀ M, ∑ k ∈ Finset.Ico N M, |∫ y, cos (h * (k + 1 : ℕ) * y) ∂μ| / (k + 1 : ℕ) ≤ E) :
    |Spec.cdfSum h x (fun k => ∫ y, cos (h * k * y) ∂μ) N - μ.real (Set.Iic x)| ≤ μ.real (Set.Ici (2 * π / h - x)) + μ.real {x} + 2 / π * E := by
  obtain ⟨L, hL, hb⟩ := cdf_series μ hμ hh hx hhx
  have hdiff : |Spec.cdfSum h x (fun k => ∫ y, cos (h * k * y) ∂μ) N - L| ≤ 2 / π * E := by
    refine le_of_tendsto ((tendsto_const_nhds.sub hL).abs) ?_
    filter_upwards [eventually_ge_atTop N] with M hM
    have e : Spec.cdfSum h x (fun k => ∫ y, cos (h * k * y) ∂μ) N - Spec.cdfSum h x (fun k => ∫ y, cos (h * k * y) ∂μ) M =
        -(2 / π * ∑ k ∈ Finset.Ico N M, sin (h * x * (k + 1 : ℕ)) / (k + 1 : ℕ) * ∫ y, cos (h * (k + 1 : ℕ) * y) ∂μ) := by
      unfold Spec.cdfSum
      rw [Finset.sum_Ico_eq_sub _ hM]
      ring
    rw [e, abs_neg, abs_mul, abs_of_pos (by positivity : 0 < 2 / π)]
    refine mul_le_mul_of_nonneg_left ?_ (by positivity)
    refine (Finset.abs_sum_le_sum_abs _ _).trans ((Finset.sum_le_sum fun k _ => ?_).trans (hE M))
    rw [abs_mul, abs_div, abs_of_pos (by positivity : (0:ℝ) < (k + 1 : ℕ)), div_mul_eq_mul_div]
    gcongr
    exact mul_le_of_le_one_left (abs_nonneg _) (abs_sin_le_one _)
  calc _ ≤ _ := abs_sub_le _ L _
    _ ≤ _ := by linarith

end Sawtooth

end PyFENG
