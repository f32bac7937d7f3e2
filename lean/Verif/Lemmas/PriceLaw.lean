import Mathlib.MeasureTheory.Integral.IntegralEqImproper
import Mathlib.MeasureTheory.Measure.WithDensity
import Mathlib.MeasureTheory.Integral.Bochner.ContinuousLinearMap
import Verif.Spec

/-!
# Recovering the law of the terminal price from call values (Breeden-Litzenberger)
-/

namespace PyFENG

open MeasureTheory Set Filter Topology

/-- Atom of size `p0` at zero plus density `f` on `(0, ∞)`. -/
noncomputable def mixLaw (p0 : ℝ) (f : ℝ → ℝ) : Measure ℝ :=
  ENNReal.ofReal p0 • Measure.dirac 0 + (volume.restrict (Ioi 0)).withDensity fun s => ENNReal.ofReal (f s)

/-- Call values `C`, survival function `G`, density `f`. -/
structure CallCurve (C G f : ℝ → ℝ) (F c g0 : ℝ) : Prop where
  hC : ∀ s > 0, HasDerivAt C (-G s) s
  hG : ∀ s > 0, HasDerivAt G (-f s) s
  hf : ∀ s > 0, 0 ≤ f s
  hG0 : Tendsto G (𝓝[>] 0) (𝓝 g0)
  hGi : Tendsto (fun s => s * G s) atTop (𝓝 0)
  hC0 : Tendsto C (𝓝[>] 0) (𝓝 F)
  hCi : Tendsto C atTop (𝓝 c)
  hg0 : g0 ≤ 1

namespace CallCurve

variable {C G f : ℝ → ℝ} {F c g0 : ℝ}

/-- Fundamental theorem of calculus on `(0, ∞)` with a limit at zero. -/
lemma ftc {g g' : ℝ → ℝ} {l m : ℝ} (hd : ∀ s > 0, HasDerivAt g (g' s) s) (hp : ∀ s > 0, 0 ≤ g' s)
    (h0 : Tendsto g (𝓝[>] 0) (𝓝 m)) (hi : Tendsto g atTop (𝓝 l)) :
    IntegrableOn g' (Ioi 0) ∧ ∫ s in Ioi 0, g' s = l - m := by
  have hc : ContinuousWithinAt (Function.update g 0 m) (Ici 0) 0 := by
    rw [continuousWithinAt_update_same]
    refine h0.mono_left (nhdsWithin_mono _ ?_)
    intro x hx
    exact lt_of_le_of_ne hx.1 (fun h => hx.2 h.symm)
  have hd' : ∀ s ∈ Ioi (0 : ℝ), HasDerivAt (Function.update g 0 m) (g' s) s := by
    intro s hs
    refine (hd s hs).congr_of_eventuallyEq ?_
    filter_upwards [lt_mem_nhds hs] with x hx
    exact Function.update_of_ne (ne_of_gt hx) _ _
  have hi' : Tendsto (Function.update g 0 m) atTop (𝓝 l) := by
    refine hi.congr' ?_
    filter_upwards [eventually_gt_atTop 0] with x hx
    exact (Function.update_of_ne (ne_of_gt hx) _ _).symm
  refine ⟨integrableOn_Ioi_deriv_of_nonneg hc hd' hp hi', ?_⟩
  rw [integral_Ioi_of_hasDerivAt_of_nonneg hc hd' hp hi', Function.update_self]

lemma tendsto_G (h : CallCurve C G f F c g0) : Tendsto G atTop (𝓝 0) := by
  have := h.hGi.mul tendsto_inv_atTop_zero
  rw [mul_zero] at this
  refine this.congr' ?_
  filter_upwards [eventually_gt_atTop 0] with s hs
  field_simp

lemma mass (h : CallCurve C G f F c g0) : IntegrableOn f (Ioi 0) ∧ ∫ s in Ioi 0, f s = g0 := by
  have := ftc (g := fun s => -G s) (g' := f) (fun s hs => (h.hG s hs).neg.congr_deriv (neg_neg _)) h.hf h.hG0.neg h.tendsto_G.neg
  refine ⟨this.1, ?_⟩
  rw [this.2]; ring

lemma nonneg_g0 (h : CallCurve C G f F c g0) : 0 ≤ g0 := by
  rw [← h.mass.2]
  exact setIntegral_nonneg measurableSet_Ioi h.hf

lemma first (h : CallCurve C G f F c g0) : IntegrableOn (fun s => f s * s) (Ioi 0) ∧ ∫ s in Ioi 0, f s * s = F - c := by
  have h0 : Tendsto (fun s => -(s * G s) - C s) (𝓝[>] 0) (𝓝 (-(0 * g0) - F)) := by
    have hid : Tendsto (fun s : ℝ => s) (𝓝[>] 0) (𝓝 0) := tendsto_nhdsWithin_of_tendsto_nhds tendsto_id
    exact (hid.mul h.hG0).neg.sub h.hC0
  have hi : Tendsto (fun s => -(s * G s) - C s) atTop (𝓝 (-0 - c)) := h.hGi.neg.sub h.hCi
  have := ftc (g := fun s => -(s * G s) - C s) (g' := fun s => f s * s) (fun s hs => ?_)
    (fun s hs => mul_nonneg (h.hf s hs) (le_of_lt hs)) h0 hi
  · refine ⟨this.1, ?_⟩
    rw [this.2]; ring
  · refine ((((hasDerivAt_id' s).mul (h.hG s hs)).neg).sub (h.hC s hs)).congr_deriv ?_
    ring

lemma call (h : CallCurve C G f F c g0) {K : ℝ} (hK : 0 < K) :
    ∫ s in Ioi 0, f s * max (s - K) 0 = C K - c := by
  have e : ∫ s in Ioi 0, f s * max (s - K) 0 = ∫ s in Ioi K, f s * (s - K) := by
    rw [← integral_indicator measurableSet_Ioi, ← integral_indicator measurableSet_Ioi]
    congr 1
    ext s
    by_cases h1 : K < s
    · rw [indicator_of_mem (show s ∈ Ioi (0 : ℝ) from hK.trans h1), indicator_of_mem (show s ∈ Ioi K from h1),
        max_eq_left (by linarith)]
    · rw [indicator_of_notMem (show s ∉ Ioi K from h1)]
      by_cases h2 : 0 < s
      · rw [indicator_of_mem (show s ∈ Ioi (0 : ℝ) from h2), max_eq_right (by linarith [not_lt.1 h1]), mul_zero]
      · rw [indicator_of_notMem (show s ∉ Ioi (0 : ℝ) from h2)]
  rw [e]
  have hi : Tendsto (fun s => -(s * G s) + K * G s - C s) atTop (𝓝 (-0 + K * 0 - c)) :=
    (h.hGi.neg.add (h.tendsto_G.const_mul K)).sub h.hCi
  have := integral_Ioi_of_hasDerivAt_of_nonneg' (a := K) (g := fun s => -(s * G s) + K * G s - C s)
    (g' := fun s => f s * (s - K)) (fun s hs => ?_)
    (fun s hs => mul_nonneg (h.hf s (hK.trans hs)) (by have : K < s := hs; linarith)) hi
  · rw [this]; ring
  · have hs' : 0 < s := hK.trans_le hs
    refine (((((hasDerivAt_id' s).mul (h.hG s hs')).neg).add ((h.hG s hs').const_mul K)).sub (h.hC s hs')).congr_deriv ?_
    ring

lemma integral_mixLaw (h : CallCurve C G f F c g0) {p : ℝ → ℝ}
    (hi : IntegrableOn (fun s => f s * p s) (Ioi 0)) :
    Integrable p (mixLaw (1 - g0) f) ∧ ∫ s, p s ∂(mixLaw (1 - g0) f) = (1 - g0) * p 0 + ∫ s in Ioi 0, f s * p s := by
  have hm : AEMeasurable (fun s => ENNReal.ofReal (f s)) (volume.restrict (Ioi 0)) :=
    h.mass.1.aestronglyMeasurable.aemeasurable.ennreal_ofReal
  have hlt : ∀ᵐ s ∂(volume.restrict (Ioi (0 : ℝ))), ENNReal.ofReal (f s) < ⊤ := Eventually.of_forall fun _ => ENNReal.ofReal_lt_top
  have hae : ∀ᵐ s ∂(volume.restrict (Ioi (0 : ℝ))), (ENNReal.ofReal (f s)).toReal • p s = f s * p s := by
    filter_upwards [ae_restrict_mem measurableSet_Ioi] with s hs
    rw [ENNReal.toReal_ofReal (h.hf s hs), smul_eq_mul]
  have i1 : Integrable p (ENNReal.ofReal (1 - g0) • Measure.dirac 0) := by
    refine Integrable.smul_measure ?_ ENNReal.ofReal_ne_top
    exact integrable_dirac (by simp)
  have i2 : Integrable p ((volume.restrict (Ioi 0)).withDensity fun s => ENNReal.ofReal (f s)) := by
    rw [integrable_withDensity_iff_integrable_smul₀' hm hlt]
    exact (integrable_congr hae).2 hi
  refine ⟨i1.add_measure i2, ?_⟩
  unfold mixLaw
  rw [integral_add_measure i1 i2, integral_smul_measure, integral_dirac, integral_withDensity_eq_integral_toReal_smul₀ hm hlt,
    integral_congr_ae hae, ENNReal.toReal_ofReal (by linarith [h.hg0]), smul_eq_mul]

lemma prob (h : CallCurve C G f F c g0) : IsProbabilityMeasure (mixLaw (1 - g0) f) := by
  constructor
  unfold mixLaw
  rw [Measure.add_apply, Measure.smul_apply, measure_univ, smul_eq_mul, mul_one, withDensity_apply _ MeasurableSet.univ,
    Measure.restrict_univ, ← ofReal_integral_eq_lintegral_ofReal h.mass.1, h.mass.2, ← ENNReal.ofReal_add (by linarith [h.hg0]) h.nonneg_g0]
  · simp
  · filter_upwards [ae_restrict_mem measurableSet_Ioi] with s hs using h.hf s hs

lemma mixLaw_neg (p0 : ℝ) (f : ℝ → ℝ) : mixLaw p0 f (Iio 0) = 0 := by
  unfold mixLaw
  rw [Measure.add_apply, Measure.smul_apply, withDensity_apply _ measurableSet_Iio, Measure.restrict_restrict measurableSet_Iio]
  have : Iio (0 : ℝ) ∩ Ioi 0 = ∅ := by ext x; simp; intro h; exact h.le
  rw [this]
  simp

lemma mixLaw_zero (p0 : ℝ) (f : ℝ → ℝ) : mixLaw p0 f {0} = ENNReal.ofReal p0 := by
  unfold mixLaw
  rw [Measure.add_apply, Measure.smul_apply, withDensity_apply _ (measurableSet_singleton 0),
    Measure.restrict_restrict (measurableSet_singleton 0)]
  have : ({0} : Set ℝ) ∩ Ioi 0 = ∅ := by ext x; simp
  rw [this]
  simp

lemma mean (h : CallCurve C G f F c g0) :
    Integrable (fun s => s) (mixLaw (1 - g0) f) ∧ ∫ s, s ∂(mixLaw (1 - g0) f) = F - c := by
  have := h.integral_mixLaw (p := id) h.first.1
  refine ⟨this.1, ?_⟩
  have h2 := this.2
  simp only [id_eq, mul_zero, zero_add] at h2
  rw [h2, h.first.2]

lemma call_law (h : CallCurve C G f F c g0) {K : ℝ} (hK : 0 < K) :
    Integrable (fun s => max (s - K) 0) (mixLaw (1 - g0) f) ∧ ∫ s, max (s - K) 0 ∂(mixLaw (1 - g0) f) = C K - c := by
  have hi : IntegrableOn (fun s => f s * max (s - K) 0) (Ioi 0) := by
    refine Integrable.mono h.first.1 ?_ ?_
    · exact h.mass.1.aestronglyMeasurable.mul (by fun_prop)
    · filter_upwards [ae_restrict_mem measurableSet_Ioi] with s hs
      have hs' : 0 < s := hs
      rw [norm_mul, norm_mul, Real.norm_eq_abs (max _ _), abs_of_nonneg (le_max_right _ _), Real.norm_eq_abs s, abs_of_pos hs']
      exact mul_le_mul_of_nonneg_left (max_le (by linarith) hs'.le) (norm_nonneg _)
  have := h.integral_mixLaw (p := fun s => max (s - K) 0) hi
  refine ⟨this.1, ?_⟩
  rw [this.2, h.call hK, max_eq_right (by linarith), mul_zero, zero_add]

lemma put_law (h : CallCurve C G f F c g0) {K : ℝ} (hK : 0 < K) :
    ∫ s, max (K - s) 0 ∂(mixLaw (1 - g0) f) = C K - F + K := by
  have := h.prob
  have e : ∀ s : ℝ, max (K - s) 0 = max (s - K) 0 + (K - s) := by
    intro s
    rcases le_total s K with h | h
    · rw [max_eq_left (by linarith), max_eq_right (by linarith)]; ring
    · rw [max_eq_right (by linarith), max_eq_left (by linarith)]; ring
  simp only [e]
  have hi : Integrable (fun s => K - s) (mixLaw (1 - g0) f) := (integrable_const K).sub h.mean.1
  rw [integral_add (h.call_law hK).1 hi, integral_sub (integrable_const K) h.mean.1,
    (h.call_law hK).2, h.mean.2]
  simp
  ring

end CallCurve

end PyFENG
