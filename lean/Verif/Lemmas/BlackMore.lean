import Verif.Lemmas.BlackDeriv

/-! # Helper lemmas: small-volatility bound, symmetry, probability of exercise -/

open MeasureTheory ProbabilityTheory Set Filter Topology Real

namespace PyFENG

lemma npdf_le (x : ℝ) : npdf x ≤ 1 / √(2 * π) := by
  unfold npdf
  gcongr
  rw [exp_le_one_iff]
  nlinarith [sq_nonneg x]

lemma ncdf_sub_le {a b : ℝ} (h : a ≤ b) : ncdf b - ncdf a ≤ (b - a) / √(2 * π) := by
  have := Convex.image_sub_le_mul_sub_of_deriv_le (D := univ) convex_univ (f := ncdf)
    continuous_ncdf.continuousOn differentiable_ncdf.differentiableOn (C := 1 / √(2 * π))
    (fun x _ => by rw [deriv_ncdf]; exact npdf_le x) a (mem_univ _) b (mem_univ _) h
  rw [div_eq_mul_one_div]
  linarith

lemma payoff_le (cp K F x : ℝ) :
    Spec.payoff cp K x ≤ max (cp * (F - K)) 0 + Spec.payoff cp F x := by
  unfold Spec.payoff
  have h1 := le_max_left (cp * (F - K)) 0
  have h2 := le_max_right (cp * (F - K)) 0
  have h3 := le_max_left (cp * (x - F)) 0
  have h4 := le_max_right (cp * (x - F)) 0
  refine max_le ?_ (by linarith)
  nlinarith

lemma black_atm {cp F s : ℝ} (hcp : Spec.IsCp cp) (hF : 0 < F) :
    black cp F F s = F * (ncdf (s / 2) - ncdf (-(s / 2))) := by
  unfold black bd1 bd2
  rw [div_self hF.ne', log_one, zero_div]
  rcases hcp with rfl | rfl
  · simp only [one_mul, zero_add, zero_sub]; ring
  · simp only [neg_one_mul, zero_add, zero_sub, neg_neg]; ring

/-- time value is at most the at-the-money straddle bound -/
lemma black_le_intrinsic_add {cp F K s : ℝ} (hcp : Spec.IsCp cp) (hF : 0 < F) (hK : 0 < K)
    (hs : 0 < s) : black cp F K s ≤ max (cp * (F - K)) 0 + F * (s / √(2 * π)) := by
  have h1 : black cp F K s ≤ max (cp * (F - K)) 0 + black cp F F s := by
    rw [← gaussE_black hcp hF hK hs, ← gaussE_black hcp hF hF hs]
    unfold Spec.gaussE
    have hc : ∫ _z, max (cp * (F - K)) 0 ∂(gaussianReal 0 1) = max (cp * (F - K)) 0 := by simp
    rw [← hc, ← integral_add (integrable_const _) (integrable_payoff (integrable_gbm F s) _ _)]
    exact integral_mono (integrable_payoff (integrable_gbm F s) _ _)
      ((integrable_const _).add (integrable_payoff (integrable_gbm F s) _ _))
      fun z => payoff_le _ _ _ _
  refine h1.trans ?_
  rw [black_atm hcp hF]
  have := ncdf_sub_le (show -(s / 2) ≤ s / 2 by linarith)
  have e : s / 2 - -(s / 2) = s := by ring
  rw [e] at this
  have := mul_le_mul_of_nonneg_left this hF.le
  linarith

lemma tendsto_black_zero {cp F K : ℝ} (hcp : Spec.IsCp cp) (hF : 0 < F) (hK : 0 < K) :
    Tendsto (black cp F K) (𝓝[>] 0) (𝓝 (max (cp * (F - K)) 0)) := by
  refine tendsto_of_tendsto_of_tendsto_of_le_of_le' (h := fun s => max (cp * (F - K)) 0 + F * (s / √(2 * π)))
    tendsto_const_nhds ?_ ?_ ?_
  · have : Tendsto (fun s : ℝ => max (cp * (F - K)) 0 + F * (s / √(2 * π))) (𝓝[>] 0)
        (𝓝 (max (cp * (F - K)) 0 + F * (0 / √(2 * π)))) := by
      apply Tendsto.mono_left _ nhdsWithin_le_nhds
      apply Continuous.tendsto'
      · fun_prop
      · rfl
    simpa using this
  · filter_upwards [self_mem_nhdsWithin] with s hs
    exact (intrinsic_lt_black hcp hF hK hs).le
  · filter_upwards [self_mem_nhdsWithin] with s hs
    exact black_le_intrinsic_add hcp hF hK hs

lemma black_smul {cp F K s c : ℝ} (hc : 0 < c) : black cp (c * F) (c * K) s = c * black cp F K s := by
  unfold black bd1 bd2
  rw [mul_div_mul_left _ _ hc.ne']
  ring

/-- call/put numeraire symmetry -/
lemma black_symm {F K s : ℝ} : black 1 F K s = black (-1) K F s := by
  unfold black bd1 bd2
  have : log (F / K) = -log (K / F) := by rw [← log_inv, inv_div]
  rw [this]
  ring_nf

/-- the exercise probability -/
lemma gaussP_exercise {cp F K s : ℝ} (hcp : Spec.IsCp cp) (hF : 0 < F) (hK : 0 < K) (hs : 0 < s) :
    Spec.gaussP {z | 0 ≤ cp * (Spec.gbm F s z - K)} = ncdf (cp * bd2 F K s) := by
  have hput : ∀ z, Spec.gbm F s z ≤ K ↔ z ≤ -bd2 F K s := by
    intro z
    unfold Spec.gbm
    rw [← le_div_iff₀' hF, ← le_log_iff_exp_le (by positivity), bd2,
      log_div hK.ne' hF.ne', log_div hF.ne' hK.ne']
    have h1 : (log F - log K) / s * s = log F - log K := by field_simp
    constructor
    · intro h
      have h2 : s * z ≤ s * (-((log F - log K) / s - s / 2)) := by nlinarith
      exact le_of_mul_le_mul_left h2 hs
    · intro h
      nlinarith
  rcases hcp with rfl | rfl
  · have e : {z | 0 ≤ 1 * (Spec.gbm F s z - K)} = Ici (-bd2 F K s) := by
      ext z
      simp only [mem_ofPred_eq, mem_Ici, one_mul, sub_nonneg]
      have hz : Spec.gbm F s z < K ↔ z < -bd2 F K s := by
        rw [lt_iff_le_and_ne, lt_iff_le_and_ne, hput z]
        refine and_congr_right fun _ => not_congr ⟨fun h => ?_, fun h => ?_⟩
        · refine le_antisymm ((hput z).1 h.le) ?_
          by_contra hlt
          push Not at hlt
          have h3 := (hput ((z + -bd2 F K s) / 2)).2 (by linarith)
          have hmono : Spec.gbm F s z < Spec.gbm F s ((z + -bd2 F K s) / 2) := by
            unfold Spec.gbm
            refine mul_lt_mul_of_pos_left (exp_lt_exp.2 ?_) hF
            nlinarith
          linarith
        · subst h
          unfold Spec.gbm bd2
          have : s * -(log (F / K) / s - s / 2) - s ^ 2 / 2 = log (K / F) := by
            rw [← inv_div F K, log_inv]
            field_simp
            ring
          rw [this, exp_log (by positivity)]
          field_simp
      rw [← not_lt, hz, not_lt]
    rw [e, Spec.gaussP, one_mul]
    have hmap := gaussianReal_map_neg (μ := 0) (v := 1)
    have : (gaussianReal 0 1).real (Ici (-bd2 F K s)) = (gaussianReal 0 1).real (Iic (bd2 F K s)) := by
      conv_rhs => rw [show gaussianReal 0 1 = (gaussianReal 0 1).map (fun x : ℝ => -x) by
        rw [hmap, neg_zero]]
      rw [map_measureReal_apply measurable_neg measurableSet_Iic]
      congr 1
      ext z
      simp [neg_le]
    rw [this]; rfl
  · have e : {z | 0 ≤ -1 * (Spec.gbm F s z - K)} = Iic (-bd2 F K s) := by
      ext z
      simp only [mem_ofPred_eq, mem_Iic, ← hput z]
      constructor <;> intro h <;> linarith
    rw [e, neg_one_mul]; rfl

end PyFENG
