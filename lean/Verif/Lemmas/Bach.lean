import Verif.Lemmas.Barrier

/-! # Helper lemmas: the undiscounted Bachelier formula; sub-optimal exercise -/

open MeasureTheory ProbabilityTheory Set Filter Topology Real

namespace PyFENG

/-- The undiscounted Bachelier formula (helper). -/
noncomputable def bach (cp F K s : ℝ) : ℝ :=
  cp * (F - K) * ncdf (cp * ((F - K) / s)) + s * npdf ((F - K) / s)

lemma bach_parity (F K s : ℝ) : bach 1 F K s - bach (-1) F K s = F - K := by
  unfold bach
  simp only [one_mul, neg_one_mul, ncdf_neg]
  ring

lemma integrable_abm (F s : ℝ) : Integrable (fun z => Spec.abm F s z) (gaussianReal 0 1) := by
  rw [integrable_gauss_iff]
  refine ((integrable_npdf.const_mul F).add (integrable_mul_npdf.const_mul s)).congr
    (ae_of_all _ fun z => ?_)
  simp only [Spec.abm, Pi.add_apply]; ring

lemma integral_mul_npdf : ∫ z, z * npdf z = 0 := by
  have h := integral_neg_eq_self (fun z => z * npdf z) volume
  simp only [npdf_neg, neg_mul, integral_neg] at h
  linarith

lemma integral_abm (F s : ℝ) : ∫ z, Spec.abm F s z ∂(gaussianReal 0 1) = F := by
  rw [integral_gauss]
  have : ∀ z, npdf z * Spec.abm F s z = F * npdf z + s * (z * npdf z) := fun z => by
    unfold Spec.abm; ring
  simp_rw [this]
  rw [integral_add (integrable_npdf.const_mul _) (integrable_mul_npdf.const_mul _),
    integral_const_mul, integral_const_mul, integral_npdf, integral_mul_npdf]
  ring

lemma abm_lt_iff {F K s : ℝ} (hs : 0 < s) (z : ℝ) : K < Spec.abm F s z ↔ -((F - K) / s) < z := by
  unfold Spec.abm
  rw [neg_lt_iff_pos_add, ← mul_pos_iff_of_pos_left hs]
  have : s * (z + (F - K) / s) = s * z + F - K := by field_simp; ring
  rw [this]
  constructor <;> intro h <;> linarith

lemma gaussE_bach_call {F K s : ℝ} (hs : 0 < s) :
    Spec.gaussE (fun z => Spec.payoff 1 K (Spec.abm F s z)) = bach 1 F K s := by
  unfold Spec.gaussE
  rw [integral_gauss]
  set c := -((F - K) / s) with hc
  have hfun : (fun z => npdf z * Spec.payoff 1 K (Spec.abm F s z))
      = (Ioi c).indicator fun z => (F - K) * npdf z + s * (z * npdf z) := by
    ext z
    by_cases hz : c < z
    · have := (abm_lt_iff hs z).2 hz
      rw [indicator_of_mem (mem_Ioi.2 hz)]
      unfold Spec.payoff
      rw [max_eq_left (by linarith)]
      unfold Spec.abm; ring
    · have h2 := fun h => hz ((abm_lt_iff hs z).1 h)
      rw [indicator_of_notMem (by simpa using hz)]
      unfold Spec.payoff
      rw [max_eq_right (by linarith [not_lt.1 h2])]
      simp
  rw [hfun, integral_indicator measurableSet_Ioi,
    integral_add (integrable_npdf.const_mul _).integrableOn
      (integrable_mul_npdf.const_mul _).integrableOn,
    integral_const_mul, integral_const_mul, integral_Ioi_npdf, integral_Ioi_mul_npdf, ← ncdf_neg, hc,
    neg_neg, npdf_neg]
  unfold bach; rw [one_mul, one_mul]

/-- The Bachelier formula is the expected payoff. -/
lemma gaussE_bach {cp F K s : ℝ} (hcp : Spec.IsCp cp) (hs : 0 < s) :
    Spec.gaussE (fun z => Spec.payoff cp K (Spec.abm F s z)) = bach cp F K s := by
  rcases hcp with rfl | rfl
  · exact gaussE_bach_call hs
  · have h1 := gaussE_bach_call (F := F) (K := K) hs
    have h2 : Spec.gaussE (fun z => Spec.payoff 1 K (Spec.abm F s z))
        - Spec.gaussE (fun z => Spec.payoff (-1) K (Spec.abm F s z)) = F - K := by
      unfold Spec.gaussE
      rw [← integral_sub (integrable_payoff (integrable_abm F s) _ _)
        (integrable_payoff (integrable_abm F s) _ _)]
      simp_rw [payoff_parity]
      rw [integral_sub (integrable_abm F s) (integrable_const K), integral_abm]
      simp
    have h3 := bach_parity F K s
    linarith

lemma gaussP_Ici (x : ℝ) : Spec.gaussP (Ici (-x)) = ncdf x := by
  unfold Spec.gaussP
  have hmap := gaussianReal_map_neg (μ := 0) (v := 1)
  have : (gaussianReal 0 1).real (Ici (-x)) = (gaussianReal 0 1).real (Iic x) := by
    conv_rhs => rw [show gaussianReal 0 1 = (gaussianReal 0 1).map (fun x : ℝ => -x) by
      rw [hmap, neg_zero]]
    rw [map_measureReal_apply measurable_neg measurableSet_Iic]
    congr 1
    ext z
    simp
  rw [this]; rfl

lemma gaussP_exercise_abm {cp F K s : ℝ} (hcp : Spec.IsCp cp) (hs : 0 < s) :
    Spec.gaussP {z | 0 ≤ cp * (Spec.abm F s z - K)} = ncdf (cp * ((F - K) / s)) := by
  have hsz : ∀ z, Spec.abm F s z - K = s * (z + (F - K) / s) := fun z => by
    unfold Spec.abm; field_simp; ring
  rcases hcp with rfl | rfl
  · have e : {z | 0 ≤ 1 * (Spec.abm F s z - K)} = Ici (-((F - K) / s)) := by
      ext z
      simp only [mem_ofPred_eq, mem_Ici, one_mul, hsz, mul_nonneg_iff_of_pos_left hs]
      constructor <;> intro h <;> linarith
    rw [e, gaussP_Ici, one_mul]
  · have e : {z | 0 ≤ -1 * (Spec.abm F s z - K)} = Iic (-((F - K) / s)) := by
      ext z
      simp only [mem_ofPred_eq, mem_Iic, hsz]
      have : -1 * (s * (z + (F - K) / s)) = s * (-z - (F - K) / s) := by ring
      rw [this, mul_nonneg_iff_of_pos_left hs]
      constructor <;> intro h <;> linarith
    rw [e, neg_one_mul]; rfl

/-- Sub-optimal exercise = vanilla at `K2` plus digitals. -/
lemma gaussE_subPay {X : ℝ → ℝ} (hX : Integrable X (gaussianReal 0 1)) (hm : Measurable X)
    (hinj : Function.Injective X) {cp : ℝ} (K K2 : ℝ) :
    Spec.gaussE (fun z => subPay cp K K2 (X z)) = Spec.gaussE (fun z => Spec.payoff cp K2 (X z))
      + cp * (K2 - K) * Spec.gaussP {z | 0 ≤ cp * (X z - K2)} := by
  have hs : MeasurableSet {z | 0 ≤ cp * (X z - K2)} :=
    measurableSet_le measurable_const ((hm.sub_const K2).const_mul cp)
  have hae : ∀ᵐ z ∂(gaussianReal 0 1), X z ≠ K2 := by
    rw [ae_iff]
    have : NullSingletonClass (gaussianReal 0 1) := nullSingletonClass_gaussianReal one_ne_zero
    apply Subsingleton.measure_zero
    intro a ha b hb
    simp only [ne_eq, not_not, mem_ofPred_eq] at ha hb
    exact hinj (ha.trans hb.symm)
  unfold Spec.gaussE Spec.gaussP
  have e : ∫ z, subPay cp K K2 (X z) ∂(gaussianReal 0 1)
      = ∫ z, (Spec.payoff cp K2 (X z)
        + {z | 0 ≤ cp * (X z - K2)}.indicator (fun _ => cp * (K2 - K)) z) ∂(gaussianReal 0 1) := by
    refine integral_congr_ae (hae.mono fun z hz => ?_)
    simp only [indicator, mem_ofPred_eq]
    unfold subPay Spec.payoff
    by_cases h0 : cp = 0
    · subst h0; simp
    · have hne : cp * (X z - K2) ≠ 0 := mul_ne_zero h0 (sub_ne_zero.2 hz)
      by_cases h : 0 < cp * (X z - K2)
      · rw [if_pos h, if_pos h.le, max_eq_left h.le]; ring
      · have h' : ¬ 0 ≤ cp * (X z - K2) := fun h2 => h (lt_of_le_of_ne h2 hne.symm)
        rw [if_neg h, if_neg h', max_eq_right (not_lt.1 h)]; ring
  rw [e, integral_add (integrable_payoff hX _ _) ((integrable_const _).indicator hs),
    integral_indicator_const _ hs, smul_eq_mul]
  ring

lemma gbm_injective {F s : ℝ} (hF : 0 < F) (hs : 0 < s) : Function.Injective (Spec.gbm F s) := by
  intro a b h
  unfold Spec.gbm at h
  have := exp_injective (mul_left_cancel₀ hF.ne' h)
  have h2 : s * a = s * b := by linarith
  exact mul_left_cancel₀ hs.ne' h2

lemma abm_injective {F s : ℝ} (hs : 0 < s) : Function.Injective (Spec.abm F s) := by
  intro a b h
  unfold Spec.abm at h
  have h2 : s * a = s * b := by linarith
  exact mul_left_cancel₀ hs.ne' h2

lemma measurable_gbm (F s : ℝ) : Measurable (Spec.gbm F s) := by unfold Spec.gbm; fun_prop
lemma measurable_abm (F s : ℝ) : Measurable (Spec.abm F s) := by unfold Spec.abm; fun_prop

lemma Bsm.priceSuboptimal_eq (m : MParams) {K K2 S T cp : ℝ} (hcp : Spec.IsCp cp) (hS : 0 < S)
    (hK2 : 0 < K2) : Bsm.priceSuboptimal m T K S cp K2 = m.df T *
      Spec.gaussE fun z => subPay cp K K2 (Spec.gbm (m.fwd S T) (sigmaStd m.sigma T) z) := by
  have hF := m.fwd_pos hS T
  have hs := sigmaStd_pos m.sigma T
  rw [gaussE_subPay (integrable_gbm _ _) (measurable_gbm _ _) (gbm_injective hF hs),
    gaussE_black hcp hF hK2 hs, gaussP_exercise hcp hF hK2 hs]
  unfold Bsm.priceSuboptimal black bd1 bd2
  ring_nf

lemma Norm.priceSuboptimal_eq (m : MParams) {K K2 S T cp : ℝ} (hcp : Spec.IsCp cp) :
    Norm.priceSuboptimal m T K S cp K2 = m.df T *
      Spec.gaussE fun z => subPay cp K K2 (Spec.abm (m.fwd S T) (sigmaStd m.sigma T) z) := by
  have hs := sigmaStd_pos m.sigma T
  rw [gaussE_subPay (integrable_abm _ _) (measurable_abm _ _) (abm_injective hs),
    gaussE_bach hcp hs, gaussP_exercise_abm hcp hs]
  unfold Norm.priceSuboptimal bach
  ring_nf

lemma Bsm.priceSuboptimal_self (m : MParams) (K S T cp : ℝ) :
    Bsm.priceSuboptimal m T K S cp K = Bsm.price m K S T cp := by
  rw [Bsm.price_eq_black]
  unfold Bsm.priceSuboptimal black bd1 bd2
  ring_nf

end PyFENG
