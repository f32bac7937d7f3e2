import Verif.Model.Bsm
import Verif.Spec

/-! # Helper lemmas: the undiscounted Black formula as a function of `(F, K, s)` -/

open MeasureTheory ProbabilityTheory Set Filter Topology Real

namespace PyFENG

/-- `d1` of the Black formula -/
noncomputable def bd1 (F K s : ℝ) : ℝ := log (F / K) / s + s / 2
/-- `d2` of the Black formula -/
noncomputable def bd2 (F K s : ℝ) : ℝ := log (F / K) / s - s / 2

/-- The undiscounted Black formula (helper). -/
noncomputable def black (cp F K s : ℝ) : ℝ :=
  cp * (F * ncdf (cp * bd1 F K s) - K * ncdf (cp * bd2 F K s))

lemma bd1_sub (F K s : ℝ) : bd1 F K s - bd2 F K s = s := by unfold bd1 bd2; ring

lemma sigmaStd_pos (s t : ℝ) : 0 < sigmaStd s t := lt_max_of_lt_right eps_pos

lemma sigmaStd_of_le {s t : ℝ} (h : eps ≤ s * √t) : sigmaStd s t = s * √t := max_eq_left h

lemma MParams.df_pos (m : MParams) (t : ℝ) : 0 < m.df t := exp_pos _

lemma MParams.divf_pos (m : MParams) (t : ℝ) : 0 < m.divf t := by
  unfold MParams.divf; split <;> positivity

lemma MParams.fwd_pos (m : MParams) {S : ℝ} (hS : 0 < S) (t : ℝ) : 0 < m.fwd S t := by
  unfold MParams.fwd
  have := m.divf_pos t; have := m.df_pos t
  split <;> positivity

lemma MParams.fwd_eq_forward (m : MParams) (S t : ℝ) : m.fwd S t = m.forward S t := by
  unfold MParams.fwd MParams.forward MParams.divf MParams.df
  split
  · rfl
  · rw [mul_div_assoc, ← exp_sub]; ring_nf

lemma MParams.forward_eq_spec (m : MParams) (S t : ℝ) :
    m.forward S t = Spec.forward m.isFwd m.intr m.divr S t := rfl

lemma MParams.df_eq_spec (m : MParams) (t : ℝ) : m.df t = Spec.discount m.intr t := by
  unfold MParams.df Spec.discount; ring_nf

/-- The model price is the discounted Black formula at the floored standard deviation. -/
lemma Bsm.price_eq_black (m : MParams) (K S T cp : ℝ) :
    Bsm.price m K S T cp = m.df T * black cp (m.fwd S T) K (sigmaStd m.sigma T) := by
  have hf : S * (if m.isFwd then 1 else exp (-T * m.divr) / exp (-T * m.intr)) = m.fwd S T := by
    unfold MParams.fwd MParams.divf MParams.df
    cases m.isFwd
    · simp; ring_nf
    · simp
  unfold Bsm.price Bsm.priceFormula black bd1 bd2
  simp only [hf]
  unfold MParams.df
  ring_nf

lemma npdf_ratio {F K s : ℝ} (hF : 0 < F) (hK : 0 < K) (hs : s ≠ 0) :
    F * npdf (bd1 F K s) = K * npdf (bd2 F K s) := by
  have h : npdf (bd2 F K s) = npdf (bd1 F K s) * (F / K) := by
    unfold npdf
    rw [div_mul_eq_mul_div]
    congr 1
    conv_rhs => rw [← exp_log (show 0 < F / K by positivity)]
    rw [← exp_add]
    congr 1
    unfold bd1 bd2
    field_simp
    ring
  rw [h]
  field_simp

lemma isCp_sq {cp : ℝ} (h : Spec.IsCp cp) : cp * cp = 1 := by
  rcases h with rfl | rfl <;> norm_num

lemma npdf_cp {cp : ℝ} (h : Spec.IsCp cp) (x : ℝ) : npdf (cp * x) = npdf x := by
  rcases h with rfl | rfl
  · simp
  · rw [neg_one_mul, npdf_neg]

/-- parity for the Black formula -/
lemma black_parity (F K s : ℝ) : black 1 F K s - black (-1) F K s = F - K := by
  unfold black
  simp only [one_mul, neg_one_mul, ncdf_neg]
  ring

lemma integrable_gbm (F s : ℝ) : Integrable (fun z => Spec.gbm F s z) (gaussianReal 0 1) := by
  rw [integrable_gauss_iff]
  have := (integrable_npdf_mul_exp s).const_mul (F * exp (-(s ^ 2 / 2)))
  refine this.congr (ae_of_all _ fun z => ?_)
  simp only [Spec.gbm]
  rw [sub_eq_add_neg, exp_add]
  ring

lemma integral_gbm (F s : ℝ) : ∫ z, Spec.gbm F s z ∂(gaussianReal 0 1) = F := by
  rw [integral_gauss]
  have : ∀ z, npdf z * Spec.gbm F s z = (F * exp (-(s ^ 2 / 2))) * (npdf z * exp (s * z)) := by
    intro z
    simp only [Spec.gbm]
    rw [sub_eq_add_neg, exp_add]
    ring
  simp_rw [this]
  rw [integral_const_mul, integral_npdf_mul_exp, mul_assoc, ← exp_add]
  simp

lemma integrable_payoff {f : ℝ → ℝ} {μ : Measure ℝ} [IsFiniteMeasure μ] (hf : Integrable f μ)
    (cp K : ℝ) : Integrable (fun z => Spec.payoff cp K (f z)) μ := by
  unfold Spec.payoff
  exact ((hf.sub (integrable_const K)).const_mul cp).sup (integrable_const 0)

/-- Call leg: `E[(F e^{sZ - s²/2} - K)⁺] = F N(d1) - K N(d2)`. -/
lemma gaussE_call {F K s : ℝ} (hF : 0 < F) (hK : 0 < K) (hs : 0 < s) :
    Spec.gaussE (fun z => Spec.payoff 1 K (Spec.gbm F s z)) = black 1 F K s := by
  unfold Spec.gaussE
  rw [integral_gauss]
  set c := -bd2 F K s with hc
  have hiff : ∀ z, c < z ↔ K < Spec.gbm F s z := by
    intro z
    unfold Spec.gbm
    rw [hc, ← div_lt_iff₀' hF, ← log_lt_iff_lt_exp (by positivity), bd2,
      log_div hK.ne' hF.ne', log_div hF.ne' hK.ne']
    constructor
    · intro h
      have : (log F - log K) / s * s = log F - log K := by field_simp
      nlinarith
    · intro h
      have h1 : (log F - log K) / s * s = log F - log K := by field_simp
      have h2 : s * (-((log F - log K) / s - s / 2)) < s * z := by nlinarith
      exact lt_of_mul_lt_mul_left h2 hs.le
  have hfun : (fun z => npdf z * Spec.payoff 1 K (Spec.gbm F s z))
      = (Ioi c).indicator fun z => (F * exp (-(s ^ 2 / 2))) * (npdf z * exp (s * z))
          - K * npdf z := by
    ext z
    by_cases hz : c < z
    · have := (hiff z).1 hz
      rw [indicator_of_mem (mem_Ioi.2 hz)]
      unfold Spec.payoff
      rw [max_eq_left (by linarith)]
      simp only [Spec.gbm]
      rw [sub_eq_add_neg (s * z), exp_add]
      ring
    · have h2 := fun h => hz ((hiff z).2 h)
      rw [indicator_of_notMem (by simpa using hz)]
      unfold Spec.payoff
      rw [max_eq_right (by linarith [not_lt.1 h2])]
      simp
  rw [hfun, integral_indicator measurableSet_Ioi, integral_sub, integral_const_mul,
    integral_const_mul, integral_Ioi_npdf_mul_exp, integral_Ioi_npdf, ← ncdf_neg]
  · unfold black
    have e1 : s - c = bd1 F K s := by rw [hc]; linarith [bd1_sub F K s]
    have e2 : exp (-(s ^ 2 / 2)) * exp (s ^ 2 / 2) = 1 := by rw [← exp_add]; simp
    rw [e1, hc, neg_neg, one_mul, one_mul, one_mul, mul_assoc F, ← mul_assoc (exp _), e2, one_mul]
  · exact ((integrable_npdf_mul_exp s).const_mul _).integrableOn
  · exact (integrable_npdf.const_mul _).integrableOn

lemma payoff_parity (K x : ℝ) : Spec.payoff 1 K x - Spec.payoff (-1) K x = x - K := by
  unfold Spec.payoff
  rcases le_total x K with h | h
  · rw [max_eq_right (by linarith), max_eq_left (by linarith)]; ring
  · rw [max_eq_left (by linarith), max_eq_right (by linarith)]; ring

/-- The Black formula is the expected payoff. -/
lemma gaussE_black {cp F K s : ℝ} (hcp : Spec.IsCp cp) (hF : 0 < F) (hK : 0 < K) (hs : 0 < s) :
    Spec.gaussE (fun z => Spec.payoff cp K (Spec.gbm F s z)) = black cp F K s := by
  rcases hcp with rfl | rfl
  · exact gaussE_call hF hK hs
  · have h1 := gaussE_call hF hK hs
    have h2 : Spec.gaussE (fun z => Spec.payoff 1 K (Spec.gbm F s z))
        - Spec.gaussE (fun z => Spec.payoff (-1) K (Spec.gbm F s z)) = F - K := by
      unfold Spec.gaussE
      rw [← integral_sub (integrable_payoff (integrable_gbm F s) _ _)
        (integrable_payoff (integrable_gbm F s) _ _)]
      simp_rw [payoff_parity]
      rw [integral_sub (integrable_gbm F s) (integrable_const K), integral_gbm]
      simp
    have h3 := black_parity F K s
    linarith

end PyFENG
