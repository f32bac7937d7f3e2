import Verif.Model.BsmDisp
import Verif.Props.Bsm
import Verif.Props.Barrier

/-! # C16, C17: displaced Black-Scholes -/

open MeasureTheory ProbabilityTheory Set Filter Topology Real

namespace PyFENG

/-- The forward of the displaced price. -/
lemma BsmDisp.fwd_disp (d : DParams) (S T : ℝ) :
    (BsmDisp.toM d).fwd (BsmDisp.dispSpot d S) T = d.beta * Spec.forward d.isFwd d.intr d.divr S T
      + (1 - d.beta) * Spec.forward d.isFwd d.intr d.divr d.pivot T := by
  rw [MParams.fwd_eq_forward]
  unfold MParams.forward BsmDisp.dispSpot BsmDisp.toM Spec.forward
  simp only []
  split_ifs <;> ring

/-- **C16.** The displaced price is the discounted expected payoff under the displaced lognormal. -/
theorem bsmdisp_price_eq_expectation (d : DParams) {K S T cp : ℝ} (hcp : Spec.IsCp cp) (hβ : 0 < d.beta)
    (hS : 0 < BsmDisp.dispSpot d S)
    (hK : 0 < d.beta * K + (1 - d.beta) * Spec.forward d.isFwd d.intr d.divr d.pivot T)
    (hv : eps ≤ d.beta * d.sigmaDisp * √T) :
    BsmDisp.price d K S T cp = Spec.discount d.intr T * Spec.gaussE fun z => Spec.payoff cp K
      (Spec.dispPrice d.beta (Spec.forward d.isFwd d.intr d.divr S T)
        (Spec.forward d.isFwd d.intr d.divr d.pivot T) (d.sigmaDisp * √T) z) := by
  have hm : (BsmDisp.toM d).sigma * √T = d.beta * (d.sigmaDisp * √T) := by
    unfold BsmDisp.toM BsmDisp.getSigma; ring
  have hv' : eps ≤ (BsmDisp.toM d).sigma * √T := by rw [hm, ← mul_assoc]; exact hv
  unfold BsmDisp.price
  rw [Bsm.price_eq_black, sigmaStd_of_le hv', hm, BsmDisp.fwd_disp]
  have hF : 0 < d.beta * Spec.forward d.isFwd d.intr d.divr S T
      + (1 - d.beta) * Spec.forward d.isFwd d.intr d.divr d.pivot T := by
    rw [← BsmDisp.fwd_disp]; exact MParams.fwd_pos _ hS T
  have hKe : BsmDisp.dispStrike d K T
      = d.beta * K + (1 - d.beta) * Spec.forward d.isFwd d.intr d.divr d.pivot T := rfl
  rw [hKe, ← gaussE_black hcp hF hK (by rw [← mul_assoc]; exact eps_pos.trans_le hv),
    MParams.df_eq_spec, show (BsmDisp.toM d).intr = d.intr from rfl]
  rw [mul_left_comm]
  congr 1
  unfold Spec.gaussE
  rw [← integral_const_mul]
  congr 1; ext z
  unfold Spec.payoff Spec.dispPrice
  beta_reduce
  rw [mul_max_of_nonneg _ _ (by positivity : (0:ℝ) ≤ 1 / d.beta), mul_zero]
  congr 1
  field_simp
  ring

/-- **C16.** Put-call parity for the displaced model, in terms of the *undisplaced* forward and strike. -/
theorem bsmdisp_put_call_parity (d : DParams) (K S T : ℝ) (hβ : d.beta ≠ 0) :
    Spec.Parity (BsmDisp.price d K S T 1) (BsmDisp.price d K S T (-1)) (Spec.discount d.intr T)
      (Spec.forward d.isFwd d.intr d.divr S T) K := by
  unfold Spec.Parity BsmDisp.price
  have h := black_parity ((BsmDisp.toM d).fwd (BsmDisp.dispSpot d S) T) (BsmDisp.dispStrike d K T)
    (sigmaStd (BsmDisp.toM d).sigma T)
  rw [Bsm.price_eq_black, Bsm.price_eq_black, MParams.df_eq_spec,
    show (BsmDisp.toM d).intr = d.intr from rfl]
  rw [← mul_sub, ← mul_sub, h, BsmDisp.fwd_disp]
  have hKe : BsmDisp.dispStrike d K T
      = d.beta * K + (1 - d.beta) * Spec.forward d.isFwd d.intr d.divr d.pivot T := rfl
  rw [hKe]
  field_simp
  ring

/-- **C16.** With `beta = 1` the displaced model is the plain model, whatever the pivot. -/
theorem bsmdisp_beta_one (σ A r q : ℝ) (f : Bool) (K S T cp : ℝ) :
    BsmDisp.price ⟨σ, 1, A, r, q, f⟩ K S T cp = Bsm.price ⟨σ, r, q, f⟩ K S T cp := by
  unfold BsmDisp.price BsmDisp.toM BsmDisp.getSigma BsmDisp.dispStrike BsmDisp.dispSpot
  simp

lemma hasDerivAt_dispSpot (d : DParams) (S : ℝ) :
    HasDerivAt (fun S => BsmDisp.dispSpot d S) d.beta S := by
  unfold BsmDisp.dispSpot
  simpa using ((hasDerivAt_id S).const_mul d.beta).add_const ((1 - d.beta) * d.pivot)

lemma hasDerivAt_dispStrike (d : DParams) (K T : ℝ) :
    HasDerivAt (fun K => BsmDisp.dispStrike d K T) d.beta K := by
  unfold BsmDisp.dispStrike
  simpa using ((hasDerivAt_id K).const_mul d.beta).add_const
    ((1 - d.beta) * (BsmDisp.toM d).forward d.pivot T)

/-- **C16.** `delta` is the spot derivative of the displaced price. -/
theorem bsmdisp_delta_correct (d : DParams) {K S T cp : ℝ} (hcp : Spec.IsCp cp) (hβ : d.beta ≠ 0)
    (hK : 0 < BsmDisp.dispStrike d K T) (hS : 0 < BsmDisp.dispSpot d S) :
    HasDerivAt (fun S => BsmDisp.price d K S T cp) (BsmDisp.delta d K S T cp) S := by
  unfold BsmDisp.price
  have h := (bsm_delta_correct (BsmDisp.toM d) (T := T) hcp hK hS).comp S (hasDerivAt_dispSpot d S)
  refine (h.const_mul (1 / d.beta)).congr_deriv ?_
  unfold BsmDisp.delta
  field_simp

/-- **C16.** `gamma` is the spot derivative of the displaced delta. -/
theorem bsmdisp_gamma_correct (d : DParams) {K S T cp : ℝ} (hcp : Spec.IsCp cp)
    (hK : 0 < BsmDisp.dispStrike d K T) (hS : 0 < BsmDisp.dispSpot d S)
    (hv : 100 * eps ≤ d.sigmaDisp * d.beta * √T) :
    HasDerivAt (fun S => BsmDisp.delta d K S T cp) (BsmDisp.gamma d K S T cp) S := by
  have h := (bsm_gamma_correct (BsmDisp.toM d) (T := T) hcp hK hS hv).comp S (hasDerivAt_dispSpot d S)
  refine h.congr_deriv ?_
  unfold BsmDisp.gamma; ring

/-- **C16.** `vega` is the derivative of the displaced price in the volatility the user passes. -/
theorem bsmdisp_vega_correct (d : DParams) {K S T cp : ℝ} (hcp : Spec.IsCp cp) (hβ : d.beta ≠ 0)
    (hK : 0 < BsmDisp.dispStrike d K T) (hS : 0 < BsmDisp.dispSpot d S)
    (hv : eps < d.sigmaDisp * d.beta * √T) :
    HasDerivAt (fun σ => BsmDisp.price { d with sigmaDisp := σ } K S T cp) (BsmDisp.vega d K S T cp)
      d.sigmaDisp := by
  have h := bsm_vega_correct (BsmDisp.toM d) (T := T) hcp hK hS hv
  have h2 : HasDerivAt (fun σ : ℝ => σ * d.beta) d.beta d.sigmaDisp := by
    simpa using (hasDerivAt_id d.sigmaDisp).mul_const d.beta
  have h3 := h.comp d.sigmaDisp (h := fun σ : ℝ => σ * d.beta) h2
  refine (h3.const_mul (1 / d.beta)).congr_deriv ?_
  unfold BsmDisp.vega
  field_simp

/-- **C16.** `cdf` is the probability of finishing beyond the strike. -/
theorem bsmdisp_cdf_eq_probability (d : DParams) {K S T cp : ℝ} (hcp : Spec.IsCp cp) (hβ : 0 < d.beta)
    (hS : 0 < BsmDisp.dispSpot d S)
    (hK : 0 < d.beta * K + (1 - d.beta) * Spec.forward d.isFwd d.intr d.divr d.pivot T)
    (hv : eps ≤ d.beta * d.sigmaDisp * √T) :
    BsmDisp.cdf d K S T cp = Spec.gaussP {z | 0 ≤ cp *
      (Spec.dispPrice d.beta (Spec.forward d.isFwd d.intr d.divr S T)
        (Spec.forward d.isFwd d.intr d.divr d.pivot T) (d.sigmaDisp * √T) z - K)} := by
  have hm : (BsmDisp.toM d).sigma * √T = d.beta * (d.sigmaDisp * √T) := by
    unfold BsmDisp.toM BsmDisp.getSigma; ring
  have hv' : eps ≤ (BsmDisp.toM d).sigma * √T := by rw [hm, ← mul_assoc]; exact hv
  have hK' : 0 < BsmDisp.dispStrike d K T := hK
  unfold BsmDisp.cdf
  rw [bsm_cdf_eq_probability _ hcp hK' hS hv']
  congr 1; ext z
  simp only [mem_ofPred_eq]
  rw [hm, ← MParams.forward_eq_spec, ← MParams.fwd_eq_forward, BsmDisp.fwd_disp]
  have hKe : BsmDisp.dispStrike d K T
      = d.beta * K + (1 - d.beta) * Spec.forward d.isFwd d.intr d.divr d.pivot T := rfl
  rw [hKe]
  unfold Spec.dispPrice
  rw [← mul_nonneg_iff_of_pos_left hβ (b := cp * ((_ - _) / d.beta - K))]
  have : ∀ x y : ℝ, d.beta * (cp * ((x - y) / d.beta - K)) = cp * (x - (d.beta * K + y)) := by
    intro x y; field_simp; ring
  rw [this]

/-- Non-vacuity for C16: the docstring parameters (`sigma=0.2, beta=0.5, pivot=100, intr=5%, divr=10%`). -/
example : let d : DParams := ⟨0.2, 0.5, 100, 0.05, 0.1, false⟩
    0 < d.beta ∧ 0 < BsmDisp.dispSpot d 100 ∧ 0 < BsmDisp.dispStrike d 80 1
      ∧ 100 * eps ≤ d.beta * d.sigmaDisp * √1 := by
  refine ⟨by norm_num, by norm_num [BsmDisp.dispSpot], ?_, ?_⟩
  · unfold BsmDisp.dispStrike MParams.forward BsmDisp.toM
    simp only [Bool.false_eq_true, if_false]
    positivity
  · rw [sqrt_one]; have : eps < 1 / 100000 := by unfold eps; norm_num
    norm_num; linarith

/-! ## C14 for the displaced model -/

/-- **C14 (BsmDisp).** Knock-in plus knock-out is the displaced vanilla price. -/
theorem bsmdisp_barrier_in_plus_out (d : DParams) (K B S T cp : ℝ) :
    BsmDisp.priceBarrier d K B S T cp 1 + BsmDisp.priceBarrier d K B S T cp (-1)
      = BsmDisp.price d K S T cp := by
  unfold BsmDisp.priceBarrier BsmDisp.price
  rw [← mul_add, bsm_barrier_in_plus_out]

/-- **C14 (BsmDisp).** Knock-out price zero at the barrier (no carry, so that the pivot does not move). -/
theorem bsmdisp_barrier_knockout_at_barrier_partial (d : DParams) {K B T cp : ℝ} (hcp : Spec.IsCp cp)
    (hB : 0 < BsmDisp.dispSpot d B) (hc : d.isFwd = true ∨ d.intr = d.divr) :
    BsmDisp.priceBarrier d K B B T cp (-1) = 0 := by
  have e : BsmDisp.dispStrike d B T = BsmDisp.dispSpot d B := by
    unfold BsmDisp.dispStrike BsmDisp.dispSpot MParams.forward BsmDisp.toM
    rcases hc with h | h <;> simp [h]
  unfold BsmDisp.priceBarrier
  rw [e, bsm_barrier_knockout_at_barrier _ hcp hB, mul_zero]

/-! ## C17: theta -/

/-- **C17, `beta = 1`.** Theta is minus the maturity derivative of the price. -/
theorem bsmdisp_theta_correct_partial (d : DParams) {K S T cp : ℝ} (hcp : Spec.IsCp cp)
    (hβ : d.beta = 1) (hK : 0 < K) (hS : 0 < S) (hT : 0 < T) (hv : eps < d.sigmaDisp * √T) :
    HasDerivAt (fun T => -BsmDisp.price d K S T cp) (BsmDisp.theta d K S T cp) T := by
  obtain ⟨σ, β, A, r, q, f⟩ := d
  simp only at hβ; subst hβ
  have h := bsm_theta_correct ⟨σ, r, q, f⟩ hcp hK hS hT hv
  simp only [bsmdisp_beta_one]
  refine h.congr_deriv ?_
  unfold BsmDisp.theta BsmDisp.superTheta Bsm.theta
  rw [bsmdisp_beta_one]
  unfold BsmDisp.delta BsmDisp.vega BsmDisp.toM BsmDisp.getSigma BsmDisp.dispStrike BsmDisp.dispSpot
  simp

lemma Bsm.delta_smul (m : MParams) {c K S T cp : ℝ} (hc : 0 < c) :
    Bsm.delta m (c * K) (c * S) T cp = Bsm.delta m K S T cp := by
  have : m.fwd (c * S) T / (c * K) = m.fwd S T / K := by
    unfold MParams.fwd
    split_ifs
    · rw [mul_div_mul_left _ _ hc.ne']
    · rw [show c * S * m.divf T / m.df T = c * (S * m.divf T / m.df T) by ring,
        mul_div_mul_left _ _ hc.ne']
  unfold Bsm.delta Bsm.d1
  rw [this]

lemma Bsm.vega_smul (m : MParams) {c K S T cp : ℝ} (hc : 0 < c) :
    Bsm.vega m (c * K) (c * S) T cp = c * Bsm.vega m K S T cp := by
  have h0 : m.fwd (c * S) T = c * m.fwd S T := by
    unfold MParams.fwd; split_ifs <;> ring
  unfold Bsm.vega Bsm.d1
  rw [h0, mul_div_mul_left _ _ hc.ne']
  ring

/-- **C17, law.** For zero pivot (any rates) the code's theta is off by the exact amount
`(1-β) σ/(2T) · vega`: `BsmDisp.theta` displaces spot and strike, and then calls the overridden
`price`, `delta` and `vega`, which displace them a second time. -/
theorem bsmdisp_theta_law (d : DParams) {K S T cp : ℝ} (hcp : Spec.IsCp cp) (hβ : 0 < d.beta)
    (hA : d.pivot = 0) (hK : 0 < K) (hS : 0 < S) (hT : 0 < T) (hv : eps < d.sigmaDisp * d.beta * √T) :
    HasDerivAt (fun T => -BsmDisp.price d K S T cp)
      (BsmDisp.theta d K S T cp - (1 - d.beta) * (d.sigmaDisp / (2 * T)) * BsmDisp.vega d K S T cp)
      T := by
  have e1 : ∀ K T, BsmDisp.dispStrike d K T = d.beta * K := fun K T => by
    unfold BsmDisp.dispStrike MParams.forward; rw [hA]; split_ifs <;> simp
  have e2 : ∀ S, BsmDisp.dispSpot d S = d.beta * S := fun S => by
    unfold BsmDisp.dispSpot; rw [hA]; simp
  have h := (bsm_theta_correct (BsmDisp.toM d) hcp (mul_pos hβ hK) (mul_pos hβ hS) hT hv).const_mul
    (1 / d.beta)
  unfold BsmDisp.price
  simp only [e1, e2]
  refine (h.congr_of_eventuallyEq (Eventually.of_forall fun T => ?_)).congr_deriv ?_
  · simp only []; ring
  unfold BsmDisp.theta BsmDisp.superTheta Bsm.theta BsmDisp.delta BsmDisp.vega BsmDisp.price
  simp only [e1, e2, Bsm.delta_smul _ hβ, Bsm.vega_smul _ hβ, bsm_homogeneous _ hβ]
  simp only [BsmDisp.toM, BsmDisp.getSigma]
  field_simp
  ring

/-- **C17, violated.** For zero pivot and every `beta ≠ 1`, the code's theta is *not* minus the maturity
derivative of the code's price. -/
theorem bsmdisp_theta_wrong (d : DParams) {K S T cp : ℝ} (hcp : Spec.IsCp cp) (hβ : 0 < d.beta)
    (hβ1 : d.beta ≠ 1) (hA : d.pivot = 0) (hK : 0 < K) (hS : 0 < S) (hT : 0 < T)
    (hv : eps < d.sigmaDisp * d.beta * √T) :
    ¬ HasDerivAt (fun T => -BsmDisp.price d K S T cp) (BsmDisp.theta d K S T cp) T := by
  intro h
  have h2 := h.unique (bsmdisp_theta_law d hcp hβ hA hK hS hT hv)
  have hs : 0 < d.sigmaDisp * d.beta * √T := eps_pos.trans hv
  have hσ : d.sigmaDisp ≠ 0 := by rintro h; rw [h] at hs; simp at hs
  have e2 : BsmDisp.dispSpot d S = d.beta * S := by unfold BsmDisp.dispSpot; rw [hA]; simp
  have hV : 0 < BsmDisp.vega d K S T cp := by
    unfold BsmDisp.vega Bsm.vega
    have h1 := (BsmDisp.toM d).df_pos T
    have h2 := (BsmDisp.toM d).fwd_pos (S := BsmDisp.dispSpot d S) (by rw [e2]; positivity) T
    have h3 := npdf_pos (Bsm.d1 (BsmDisp.toM d) (BsmDisp.dispStrike d K T) (BsmDisp.dispSpot d S) T)
    positivity
  have h3 : (1 - d.beta) * (d.sigmaDisp / (2 * T)) * BsmDisp.vega d K S T cp = 0 := by linarith
  have h4 : (1 - d.beta) ≠ 0 := sub_ne_zero.2 hβ1.symm
  have h5 : d.sigmaDisp / (2 * T) ≠ 0 := by positivity
  exact mul_ne_zero (mul_ne_zero h4 h5) hV.ne' h3

example : let d : DParams := ⟨0.2, 0.5, 0, 0.05, 0.1, false⟩
    0 < d.beta ∧ d.beta ≠ 1 ∧ d.pivot = 0 ∧ eps < d.sigmaDisp * d.beta * √1 :=
  ⟨by norm_num, by norm_num, rfl, by rw [sqrt_one]; have := eps_lt; norm_num; linarith⟩

end PyFENG
