import Verif.Lemmas.BachDeriv
import Verif.Props.Bsm
import Verif.Props.BsmImpvol

/-! # C20-C23: the Bachelier model -/

open MeasureTheory ProbabilityTheory Set Filter Topology Real

namespace PyFENG

/-! ## C20 -/

/-- **C20.** The price is the discounted expected payoff of the normally distributed terminal price. -/
theorem norm_price_eq_expectation (m : MParams) {K S T cp : ℝ} (hcp : Spec.IsCp cp)
    (hv : eps ≤ m.sigma * √T) :
    Norm.price m K S T cp = Spec.discount m.intr T * Spec.gaussE fun z => Spec.payoff cp K
      (Spec.abm (Spec.forward m.isFwd m.intr m.divr S T) (m.sigma * √T) z) := by
  rw [Norm.price_eq_bach m hv, gaussE_bach hcp (eps_pos.trans_le hv), m.df_eq_spec, m.fwd_eq_forward,
    m.forward_eq_spec]

/-- **C20.** Put-call parity. -/
theorem norm_put_call_parity (m : MParams) {K S T : ℝ} (hv : eps ≤ m.sigma * √T) :
    Spec.Parity (Norm.price m K S T 1) (Norm.price m K S T (-1)) (Spec.discount m.intr T)
      (Spec.forward m.isFwd m.intr m.divr S T) K := by
  unfold Spec.Parity
  rw [Norm.price_eq_bach m hv, Norm.price_eq_bach m hv, ← mul_sub, bach_parity, m.df_eq_spec,
    m.fwd_eq_forward, m.forward_eq_spec]

/-- **C20.** The price strictly exceeds discounted intrinsic value (so it is positive). -/
theorem norm_price_gt_intrinsic (m : MParams) {K S T cp : ℝ} (hcp : Spec.IsCp cp)
    (hv : eps ≤ m.sigma * √T) :
    Spec.discount m.intr T * max (cp * (Spec.forward m.isFwd m.intr m.divr S T - K)) 0
      < Norm.price m K S T cp := by
  rw [Norm.price_eq_bach m hv, m.df_eq_spec, m.fwd_eq_forward, m.forward_eq_spec]
  refine mul_lt_mul_of_pos_left (intrinsic_lt_bach hcp (eps_pos.trans_le hv)) ?_
  unfold Spec.discount; positivity

/-- **C20.** Strictly increasing in the volatility: the Bachelier implied volatility is unique. -/
theorem norm_strictMono_vol (m : MParams) {K S T cp : ℝ} (hcp : Spec.IsCp cp) {σ₁ σ₂ : ℝ}
    (hT : 0 < T) (h1 : eps ≤ σ₁ * √T) (h : σ₁ < σ₂) :
    Norm.price { m with sigma := σ₁ } K S T cp < Norm.price { m with sigma := σ₂ } K S T cp := by
  have hq := sqrt_pos.2 hT
  have h12 : σ₁ * √T < σ₂ * √T := mul_lt_mul_of_pos_right h hq
  rw [Norm.price_eq_bach _ (show eps ≤ (MParams.mk σ₁ m.intr m.divr m.isFwd).sigma * √T from h1),
    Norm.price_eq_bach _ (show eps ≤ (MParams.mk σ₂ m.intr m.divr m.isFwd).sigma * √T from
      h1.trans h12.le)]
  refine mul_lt_mul_of_pos_left (strictMonoOn_bach hcp (eps_pos.trans_le h1) ?_ h12)
    (MParams.df_pos _ T)
  exact (eps_pos.trans_le h1).trans h12

/-- **C20.** Strictly convex in the strike (no butterfly arbitrage). -/
theorem norm_strictConvex_strike (m : MParams) {S T cp : ℝ} (hcp : Spec.IsCp cp)
    (hv : eps ≤ m.sigma * √T) : StrictConvexOn ℝ univ fun K => Norm.price m K S T cp := by
  have h := strictConvexOn_bach (F := m.fwd S T) hcp (eps_pos.trans_le hv)
  have hD := m.df_pos T
  refine ⟨convex_univ, fun x hx y hy hxy a b ha hb hab => ?_⟩
  have := h.2 hx hy hxy ha hb hab
  simp only [Norm.price_eq_bach m hv, smul_eq_mul] at this ⊢
  nlinarith [mul_lt_mul_of_pos_left this hD]

/-- **C20, violated in the degenerate limit.** With zero volatility (or zero maturity) the code returns
`0`, not the discounted intrinsic value: any in-the-money option is mispriced. -/
theorem norm_price_degenerate_wrong (m : MParams) {K S T cp : ℝ} (hv : m.sigma * √T = 0)
    (hitm : 0 < cp * (Spec.forward m.isFwd m.intr m.divr S T - K)) :
    Norm.price m K S T cp ≠
      Spec.discount m.intr T * max (cp * (Spec.forward m.isFwd m.intr m.divr S T - K)) 0 := by
  have h0 : Norm.price m K S T cp = 0 := by
    unfold Norm.price Norm.priceFormula; simp [hv]
  have : 0 < Spec.discount m.intr T := by unfold Spec.discount; positivity
  rw [h0, max_eq_left hitm.le]
  exact (mul_pos this hitm).ne

example : ∃ (m : MParams) (K S T cp : ℝ), m.sigma * √T = 0 ∧
    0 < cp * (Spec.forward m.isFwd m.intr m.divr S T - K) :=
  ⟨⟨20, 0, 0, true⟩, 90, 100, 0, 1, by simp, by norm_num [Spec.forward]⟩

/-- Non-vacuity: the docstring parameters. -/
example : eps ≤ (⟨20, 0.05, 0.1, false⟩ : MParams).sigma * √1 := by
  rw [sqrt_one]; have := eps_lt; norm_num; linarith

/-- **C07 (Norm).** Pricing off the spot equals pricing off the forward. -/
theorem norm_price_fwd_convention (m : MParams) (K S T cp : ℝ) :
    Norm.price m K S T cp = Norm.price { m with isFwd := true } K (m.forward S T) T cp := by
  have hf : S * (if m.isFwd then 1 else exp (-T * m.divr) / exp (-T * m.intr)) = m.forward S T := by
    rw [← m.fwd_eq_forward]
    unfold MParams.fwd MParams.divf MParams.df
    cases m.isFwd
    · simp; ring_nf
    · simp
  unfold Norm.price Norm.priceFormula
  simp only [hf, if_true, mul_one]

/-- **C08 analogue (Norm).** Translation invariance and homogeneity: shifting strike and forward
together leaves the price unchanged; scaling price, strike, spot and volatility together scales it. -/
theorem norm_homogeneous (m : MParams) {K S T cp c : ℝ} (hc : 0 < c) (hv : eps ≤ m.sigma * √T)
    (hv' : eps ≤ c * m.sigma * √T) :
    Norm.price { m with sigma := c * m.sigma } (c * K) (c * S) T cp = c * Norm.price m K S T cp := by
  rw [Norm.price_eq_bach _ hv, Norm.price_eq_bach _ (show eps ≤ (MParams.mk (c * m.sigma) m.intr m.divr
    m.isFwd).sigma * √T from hv')]
  have h0 : m.fwd (c * S) T = c * m.fwd S T := by
    unfold MParams.fwd; split_ifs <;> ring
  have h1 : (MParams.mk (c * m.sigma) m.intr m.divr m.isFwd).fwd (c * S) T = m.fwd (c * S) T := rfl
  have h2 : (MParams.mk (c * m.sigma) m.intr m.divr m.isFwd).df T = m.df T := rfl
  rw [h1, h2, h0]
  unfold bach
  have h3 : (c * m.fwd S T - c * K) / (c * m.sigma * √T) = (m.fwd S T - K) / (m.sigma * √T) := by
    rw [← mul_sub, mul_assoc, mul_div_mul_left _ _ hc.ne']
  simp only [h3]
  ring

/-! ## C21: Greeks -/

lemma hasDerivAt_fwd_spot (m : MParams) (S T : ℝ) :
    HasDerivAt (fun S => m.fwd S T) (if m.isFwd then 1 else m.divf T / m.df T) S := by
  unfold MParams.fwd
  cases m.isFwd
  · simp only [Bool.false_eq_true, if_false]
    simpa using ((hasDerivAt_id S).mul_const (m.divf T)).div_const (m.df T)
  · simpa using hasDerivAt_id' S

lemma Norm.d_eq (m : MParams) {K S T : ℝ} (hv : eps ≤ m.sigma * √T) :
    Norm.d m K S T = (m.fwd S T - K) / (m.sigma * √T) := by
  unfold Norm.d; rw [sigmaStd_of_le hv]

/-- **C21.** Delta. -/
theorem norm_delta_correct (m : MParams) {K S T cp : ℝ} (hcp : Spec.IsCp cp)
    (hv : eps ≤ m.sigma * √T) :
    HasDerivAt (fun S => Norm.price m K S T cp) (Norm.delta m K S T cp) S := by
  simp only [Norm.price_eq_bach m hv]
  have h := (hasDerivAt_bach hcp (hasDerivAt_fwd_spot m S T) (hasDerivAt_const S K)
    (hasDerivAt_const S (m.sigma * √T)) (eps_pos.trans_le hv)).const_mul (m.df T)
  refine h.congr_deriv ?_
  have hd := (m.df_pos T).ne'
  unfold Norm.delta
  rw [Norm.d_eq m hv]
  split_ifs <;> field_simp <;> ring

/-- **C21.** Gamma. -/
theorem norm_gamma_correct (m : MParams) {K S T cp : ℝ} (hcp : Spec.IsCp cp)
    (hv : eps ≤ m.sigma * √T) :
    HasDerivAt (fun S => Norm.delta m K S T cp) (Norm.gamma m K S T cp) S := by
  have hs := eps_pos.trans_le hv
  have h1 := (((hasDerivAt_fwd_spot m S T).sub_const K).div_const (m.sigma * √T)).const_mul cp
  have h2 := ((((hasDerivAt_ncdf (cp * ((m.fwd S T - K) / (m.sigma * √T)))).comp S h1).const_mul cp).mul_const
    (if m.isFwd then m.df T else m.divf T))
  unfold Norm.delta
  simp only [Norm.d_eq m hv]
  refine h2.congr_deriv ?_
  unfold Norm.gamma
  rw [npdf_cp hcp, Norm.d_eq m hv, sigmaStd_of_le hv]
  have hc := isCp_sq hcp
  have hd := (m.df_pos T).ne'
  generalize npdf ((m.fwd S T - K) / (m.sigma * √T)) = n
  generalize m.sigma * √T = w at *
  have e : ∀ x y : ℝ, cp * (n * (cp * (x / w))) * y = (cp * cp) * (n * x * y / w) := by
    intro x y; ring
  rw [e, hc]
  split_ifs <;> field_simp

/-- **C21.** Vega. -/
theorem norm_vega_correct (m : MParams) {K S T cp : ℝ} (hcp : Spec.IsCp cp)
    (hv : eps < m.sigma * √T) :
    HasDerivAt (fun σ => Norm.price { m with sigma := σ } K S T cp) (Norm.vega m K S T cp) m.sigma := by
  have hE : (fun σ => Norm.price { m with sigma := σ } K S T cp)
      =ᶠ[𝓝 m.sigma] fun σ => m.df T * bach cp (m.fwd S T) K (σ * √T) := by
    have hc : Continuous fun σ : ℝ => σ * √T := by fun_prop
    filter_upwards [hc.continuousAt.eventually (lt_mem_nhds hv)] with σ hσ
    exact Norm.price_eq_bach { m with sigma := σ } hσ.le
  have h := (hasDerivAt_bach hcp (hasDerivAt_const m.sigma (m.fwd S T)) (hasDerivAt_const m.sigma K)
    ((hasDerivAt_id' m.sigma).mul_const (√T)) (eps_pos.trans hv)).const_mul (m.df T)
  refine (h.congr_of_eventuallyEq hE).congr_deriv ?_
  unfold Norm.vega
  rw [Norm.d_eq m hv.le]
  ring

/-- **C21.** `cdf` is the probability of finishing beyond the strike, and the two tails sum to one. -/
theorem norm_cdf_eq_probability (m : MParams) {K S T cp : ℝ} (hcp : Spec.IsCp cp)
    (hv : eps ≤ m.sigma * √T) :
    Norm.cdf m K S T cp = Spec.gaussP {z | 0 ≤ cp *
      (Spec.abm (Spec.forward m.isFwd m.intr m.divr S T) (m.sigma * √T) z - K)} := by
  rw [gaussP_exercise_abm hcp (eps_pos.trans_le hv)]
  unfold Norm.cdf
  rw [sigmaStd_of_le hv, m.forward_eq_spec]

/-- **C21, law for theta.** Minus the maturity derivative of the price is the code's theta plus
`df · cp · N(cp d) · F · c`, with `c = divr` off the spot and `c = intr` when `spot` is a forward. The
source says "still not perfect; need to consider the derivative w.r.t. divr and is_fwd = True". -/
theorem norm_theta_law (m : MParams) {K S T cp : ℝ} (hcp : Spec.IsCp cp) (hT : 0 < T)
    (hv : eps < m.sigma * √T) :
    HasDerivAt (fun T => -Norm.price m K S T cp)
      (Norm.theta m K S T cp + m.df T * (cp * ncdf (cp * Norm.d m K S T)) * m.fwd S T
        * (if m.isFwd then m.intr else m.divr)) T := by
  have hE : (fun T => -Norm.price m K S T cp)
      =ᶠ[𝓝 T] fun T => -(m.df T * bach cp (m.forward S T) K (m.sigma * √T)) := by
    have hc : Continuous fun T : ℝ => m.sigma * √T := by fun_prop
    filter_upwards [hc.continuousAt.eventually (lt_mem_nhds hv)] with t ht
    rw [Norm.price_eq_bach m ht.le, m.fwd_eq_forward]
  have hdf : HasDerivAt (fun T => m.df T) (-m.intr * m.df T) T := by
    unfold MParams.df
    have := ((hasDerivAt_id' T).const_mul (-m.intr)).exp
    refine this.congr_deriv ?_; ring
  have hF : HasDerivAt (fun T => m.forward S T)
      (if m.isFwd then 0 else (m.intr - m.divr) * m.forward S T) T := by
    unfold MParams.forward
    split_ifs
    · exact hasDerivAt_const T S
    · have := (((hasDerivAt_id' T).const_mul (m.intr - m.divr)).exp).const_mul S
      refine this.congr_deriv ?_; ring
  have hs : HasDerivAt (fun T : ℝ => m.sigma * √T) (m.sigma * (1 / (2 * √T))) T :=
    (hasDerivAt_sqrt hT.ne').const_mul m.sigma
  have h := (hdf.mul (hasDerivAt_bach hcp hF (hasDerivAt_const T K) hs (eps_pos.trans hv))).neg
  refine (h.congr_of_eventuallyEq hE).congr_deriv ?_
  unfold Norm.theta
  rw [Norm.d_eq m hv.le, sigmaStd_of_le hv.le, m.fwd_eq_forward]
  unfold bach
  have hq : 0 < √T := sqrt_pos.2 hT
  have hq2 : m.sigma * (1 / (2 * √T)) = m.sigma * √T / (2 * T) := by
    have := sq_sqrt hT.le
    field_simp
    rw [this]
  rw [hq2]
  generalize ncdf (cp * ((m.forward S T - K) / (m.sigma * √T))) = N
  generalize npdf ((m.forward S T - K) / (m.sigma * √T)) = n
  split_ifs
  · field_simp; ring
  · field_simp; ring

/-- **C21, theta without dividends.** Correct when there is no carry term to forget. -/
theorem norm_theta_correct_partial (m : MParams) {K S T cp : ℝ} (hcp : Spec.IsCp cp) (hT : 0 < T)
    (hv : eps < m.sigma * √T) (hc : (if m.isFwd then m.intr else m.divr) = 0) :
    HasDerivAt (fun T => -Norm.price m K S T cp) (Norm.theta m K S T cp) T := by
  have := norm_theta_law m (K := K) (S := S) hcp hT hv
  rwa [hc, mul_zero, add_zero] at this

/-- **C21, violated.** With a non-zero dividend yield (or a discounted forward) and a non-zero
price, theta is not the calendar-time derivative. -/
theorem norm_theta_wrong (m : MParams) {K S T cp : ℝ} (hcp : Spec.IsCp cp) (hT : 0 < T) (hS : S ≠ 0)
    (hv : eps < m.sigma * √T) (hc : (if m.isFwd then m.intr else m.divr) ≠ 0) :
    ¬ HasDerivAt (fun T => -Norm.price m K S T cp) (Norm.theta m K S T cp) T := by
  intro h
  have h2 := h.unique (norm_theta_law m hcp hT hv)
  have hF : m.fwd S T ≠ 0 := by
    rw [m.fwd_eq_forward]; unfold MParams.forward; split_ifs
    · exact hS
    · exact mul_ne_zero hS (exp_pos _).ne'
  have hcp0 : cp ≠ 0 := by rcases hcp with rfl | rfl <;> norm_num
  have h3 := mul_ne_zero (mul_ne_zero (mul_ne_zero (m.df_pos T).ne'
    (mul_ne_zero hcp0 (ncdf_pos (cp * Norm.d m K S T)).ne')) hF) hc
  exact h3 (by linarith)

example : ∃ m : MParams, eps < m.sigma * √1 ∧ (if m.isFwd then m.intr else m.divr) ≠ 0 :=
  ⟨⟨20, 0.05, 0.1, false⟩, by rw [sqrt_one]; have := eps_lt; norm_num; linarith, by norm_num⟩

/-! ## C22: binaries -/

/-- **C22.** The cash-or-nothing price is the discounted exercise probability; call + put = df. -/
theorem norm_binary_cash_correct (m : MParams) {K S T cp : ℝ} (hcp : Spec.IsCp cp)
    (hv : eps ≤ m.sigma * √T) :
    Norm.priceBinary m K S T cp false = Spec.discount m.intr T * Spec.gaussP {z | 0 ≤ cp *
      (Spec.abm (Spec.forward m.isFwd m.intr m.divr S T) (m.sigma * √T) z - K)} ∧
    Norm.priceBinary m K S T 1 false + Norm.priceBinary m K S T (-1) false
      = Spec.discount m.intr T := by
  rw [gaussP_exercise_abm hcp (eps_pos.trans_le hv)]
  unfold Norm.priceBinary
  simp only [Bool.false_eq_true, if_false, max_eq_left hv, ← m.df_eq_spec, ← m.forward_eq_spec,
    ← m.fwd_eq_forward, one_mul, neg_one_mul, ncdf_neg, true_and]
  ring

/-- **C22, law.** The "asset" binary returns `cp` times the asset-or-nothing price, i.e. the discounted
expectation of `cp · S_T` over exercise. -/
theorem norm_binary_asset_law (m : MParams) {K S T cp : ℝ} (hcp : Spec.IsCp cp)
    (hv : eps ≤ m.sigma * √T) :
    Norm.priceBinary m K S T cp true = cp * (Spec.discount m.intr T * Spec.gaussE fun z =>
      let ST := Spec.abm (Spec.forward m.isFwd m.intr m.divr S T) (m.sigma * √T) z
      if 0 < cp * (ST - K) then ST else 0) := by
  have hs := eps_pos.trans_le hv
  set F := Spec.forward m.isFwd m.intr m.divr S T with hF
  have h := gaussE_subPay (integrable_abm F (m.sigma * √T)) (measurable_abm _ _) (abm_injective hs)
    (cp := cp) 0 K
  rw [gaussE_bach hcp hs, gaussP_exercise_abm hcp hs] at h
  have h2 : ∀ z, subPay cp 0 K (Spec.abm F (m.sigma * √T) z)
      = cp * (if 0 < cp * (Spec.abm F (m.sigma * √T) z - K) then Spec.abm F (m.sigma * √T) z else 0) := by
    intro z; unfold subPay; split_ifs <;> ring
  simp only [h2] at h
  have h3 : Spec.gaussE (fun z => cp * (if 0 < cp * (Spec.abm F (m.sigma * √T) z - K)
      then Spec.abm F (m.sigma * √T) z else 0)) = cp * Spec.gaussE fun z =>
      (if 0 < cp * (Spec.abm F (m.sigma * √T) z - K) then Spec.abm F (m.sigma * √T) z else 0) := by
    unfold Spec.gaussE; rw [integral_const_mul]
  rw [h3] at h
  unfold Norm.priceBinary
  simp only [if_true, max_eq_left hv]
  rw [m.df_eq_spec, m.fwd_eq_forward, m.forward_eq_spec, ← hF,
    show ∀ a b : ℝ, cp * (a * b) = a * (cp * b) from fun a b => by ring, h]
  unfold bach
  ring

/-- **C22.** Decomposition of the vanilla price into the two binaries (with the code's sign). -/
theorem norm_binary_decomposition (m : MParams) {K S T cp : ℝ} (hv : eps ≤ m.sigma * √T) :
    Norm.priceBinary m K S T cp true - cp * K * Norm.priceBinary m K S T cp false
      = Norm.price m K S T cp := by
  rw [Norm.price_eq_bach m hv]
  unfold Norm.priceBinary bach
  simp only [if_true, Bool.false_eq_true, if_false, max_eq_left hv]
  ring

/-- **C22, violated.** The asset-or-nothing *put* has the wrong sign: the returned price is minus the
discounted expectation of the payoff, hence different from it whenever that is non-zero. -/
theorem norm_binary_asset_put_wrong (m : MParams) {K S T : ℝ} (hv : eps ≤ m.sigma * √T)
    (hne : (Spec.gaussE fun z =>
      let ST := Spec.abm (Spec.forward m.isFwd m.intr m.divr S T) (m.sigma * √T) z
      if 0 < -1 * (ST - K) then ST else 0) ≠ 0) :
    Norm.priceBinary m K S T (-1) true ≠ Spec.discount m.intr T * Spec.gaussE fun z =>
      let ST := Spec.abm (Spec.forward m.isFwd m.intr m.divr S T) (m.sigma * √T) z
      if 0 < -1 * (ST - K) then ST else 0 := by
  rw [norm_binary_asset_law m (Or.inr rfl) hv]
  have : 0 < Spec.discount m.intr T := by unfold Spec.discount; positivity
  intro h
  have h2 := mul_ne_zero this.ne' hne
  apply h2
  linarith

/-! ## C23: implied volatility -/

/-- **C23.** Parity invariance: the implied volatility of a call equals that of the parity-related put. -/
theorem norm_impvol_parity (m : MParams) {C P K S T : ℝ}
    (h : Spec.Parity C P (Spec.discount m.intr T) (Spec.forward m.isFwd m.intr m.divr S T) K) :
    Norm.impvol m C K S T 1 = Norm.impvol m P K S T (-1) := by
  unfold Spec.Parity at h
  rw [← m.df_eq_spec, ← m.forward_eq_spec, ← m.fwd_eq_forward] at h
  have hd := (m.df_pos T).ne'
  have h1 : C / m.df T = P / m.df T + (m.fwd S T - K) := by
    rw [eq_div_of_mul_eq hd (show (P / m.df T + (m.fwd S T - K)) * m.df T = C by
      field_simp; linarith)]
  have e1 : C / m.df T - max 0 (1 * (m.fwd S T - K)) = P / m.df T - max 0 (-1 * (m.fwd S T - K)) := by
    rw [h1]
    rcases le_total (m.fwd S T - K) 0 with hx | hx
    · rw [max_eq_left (by linarith), max_eq_right (by linarith)]; ring
    · rw [max_eq_right (by linarith), max_eq_left (by linarith)]; ring
  have e2 : 2 * (C / m.df T) - 1 * (m.fwd S T - K) = 2 * (P / m.df T) - -1 * (m.fwd S T - K) := by
    rw [h1]; ring
  unfold Norm.impvol
  simp only [e1, e2]

/-- **C23.** Scale invariance: scaling price, strike and spot by `c` scales the volatility by `c`. -/
theorem norm_impvol_scale (m : MParams) {p K S T cp c : ℝ} (hc : 0 < c)
    (htv : Spec.discount m.intr T * max (cp * (Spec.forward m.isFwd m.intr m.divr S T - K)) 0 ≤ p) :
    ∃ v, Norm.impvol m p K S T cp = some v ∧ Norm.impvol m (c * p) (c * K) (c * S) T cp = some (c * v) := by
  rw [← m.df_eq_spec, ← m.forward_eq_spec, ← m.fwd_eq_forward] at htv
  have hd := m.df_pos T
  have hf : m.fwd (c * S) T = c * m.fwd S T := by unfold MParams.fwd; split_ifs <;> ring
  have htv2 : 0 ≤ p / m.df T - max 0 (cp * (m.fwd S T - K)) := by
    rw [max_comm, sub_nonneg, le_div_iff₀ hd]; linarith
  have ht : 0 ≤ Norm.impvolTol := by unfold Norm.impvolTol; have := eps_pos; positivity
  have e1 : c * p / m.df T - max 0 (cp * (m.fwd (c * S) T - c * K))
      = c * (p / m.df T - max 0 (cp * (m.fwd S T - K))) := by
    have hx : max 0 (c * (cp * (m.fwd S T - K))) = c * max 0 (cp * (m.fwd S T - K)) := by
      rw [mul_max_of_nonneg _ _ hc.le, mul_zero]
    rw [hf, show cp * (c * m.fwd S T - c * K) = c * (cp * (m.fwd S T - K)) by ring, hx]
    ring
  have e2 : 2 * (c * p / m.df T) - cp * (m.fwd (c * S) T - c * K)
      = c * (2 * (p / m.df T) - cp * (m.fwd S T - K)) := by rw [hf]; ring
  have e3 : ∀ t s : ℝ, Norm.ivOneMV (c * t) (c * s) = Norm.ivOneMV t s := by
    intro t s; unfold Norm.ivOneMV
    rw [show 2 * (c * t) = c * (2 * t) by ring, mul_div_mul_left _ _ hc.ne']
  unfold Norm.impvol
  simp only [e1, e2, e3]
  refine ⟨_, if_pos (by linarith), ?_⟩
  rw [if_pos (by have := mul_nonneg hc.le htv2; linarith)]
  congr 1; ring

/-- **C23.** The result is NaN exactly when the time value is below `-tol`. -/
theorem norm_impvol_nan_iff (m : MParams) (p K S T cp : ℝ) :
    Norm.impvol m p K S T cp = none ↔
      p / Spec.discount m.intr T - max (cp * (Spec.forward m.isFwd m.intr m.divr S T - K)) 0
        < -(1000 * eps) := by
  rw [← m.df_eq_spec, ← m.forward_eq_spec, ← m.fwd_eq_forward, max_comm]
  unfold Norm.impvol Norm.impvolTol
  simp only []
  split_ifs with h
  · simp only [reduceCtorEq, false_iff, not_lt]; exact h
  · simp only [true_iff]; exact not_le.1 h

/-- `0 ≤ eta ≤ 1` for every clipped input. -/
lemma Norm.ivEta_mem {x : ℝ} (h0 : 0 ≤ x) (h1 : x ≤ 1) : 0 ≤ Norm.ivEta x ∧ Norm.ivEta x ≤ 1 := by
  unfold Norm.ivEta
  simp only []
  split_ifs with h
  · rcases h0.eq_or_lt with rfl | hx
    · simp
    · have hlog : 2 * (1 - x) ≤ log ((2 - x) / x) := by
        -- log y ≥ 2 (y-1)/(y+1) for y ≥ 1, with y = (2-x)/x: 2 (2-2x)/2 = 2 (1-x)
        have := Real.le_log_one_add_of_nonneg (x := (2 - x) / x - 1) (by
          rw [sub_nonneg, le_div_iff₀ hx]; linarith)
        rw [show 1 + ((2 - x) / x - 1) = (2 - x) / x by ring] at this
        refine le_trans (le_of_eq ?_) this
        field_simp
        ring
      have hpos : 0 < 2 * (1 - x) := by linarith
      exact ⟨div_nonneg hpos.le (hpos.le.trans hlog), (div_le_one (hpos.trans_le hlog)).2 hlog⟩
  · have hv : (1 - x) ^ 2 ≤ 1 / 10 := by nlinarith
    have hv0 : 0 ≤ (1 - x) ^ 2 := sq_nonneg _
    have hd : 0 < 1 - 4 / 15 * (1 - x) ^ 2 := by linarith
    exact ⟨div_nonneg (by linarith) hd.le, (div_le_one hd).2 (by linarith)⟩

lemma Norm.polyNu_pos {x : ℝ} (h0 : 0 ≤ x) : 0 < Norm.polyNu x := by
  unfold Norm.polyNu; positivity

lemma Norm.polyDe_pos {x : ℝ} (h0 : 0 ≤ x) (h1 : x ≤ 1) : 0 < Norm.polyDe x := by
  unfold Norm.polyDe
  have h : 0 ≤ (1.174240599306013e1 * x - 2.067719486400926e2) * x + 3.608817108375034e3 := by nlinarith
  positivity

/-- **C23.** The implied volatility is never negative. -/
theorem norm_impvol_nonneg (m : MParams) {p K S T cp v : ℝ}
    (htv : Spec.discount m.intr T * max (cp * (Spec.forward m.isFwd m.intr m.divr S T - K)) 0 ≤ p)
    (h : Norm.impvol m p K S T cp = some v) : 0 ≤ v := by
  rw [← m.df_eq_spec, ← m.forward_eq_spec, ← m.fwd_eq_forward] at htv
  have hd := m.df_pos T
  have htv2 : max (cp * (m.fwd S T - K)) 0 ≤ p / m.df T := by
    rw [le_div_iff₀ hd]; linarith
  unfold Norm.impvol at h
  simp only [Option.ite_none_right_eq_some, Option.some.injEq] at h
  obtain ⟨_, rfl⟩ := h
  have hx0 : ∀ t s, 0 ≤ Norm.ivOneMV t s := fun t s => le_max_left _ _
  have hx1 : ∀ t s, Norm.ivOneMV t s ≤ 1 := fun t s => max_le zero_le_one (min_le_right _ _)
  refine mul_nonneg (mul_nonneg (sqrt_nonneg _) ?_) ?_
  · have h1 := le_max_left (cp * (m.fwd S T - K)) 0
    have h2 := le_max_right (cp * (m.fwd S T - K)) 0
    rcases le_total 0 (cp * (m.fwd S T - K)) with h3 | h3 <;> linarith
  · obtain ⟨h1, h2⟩ := Norm.ivEta_mem (hx0 (p / m.df T - max 0 (cp * (m.fwd S T - K)))
      (2 * (p / m.df T) - cp * (m.fwd S T - K))) (hx1 _ _)
    unfold Norm.ivH
    exact div_nonneg (mul_nonneg (sqrt_nonneg _) (Norm.polyNu_pos h1).le) (Norm.polyDe_pos h1 h2).le

/-- **C23.** At the money the closed form is inverted to a relative accuracy of `10⁻¹⁴`: the exact
at-the-money volatility is `σ = (p/df) √(2π/T)`. -/
theorem norm_impvol_atm (m : MParams) {K S T cp σ : ℝ} (hcp : Spec.IsCp cp) (hT : 0 < T)
    (hatm : K = Spec.forward m.isFwd m.intr m.divr S T) (hv : eps ≤ σ * √T) :
    ∃ v, Norm.impvol m (Norm.price { m with sigma := σ } K S T cp) K S T cp = some v ∧
      |v - σ| ≤ 1e-14 * σ := by
  rw [← m.forward_eq_spec, ← m.fwd_eq_forward] at hatm
  have hq := sqrt_pos.2 hT
  have hs := eps_pos.trans_le hv
  have hσ : 0 < σ := by
    by_contra h; push Not at h; nlinarith
  have hp : Norm.price { m with sigma := σ } K S T cp / m.df T = σ * √T / √(2 * π) := by
    rw [Norm.price_eq_bach _ (show eps ≤ (MParams.mk σ m.intr m.divr m.isFwd).sigma * √T from hv)]
    have h1 : (MParams.mk σ m.intr m.divr m.isFwd).df T = m.df T := rfl
    have h2 : (MParams.mk σ m.intr m.divr m.isFwd).fwd S T = m.fwd S T := rfl
    rw [h1, h2, hatm, mul_div_cancel_left₀ _ (m.df_pos T).ne']
    unfold bach npdf
    simp
    ring
  unfold Norm.impvol
  simp only [hp]
  have h0 : cp * (m.fwd S T - K) = 0 := by rw [hatm]; ring
  rw [h0, max_self, sub_zero, sub_zero]
  have hx : 0 < σ * √T / √(2 * π) := by positivity
  have hom : Norm.ivOneMV (σ * √T / √(2 * π)) (2 * (σ * √T / √(2 * π))) = 1 := by
    unfold Norm.ivOneMV; rw [div_self (by positivity)]; simp
  have heta : Norm.ivEta 1 = 1 := by unfold Norm.ivEta; norm_num
  rw [hom, heta]
  refine ⟨_, if_pos ?_, ?_⟩
  · have : 0 ≤ Norm.impvolTol := by unfold Norm.impvolTol; have := eps_pos; positivity
    linarith
  · have e : √(π / (2 * T)) * (2 * (σ * √T / √(2 * π))) = σ := by
      have h3 : √(π / (2 * T)) * √T * 2 = √(2 * π) := by
        rw [← sqrt_mul (by positivity), show (2:ℝ) = √4 by
          rw [show (4:ℝ) = 2 ^ 2 by norm_num, sqrt_sq (by norm_num)], ← sqrt_mul (by positivity)]
        congr 1
        rw [show (√4 : ℝ) = 2 by
          rw [show (4:ℝ) = 2 ^ 2 by norm_num, sqrt_sq (by norm_num)]]
        field_simp; norm_num
      have h4 : √(2 * π) ≠ 0 := by positivity
      calc _ = σ * (√(π / (2 * T)) * √T * 2) / √(2 * π) := by ring
        _ = σ := by rw [h3]; field_simp
    rw [e]
    have hh : |Norm.ivH 1 - 1| ≤ 1e-14 := by
      unfold Norm.ivH Norm.polyNu Norm.polyDe
      rw [sqrt_one]
      norm_num [abs_le]
    calc |σ * Norm.ivH 1 - σ| = σ * |Norm.ivH 1 - 1| := by
          rw [show σ * Norm.ivH 1 - σ = σ * (Norm.ivH 1 - 1) by ring, abs_mul, abs_of_pos hσ]
      _ ≤ 1e-14 * σ := by nlinarith

/-- **C23, support.** `price_vega_std` is the standardised Bachelier price (times/without vega). -/
theorem norm_price_vega_std_correct {s k : ℝ} (hs : 0 < s) :
    Norm.priceVegaStd s k true = Spec.gaussE (fun z => Spec.payoff 1 k (Spec.abm 0 s z)) ∧
    Norm.priceVegaStd s k false * npdf (k / s) = Norm.priceVegaStd s k true := by
  have hm : millsRatio (k / s) * npdf (k / s) = ncdf (-(k / s)) := by
    rw [mills_ratio_correct]
    have h1 : exp (-(k / s) ^ 2 / 2) / √(2 * π) = npdf (k / s) := rfl
    have h2 : Spec.gaussP (Iic (-(k / s))) = ncdf (-(k / s)) := rfl
    rw [h1, h2, div_mul_cancel₀ _ (npdf_pos _).ne']
  refine ⟨?_, rfl⟩
  rw [gaussE_bach (Or.inl rfl) hs]
  unfold Norm.priceVegaStd bach
  simp only [if_true, zero_sub, one_mul, neg_div, npdf_neg]
  rw [← hm]
  field_simp
  ring

end PyFENG
