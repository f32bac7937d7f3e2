import Verif.Lemmas.BlackMore

/-!
# Properties of `Bsm.price` and its Greeks (C01-C05, C07-C12, C15)
-/

open MeasureTheory ProbabilityTheory Set Filter Topology Real

namespace PyFENG

/-- A concrete market used in the non-vacuity examples: the docstring example `Bsm(0.2, 0.05, 0.1)`. -/
noncomputable def exM : MParams := ⟨0.2, 0.05, 0.1, false⟩

lemma eps_lt : eps < 1 / 1000 := by unfold eps; norm_num

/-! ## C01 -/

/-- **C01.** `Bsm.price` is the discounted expectation of the option payoff under the lognormal law with
the right forward and standard deviation `σ√T`, whenever `σ√T` is at least machine epsilon. -/
theorem bsm_price_eq_expectation (m : MParams) {K S T cp : ℝ} (hcp : Spec.IsCp cp)
    (hK : 0 < K) (hS : 0 < S) (hv : eps ≤ m.sigma * √T) :
    Bsm.price m K S T cp = Spec.discount m.intr T * Spec.gaussE (fun z =>
      Spec.payoff cp K (Spec.gbm (Spec.forward m.isFwd m.intr m.divr S T) (m.sigma * √T) z)) := by
  rw [Bsm.price_eq_black, sigmaStd_of_le hv, ← m.df_eq_spec, ← m.forward_eq_spec,
    ← m.fwd_eq_forward, gaussE_black hcp (m.fwd_pos hS T) hK (eps_pos.trans_le hv)]

example : Spec.IsCp 1 ∧ (0:ℝ) < 90 ∧ (0:ℝ) < 100 ∧ eps ≤ exM.sigma * √1 := by
  refine ⟨Or.inl rfl, by norm_num, by norm_num, ?_⟩
  have := eps_lt; simp only [exM, sqrt_one]; linarith

/-- **C01, degenerate volatility.** When `σ√T` is below machine epsilon (in particular `σ = 0` or `T = 0`)
the code prices with standard deviation `eps`; the result is within `df·F·eps/√(2π)` of the
discounted intrinsic value. -/
theorem bsm_price_degenerate (m : MParams) {K S T cp : ℝ} (hcp : Spec.IsCp cp)
    (hK : 0 < K) (hS : 0 < S) (hv : m.sigma * √T < eps) :
    Spec.discount m.intr T * max (cp * (Spec.forward m.isFwd m.intr m.divr S T - K)) 0
        < Bsm.price m K S T cp ∧
      Bsm.price m K S T cp ≤ Spec.discount m.intr T *
        (max (cp * (Spec.forward m.isFwd m.intr m.divr S T - K)) 0
          + Spec.forward m.isFwd m.intr m.divr S T * (eps / √(2 * π))) := by
  have e : sigmaStd m.sigma T = eps := max_eq_right hv.le
  rw [Bsm.price_eq_black, e, ← m.df_eq_spec, ← m.forward_eq_spec, ← m.fwd_eq_forward]
  have hd := m.df_pos T
  have hF := m.fwd_pos hS T
  exact ⟨mul_lt_mul_of_pos_left (intrinsic_lt_black hcp hF hK eps_pos) hd,
    mul_le_mul_of_nonneg_left (black_le_intrinsic_add hcp hF hK eps_pos) hd.le⟩

example : (0.2 : ℝ) * √0 < eps := by simp [eps_pos]

/-! ## C02 -/

/-- **C02.** Put-call parity, for every volatility (also zero or negative) and maturity. -/
theorem bsm_put_call_parity (m : MParams) (K S T : ℝ) :
    Spec.Parity (Bsm.price m K S T 1) (Bsm.price m K S T (-1)) (Spec.discount m.intr T)
      (Spec.forward m.isFwd m.intr m.divr S T) K := by
  unfold Spec.Parity
  rw [Bsm.price_eq_black, Bsm.price_eq_black, ← m.df_eq_spec, ← m.forward_eq_spec,
    ← m.fwd_eq_forward, ← mul_sub, black_parity]

/-! ## C03 -/

/-- **C03.** No-arbitrage bounds (strict), for every volatility: above the discounted intrinsic value,
positive, and below `df·F` (call) or `df·K` (put). -/
theorem bsm_price_bounds (m : MParams) {K S T cp : ℝ} (hcp : Spec.IsCp cp) (hK : 0 < K) (hS : 0 < S) :
    max (Spec.discount m.intr T * (cp * (Spec.forward m.isFwd m.intr m.divr S T - K))) 0
        < Bsm.price m K S T cp ∧
      Bsm.price m K S T cp < Spec.discount m.intr T *
        (if cp = 1 then Spec.forward m.isFwd m.intr m.divr S T else K) := by
  rw [Bsm.price_eq_black, ← m.df_eq_spec, ← m.forward_eq_spec, ← m.fwd_eq_forward]
  have hd := m.df_pos T
  have hF := m.fwd_pos hS T
  have h1 := mul_lt_mul_of_pos_left (intrinsic_lt_black hcp hF hK (sigmaStd_pos m.sigma T)) hd
  rw [mul_max_of_nonneg _ _ hd.le, mul_zero] at h1
  refine ⟨h1, mul_lt_mul_of_pos_left ?_ hd⟩
  rcases hcp with rfl | rfl
  · simpa using black_call_lt hF hK
  · rw [if_neg (by norm_num)]; exact black_put_lt hF hK

example : Spec.IsCp (-1) ∧ (0:ℝ) < 90 ∧ (0:ℝ) < 100 := ⟨Or.inr rfl, by norm_num, by norm_num⟩

/-! ## C04 -/

/-- **C04.** Call prices strictly decrease in the strike. -/
theorem bsm_call_strictAnti_strike (m : MParams) {S T : ℝ} (hS : 0 < S) :
    StrictAntiOn (fun K => Bsm.price m K S T 1) (Ioi 0) := fun K1 h1 K2 h2 h => by
  simp only [Bsm.price_eq_black]
  exact mul_lt_mul_of_pos_left
    (black_call_strictAntiOn (m.fwd_pos hS T) (sigmaStd_pos _ _) h1 h2 h) (m.df_pos T)

/-- **C04.** Put prices strictly increase in the strike. -/
theorem bsm_put_strictMono_strike (m : MParams) {S T : ℝ} (hS : 0 < S) :
    StrictMonoOn (fun K => Bsm.price m K S T (-1)) (Ioi 0) := fun K1 h1 K2 h2 h => by
  simp only [Bsm.price_eq_black]
  exact mul_lt_mul_of_pos_left
    (black_put_strictMonoOn (m.fwd_pos hS T) (sigmaStd_pos _ _) h1 h2 h) (m.df_pos T)

/-- **C04.** Prices are strictly convex in the strike (every butterfly has positive value). -/
theorem bsm_strictConvex_strike (m : MParams) {S T cp : ℝ} (hcp : Spec.IsCp cp) (hS : 0 < S) :
    StrictConvexOn ℝ (Ioi 0) (fun K => Bsm.price m K S T cp) := by
  simp only [Bsm.price_eq_black]
  have h := strictConvexOn_black hcp (m.fwd_pos hS T) (sigmaStd_pos m.sigma T)
  refine ⟨convex_Ioi 0, fun x hx y hy hxy a b ha hb hab => ?_⟩
  have := mul_lt_mul_of_pos_left (h.2 hx hy hxy ha hb hab) (m.df_pos T)
  simp only [smul_eq_mul] at this ⊢
  linarith

example : (0:ℝ) < 100 ∧ (90:ℝ) ∈ Ioi (0:ℝ) ∧ (110:ℝ) ∈ Ioi (0:ℝ) := by norm_num

/-! ## C05 -/

/-- **C05.** Prices strictly increase with volatility as soon as the larger one is above the floor. -/
theorem bsm_strictMono_vol (m : MParams) {K S T cp s1 s2 : ℝ} (hcp : Spec.IsCp cp) (hK : 0 < K)
    (hS : 0 < S) (hT : 0 < T) (h12 : s1 < s2) (h2 : eps < s2 * √T) :
    Bsm.price { m with sigma := s1 } K S T cp < Bsm.price { m with sigma := s2 } K S T cp := by
  simp only [Bsm.price_eq_black]
  have hsd : sigmaStd s1 T < sigmaStd s2 T := by
    unfold sigmaStd
    refine max_lt ?_ (lt_max_of_lt_left h2)
    exact lt_max_of_lt_left (mul_lt_mul_of_pos_right h12 (sqrt_pos.2 hT))
  exact mul_lt_mul_of_pos_left (strictMonoOn_black hcp (MParams.fwd_pos _ hS T) hK
    (sigmaStd_pos _ _) (sigmaStd_pos _ _) hsd) (MParams.df_pos _ T)

example : (0.2:ℝ) < 0.3 ∧ eps < 0.3 * √1 := by
  have := eps_lt; refine ⟨by norm_num, ?_⟩; rw [sqrt_one]; linarith

/-- **C05.** Every price above the price at the volatility floor and below the cap is the price of exactly
one volatility `σ ≥ eps/√T`: implied volatility exists and is unique. -/
theorem bsm_impvol_exists_unique (m : MParams) {K S T cp p : ℝ} (hcp : Spec.IsCp cp) (hK : 0 < K)
    (hS : 0 < S) (hT : 0 < T)
    (hlo : Bsm.price { m with sigma := 0 } K S T cp ≤ p)
    (hhi : p < Spec.discount m.intr T *
        (if cp = 1 then Spec.forward m.isFwd m.intr m.divr S T else K)) :
    ∃! σ : ℝ, eps ≤ σ * √T ∧ Bsm.price { m with sigma := σ } K S T cp = p := by
  have hq := sqrt_pos.2 hT
  have hd := m.df_pos T
  rw [Bsm.price_eq_black] at hlo
  have e0 : sigmaStd 0 T = eps := by unfold sigmaStd; rw [zero_mul]; exact max_eq_right eps_pos.le
  have hlo' : black cp (m.fwd S T) K eps ≤ p / m.df T := by
    rw [le_div_iff₀' hd]; simp only [e0] at hlo; exact hlo
  have hhi' : p / m.df T < if cp = 1 then m.fwd S T else K := by
    rw [div_lt_iff₀' hd, m.fwd_eq_forward, m.forward_eq_spec, m.df_eq_spec]; exact hhi
  obtain ⟨s, ⟨hs1, hs2⟩, hu⟩ := black_exists_unique hcp (m.fwd_pos hS T) hK eps_pos hlo' hhi'
  refine ⟨s / √T, ⟨?_, ?_⟩, ?_⟩
  · rw [div_mul_cancel₀ _ hq.ne']; exact hs1
  · rw [Bsm.price_eq_black]
    have : sigmaStd (s / √T) T = s := by
      unfold sigmaStd; rw [div_mul_cancel₀ _ hq.ne']; exact max_eq_left hs1
    simp only [this]
    change m.df T * black cp (m.fwd S T) K s = p
    rw [hs2]; field_simp
  · intro y ⟨hy1, hy2⟩
    rw [Bsm.price_eq_black] at hy2
    simp only [sigmaStd_of_le hy1] at hy2
    have := hu (y * √T) ⟨hy1, by rw [eq_div_iff hd.ne', mul_comm]; exact hy2⟩
    rw [← this]; field_simp

/-- Non-vacuity: the price of a 20% volatility option is such a `p`. -/
example : Bsm.price { exM with sigma := 0 } 90 100 1 1 ≤ Bsm.price exM 90 100 1 1 ∧
    Bsm.price exM 90 100 1 1 < Spec.discount exM.intr 1 *
      (if (1:ℝ) = 1 then Spec.forward exM.isFwd exM.intr exM.divr 100 1 else 90) := by
  refine ⟨(bsm_strictMono_vol exM (Or.inl rfl) (by norm_num) (by norm_num) one_pos
    (s1 := 0) (s2 := exM.sigma) (by norm_num [exM]) ?_).le,
    (bsm_price_bounds exM (Or.inl rfl) (by norm_num) (by norm_num)).2⟩
  have := eps_lt; simp only [exM, sqrt_one]; linarith

/-! ## C07 -/

/-- **C07.** `OptABC.forward` is the forward the pricers use, and it is the specified forward. -/
theorem forward_consistent (m : MParams) (S T : ℝ) :
    m.forward S T = m.fwd S T ∧ m.forward S T = Spec.forward m.isFwd m.intr m.divr S T ∧
      m.df T = Spec.discount m.intr T ∧
      (if m.isFwd then m.divf T = 1 else m.df T * m.fwd S T = m.divf T * S) := by
  refine ⟨(m.fwd_eq_forward S T).symm, rfl, m.df_eq_spec T, ?_⟩
  have hd := (m.df_pos T).ne'
  unfold MParams.fwd
  split_ifs with h
  · simp [MParams.divf, h]
  · field_simp

/-- **C07.** Quoting by spot with `is_fwd=False` or by forward with `is_fwd=True` gives the same price. -/
theorem bsm_price_fwd_convention (m : MParams) (K S T cp : ℝ) :
    Bsm.price { m with isFwd := true } K (m.forward S T) T cp = Bsm.price m K S T cp := by
  rw [Bsm.price_eq_black, Bsm.price_eq_black, ← m.fwd_eq_forward]
  rfl

/-! ## C08 -/

/-- **C08.** Homogeneity of degree one in `(K, S)`. -/
theorem bsm_homogeneous (m : MParams) {c : ℝ} (hc : 0 < c) (K S T cp : ℝ) :
    Bsm.price m (c * K) (c * S) T cp = c * Bsm.price m K S T cp := by
  rw [Bsm.price_eq_black, Bsm.price_eq_black]
  have : m.fwd (c * S) T = c * m.fwd S T := by
    unfold MParams.fwd; split <;> ring
  rw [this, black_smul hc]
  ring

/-- **C08.** Foreign-domestic symmetry: a call on spot `S` struck at `K` is a put on spot `K` struck at `S`
with the two rates exchanged. -/
theorem bsm_foreign_domestic (σ r q : ℝ) {K S : ℝ} (T : ℝ) :
    Bsm.price ⟨σ, r, q, false⟩ K S T 1 = Bsm.price ⟨σ, q, r, false⟩ S K T (-1) := by
  rw [Bsm.price_eq_black, Bsm.price_eq_black, black_symm]
  simp only [MParams.df, MParams.fwd, MParams.divf, Bool.false_eq_true, if_false]
  set a := exp (-r * T) with ha
  set b := exp (-q * T) with hb
  have pa : 0 < a := exp_pos _
  have pb : 0 < b := exp_pos _
  have e1 : S * b / a = (b / a) * S := by ring
  have e2 : K = (b / a) * (K * a / b) := by field_simp
  rw [e1]
  conv_lhs => rw [e2]
  rw [black_smul (by positivity)]
  field_simp

/-! ## C09 -/

/-- **C09.** `Bsm.delta` is the derivative of the price in the spot (for every volatility). -/
theorem bsm_delta_correct (m : MParams) {K S T cp : ℝ} (hcp : Spec.IsCp cp) (hK : 0 < K) (hS : 0 < S) :
    HasDerivAt (fun S => Bsm.price m K S T cp) (Bsm.delta m K S T cp) S := by
  have hF : HasDerivAt (fun S => m.fwd S T) (if m.isFwd then 1 else m.divf T / m.df T) S := by
    unfold MParams.fwd
    cases m.isFwd
    · simp only [Bool.false_eq_true, if_false]
      simpa using ((hasDerivAt_id S).mul_const (m.divf T)).div_const (m.df T)
    · simpa using hasDerivAt_id' S
  have h := (hasDerivAt_black hcp hF (hasDerivAt_const S K) (hasDerivAt_const S (sigmaStd m.sigma T))
    (m.fwd_pos hS T) hK (sigmaStd_pos _ _)).const_mul (m.df T)
  simp only [Bsm.price_eq_black]
  refine h.congr_deriv ?_
  have hd := (m.df_pos T).ne'
  unfold Bsm.delta Bsm.d1 bd1
  have e : sigmaStd m.sigma T / 2 = 0.5 * sigmaStd m.sigma T := by ring
  rw [e]
  cases m.isFwd <;> simp <;> field_simp

/-- **C09.** `Bsm.gamma` is the derivative of the delta in the spot, when `σ√T ≥ 100 eps`. -/
theorem bsm_gamma_correct (m : MParams) {K S T cp : ℝ} (hcp : Spec.IsCp cp) (hK : 0 < K) (hS : 0 < S)
    (hv : 100 * eps ≤ m.sigma * √T) :
    HasDerivAt (fun S => Bsm.delta m K S T cp) (Bsm.gamma m K S T cp) S := by
  have hF : HasDerivAt (fun S => m.fwd S T) (if m.isFwd then 1 else m.divf T / m.df T) S := by
    unfold MParams.fwd
    cases m.isFwd
    · simp only [Bool.false_eq_true, if_false]
      simpa using ((hasDerivAt_id S).mul_const (m.divf T)).div_const (m.df T)
    · simpa using hasDerivAt_id' S
  have pF := m.fwd_pos hS T
  have he := eps_pos
  have hstd : sigmaStd m.sigma T = m.sigma * √T := sigmaStd_of_le (by linarith)
  have ps : 0 < m.sigma * √T := by linarith
  have h1 := hasDerivAt_bd1 hF (hasDerivAt_const S K) (hasDerivAt_const S (m.sigma * √T)) pF hK ps
  have h2 := (hasDerivAt_ncdf (cp * bd1 (m.fwd S T) K (m.sigma * √T))).comp S (h1.const_mul cp)
  have h3 := (h2.const_mul cp).mul_const (if m.isFwd then m.df T else m.divf T)
  have hfun : (fun S => Bsm.delta m K S T cp) = fun S =>
      cp * ncdf (cp * bd1 (m.fwd S T) K (m.sigma * √T)) * (if m.isFwd then m.df T else m.divf T) := by
    ext S
    unfold Bsm.delta Bsm.d1 bd1
    rw [hstd, show m.sigma * √T / 2 = 0.5 * (m.sigma * √T) by ring]
  rw [hfun]
  refine h3.congr_deriv ?_
  rw [npdf_cp hcp]
  have hc := isCp_sq hcp
  have hmax : max (m.sigma * √T) (100 * eps) = m.sigma * √T := max_eq_left hv
  have hd := (m.df_pos T).ne'
  unfold Bsm.gamma
  simp only [hmax]
  have e : log (m.fwd S T / K) / (m.sigma * √T) + 0.5 * (m.sigma * √T)
      = bd1 (m.fwd S T) K (m.sigma * √T) := by unfold bd1; ring
  rw [e]
  set n := npdf (bd1 (m.fwd S T) K (m.sigma * √T))
  set s := m.sigma * √T
  cases m.isFwd
  · simp only [Bool.false_eq_true, if_false]
    rw [show cp * (n * (cp * ((m.divf T / m.df T / m.fwd S T - 0 / K) / s
      - log (m.fwd S T / K) * 0 / s ^ 2 + 0 / 2))) * m.divf T
      = (cp * cp) * (n * (m.divf T / m.df T / m.fwd S T / s) * m.divf T) by ring, hc]
    field_simp
  · simp only [if_true]
    rw [show cp * (n * (cp * ((1 / m.fwd S T - 0 / K) / s
      - log (m.fwd S T / K) * 0 / s ^ 2 + 0 / 2))) * m.df T
      = (cp * cp) * (n * (1 / m.fwd S T / s) * m.df T) by ring, hc]
    field_simp

example : Spec.IsCp (-1) ∧ 100 * eps ≤ exM.sigma * √1 := by
  have := eps_lt; refine ⟨Or.inr rfl, ?_⟩; simp only [exM, sqrt_one]; linarith

/-- Near a point above the floor, the floored standard deviation is `σ√T`. -/
lemma hasDerivAt_sigmaStd {σ T : ℝ} (hv : eps < σ * √T) :
    HasDerivAt (fun σ => sigmaStd σ T) (√T) σ := by
  have h : (fun σ => sigmaStd σ T) =ᶠ[𝓝 σ] fun σ => σ * √T := by
    have hc : Continuous fun σ : ℝ => σ * √T := by fun_prop
    filter_upwards [hc.continuousAt.eventually (lt_mem_nhds hv)] with x hx
    exact sigmaStd_of_le (le_of_lt hx)
  have h2 : HasDerivAt (fun σ : ℝ => σ * √T) (√T) σ := by
    simpa using (hasDerivAt_id σ).mul_const (√T)
  exact h2.congr_of_eventuallyEq h

lemma Bsm.d1_eq (m : MParams) (K S T : ℝ) :
    Bsm.d1 m K S T = bd1 (m.fwd S T) K (sigmaStd m.sigma T) := by
  unfold Bsm.d1 bd1; ring

lemma Bsm.d2_eq (m : MParams) (K S T : ℝ) :
    Bsm.d2 m K S T = bd2 (m.fwd S T) K (sigmaStd m.sigma T) := by
  unfold Bsm.d2 bd2; ring

/-- **C09.** `Bsm.vega` is the derivative of the price in the volatility. -/
theorem bsm_vega_correct (m : MParams) {K S T cp : ℝ} (hcp : Spec.IsCp cp) (hK : 0 < K) (hS : 0 < S)
    (hv : eps < m.sigma * √T) :
    HasDerivAt (fun σ => Bsm.price { m with sigma := σ } K S T cp) (Bsm.vega m K S T cp) m.sigma := by
  simp only [Bsm.price_eq_black]
  have h := (hasDerivAt_black hcp (hasDerivAt_const m.sigma (m.fwd S T)) (hasDerivAt_const m.sigma K)
    (hasDerivAt_sigmaStd hv) (m.fwd_pos hS T) hK (sigmaStd_pos _ _)).const_mul (m.df T)
  refine h.congr_deriv ?_
  unfold Bsm.vega
  rw [Bsm.d1_eq]
  ring

/-- **C66 (the code is off by `√T`).** The derivative of the vega in the volatility is `√T` times what
`Bsm.vega2` returns: the code divides by `σ√T` where the formula needs `σ`. -/
theorem bsm_vega2_off_by_sqrt (m : MParams) {K S T cp : ℝ} (hK : 0 < K) (hS : 0 < S)
    (hv : eps < m.sigma * √T) :
    HasDerivAt (fun σ => Bsm.vega { m with sigma := σ } K S T cp)
      (√T * Bsm.vega2 m K S T cp) m.sigma := by
  unfold Bsm.vega
  simp only [Bsm.d1_eq]
  have h1 := hasDerivAt_bd1 (hasDerivAt_const m.sigma (m.fwd S T)) (hasDerivAt_const m.sigma K)
    (hasDerivAt_sigmaStd hv) (m.fwd_pos hS T) hK (sigmaStd_pos _ _)
  have h2 := (hasDerivAt_npdf (bd1 (m.fwd S T) K (sigmaStd m.sigma T))).comp m.sigma h1
  have h3 := (h2.const_mul (m.df T * m.fwd S T)).mul_const (√T)
  refine h3.congr_deriv ?_
  unfold Bsm.vega2
  rw [Bsm.d1_eq, Bsm.d2_eq]
  have hs := (sigmaStd_pos m.sigma T).ne'
  have e : (0 / m.fwd S T - 0 / K) / sigmaStd m.sigma T
      - log (m.fwd S T / K) * √T / sigmaStd m.sigma T ^ 2 + √T / 2
      = -(bd2 (m.fwd S T) K (sigmaStd m.sigma T)) * √T / sigmaStd m.sigma T := by
    unfold bd2; field_simp; ring
  rw [e]
  ring

/-- **C66, partial.** `Bsm.vega2` is the second volatility derivative when `texp = 1`.  Missing: every other
maturity, where the code is wrong (`bsm_vega2_wrong`). -/
theorem bsm_vega2_correct_partial (m : MParams) {K S cp : ℝ} (hK : 0 < K) (hS : 0 < S)
    (hv : eps < m.sigma) :
    HasDerivAt (fun σ => Bsm.vega { m with sigma := σ } K S 1 cp) (Bsm.vega2 m K S 1 cp) m.sigma := by
  simpa using bsm_vega2_off_by_sqrt m (T := 1) (cp := cp) hK hS (by simpa using hv)

/-- **C66, refutation.** At every maturity other than one year, `Bsm.vega2` is *not* the derivative of the
vega, except where `d1 d2 = 0`. -/
theorem bsm_vega2_wrong (m : MParams) {K S T cp : ℝ} (hK : 0 < K) (hS : 0 < S) (hT : 0 < T)
    (hv : eps < m.sigma * √T) (hT1 : T ≠ 1) (hd : Bsm.d1 m K S T * Bsm.d2 m K S T ≠ 0) :
    ¬ HasDerivAt (fun σ => Bsm.vega { m with sigma := σ } K S T cp) (Bsm.vega2 m K S T cp) m.sigma := by
  intro h
  have h2 := h.unique (bsm_vega2_off_by_sqrt m (cp := cp) hK hS hv)
  have hne : Bsm.vega2 m K S T cp ≠ 0 := by
    unfold Bsm.vega2
    have := m.df_pos T; have := m.fwd_pos hS T; have := npdf_pos (Bsm.d1 m K S T)
    have := sqrt_pos.2 hT; have := sigmaStd_pos m.sigma T
    rw [mul_assoc _ (Bsm.d1 m K S T)]
    refine div_ne_zero (mul_ne_zero ?_ hd) (by positivity)
    positivity
  have h3 : √T = 1 := by
    apply mul_right_cancel₀ hne; rw [← h2, one_mul]
  exact hT1 (by rw [sqrt_eq_one] at h3; exact h3)

/-- Non-vacuity of `bsm_vega2_wrong`: at the money, zero rates, four years. -/
example : eps < (0.2:ℝ) * √4 ∧ Bsm.d1 ⟨0.2, 0, 0, false⟩ 100 100 4 * Bsm.d2 ⟨0.2, 0, 0, false⟩ 100 100 4 ≠ 0 := by
  have h4 : √(4:ℝ) = 2 := by rw [show (4:ℝ) = 2 ^ 2 by norm_num]; simp
  have he := eps_lt
  have h : eps < (0.2:ℝ) * √4 := by rw [h4]; linarith
  refine ⟨h, ?_⟩
  simp only [Bsm.d1, Bsm.d2, MParams.fwd, MParams.divf, MParams.df, sigmaStd_of_le h.le, h4]
  norm_num

example : eps < exM.sigma * √1 := by
  have := eps_lt; simp only [exM, sqrt_one]; linarith

/-! ## C10 -/

/-- **C10.** `Bsm.theta` is the calendar-time derivative of the price, `-∂price/∂texp`. -/
theorem bsm_theta_correct (m : MParams) {K S T cp : ℝ} (hcp : Spec.IsCp cp) (hK : 0 < K) (hS : 0 < S)
    (hT : 0 < T) (hv : eps < m.sigma * √T) :
    HasDerivAt (fun T => -Bsm.price m K S T cp) (Bsm.theta m K S T cp) T := by
  have hq := sqrt_pos.2 hT
  -- derivative of the floored standard deviation in T
  have hstd : HasDerivAt (fun T => sigmaStd m.sigma T) (m.sigma * (1 / (2 * √T))) T := by
    have h : (fun T => sigmaStd m.sigma T) =ᶠ[𝓝 T] fun T => m.sigma * √T := by
      have hc : Continuous fun T : ℝ => m.sigma * √T := by fun_prop
      filter_upwards [hc.continuousAt.eventually (lt_mem_nhds hv)] with x hx
      exact sigmaStd_of_le (le_of_lt hx)
    exact ((hasDerivAt_sqrt hT.ne').const_mul m.sigma).congr_of_eventuallyEq h
  have hdf : HasDerivAt (fun T => m.df T) (-m.intr * m.df T) T := by
    unfold MParams.df
    have := ((hasDerivAt_id T).const_mul (-m.intr)).exp
    refine this.congr_deriv ?_
    simp; ring
  have hfwd : HasDerivAt (fun T => m.fwd S T)
      (if m.isFwd then 0 else (m.intr - m.divr) * m.fwd S T) T := by
    have e : (fun T => m.fwd S T) = fun T => m.forward S T := funext fun T => m.fwd_eq_forward S T
    rw [e, m.fwd_eq_forward]
    unfold MParams.forward
    cases m.isFwd
    · simp only [Bool.false_eq_true, if_false]
      have := (((hasDerivAt_id T).const_mul (m.intr - m.divr)).exp).const_mul S
      refine this.congr_deriv ?_
      simp; ring
    · simpa using hasDerivAt_const T S
  have h := (hdf.mul (hasDerivAt_black hcp hfwd (hasDerivAt_const T K) hstd (m.fwd_pos hS T) hK
    (sigmaStd_pos _ _))).neg
  simp only [Bsm.price_eq_black]
  refine h.congr_deriv ?_
  have hd := (m.df_pos T).ne'
  unfold Bsm.theta Bsm.delta Bsm.vega
  rw [Bsm.price_eq_black, Bsm.d1_eq]
  have hvs : m.sigma / (2 * T) * √T = m.sigma * (1 / (2 * √T)) := by
    rw [show 2 * T = 2 * (√T * √T) by rw [mul_self_sqrt hT.le]]
    field_simp
  set n := npdf (bd1 (m.fwd S T) K (sigmaStd m.sigma T))
  set N := ncdf (cp * bd1 (m.fwd S T) K (sigmaStd m.sigma T))
  set b := black cp (m.fwd S T) K (sigmaStd m.sigma T)
  unfold MParams.fwd
  cases m.isFwd
  · simp only [Bool.false_eq_true, if_false]
    have hdd : m.df T * (S * m.divf T / m.df T) = S * m.divf T := by field_simp
    linear_combination (cp * N * (m.divr - m.intr) + n * (m.sigma / (2 * T) * √T)
      - n * m.sigma / (2 * T) * √T) * hdd
      + (m.df T * (S * m.divf T / m.df T) * n) * hvs
  · simp only [if_true]
    linear_combination (m.df T * S * n) * hvs

example : (0:ℝ) < 1 ∧ eps < exM.sigma * √1 := by
  have := eps_lt; refine ⟨one_pos, ?_⟩; simp only [exM, sqrt_one]; linarith

/-! ## C12 -/

/-- **C12.** `Bsm.cdf` is the probability of finishing at or beyond the strike. -/
theorem bsm_cdf_eq_probability (m : MParams) {K S T cp : ℝ} (hcp : Spec.IsCp cp) (hK : 0 < K)
    (hS : 0 < S) (hv : eps ≤ m.sigma * √T) :
    Bsm.cdf m K S T cp = Spec.gaussP {z | 0 ≤ cp *
      (Spec.gbm (Spec.forward m.isFwd m.intr m.divr S T) (m.sigma * √T) z - K)} := by
  rw [← m.forward_eq_spec, ← m.fwd_eq_forward,
    gaussP_exercise hcp (m.fwd_pos hS T) hK (eps_pos.trans_le hv)]
  unfold Bsm.cdf
  rw [Bsm.d2_eq, sigmaStd_of_le hv]

/-- **C12.** `Bsm.cdf` is the undiscounted strike derivative of the price. -/
theorem bsm_cdf_eq_strike_deriv (m : MParams) {K S T cp : ℝ} (hcp : Spec.IsCp cp) (hK : 0 < K)
    (hS : 0 < S) :
    HasDerivAt (fun K => Bsm.price m K S T cp)
      (-cp * Spec.discount m.intr T * Bsm.cdf m K S T cp) K := by
  simp only [Bsm.price_eq_black]
  refine ((hasDerivAt_black_strike hcp (m.fwd_pos hS T) hK (sigmaStd_pos m.sigma T)).const_mul
    (m.df T)).congr_deriv ?_
  unfold Bsm.cdf
  rw [Bsm.d2_eq, m.df_eq_spec]
  ring

/-- **C12.** The two tails add up to one. -/
theorem bsm_cdf_complement (m : MParams) (K S T : ℝ) :
    Bsm.cdf m K S T 1 + Bsm.cdf m K S T (-1) = 1 := by
  unfold Bsm.cdf
  rw [neg_one_mul, one_mul, ncdf_neg]; ring

/-! ## C15 -/

/-- **C15.** `logp_mgf` is the moment generating function of `log(S_T/F) = σ√T Z - σ²T/2`, for every
complex argument. -/
theorem bsm_logp_mgf_correct (m : MParams) (u : ℂ) {T : ℝ} (hT : 0 ≤ T) :
    Bsm.logpMgf m u T =
      ∫ z, Complex.exp (u * ((m.sigma * √T * z - m.sigma ^ 2 * T / 2 : ℝ) : ℂ)) ∂(gaussianReal 0 1) := by
  have h := complexMGF_id_gaussianReal (μ := 0) (v := 1) (u * (m.sigma * √T : ℝ))
  have hi : ∀ z : ℝ, Complex.exp (u * ((m.sigma * √T * z - m.sigma ^ 2 * T / 2 : ℝ) : ℂ))
      = Complex.exp (-(u * ((m.sigma ^ 2 * T / 2 : ℝ) : ℂ)))
        * Complex.exp (u * (m.sigma * √T : ℝ) * (id z : ℝ)) := by
    intro z
    rw [← Complex.exp_add]
    congr 1
    push_cast [id]
    ring
  simp_rw [hi]
  rw [integral_const_mul]
  unfold complexMGF at h
  rw [h, ← Complex.exp_add]
  unfold Bsm.logpMgf
  congr 1
  have hq : ((√T : ℝ) : ℂ) ^ 2 = T := by
    rw [← Complex.ofReal_pow, sq_sqrt hT]
  push_cast
  linear_combination (-(u ^ 2 * (m.sigma:ℂ) ^ 2 / 2)) * hq

/-- **C15.** Normalisation and martingale property: `M(0) = 1` and `M(1) = E[S_T/F] = 1`; and the
characteristic function is the MGF on the imaginary axis. -/
theorem bsm_logp_mgf_norm (m : MParams) (T : ℝ) :
    Bsm.logpMgf m 0 T = 1 ∧ Bsm.logpMgf m 1 T = 1 := by
  constructor <;> simp [Bsm.logpMgf]

/-- **C15.** `logp_cf` is the characteristic function of `log(S_T/F)`. -/
theorem bsm_logp_cf_correct (m : MParams) (u : ℝ) {T : ℝ} (hT : 0 ≤ T) :
    Bsm.logpCf m u T =
      ∫ z, Complex.exp (Complex.I * u * ((m.sigma * √T * z - m.sigma ^ 2 * T / 2 : ℝ) : ℂ))
        ∂(gaussianReal 0 1) := bsm_logp_mgf_correct m _ hT

end PyFENG
