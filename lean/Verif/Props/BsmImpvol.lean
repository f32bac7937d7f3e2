import Verif.Model.BsmImpvol
import Verif.Lemmas.Mills
import Verif.Props.Bsm

/-!
# `MathFuncs.mills_ratio` (C47), `Bsm.price_std` (C13) and `Bsm.impvol` (C06)
-/

open MeasureTheory ProbabilityTheory Set Filter Topology Real

namespace PyFENG

/-! ## C47: Mills ratio -/

/-- **C47.** `mills_ratio(x) = N(-x)/n(x)`: the tail probability of a standard normal over its density. -/
theorem mills_ratio_correct (x : ℝ) :
    millsRatio x = Spec.gaussP (Iic (-x)) / (exp (-x ^ 2 / 2) / √(2 * π)) := by
  have h1 : ∫ t in Ioi (x * (1 / √2)), exp (-t ^ 2) = (1 / √2) * ∫ t in Ioi x, exp (-t ^ 2 / 2) := by
    have h2 : (0:ℝ) < 1 / √2 := by positivity
    have := integral_comp_mul_right_Ioi (fun t => exp (-t ^ 2)) x h2
    rw [show x * (1 / √2) = x * (1 / √2) from rfl] at this
    have e : ∀ t : ℝ, exp (-(t * (1 / √2)) ^ 2) = exp (-t ^ 2 / 2) := by
      intro t
      congr 1
      rw [mul_pow, div_pow, sq_sqrt (by norm_num : (0:ℝ) ≤ 2)]
      ring
    simp_rw [e] at this
    rw [this, smul_eq_mul]
    field_simp
  have h3 : ∫ t in Ioi x, exp (-t ^ 2 / 2) = √(2 * π) * ncdf (-x) := by
    rw [ncdf_neg, ← integral_Ioi_npdf, ← integral_const_mul]
    refine setIntegral_congr_fun measurableSet_Ioi fun t _ => ?_
    simp only [npdf]
    field_simp
  unfold millsRatio erfcx
  rw [h1, h3]
  change _ = ncdf (-x) / _
  have hp : 0 < π := pi_pos
  have e2 : √(2 * π) = √2 * √π := sqrt_mul (by norm_num) π
  have e3 : √(π / 2) = √π / √2 := sqrt_div hp.le 2
  have e4 : (x * (1 / √2)) ^ 2 = x ^ 2 / 2 := by
    rw [mul_pow, div_pow, sq_sqrt (by norm_num : (0:ℝ) ≤ 2)]; ring
  have e5 : exp (-x ^ 2 / 2) = (exp (x ^ 2 / 2))⁻¹ := by rw [← exp_neg]; ring_nf
  rw [e2, e3, e4, e5]
  have h2' : √2 * √2 = (2:ℝ) := mul_self_sqrt (by norm_num)
  have p2 : (0:ℝ) < √2 := by positivity
  have ppi : (0:ℝ) < √π := by positivity
  field_simp
  have h2'' : √2 ^ 2 = (2:ℝ) := sq_sqrt (by norm_num)
  rw [h2'']

lemma millsRatio_eq (x : ℝ) : millsRatio x = mR x := mills_ratio_correct x

/-! ## C13: price_std -/

/-- `d1` and `d2` for the standardised option with forward 1 and strike `k`. -/
lemma stdD0_eq {sigma k : ℝ} : Bsm.stdD0 sigma (log k) = log (1 / k) / sigma := by
  unfold Bsm.stdD0
  rw [one_div, log_inv]
  split
  · rfl
  · rename_i h
    have : -log k = 0 := not_not.1 h
    rw [this, zero_div]

lemma std_d1 {sigma k : ℝ} : Bsm.stdD0 sigma (log k) + sigma / 2 = bd1 1 k sigma := by
  rw [stdD0_eq]; rfl

lemma std_d2 {sigma k : ℝ} : -Bsm.stdD0 sigma (log k) + 0.5 * sigma = -bd2 1 k sigma := by
  rw [stdD0_eq]; unfold bd2; ring

/-- price-to-vega ratio on the main branch -/
lemma priceStd_one {sigma k : ℝ} (hb : ¬ Bsm.stdSmall sigma (log k) 1) :
    Bsm.priceStd sigma (log k) 1 1 = mR (-bd1 1 k sigma) - mR (-bd2 1 k sigma) := by
  unfold Bsm.priceStd
  simp only [hb, if_false, millsRatio_eq, std_d2, show ¬ ((1:ℤ) = -1) by decide,
    show ¬ ((1:ℤ) = 0) by decide, show ¬ ((1:ℤ) = 2) by decide]
  rw [show -1 * (Bsm.stdD0 sigma (log k) + 0.5 * sigma) = -(Bsm.stdD0 sigma (log k) + sigma / 2) by ring,
    std_d1, one_mul]

lemma mR_black {k sigma : ℝ} (hk : 0 < k) (hs : 0 < sigma) :
    npdf (bd1 1 k sigma) * (mR (-bd1 1 k sigma) - mR (-bd2 1 k sigma)) = black 1 1 k sigma := by
  have h1 := mR_mul (-bd1 1 k sigma)
  have h2 := mR_mul (-bd2 1 k sigma)
  rw [npdf_neg, neg_neg] at h1 h2
  have h3 := npdf_ratio one_pos hk hs.ne'
  unfold black
  simp only [one_mul]
  simp only [one_mul] at h3
  linear_combination h1 - k * h2 - mR (-bd2 1 k sigma) * h3

/-- **C13.** Outside the small-volatility series branch, `price_std` with `type=0` is the undiscounted price of
the call with forward 1, strike `k` and standard deviation `sigma` (an expected payoff), `type=-1` is its vega,
`type=1` the price-to-vega ratio, and `type=2` the price-to-delta ratio. -/
theorem price_std_correct {sigma k : ℝ} (hk : 0 < k) (hs : 0 < sigma)
    (hb : ¬ Bsm.stdSmall sigma (log k) 1) :
    Bsm.priceStd sigma (log k) 1 0 = Spec.gaussE (fun z => Spec.payoff 1 k (Spec.gbm 1 sigma z)) ∧
    HasDerivAt (fun s => Spec.gaussE (fun z => Spec.payoff 1 k (Spec.gbm 1 s z)))
      (Bsm.priceStd sigma (log k) 1 (-1)) sigma ∧
    Bsm.priceStd sigma (log k) 1 1 * Bsm.priceStd sigma (log k) 1 (-1)
      = Bsm.priceStd sigma (log k) 1 0 ∧
    (∃ δ, HasDerivAt (fun f => Spec.gaussE (fun z => Spec.payoff 1 k (Spec.gbm f sigma z))) δ 1 ∧
      0 < δ ∧ Bsm.priceStd sigma (log k) 1 2 = Bsm.priceStd sigma (log k) 1 0 / δ) := by
  have h1 := priceStd_one hb
  have hv : ∀ sg, Bsm.priceStd sigma (log k) sg (-1) = npdf (bd1 1 k sigma) := by
    intro sg; simp only [Bsm.priceStd, if_true, std_d1]
  have h0 : Bsm.priceStd sigma (log k) 1 0 = black 1 1 k sigma := by
    rw [← mR_black hk hs, mul_comm, ← h1]
    simp only [Bsm.priceStd, std_d1, show ¬ ((1:ℤ) = -1) by decide, show ¬ ((0:ℤ) = -1) by decide,
      show ¬ ((1:ℤ) = 0) by decide, show ¬ ((1:ℤ) = 2) by decide, if_false, if_true]
  refine ⟨?_, ?_, ?_, ?_⟩
  · rw [h0, gaussE_black (Or.inl rfl) one_pos hk hs]
  · rw [hv]
    have h := hasDerivAt_black (Or.inl rfl) (hasDerivAt_const sigma (1:ℝ)) (hasDerivAt_const sigma k)
      (hasDerivAt_id sigma) one_pos hk hs
    have he : (fun s => Spec.gaussE (fun z => Spec.payoff 1 k (Spec.gbm 1 s z)))
        =ᶠ[𝓝 sigma] fun s => black 1 1 k (id s) := by
      filter_upwards [lt_mem_nhds hs] with s hs'
      exact gaussE_black (Or.inl rfl) one_pos hk hs'
    refine (h.congr_of_eventuallyEq he).congr_deriv ?_
    simp
  · rw [h0, hv, ← mR_black hk hs, h1, mul_comm]
  · refine ⟨ncdf (bd1 1 k sigma), ?_, ncdf_pos _, ?_⟩
    · have h := hasDerivAt_black (Or.inl rfl) (hasDerivAt_id (1:ℝ)) (hasDerivAt_const (1:ℝ) k)
        (hasDerivAt_const (1:ℝ) sigma) one_pos hk hs
      have he : (fun f => Spec.gaussE (fun z => Spec.payoff 1 k (Spec.gbm f sigma z)))
          =ᶠ[𝓝 1] fun f => black 1 (id f) k sigma := by
        filter_upwards [lt_mem_nhds (zero_lt_one (α := ℝ))] with f hf
        exact gaussE_black (Or.inl rfl) hf hk hs
      refine (h.congr_of_eventuallyEq he).congr_deriv ?_
      simp
    · have h2 : Bsm.priceStd sigma (log k) 1 2 = Bsm.priceStd sigma (log k) 1 1 / mR (-bd1 1 k sigma) := by
        simp only [Bsm.priceStd, millsRatio_eq, show ¬ ((2:ℤ) = -1) by decide, show ¬ ((2:ℤ) = 0) by decide,
          show ¬ ((1:ℤ) = -1) by decide, show ¬ ((1:ℤ) = 0) by decide, show ¬ ((1:ℤ) = 2) by decide,
          if_false, if_true]
        rw [show -1 * (Bsm.stdD0 sigma (log k) + 0.5 * sigma) = -(Bsm.stdD0 sigma (log k) + sigma / 2) by ring,
          std_d1]
      rw [h2, h1, h0, ← mR_black hk hs]
      have h3 := mR_mul (-bd1 1 k sigma)
      rw [npdf_neg, neg_neg] at h3
      rw [← h3]
      have := (mR_pos (-bd1 1 k sigma)).ne'
      have := (npdf_pos (bd1 1 k sigma)).ne'
      field_simp

/-- Non-vacuity: a 20% standard deviation at the money is on the main branch. -/
example : ¬ Bsm.stdSmall 0.2 (log 1) 1 := by
  simp only [Bsm.stdSmall, Bsm.stdD0, log_one]
  norm_num

/-- **C13, complementary sign.** `sign=-1`, `type=1` is `(1 - price)/vega`, with no small-volatility branch. -/
theorem price_std_complement {sigma k : ℝ} (hk : 0 < k) (hs : 0 < sigma) :
    Bsm.priceStd sigma (log k) (-1) 1 * Bsm.priceStd sigma (log k) (-1) (-1)
      = 1 - Spec.gaussE (fun z => Spec.payoff 1 k (Spec.gbm 1 sigma z)) := by
  rw [gaussE_black (Or.inl rfl) one_pos hk hs]
  have hb : ¬ Bsm.stdSmall sigma (log k) (-1) := fun h => by have := h.2.2; norm_num at this
  have h1 : Bsm.priceStd sigma (log k) (-1) 1 = mR (bd1 1 k sigma) + mR (-bd2 1 k sigma) := by
    unfold Bsm.priceStd
    simp only [hb, if_false, millsRatio_eq, std_d2, show ¬ ((1:ℤ) = -1) by decide,
      show ¬ ((1:ℤ) = 0) by decide, show ¬ ((1:ℤ) = 2) by decide]
    rw [show - -1 * (Bsm.stdD0 sigma (log k) + 0.5 * sigma) = Bsm.stdD0 sigma (log k) + sigma / 2 by ring,
      std_d1]
    ring
  have hv : Bsm.priceStd sigma (log k) (-1) (-1) = npdf (bd1 1 k sigma) := by
    simp only [Bsm.priceStd, if_true, std_d1]
  rw [h1, hv, ← mR_black hk hs]
  have h2 := mR_mul (bd1 1 k sigma)
  have h3 := mR_mul (-bd1 1 k sigma)
  rw [npdf_neg, neg_neg] at h3
  rw [ncdf_neg] at h2
  linear_combination h2 + h3

/-! ## d1sigma -/

/-- **C06, initial guess.** `d1sigma(d1, logk)` is the standard deviation whose `d1` is the given value. -/
theorem d1sigma_inverts {d1 logk : ℝ} (hk : 0 ≤ logk) (h : 0 < Bsm.d1sigma d1 logk) :
    -logk / Bsm.d1sigma d1 logk + Bsm.d1sigma d1 logk / 2 = d1 := by
  have hq : √(d1 ^ 2 + 2 * logk) ^ 2 = d1 ^ 2 + 2 * logk := sq_sqrt (by positivity)
  have hq0 := sqrt_nonneg (d1 ^ 2 + 2 * logk)
  have key : Bsm.d1sigma d1 logk = √(d1 ^ 2 + 2 * logk) + d1 := by
    unfold Bsm.d1sigma
    simp only
    split
    · rename_i hd
      rw [abs_of_neg hd, div_eq_iff (by linarith)]
      nlinarith
    · rename_i hd
      rw [abs_of_nonneg (not_lt.1 hd)]
  rw [key] at h ⊢
  have hne := h.ne'
  rw [div_add_div _ _ hne two_ne_zero, div_eq_iff (by positivity)]
  nlinarith

example : (0:ℝ) ≤ 0.1 ∧ 0 < Bsm.d1sigma (-0.5) 0.1 := by
  refine ⟨by norm_num, ?_⟩
  unfold Bsm.d1sigma
  simp only [show ((-0.5:ℝ) < 0) by norm_num, if_true]
  positivity

/-! ## C06: the Newton iteration -/

/-- Standardisation: out-of-the-money call on the ratio. -/
lemma stdPrice_black {F K s cp : ℝ} (hcp : Spec.IsCp cp) (hF : 0 < F) (hK : 0 < K) :
    (black cp F K s - max (cp * (F - K)) 0) / min F K = black 1 1 (Bsm.stdStrike F K) s := by
  have hp := black_parity F K s
  have hc : black 1 F K s = F * black 1 1 (K / F) s := by
    rw [← black_smul hF, mul_one, mul_div_cancel₀ _ hF.ne']
  have hq : black (-1) F K s = K * black 1 1 (F / K) s := by
    rw [← black_symm, ← black_smul hK, mul_one, mul_div_cancel₀ _ hK.ne']
  unfold Bsm.stdStrike
  simp only
  have hkf : K / F < 1 ↔ K < F := div_lt_one hF
  by_cases h : K < F
  · rw [if_pos (hkf.2 h), min_eq_right h.le, one_div, inv_div, div_eq_iff hK.ne', mul_comm _ K, ← hq]
    rcases hcp with rfl | rfl
    · rw [max_eq_left (by linarith)]; linarith
    · rw [max_eq_right (by linarith)]; ring
  · rw [if_neg (fun h' => h (hkf.1 h')), min_eq_left (not_lt.1 h), div_eq_iff hF.ne', mul_comm _ F, ← hc]
    rcases hcp with rfl | rfl
    · rw [max_eq_right (by linarith)]; ring
    · rw [max_eq_left (by linarith)]; linarith

lemma stdStrike_ge {F K : ℝ} (hF : 0 < F) (hK : 0 < K) : 1 ≤ Bsm.stdStrike F K := by
  unfold Bsm.stdStrike
  simp only
  split
  · rename_i h
    rw [one_div]; exact (one_le_inv₀ (by positivity)).2 h.le
  · rename_i h
    exact not_lt.1 h

/-- the residual is the log of the price ratio -/
lemma ivErr_eq {k p s : ℝ} (hk : 0 < k) (hs : 0 < s)
    (hb : ¬ Bsm.stdSmall s (log k) 1) :
    Bsm.ivErr (log k) p s = log (black 1 1 k s) - log p := by
  unfold Bsm.ivErr
  simp only
  have hpv := priceStd_one hb
  have hm := mR_black hk hs
  have hbp := black_pos (Or.inl rfl) one_pos hk hs (cp := 1)
  have hn := npdf_pos (bd1 1 k s)
  have hd : (if log k = 0 then 0 else -log k / s) + 0.5 * s = bd1 1 k s := by
    rw [← std_d1, Bsm.stdD0]
    by_cases h : log k = 0 <;> simp [h] <;> ring
  have hpos : 0 < mR (-bd1 1 k s) - mR (-bd2 1 k s) := by
    by_contra h
    have := mul_nonpos_of_nonneg_of_nonpos hn.le (not_lt.1 h)
    linarith
  rw [hd, hpv, ← hm, log_mul hn.ne' hpos.ne']
  unfold npdf
  rw [log_div (exp_pos _).ne' (by positivity), log_exp, log_sqrt (by positivity)]
  ring

/-- Accuracy: a residual below `tol` bounds the ratio of time values by `exp(±tol)`. -/
lemma ratio_of_err {a b t : ℝ} (ha : 0 < a) (hb : 0 < b) (h : |log a - log b| < t) :
    b * exp (-t) < a ∧ a < b * exp t := by
  obtain ⟨h1, h2⟩ := abs_lt.1 h
  constructor
  · rw [← log_lt_log_iff (by positivity) ha, log_mul hb.ne' (exp_pos _).ne', log_exp]; linarith
  · rw [← log_lt_log_iff ha (by positivity), log_mul hb.ne' (exp_pos _).ne', log_exp]; linarith

lemma ivLoop_conv {ι : Type*} (logk p : ι → ℝ) (n : ℕ) (σ0 : ι → ℝ)
    (h : (Bsm.ivLoop logk p n σ0).2 = true) :
    ∀ i, |Bsm.ivErr (logk i) (p i) ((Bsm.ivLoop logk p n σ0).1 i)| < Bsm.impvolTol := by
  induction n generalizing σ0 with
  | zero => simp [Bsm.ivLoop] at h
  | succ n ih =>
    unfold Bsm.ivLoop at h ⊢
    by_cases hc : ∀ i, |Bsm.ivErr (logk i) (p i) (σ0 i)| < Bsm.impvolTol
    · rw [if_pos hc]; exact hc
    · rw [if_neg hc] at h ⊢
      exact ih _ h

/-- **C06.** If `Bsm.impvol` returns without a convergence warning, then repricing any element of the array
with the returned volatility reproduces its time value up to a factor `exp(±1e-10)` — for calls and puts,
in or out of the money, for all rates and both quoting conventions.  The hypotheses on the element: a price above
intrinsic, and a returned volatility above the floor and outside the small-volatility series branch. -/
theorem bsm_impvol_reprices {ι : Type*} (m : MParams) (price strike spot texp cp : ι → ℝ) (n : ℕ)
    {σ : ι → ℝ} (hres : Bsm.impvol m price strike spot texp cp n = .ok (σ, true)) (i : ι)
    (hcp : Spec.IsCp (cp i)) (hK : 0 < strike i) (hS : 0 < spot i) (hT : 0 < texp i)
    (hp : Spec.discount m.intr (texp i) *
      max (cp i * (Spec.forward m.isFwd m.intr m.divr (spot i) (texp i) - strike i)) 0 < price i)
    (hσ : eps ≤ σ i * √(texp i))
    (hb : ¬ Bsm.stdSmall (σ i * √(texp i))
      (log (Bsm.stdStrike (m.forward (spot i) (texp i)) (strike i))) 1) :
    let intrinsic := Spec.discount m.intr (texp i) *
      max (cp i * (Spec.forward m.isFwd m.intr m.divr (spot i) (texp i) - strike i)) 0
    let reprice := Bsm.price { m with sigma := σ i } (strike i) (spot i) (texp i) (cp i)
    (price i - intrinsic) * exp (-1e-10) < reprice - intrinsic ∧
      reprice - intrinsic < (price i - intrinsic) * exp 1e-10 := by
  unfold Bsm.impvol at hres
  split at hres
  · exact absurd hres (by simp)
  simp only [Except.ok.injEq, Prod.mk.injEq] at hres
  obtain ⟨h1, h2⟩ := hres
  set F := m.fwd (spot i) (texp i) with hFdef
  set D := m.df (texp i) with hDdef
  have pF : 0 < F := m.fwd_pos hS _
  have pD : 0 < D := m.df_pos _
  have hq := sqrt_pos.2 hT
  have hc := ivLoop_conv _ _ _ _ h2 i
  have hs : ∀ x, σ i = x / √(texp i) → x = σ i * √(texp i) := fun x hx => by
    rw [hx, div_mul_cancel₀ _ hq.ne']
  have hx := hs _ (congrFun h1 i).symm
  rw [hx] at hc
  simp only [← hFdef, ← hDdef] at hc
  rw [← m.fwd_eq_forward, ← hFdef] at hb
  rw [← m.df_eq_spec, ← hDdef, ← m.forward_eq_spec, ← m.fwd_eq_forward, ← hFdef] at *
  have hk := stdStrike_ge pF hK
  have pk : 0 < Bsm.stdStrike F (strike i) := by linarith
  have ps : 0 < σ i * √(texp i) := eps_pos.trans_le hσ
  have hmin : 0 < min F (strike i) := lt_min pF hK
  have pp : 0 < Bsm.stdPrice (price i) D F (strike i) (cp i) := by
    unfold Bsm.stdPrice
    have : max (cp i * (F - strike i)) 0 < price i / D := by rwa [lt_div_iff₀' pD]
    exact div_pos (by linarith) hmin
  rw [ivErr_eq pk ps hb] at hc
  obtain ⟨r1, r2⟩ := ratio_of_err (black_pos (Or.inl rfl) one_pos pk ps) pp hc
  rw [← stdPrice_black hcp pF hK] at r1 r2
  unfold Bsm.stdPrice Bsm.impvolTol at r1 r2
  rw [div_mul_eq_mul_div] at r1 r2
  rw [div_lt_div_iff_of_pos_right hmin] at r1 r2
  have hprice : Bsm.price { m with sigma := σ i } (strike i) (spot i) (texp i) (cp i)
      = D * black (cp i) F (strike i) (σ i * √(texp i)) := by
    rw [Bsm.price_eq_black, ← sigmaStd_of_le hσ]; rfl
  simp only [hprice]
  have e1 : price i - D * max (cp i * (F - strike i)) 0
      = D * (price i / D - max (cp i * (F - strike i)) 0) := by field_simp
  rw [e1, ← mul_sub, mul_assoc, mul_assoc]
  exact ⟨mul_lt_mul_of_pos_left r1 pD, mul_lt_mul_of_pos_left r2 pD⟩

end PyFENG
