import Verif.Props.CosModels

/-!
# C73: rate of convergence of the COS method in the number of terms
-/

namespace PyFENG

open Real MeasureTheory ProbabilityTheory Set Filter Topology

namespace Cos

lemma norm_densityCoef_le (cf : ℝ → ℂ) (a b : ℝ) {k : ℕ} (hk : k ≠ 0) : |densityCoef cf a b k| ≤ ‖cf (freq a b k)‖ := by
  unfold densityCoef
  simp only [hk, if_false]
  refine (Complex.abs_re_le_norm _).trans ?_
  rw [norm_mul]
  have : ‖Complex.exp (-1 * Complex.I * (freq a b k : ℝ) * a)‖ = 1 := by
    rw [show -1 * Complex.I * ((freq a b k : ℝ) : ℂ) * a = ((-(freq a b k * a) : ℝ) : ℂ) * Complex.I by push_cast; ring, Complex.norm_exp_ofReal_mul_I]
  rw [this, mul_one]

/-- The constant in the rate. -/
lemma priceFO_diff {cf : ℝ → ℂ} {a b : ℝ} (hab : a < b) (mp : MParams) {K S T cp : ℝ} (hS : 0 < S) (hK : 0 < K) (hcp : Spec.IsCp cp) {n : ℕ} (hn : 1 ≤ n) {q : ℝ}
    (hq : ∀ k ≥ n, ‖cf (freq a b k)‖ ≤ q) {N : ℕ} (hN : n ≤ N) :
    |priceFO cf a b N mp K S T cp - priceFO cf a b n mp K S T cp| ≤ mp.df T * (4 * (b - a) / (π ^ 2 * n) * (2 * mp.fwd S T * exp b + K * (b - a) / π)) * q := by
  have hF : 0 < mp.fwd S T := mp.fwd_pos hS T
  have hd := mp.df_pos T
  have hw : 0 < b - a := sub_pos.2 hab
  have hkk : 0 < K / mp.fwd S T := div_pos hK hF
  have hq0 : 0 ≤ q := (norm_nonneg _).trans (hq n le_rfl)
  obtain ⟨C, hC⟩ : ∃ C, C = 2 / (b - a) * ((2 * exp b + K / mp.fwd S T * ((b - a) / π)) * ((b - a) / π) ^ 2) := ⟨_, rfl⟩
  have hC0 : 0 ≤ C := by rw [hC]; positivity
  have hn0 : (0:ℝ) < n := by exact_mod_cast hn
  have hsum : ∑ k ∈ Finset.Ico n N, 1 / (k:ℝ) ^ 2 ≤ 2 / (n:ℝ) := by
    have h := sum_Ioo_inv_sq_le (α := ℝ) (n - 1) N
    have e : Finset.Ioo (n - 1) N = Finset.Ico n N := by ext i; simp only [Finset.mem_Ioo, Finset.mem_Ico]; omega
    rw [e, Nat.cast_sub hn, Nat.cast_one, sub_add_cancel] at h
    simpa only [one_div] using h
  have hdiff : ∑ k ∈ Finset.range N, payoffCoef (K / mp.fwd S T) a b cp k * densityCoef cf a b k - ∑ k ∈ Finset.range n, payoffCoef (K / mp.fwd S T) a b cp k * densityCoef cf a b k
      = ∑ k ∈ Finset.Ico n N, payoffCoef (K / mp.fwd S T) a b cp k * densityCoef cf a b k := by
    rw [Finset.sum_Ico_eq_sub _ hN]
  have hb : |∑ k ∈ Finset.Ico n N, payoffCoef (K / mp.fwd S T) a b cp k * densityCoef cf a b k| ≤ C * q * (2 / (n:ℝ)) := by
    calc _ ≤ ∑ k ∈ Finset.Ico n N, |payoffCoef (K / mp.fwd S T) a b cp k * densityCoef cf a b k| := Finset.abs_sum_le_sum_abs _ _
      _ ≤ ∑ k ∈ Finset.Ico n N, C * q * (1 / (k:ℝ) ^ 2) := Finset.sum_le_sum fun k hk => by
          have hk' := (Finset.mem_Ico.1 hk).1
          have hk0 : k ≠ 0 := by omega
          have h1 := payoffCoef_bound hab hkk hcp hk0
          rw [← hC] at h1
          have h2 := (norm_densityCoef_le cf a b hk0).trans (hq k hk')
          rw [abs_mul]
          calc _ ≤ C * (1 / (k:ℝ) ^ 2) * q := mul_le_mul h1 h2 (abs_nonneg _) (by positivity)
            _ = _ := by ring
      _ = C * q * ∑ k ∈ Finset.Ico n N, 1 / (k:ℝ) ^ 2 := by rw [Finset.mul_sum]
      _ ≤ _ := mul_le_mul_of_nonneg_left hsum (by positivity)
  unfold priceFO
  simp only
  rw [← mul_sub, hdiff, abs_mul, abs_of_pos (mul_pos hd hF)]
  refine (mul_le_mul_of_nonneg_left hb (mul_pos hd hF).le).trans_eq ?_
  rw [hC]
  have := pi_pos.ne'
  field_simp
  ring

/-- **C73**, rate of convergence: after `n` terms the COS price is within `df * 4(b-a)/(π² n) * (2 F e^b + K (b-a)/π) * q` of its limit, where `q` bounds the characteristic function at the omitted
frequencies `kπ/(b-a)`, `k ≥ n`.  For every function `cf`, interval, strike, spot and maturity, calls and puts. -/
theorem priceFO_rate {cf : ℝ → ℂ} {a b : ℝ} (hab : a < b) (mp : MParams) {K S T cp : ℝ} (hS : 0 < S) (hK : 0 < K) (hcp : Spec.IsCp cp) {n : ℕ} (hn : 1 ≤ n) {q : ℝ}
    (hq : ∀ k : ℕ, n ≤ k → ‖cf (k * π / (b - a))‖ ≤ q) {L : ℝ} (hL : Tendsto (fun N => priceFO cf a b N mp K S T cp) atTop (𝓝 L)) :
    |priceFO cf a b n mp K S T cp - L| ≤ Spec.discount mp.intr T * (4 * (b - a) / (π ^ 2 * n) * (2 * Spec.forward mp.isFwd mp.intr mp.divr S T * exp b + K * (b - a) / π)) * q := by
  rw [← mp.df_eq_spec, ← mp.forward_eq_spec, ← mp.fwd_eq_forward, abs_sub_comm]
  refine le_of_tendsto ((hL.sub_const _).abs) ?_
  filter_upwards [eventually_ge_atTop n] with N hN
  exact priceFO_diff hab mp hS hK hcp hn hq hN

/-- **C73**, rate for an arbitrary law: the COS price with `n` terms is within `O(1/n)` of the discounted expected payoff of the law folded into the interval. -/
theorem priceFO_rate_law {cf : ℝ → ℂ} {μ : Measure ℝ} [IsProbabilityMeasure μ] (hcf : IsCf cf μ) {a b : ℝ} (hab : a < b) (mp : MParams) {K S T cp : ℝ} (hS : 0 < S) (hK : 0 < K)
    (hcp : Spec.IsCp cp) {n : ℕ} (hn : 1 ≤ n) :
    |priceFO cf a b n mp K S T cp - Spec.lawPrice (μ.map (Spec.fold a b)) (Spec.discount mp.intr T) (Spec.forward mp.isFwd mp.intr mp.divr S T) K cp| ≤
      Spec.discount mp.intr T * (4 * (b - a) / (π ^ 2 * n) * (2 * Spec.forward mp.isFwd mp.intr mp.divr S T * exp b + K * (b - a) / π)) := by
  have h := priceFO_rate hab mp (T := T) hS hK hcp hn (q := 1) (cf := cf) (fun k _ => ?_) (priceFO_tendsto hcf hab mp hS hK hcp)
  · rwa [mul_one] at h
  · rw [hcf]
    refine (norm_integral_le_of_norm_le_const (C := 1) (Eventually.of_forall fun x => ?_)).trans (by simp)
    rw [show Complex.I * ((k * π / (b - a) : ℝ) : ℂ) * x = ((k * π / (b - a) * x : ℝ) : ℂ) * Complex.I by push_cast; ring, Complex.norm_exp_ofReal_mul_I]

lemma norm_bsmCf (m : MParams) (u T : ℝ) : ‖Bsm.logpCf m u T‖ = exp (-(m.sigma ^ 2 * T * u ^ 2 / 2)) := by
  unfold Bsm.logpCf Bsm.logpMgf
  rw [Complex.norm_exp]
  congr 1
  have : (-0.5 * (m.sigma : ℂ) ^ 2 * T * (Complex.I * u) * (1 - Complex.I * u)) = ((-(m.sigma ^ 2 * T * u ^ 2 / 2) : ℝ) : ℂ) + ((-(m.sigma ^ 2 * T * u / 2) : ℝ) : ℂ) * Complex.I := by
    push_cast
    ring_nf
    rw [Complex.I_sq]
    ring
  rw [this, Complex.add_re, Complex.ofReal_re, Complex.re_ofReal_mul, Complex.I_re, mul_zero, add_zero]

/-- **C73** (`BsmCos`), end to end: with the cumulant-based interval of half-width `L` standard deviations and `n` terms, the COS put price is within
`df (2 K e^(-L²/2) + 4w/(π² n) (2 F e^b + K w/π) e^(-π² n²/(8 L²)))` of the analytic `Bsm.price`, where `w = 2 L σ√T` and `b` is the upper end. -/
theorem bsmCos_put_accuracy (m : MParams) {K S T L : ℝ} (hK : 0 < K) (hS : 0 < S) (hT : 0 ≤ T) (hv : eps ≤ m.sigma * √T) (hL : 0 < L) {n : ℕ} (hn : 1 ≤ n) :
    |priceFO (fun u => Bsm.logpCf m u T) (truncRange L (bsmCum4 m T)).1 (truncRange L (bsmCum4 m T)).2 n m K S T (-1) - Bsm.price m K S T (-1)| ≤
      Spec.discount m.intr T * (4 * (2 * L * (m.sigma * √T)) / (π ^ 2 * n) * (2 * Spec.forward m.isFwd m.intr m.divr S T * exp (-(m.sigma ^ 2 * T / 2) + L * (m.sigma * √T))
        + K * (2 * L * (m.sigma * √T)) / π)) * exp (-(π ^ 2 * n ^ 2 / (8 * L ^ 2))) + Spec.discount m.intr T * K * (2 * exp (-(L ^ 2 / 2))) := by
  obtain ⟨P, h1, h2⟩ := bsmCos_put_error m hK hS hT hv hL
  have hs : 0 < m.sigma * √T := eps_pos.trans_le hv
  have hss : (m.sigma * √T) ^ 2 = m.sigma ^ 2 * T := by rw [mul_pow, Real.sq_sqrt hT]
  have hhalf : √(|m.sigma ^ 2 * T| + √|(0 : ℝ)|) = m.sigma * √T := by
    rw [abs_zero, Real.sqrt_zero, add_zero, abs_of_nonneg (by positivity), ← Real.sqrt_sq hs.le, hss]
  have ha : (truncRange L (bsmCum4 m T)).1 = -(m.sigma ^ 2 * T / 2) - L * (m.sigma * √T) := by
    simp only [truncRange, bsmCum4, hhalf]; ring
  have hb : (truncRange L (bsmCum4 m T)).2 = -(m.sigma ^ 2 * T / 2) + L * (m.sigma * √T) := by
    simp only [truncRange, bsmCum4, hhalf]; ring
  rw [ha, hb] at h1 ⊢
  have hLs : 0 < L * (m.sigma * √T) := mul_pos hL hs
  have hw : -(m.sigma ^ 2 * T / 2) + L * (m.sigma * √T) - (-(m.sigma ^ 2 * T / 2) - L * (m.sigma * √T)) = 2 * L * (m.sigma * √T) := by ring
  have h := priceFO_rate (by linarith) m hS hK (Or.inr rfl) hn (q := exp (-(π ^ 2 * n ^ 2 / (8 * L ^ 2)))) (fun k hk => ?_) h1
  · rw [hw] at h
    have := abs_sub_le (priceFO (fun u => Bsm.logpCf m u T) (-(m.sigma ^ 2 * T / 2) - L * (m.sigma * √T)) (-(m.sigma ^ 2 * T / 2) + L * (m.sigma * √T)) n m K S T (-1)) P (Bsm.price m K S T (-1))
    linarith
  · rw [hw]
    simp only [norm_bsmCf]
    rw [exp_le_exp, neg_le_neg_iff, ← hss]
    have hkn : (n:ℝ) ≤ k := by exact_mod_cast hk
    have e : ∀ s : ℝ, 0 < s → s ^ 2 * (k * π / (2 * L * s)) ^ 2 / 2 = π ^ 2 * k ^ 2 / (8 * L ^ 2) := fun s hs => by field_simp; ring
    rw [e _ hs]
    gcongr

/-- **C73** (`BsmCos`, Le Floc'h formula), end to end, calls and puts whose strike lies in the interval. -/
theorem bsmCos_lefloch_accuracy (m : MParams) {K S T L cp : ℝ} (hK : 0 < K) (hS : 0 < S) (hT : 0 ≤ T) (hv : eps ≤ m.sigma * √T) (hL : 0 < L) {n : ℕ} (hn : 1 ≤ n) (hcp : Spec.IsCp cp)
    (hk : |log (K / Spec.forward m.isFwd m.intr m.divr S T) + m.sigma ^ 2 * T / 2| ≤ L * (m.sigma * √T)) :
    |priceLefloch (fun u => Bsm.logpCf m u T) (truncRange L (bsmCum4 m T)).1 (truncRange L (bsmCum4 m T)).2 n m K S T cp - Bsm.price m K S T cp| ≤
      Spec.discount m.intr T * (4 * (2 * L * (m.sigma * √T)) / (π ^ 2 * n) * (2 * Spec.forward m.isFwd m.intr m.divr S T * exp (-(m.sigma ^ 2 * T / 2) + L * (m.sigma * √T))
        + K * (2 * L * (m.sigma * √T)) / π)) * exp (-(π ^ 2 * n ^ 2 / (8 * L ^ 2))) + Spec.discount m.intr T * K * (2 * exp (-(L ^ 2 / 2))) := by
  have hs : 0 < m.sigma * √T := eps_pos.trans_le hv
  have hss : (m.sigma * √T) ^ 2 = m.sigma ^ 2 * T := by rw [mul_pow, Real.sq_sqrt hT]
  have hhalf : √(|m.sigma ^ 2 * T| + √|(0 : ℝ)|) = m.sigma * √T := by
    rw [abs_zero, Real.sqrt_zero, add_zero, abs_of_nonneg (by positivity), ← Real.sqrt_sq hs.le, hss]
  have ha : (truncRange L (bsmCum4 m T)).1 = -(m.sigma ^ 2 * T / 2) - L * (m.sigma * √T) := by
    simp only [truncRange, bsmCum4, hhalf]; ring
  have hb : (truncRange L (bsmCum4 m T)).2 = -(m.sigma ^ 2 * T / 2) + L * (m.sigma * √T) := by
    simp only [truncRange, bsmCum4, hhalf]; ring
  have h := bsmCos_put_accuracy m hK hS hT hv hL hn
  have hpar := bsm_put_call_parity m K S T
  have hpar2 := lefloch_parity (fun u => Bsm.logpCf m u T) (truncRange L (bsmCum4 m T)).1 (truncRange L (bsmCum4 m T)).2 n m K S T
  rw [m.fwd_eq_forward, m.df_eq_spec, m.forward_eq_spec] at hpar2
  unfold Spec.Parity at hpar hpar2
  have hput : priceLefloch (fun u => Bsm.logpCf m u T) (truncRange L (bsmCum4 m T)).1 (truncRange L (bsmCum4 m T)).2 n m K S T (-1) =
      priceFO (fun u => Bsm.logpCf m u T) (truncRange L (bsmCum4 m T)).1 (truncRange L (bsmCum4 m T)).2 n m K S T (-1) := by
    obtain ⟨k1, k2⟩ := abs_le.1 hk
    unfold priceLefloch priceFO payoffCoef
    rw [m.fwd_eq_forward, m.forward_eq_spec]
    simp only [gt_iff_lt, show ¬ (0 : ℝ) < -1 by norm_num, if_false]
    rw [if_neg (not_lt.2 (by rw [ha]; linarith)), if_neg (not_lt.2 (by rw [hb]; linarith))]
  rcases hcp with rfl | rfl
  · refine le_trans (le_of_eq ?_) h
    congr 1
    rw [← hput]
    linarith
  · rw [hput]; exact h

/-- Ordinary parameters with the default number of terms and interval meet the hypotheses. -/
example : ∃ B : ℝ, |priceLefloch (fun u => Bsm.logpCf ⟨0.2, 0, 0, false⟩ u 1) (truncRange 12 (bsmCum4 ⟨0.2, 0, 0, false⟩ 1)).1 (truncRange 12 (bsmCum4 ⟨0.2, 0, 0, false⟩ 1)).2 128
    ⟨0.2, 0, 0, false⟩ 100 100 1 1 - Bsm.price ⟨0.2, 0, 0, false⟩ 100 100 1 1| ≤ B :=
  ⟨_, bsmCos_lefloch_accuracy ⟨0.2, 0, 0, false⟩ (L := 12) (n := 128) (by norm_num) (by norm_num) (by norm_num) (by unfold eps; norm_num) (by norm_num) (by norm_num) (Or.inl rfl)
    (by norm_num [Spec.forward, abs_of_pos])⟩

end Cos

end PyFENG
