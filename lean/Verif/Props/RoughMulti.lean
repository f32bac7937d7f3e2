import Verif.Props.RoughNodes

/-!
# C130: the multi-factor approximation of the rough Heston variance
-/

namespace PyFENG

open Real MeasureTheory intervalIntegral Set Finset Filter Topology

namespace RoughHeston

variable (m : RoughHeston)

/-- The density of the measure that represents the fractional kernel: `t^(-α)/Γ(1-α) = ∫₀^∞ e^(-γ t) μ(γ) dγ`. -/
noncomputable def Spec.kernelDensity (α γ : ℝ) : ℝ := γ ^ (α - 1) / (Gamma (1 - α) * Gamma α)

lemma kernel_mixture {α t : ℝ} (h0 : 0 < α) (ht : 0 < t) : t ^ (-α) / Gamma (1 - α) = ∫ γ in Ioi (0:ℝ), exp (-γ * t) * Spec.kernelDensity α γ := by
  have e : ∀ γ : ℝ, exp (-γ * t) * Spec.kernelDensity α γ = (1 / (Gamma (1 - α) * Gamma α)) * (γ ^ (α - 1) * exp (-γ * t)) := fun γ => by
    rw [Spec.kernelDensity]
    ring
  simp only [e]
  rw [MeasureTheory.integral_const_mul, kernel_laplace h0 ht]
  ring

lemma exp_int_zero {g b : ℝ} (hg : 0 < g) : ∫ s in (0:ℝ)..b, exp (-g * s) = (1 - exp (-g * b)) / g := by
  have h := exp_int (neg_ne_zero.2 hg.ne') 0 0 b
  have e : ∀ s : ℝ, exp (- -g * (0 - s)) = exp (-g * s) := fun s => by congr 1; ring
  simp only [e] at h
  rw [h, mul_zero, exp_zero]
  field_simp
  ring

lemma etaJ_mono (h0 : 0 < m.alpha) {texp : ℝ} (hT : 0 < texp) {N : ℕ} (hN : 0 < N) (j : ℕ) : 0 ≤ m.etaJ texp N j ∧ m.etaJ texp N j < m.etaJ texp N (j + 1) := by
  have hNr : (0:ℝ) < N := by exact_mod_cast hN
  have hc : 0 < (N : ℝ) ^ (-(1:ℝ) / 5) / texp * (√10 * m.alpha / (2 + m.alpha)) ^ ((2:ℝ) / 5) := by positivity
  have e : ∀ j : ℕ, m.etaJ texp N j = j * ((N : ℝ) ^ (-(1:ℝ) / 5) / texp * (√10 * m.alpha / (2 + m.alpha)) ^ ((2:ℝ) / 5)) := fun j => by
    rw [etaJ]
    ring
  rw [e, e]
  push_cast
  exact ⟨by positivity, by nlinarith⟩

/-- C130. The loading of a factor is the mass of the kernel's measure on its interval. -/
theorem cJ_mass (h0 : 0 < m.alpha) (texp : ℝ) (N j : ℕ) :
    m.cJ texp N j = ∫ γ in m.etaJ texp N j..m.etaJ texp N (j + 1), Spec.kernelDensity m.alpha γ := by
  have e : ∀ γ : ℝ, Spec.kernelDensity m.alpha γ = (1 / (Gamma (1 - m.alpha) * Gamma m.alpha)) * γ ^ (m.alpha - 1) := fun γ => by rw [Spec.kernelDensity]; ring
  simp only [e]
  rw [intervalIntegral.integral_const_mul, integral_rpow (Or.inl (by linarith)), sub_add_cancel, cJ, add_comm 1 m.alpha, Gamma_add_one h0.ne']
  simp only [div_div]
  rw [div_mul_div_comm, one_mul]
  congr 1
  ring

/-- C130. The mean-reversion rate of a factor is the barycentre of the measure on its interval. -/
theorem gammaJ_barycentre (h0 : 0 < m.alpha) {texp : ℝ} (hT : 0 < texp) {N : ℕ} (hN : 0 < N) (j : ℕ) :
    m.cJ texp N j * m.gammaJ texp N j = ∫ γ in m.etaJ texp N j..m.etaJ texp N (j + 1), γ * Spec.kernelDensity m.alpha γ := by
  obtain ⟨ha, hab⟩ := m.etaJ_mono h0 hT hN j
  have hpow : m.etaJ texp N j ^ m.alpha < m.etaJ texp N (j + 1) ^ m.alpha := rpow_lt_rpow ha hab h0
  have e : ∀ γ ∈ Set.uIcc (m.etaJ texp N j) (m.etaJ texp N (j + 1)), γ * Spec.kernelDensity m.alpha γ = (1 / (Gamma (1 - m.alpha) * Gamma m.alpha)) * γ ^ m.alpha := fun γ hγ => by
    rw [Set.uIcc_of_le hab.le] at hγ
    rw [Spec.kernelDensity]
    rcases (ha.trans hγ.1).eq_or_lt with h | h
    · rw [← h, zero_rpow h0.ne']
      ring
    · rw [rpow_sub_one h.ne']
      field_simp
  rw [integral_congr e, intervalIntegral.integral_const_mul, integral_rpow (Or.inl (by linarith)), cJ, gammaJ, add_comm 1 m.alpha, Gamma_add_one h0.ne']
  have h1 := (sub_pos.2 hpow).ne'
  have h2 : m.alpha + 1 ≠ 0 := by linarith
  have h3 := h0.ne'
  generalize m.etaJ texp N (j + 1) ^ m.alpha - m.etaJ texp N j ^ m.alpha = q at *
  by_cases h4 : Gamma (1 - m.alpha) = 0
  · simp [h4]
  have h5 := (Gamma_pos_of_pos h0).ne'
  field_simp

/-- C130. Every factor has a positive loading (for `alpha < 1`), and its rate lies in its interval. -/
theorem gammaJ_mem (h0 : 0 < m.alpha) (h1 : m.alpha < 1) {texp : ℝ} (hT : 0 < texp) {N : ℕ} (hN : 0 < N) (j : ℕ) :
    0 < m.cJ texp N j ∧ m.etaJ texp N j < m.gammaJ texp N j ∧ m.gammaJ texp N j < m.etaJ texp N (j + 1) := by
  obtain ⟨ha, hab⟩ := m.etaJ_mono h0 hT hN j
  have hpow : m.etaJ texp N j ^ m.alpha < m.etaJ texp N (j + 1) ^ m.alpha := rpow_lt_rpow ha hab h0
  have g1 := Gamma_pos_of_pos (show 0 < 1 - m.alpha by linarith)
  have g2 := Gamma_pos_of_pos h0
  have hc : 0 < m.cJ texp N j := by
    have g3 := Gamma_pos_of_pos (show 0 < 1 + m.alpha by linarith)
    rw [cJ]
    have := sub_pos.2 hpow
    positivity
  set a := m.etaJ texp N j
  set b := m.etaJ texp N (j + 1)
  have hi : IntervalIntegrable (fun γ => Spec.kernelDensity m.alpha γ) volume a b := (intervalIntegrable_rpow' (by linarith)).div_const _
  have hi2 : IntervalIntegrable (fun γ => γ * Spec.kernelDensity m.alpha γ) volume a b := hi.continuousOn_mul (by fun_prop)
  have hpos : ∀ γ ∈ Set.Ioo a b, 0 < Spec.kernelDensity m.alpha γ := fun γ hγ => by
    have : 0 < γ := ha.trans_lt hγ.1
    rw [Spec.kernelDensity]
    positivity
  have hB := m.gammaJ_barycentre h0 hT hN j
  have hM := m.cJ_mass h0 texp N j
  have lo : 0 < ∫ γ in a..b, (γ - a) * Spec.kernelDensity m.alpha γ := by
    refine intervalIntegral.intervalIntegral_pos_of_pos_on ?_ (fun γ hγ => mul_pos (by linarith [hγ.1]) (hpos γ hγ)) hab
    exact hi.continuousOn_mul (by fun_prop)
  have hi' : 0 < ∫ γ in a..b, (b - γ) * Spec.kernelDensity m.alpha γ := by
    refine intervalIntegral.intervalIntegral_pos_of_pos_on ?_ (fun γ hγ => mul_pos (by linarith [hγ.2]) (hpos γ hγ)) hab
    exact hi.continuousOn_mul (by fun_prop)
  have e1 : ∫ γ in a..b, (γ - a) * Spec.kernelDensity m.alpha γ = m.cJ texp N j * (m.gammaJ texp N j - a) := by
    rw [mul_sub, hB, hM, mul_comm _ a, ← intervalIntegral.integral_const_mul, ← intervalIntegral.integral_sub hi2 (hi.const_mul _)]
    congr 1
    ext γ
    ring
  have e2 : ∫ γ in a..b, (b - γ) * Spec.kernelDensity m.alpha γ = m.cJ texp N j * (b - m.gammaJ texp N j) := by
    rw [mul_sub, hB, hM, mul_comm _ b, ← intervalIntegral.integral_const_mul, ← intervalIntegral.integral_sub (hi.const_mul _) hi2]
    congr 1
    ext γ
    ring
  rw [e1] at lo
  rw [e2] at hi'
  exact ⟨hc, by linarith [(mul_pos_iff_of_pos_left hc).1 lo], by linarith [(mul_pos_iff_of_pos_left hc).1 hi']⟩

/-- C130. The multi-factor kernel `Σ c_j e^(-γ_j t)` stays strictly between zero and the fractional kernel `t^(-α)/Γ(1-α)`, for every number of factors and every `t > 0`. -/
theorem multifactor_kernel_below (h0 : 0 < m.alpha) (h1 : m.alpha < 1) {texp : ℝ} (hT : 0 < texp) {N : ℕ} (hN : 0 < N) {t : ℝ} (ht : 0 < t) :
    0 < Spec.expKernel N (m.gammaJ texp N) (m.cJ texp N) t ∧ Spec.expKernel N (m.gammaJ texp N) (m.cJ texp N) t < t ^ (-m.alpha) / Gamma (1 - m.alpha) := by
  refine ⟨Finset.sum_pos (fun j _ => mul_pos (m.gammaJ_mem h0 h1 hT hN j).1 (exp_pos _)) (Finset.nonempty_range_iff.2 hN.ne'), ?_⟩
  have g1 := Gamma_pos_of_pos (show 0 < 1 - m.alpha by linarith)
  have g2 := Gamma_pos_of_pos h0
  set F : ℝ → ℝ := fun γ => exp (-γ * t) * Spec.kernelDensity m.alpha γ with hF
  have hFi : IntegrableOn F (Ioi 0) := by
    have hc : IntegrableOn (fun γ => 1 / (Gamma (1 - m.alpha) * Gamma m.alpha) * (γ ^ (m.alpha - 1) * exp (-γ * t))) (Ioi 0) := (mix_integrable h0 ht).const_mul _
    refine hc.congr_fun (fun γ _ => ?_) measurableSet_Ioi
    simp only [hF, Spec.kernelDensity]
    ring
  have hη := fun j => m.etaJ_mono h0 hT hN j
  have hFii : ∀ a b : ℝ, 0 ≤ a → a ≤ b → IntervalIntegrable F volume a b := fun a b ha hab => by
    rw [intervalIntegrable_iff_integrableOn_Ioc_of_le hab]
    exact hFi.mono_set fun x hx => ha.trans_lt hx.1
  have hpos : ∀ γ, 0 < γ → 0 < F γ := fun γ h => by simp only [hF, Spec.kernelDensity]; positivity
  -- Jensen on each interval
  have hj : ∀ j : ℕ, m.cJ texp N j * exp (-m.gammaJ texp N j * t) ≤ ∫ γ in m.etaJ texp N j..m.etaJ texp N (j + 1), F γ := fun j => by
    have hi : IntervalIntegrable (fun γ => Spec.kernelDensity m.alpha γ) volume (m.etaJ texp N j) (m.etaJ texp N (j + 1)) := (intervalIntegrable_rpow' (by linarith)).div_const _
    have hi2 : IntervalIntegrable (fun γ => γ * Spec.kernelDensity m.alpha γ) volume (m.etaJ texp N j) (m.etaJ texp N (j + 1)) := hi.continuousOn_mul (by fun_prop)
    set g := m.gammaJ texp N j
    have e : m.cJ texp N j * exp (-g * t) = ∫ γ in m.etaJ texp N j..m.etaJ texp N (j + 1), (exp (-g * t) * (1 + t * g)) * Spec.kernelDensity m.alpha γ - (exp (-g * t) * t) * (γ * Spec.kernelDensity m.alpha γ) := by
      rw [intervalIntegral.integral_sub (hi.const_mul _) (hi2.const_mul _), intervalIntegral.integral_const_mul, intervalIntegral.integral_const_mul, ← m.cJ_mass h0, ← m.gammaJ_barycentre h0 hT hN]
      ring
    rw [e]
    refine intervalIntegral.integral_mono_on (hη j).2.le ((hi.const_mul _).sub (hi2.const_mul _)) (hFii _ _ (hη j).1 (hη j).2.le) fun γ hγ => ?_
    have hd : 0 ≤ Spec.kernelDensity m.alpha γ := by
      have : 0 ≤ γ := (hη j).1.trans hγ.1
      rw [Spec.kernelDensity]
      positivity
    have hexp : exp (-g * t) * (1 + t * g) - exp (-g * t) * t * γ ≤ exp (-γ * t) := by
      have h := add_one_le_exp (-(γ - g) * t)
      have := mul_le_mul_of_nonneg_left h (exp_pos (-g * t)).le
      rw [← exp_add] at this
      calc _ = exp (-g * t) * (-(γ - g) * t + 1) := by ring
        _ ≤ exp (-g * t + -(γ - g) * t) := this
        _ = _ := by congr 1; ring
    calc _ = (exp (-g * t) * (1 + t * g) - exp (-g * t) * t * γ) * Spec.kernelDensity m.alpha γ := by ring
      _ ≤ _ := mul_le_mul_of_nonneg_right hexp hd
  have hsum : Spec.expKernel N (m.gammaJ texp N) (m.cJ texp N) t ≤ ∫ γ in (0:ℝ)..m.etaJ texp N N, F γ := by
    have h := sum_integral_adjacent_intervals (f := F) (μ := volume) (a := fun j : ℕ => m.etaJ texp N j) (n := N) fun j _ => hFii _ _ (hη j).1 (hη j).2.le
    rw [show (0:ℝ) = m.etaJ texp N 0 by simp [etaJ], ← h]
    exact Finset.sum_le_sum fun j _ => hj j
  refine hsum.trans_lt ?_
  have hηN : 0 ≤ m.etaJ texp N N := (hη N).1
  rw [kernel_mixture h0 ht, intervalIntegral.integral_of_le hηN, ← Set.Ioc_union_Ioi_eq_Ioi hηN, setIntegral_union (Ioc_disjoint_Ioi le_rfl) measurableSet_Ioi
    (hFi.mono_set fun x hx => hx.1) (hFi.mono_set fun x hx => lt_of_le_of_lt hηN hx)]
  have : 0 < ∫ γ in Ioi (m.etaJ texp N N), F γ := by
    rw [setIntegral_pos_iff_support_of_nonneg_ae ((ae_restrict_iff' measurableSet_Ioi).2 (ae_of_all _ fun s hs => (hpos s (lt_of_le_of_lt hηN hs)).le)) (hFi.mono_set fun x hx => lt_of_le_of_lt hηN hx)]
    have : Function.support F ∩ Ioi (m.etaJ texp N N) = Ioi (m.etaJ texp N N) := Set.inter_eq_right.2 fun s hs => (hpos s (lt_of_le_of_lt hηN hs)).ne'
    rw [this]
    simp
  linarith

/-- C130. Every factor recursion is stable: the explicit Euler multiplier `1 - γ_j dt` has modulus less than one, for every number of steps and `alpha < 1/2`. -/
theorem multifactor_stable (h0 : 0 < m.alpha) (h1 : m.alpha < 1 / 2) {texp : ℝ} (hT : 0 < texp) {nTs : ℕ} (hn : 0 < nTs) {j : ℕ} (hj : j < nExp nTs) :
    |1 - m.gammaJ texp (nExp nTs) j * mcDt texp nTs| < 1 := by
  have hnr : (1:ℝ) ≤ nTs := by exact_mod_cast hn
  have hN : 0 < nExp nTs := by omega
  obtain ⟨-, hl, hu⟩ := m.gammaJ_mem h0 (by linarith) hT hN j
  have ha := (m.etaJ_mono h0 hT hN j).1
  have hle : m.etaJ texp (nExp nTs) (j + 1) ≤ m.etaJ texp (nExp nTs) (nExp nTs) := by
    have := monotone_nat_of_le_succ (f := m.etaJ texp (nExp nTs)) fun j => (m.etaJ_mono h0 hT hN j).2.le
    exact this hj
  have hNr : (0:ℝ) < nExp nTs := by exact_mod_cast hN
  have hN45 : (nExp nTs : ℝ) ^ ((4:ℝ) / 5) ≤ nTs + 1 := by
    have h1 : (nExp nTs : ℝ) ≤ (nTs : ℝ) ^ ((5:ℝ) / 4) + 1 := (Nat.ceil_lt_add_one (by positivity)).le
    refine (rpow_le_rpow hNr.le h1 (by norm_num)).trans ?_
    refine (rpow_add_le_add_rpow (by positivity) (by norm_num) (by norm_num) (by norm_num)).trans ?_
    rw [← rpow_mul (by linarith), one_rpow]
    norm_num
  have hc : (√10 * m.alpha / (2 + m.alpha)) ^ ((2:ℝ) / 5) < 1 := by
    refine rpow_lt_one (by positivity) ?_ (by norm_num)
    rw [div_lt_one (by linarith)]
    have : √10 < 4 := by rw [sqrt_lt' (by norm_num)]; norm_num
    nlinarith
  have hdt : 0 < mcDt texp nTs := by rw [mcDt]; positivity
  have hη : m.etaJ texp (nExp nTs) (nExp nTs) * mcDt texp nTs < 2 := by
    have e : m.etaJ texp (nExp nTs) (nExp nTs) * mcDt texp nTs = (nExp nTs : ℝ) ^ ((4:ℝ) / 5) * (√10 * m.alpha / (2 + m.alpha)) ^ ((2:ℝ) / 5) / nTs := by
      rw [etaJ, mcDt, show ((4:ℝ) / 5) = 1 + -(1:ℝ) / 5 by norm_num, rpow_add hNr, rpow_one]
      field_simp
    rw [e, div_lt_iff₀ (by linarith)]
    have h3 : 0 < (nExp nTs : ℝ) ^ ((4:ℝ) / 5) := by positivity
    nlinarith
  have hg : 0 < m.gammaJ texp (nExp nTs) j * mcDt texp nTs := mul_pos (ha.trans_lt hl) hdt
  have : m.gammaJ texp (nExp nTs) j * mcDt texp nTs < 2 := (mul_le_mul_of_nonneg_right (hu.le.trans hle) hdt.le).trans_lt hη
  rw [abs_lt]
  constructor <;> linarith

lemma multi_stable_idx (texp : ℝ) (nTs : ℕ) (Z : ℕ → ℝ) {n k : ℕ} (h : k ≤ n) : (m.multifactor texp nTs Z n).1 k = (m.multifactor texp nTs Z k).1 k := by
  induction n with
  | zero => rw [Nat.le_zero.1 h]
  | succ n ih =>
    rcases h.lt_or_eq with h | rfl
    · rw [← ih (by omega)]
      simp only [multifactor]
      exact update_lt (by omega)
    · rfl

lemma multi_factor_closed (texp : ℝ) (nTs : ℕ) (Z : ℕ → ℝ) (n j : ℕ) :
    (m.multifactor texp nTs Z n).2 j = ∑ k ∈ Finset.range n, (1 - m.gammaJ texp (nExp nTs) j * mcDt texp nTs) ^ (n - 1 - k)
      * (-m.mr * (m.multifactor texp nTs Z k).1 k * mcDt texp nTs + m.vov * √((m.multifactor texp nTs Z k).1 k) * √(mcDt texp nTs) * Z k) := by
  induction n with
  | zero => simp [multifactor]
  | succ n ih =>
    rw [Finset.sum_range_succ]
    simp only [multifactor]
    rw [vTJ, ih, Finset.mul_sum, gMc]
    congr 1
    · refine Finset.sum_congr rfl fun k hk => ?_
      have hk := Finset.mem_range.1 hk
      rw [← mul_assoc, ← pow_succ', show n - 1 - k + 1 = n + 1 - 1 - k by omega]
    · simp

/-- C130. `MultifactorApprox` is the explicit Euler scheme for the variance with the multi-factor kernel: the mean-reversion level is integrated exactly against the kernel, and the rest
of step `k`, seen `i` steps later, is weighted by `Σ c_j (1 - γ_j dt)^i`, the Euler value of the kernel. -/
theorem multifactor_scheme (h0 : 0 < m.alpha) (h1 : m.alpha < 1) {texp : ℝ} (hT : 0 < texp) {nTs : ℕ} (hn : 0 < nTs) (Z : ℕ → ℝ) :
    let V := (m.multifactor texp nTs Z nTs).1
    let N := nExp nTs
    let dt := texp / nTs
    V 0 = m.sigma ∧ ∀ n < nTs, V (n + 1) = m.sigma + m.mr * m.theta * (∫ s in (0:ℝ)..(texp * (n + 1) / nTs), Spec.expKernel N (m.gammaJ texp N) (m.cJ texp N) s)
      + ∑ k ∈ Finset.range (n + 1), (∑ j ∈ Finset.range N, m.cJ texp N j * (1 - m.gammaJ texp N j * dt) ^ (n - k)) * (-m.mr * V k * dt + m.vov * √(V k) * (√dt * Z k)) := by
  intro V N dt
  refine ⟨?_, fun n hlt => ?_⟩
  · simp only [V]
    rw [m.multi_stable_idx texp nTs Z (Nat.zero_le _)]
    simp [multifactor]
  · have hN : 0 < N := by
      simp only [N, nExp]
      have : (0:ℝ) < nTs := by exact_mod_cast hn
      positivity
    have hVk : ∀ k ≤ nTs, V k = (m.multifactor texp nTs Z k).1 k := fun k hk => m.multi_stable_idx texp nTs Z hk
    rw [hVk (n + 1) hlt]
    have hstep : ∀ j, m.vTJ (mcDt texp nTs) ((m.multifactor texp nTs Z n).2 j) ((m.multifactor texp nTs Z n).1 n) (m.gammaJ texp (nExp nTs) j) (Z n) = (m.multifactor texp nTs Z (n + 1)).2 j := fun j => rfl
    have hval : (m.multifactor texp nTs Z (n + 1)).1 (n + 1) = m.sigma + m.mr * m.theta * (∑ j ∈ Finset.range N, m.cJ texp N j / m.gammaJ texp N j * (1 - exp (-m.gammaJ texp N j * tgrid texp nTs (n + 1))))
        + ∑ j ∈ Finset.range N, m.cJ texp N j * (m.multifactor texp nTs Z (n + 1)).2 j := by
      rw [multifactor]
      simp only [Function.update_self, hstep]
      rfl
    rw [hval]
    congr 1
    · congr 2
      simp only [Spec.expKernel]
      rw [intervalIntegral.integral_finsetSum fun l _ => by apply Continuous.intervalIntegrable; fun_prop]
      refine Finset.sum_congr rfl fun j _ => ?_
      obtain ⟨-, hl, -⟩ := m.gammaJ_mem h0 h1 hT hN j
      have hg : 0 < m.gammaJ texp N j := (m.etaJ_mono h0 hT hN j).1.trans_lt hl
      rw [intervalIntegral.integral_const_mul, exp_int_zero hg]
      simp only [tgrid]
      push_cast
      ring
    · simp only [m.multi_factor_closed, Finset.mul_sum, Finset.sum_mul]
      rw [Finset.sum_comm]
      refine Finset.sum_congr rfl fun k hk => Finset.sum_congr rfl fun j _ => ?_
      rw [hVk k (by have := Finset.mem_range.1 hk; omega)]
      simp only [Nat.add_sub_cancel, mcDt, dt, N]
      ring

/-- The hypotheses are met by the usual parameters: `alpha = 0.4`, one year, a hundred steps. -/
example : (0:ℝ) < 0.4 ∧ (0.4:ℝ) < 1 / 2 ∧ (0:ℝ) < 1 ∧ 0 < 100 ∧ 0 < nExp 100 := by
  refine ⟨by norm_num, by norm_num, by norm_num, by norm_num, ?_⟩
  rw [nExp, Nat.ceil_pos]
  positivity

end RoughHeston

end PyFENG
