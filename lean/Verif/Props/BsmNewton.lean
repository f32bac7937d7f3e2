import Verif.Lemmas.Newton

/-!
# Global convergence of `Bsm.impvol` (C06)

`price_of σ` denotes the price the model itself produces; the theorems say that `Bsm.impvol` applied to it climbs
monotonically to `σ`, never overshoots, and stops without the convergence warning for every large enough `n_iter`.
-/

open MeasureTheory ProbabilityTheory Set Filter Topology Real

namespace PyFENG

lemma ivStep_eq {k p s : ℝ} (hk : 0 < k) (hs : 0 < s) (hb : ¬ Bsm.stdSmall s (log k) 1) :
    Bsm.ivStep (log k) p s = nmap k p s := by
  unfold Bsm.ivStep nmap
  rw [ivErr_eq hk hs hb, priceStd_one hb]
  rfl

lemma ivStep_iter {k r s0 : ℝ} (hk : 1 ≤ k) (h0 : 0 < s0) (h1 : s0 ≤ r)
    (hb : ¬ Bsm.stdSmall s0 (log k) 1) (n : ℕ) :
    (Bsm.ivStep (log k) (black 1 1 k r))^[n] s0 = (nmap k (black 1 1 k r))^[n] s0 := by
  induction n with
  | zero => rfl
  | succ n ih =>
    rw [Function.iterate_succ_apply', Function.iterate_succ_apply', ih]
    have h := nmap_iter_bounds hk h0 h1 n
    exact ivStep_eq (by linarith) (h0.trans_le h.1) (stdSmall_mono hk h0 h.1 hb)

lemma ivLoop_spec {ι : Type*} (logk p : ι → ℝ) (n : ℕ) (σ0 : ι → ℝ) :
    ∃ j ≤ n, (Bsm.ivLoop logk p n σ0).1 = (fun i => (Bsm.ivStep (logk i) (p i))^[j] (σ0 i)) := by
  induction n generalizing σ0 with
  | zero => exact ⟨0, le_rfl, rfl⟩
  | succ n ih =>
    unfold Bsm.ivLoop
    split
    · exact ⟨0, by simp, rfl⟩
    · obtain ⟨j, hj, he⟩ := ih fun i => Bsm.ivStep (logk i) (p i) (σ0 i)
      exact ⟨j + 1, by omega, by rw [he]; rfl⟩

lemma ivLoop_true {ι : Type*} (logk p : ι → ℝ) (n : ℕ) (σ0 : ι → ℝ) {j : ℕ} (hj : j < n)
    (h : ∀ i, |Bsm.ivErr (logk i) (p i) ((Bsm.ivStep (logk i) (p i))^[j] (σ0 i))| < Bsm.impvolTol) :
    (Bsm.ivLoop logk p n σ0).2 = true := by
  induction n generalizing σ0 j with
  | zero => omega
  | succ n ih =>
    unfold Bsm.ivLoop
    split
    · rfl
    · rename_i hc
      cases j with
      | zero => exact absurd h hc
      | succ j =>
        exact ih (fun i => Bsm.ivStep (logk i) (p i) (σ0 i)) (j := j) (by omega) h

/-- The standardised strike, price and initial guess which `Bsm.impvol` computes from the price of an option with
volatility `m.sigma`. -/
noncomputable def ivInput (m : MParams) (K S T cp : ℝ) : ℝ × ℝ × ℝ :=
  let kk := Bsm.stdStrike (m.fwd S T) K
  let p := Bsm.stdPrice (Bsm.price m K S T cp) (m.df T) (m.fwd S T) K cp
  (kk, p, Bsm.ivGuess kk p)

lemma ivInput_eq (m : MParams) {K S T cp : ℝ} (hcp : Spec.IsCp cp) (hK : 0 < K) (hS : 0 < S) :
    (ivInput m K S T cp).2.1 = black 1 1 (ivInput m K S T cp).1 (sigmaStd m.sigma T) := by
  simp only [ivInput]
  rw [← stdPrice_black hcp (m.fwd_pos hS T) hK, Bsm.stdPrice, Bsm.price_eq_black,
    mul_div_cancel_left₀ _ (m.df_pos T).ne']

/-- **C06, convergence.** Feed `Bsm.impvol` with the model's own price at volatility `σ = m.sigma`.  If the initial
guess is outside the small-volatility series branch, then the initial guess is a lower bound of the implied standard
deviation `σ√T`, every Newton iterate is positive, the iterates never decrease, never exceed `σ√T`, and converge
to `σ√T`. -/
theorem bsm_impvol_newton_converges (m : MParams) {K S T cp : ℝ} (hcp : Spec.IsCp cp) (hK : 0 < K)
    (hS : 0 < S) (hv : eps ≤ m.sigma * √T)
    (hb : ¬ Bsm.stdSmall (ivInput m K S T cp).2.2 (log (ivInput m K S T cp).1) 1) :
    let it := fun n => (Bsm.ivStep (log (ivInput m K S T cp).1) (ivInput m K S T cp).2.1)^[n]
      (ivInput m K S T cp).2.2
    (∀ n, 0 < it n ∧ it n ≤ it (n + 1) ∧ it n ≤ m.sigma * √T) ∧
      Tendsto it atTop (𝓝 (m.sigma * √T)) := by
  have hp := ivInput_eq m (T := T) hcp hK hS
  rw [sigmaStd_of_le hv] at hp
  have hk : 1 ≤ (ivInput m K S T cp).1 := stdStrike_ge (m.fwd_pos hS T) hK
  have hr : 0 < m.sigma * √T := eps_pos.trans_le hv
  set k := (ivInput m K S T cp).1 with hkdef
  have hg : (ivInput m K S T cp).2.2 = Bsm.ivGuess k (black 1 1 k (m.sigma * √T)) := by
    rw [← hp]; rfl
  rw [hp, hg]
  rw [hg] at hb
  obtain ⟨g0, g1⟩ := ivGuess_bounds hk hr hb
  intro it
  have hit : it = fun n => (nmap k (black 1 1 k (m.sigma * √T)))^[n]
      (Bsm.ivGuess k (black 1 1 k (m.sigma * √T))) := by
    ext n; exact ivStep_iter hk g0 g1 hb n
  rw [hit]
  refine ⟨fun n => ?_, nmap_tendsto hk g0 g1⟩
  have h := nmap_iter_bounds hk g0 g1 n
  have h0 := g0.trans_le h.1
  simp only [Function.iterate_succ_apply']
  exact ⟨h0, (nmap_bounds hk h0 h.2).1, h.2⟩

/-- **C06, termination and round trip.** For a finite array of options priced at volatilities `σ i`, whose initial
guesses are outside the small-volatility series branch, `Bsm.impvol` ends without the convergence warning for every
sufficiently large `n_iter`, and the volatilities it returns are positive and at most the true ones (their repricing
accuracy is `bsm_impvol_reprices`). -/
theorem bsm_impvol_terminates {ι : Type*} [Finite ι] (m : MParams) (σ strike spot texp cp : ι → ℝ)
    (hcp : ∀ i, Spec.IsCp (cp i)) (hK : ∀ i, 0 < strike i) (hS : ∀ i, 0 < spot i)
    (hv : ∀ i, eps ≤ σ i * √(texp i))
    (hb : ∀ i, ¬ Bsm.stdSmall
      (ivInput { m with sigma := σ i } (strike i) (spot i) (texp i) (cp i)).2.2
      (log (ivInput { m with sigma := σ i } (strike i) (spot i) (texp i) (cp i)).1) 1) :
    ∃ N, ∀ n ≥ N, ∃ σ' : ι → ℝ,
      Bsm.impvol m (fun i => Bsm.price { m with sigma := σ i } (strike i) (spot i) (texp i) (cp i))
        strike spot texp cp n = .ok (σ', true) ∧ ∀ i, 0 < σ' i ∧ σ' i ≤ σ i := by
  have hconv := fun i =>
    bsm_impvol_newton_converges { m with sigma := σ i } (hcp i) (hK i) (hS i) (hv i) (hb i)
  have hT : ∀ i, 0 < √(texp i) := fun i => by
    by_contra h
    have h0 : √(texp i) = 0 := le_antisymm (not_lt.1 h) (sqrt_nonneg _)
    have h1 := hv i
    rw [h0, mul_zero] at h1
    linarith [eps_pos]
  -- residuals tend to zero
  have herr : ∀ i, Tendsto (fun n => Bsm.ivErr
      (log (ivInput { m with sigma := σ i } (strike i) (spot i) (texp i) (cp i)).1)
      (ivInput { m with sigma := σ i } (strike i) (spot i) (texp i) (cp i)).2.1
      ((Bsm.ivStep (log (ivInput { m with sigma := σ i } (strike i) (spot i) (texp i) (cp i)).1)
        (ivInput { m with sigma := σ i } (strike i) (spot i) (texp i) (cp i)).2.1)^[n]
        (ivInput { m with sigma := σ i } (strike i) (spot i) (texp i) (cp i)).2.2)) atTop (𝓝 0) := by
    intro i
    have hc := hconv i
    have hp := ivInput_eq { m with sigma := σ i } (T := texp i) (hcp i) (hK i) (hS i)
    rw [sigmaStd_of_le (hv i)] at hp
    have hk : 1 ≤ (ivInput { m with sigma := σ i } (strike i) (spot i) (texp i) (cp i)).1 :=
      stdStrike_ge (MParams.fwd_pos _ (hS i) (texp i)) (hK i)
    have hbi := hb i
    set inp := ivInput { m with sigma := σ i } (strike i) (spot i) (texp i) (cp i) with hinp
    have hr : 0 < σ i * √(texp i) := eps_pos.trans_le (hv i)
    simp only at hc hp
    obtain ⟨hc1, hc2⟩ := hc
    have hmono : Monotone fun n => (Bsm.ivStep (log inp.1) inp.2.1)^[n] inp.2.2 :=
      monotone_nat_of_le_succ fun n => (hc1 n).2.1
    have e : (fun n => Bsm.ivErr (log inp.1) inp.2.1 ((Bsm.ivStep (log inp.1) inp.2.1)^[n] inp.2.2))
        = fun n => log (black 1 1 inp.1 ((Bsm.ivStep (log inp.1) inp.2.1)^[n] inp.2.2)) - log inp.2.1 := by
      ext n
      have hge := hmono (Nat.zero_le n)
      simp only [Function.iterate_zero, id] at hge
      exact ivErr_eq (by linarith) (hc1 n).1 (stdSmall_mono hk (by simpa using (hc1 0).1) hge hbi)
    rw [e]
    have hcont := (hasDerivAt_log_black (k := inp.1) (by linarith) hr).continuousAt
    have := (hcont.tendsto.comp hc2).sub_const (log inp.2.1)
    rw [hp, sub_self] at this
    rw [hp]
    exact this
  have hev : ∀ᶠ n in atTop, ∀ i, |Bsm.ivErr
      (log (ivInput { m with sigma := σ i } (strike i) (spot i) (texp i) (cp i)).1)
      (ivInput { m with sigma := σ i } (strike i) (spot i) (texp i) (cp i)).2.1
      ((Bsm.ivStep (log (ivInput { m with sigma := σ i } (strike i) (spot i) (texp i) (cp i)).1)
        (ivInput { m with sigma := σ i } (strike i) (spot i) (texp i) (cp i)).2.1)^[n]
        (ivInput { m with sigma := σ i } (strike i) (spot i) (texp i) (cp i)).2.2)| < Bsm.impvolTol := by
    rw [eventually_all]
    intro i
    have := (herr i).abs
    rw [abs_zero] at this
    exact this.eventually (gt_mem_nhds (by unfold Bsm.impvolTol; norm_num))
  obtain ⟨j, hj⟩ := hev.exists
  refine ⟨j + 1, fun n hn => ?_⟩
  have hn0 : n ≠ 0 := by omega
  have htrue := ivLoop_true
    (fun i => log (ivInput { m with sigma := σ i } (strike i) (spot i) (texp i) (cp i)).1)
    (fun i => (ivInput { m with sigma := σ i } (strike i) (spot i) (texp i) (cp i)).2.1) n
    (fun i => (ivInput { m with sigma := σ i } (strike i) (spot i) (texp i) (cp i)).2.2) (j := j)
    (by omega) hj
  obtain ⟨j', _, he⟩ := ivLoop_spec
    (fun i => log (ivInput { m with sigma := σ i } (strike i) (spot i) (texp i) (cp i)).1)
    (fun i => (ivInput { m with sigma := σ i } (strike i) (spot i) (texp i) (cp i)).2.1) n
    (fun i => (ivInput { m with sigma := σ i } (strike i) (spot i) (texp i) (cp i)).2.2)
  refine ⟨fun i => (Bsm.ivStep
    (log (ivInput { m with sigma := σ i } (strike i) (spot i) (texp i) (cp i)).1)
    (ivInput { m with sigma := σ i } (strike i) (spot i) (texp i) (cp i)).2.1)^[j']
    (ivInput { m with sigma := σ i } (strike i) (spot i) (texp i) (cp i)).2.2 / √(texp i), ?_, ?_⟩
  · unfold Bsm.impvol
    rw [if_neg hn0]
    simp only [Except.ok.injEq, Prod.mk.injEq]
    refine ⟨?_, htrue⟩
    funext i
    have := congrFun he i
    exact congrArg (· / √(texp i)) this
  · intro i
    obtain ⟨h1, h2, h3⟩ := (hconv i).1 j'
    exact ⟨div_pos h1 (hT i), by rw [div_le_iff₀ (hT i)]; exact h3⟩

/-- Non-vacuity: at the money with zero rates and `σ = 50%` over one year the hypotheses hold. -/
example : eps ≤ (0.5:ℝ) * √1 ∧ ¬ Bsm.stdSmall (ivInput ⟨0.5, 0, 0, true⟩ 100 100 1 1).2.2
    (log (ivInput ⟨0.5, 0, 0, true⟩ 100 100 1 1).1) 1 := by
  have he := eps_lt
  refine ⟨by rw [sqrt_one]; linarith, ?_⟩
  have hk : (ivInput ⟨0.5, 0, 0, true⟩ 100 100 1 1).1 = 1 := by
    simp [ivInput, Bsm.stdStrike, MParams.fwd]
  have hp := ivInput_eq ⟨0.5, 0, 0, true⟩ (K := 100) (S := 100) (T := 1) (cp := 1) (Or.inl rfl)
    (by norm_num) (by norm_num)
  rw [hk] at hp ⊢
  have hstd : sigmaStd 0.5 1 = 0.5 := by
    unfold sigmaStd; rw [sqrt_one, mul_one]; exact max_eq_left (by linarith)
  simp only [hstd] at hp
  set p := (ivInput ⟨0.5, 0, 0, true⟩ 100 100 1 1).2.1 with hpd
  have hg : (ivInput ⟨0.5, 0, 0, true⟩ 100 100 1 1).2.2
      = Bsm.ivGuess (ivInput ⟨0.5, 0, 0, true⟩ 100 100 1 1).1 p := rfl
  rw [hg, hk]
  -- p = 2N(1/4) - 1 ≥ 2·(1/4)·n(1/4) > 1/10, and the guess is 2 N⁻¹((1+p)/2) = 1/2
  have hp2 : p = 2 * ncdf (1 / 4) - 1 := by
    rw [hp, black_atm (Or.inl rfl) one_pos, ncdf_neg]; norm_num; ring
  have hn : (1:ℝ) / 5 < npdf (1 / 4) := by
    unfold npdf
    have h1 : √(2 * π) < 3 := by rw [sqrt_lt' (by norm_num)]; linarith [pi_le_four]
    have h2 : (31:ℝ) / 32 ≤ exp (-(1 / 4) ^ 2 / 2) := by
      have := add_one_le_exp (-(1 / 4 : ℝ) ^ 2 / 2); linarith
    rw [lt_div_iff₀ (by positivity)]
    nlinarith
  have hp1 : 1e-4 ≤ p := by
    -- mean value: N(1/4) - N(0) ≥ (1/4) n(1/4)
    have hmv : ncdf 0 + (1 / 4) * npdf (1 / 4) ≤ ncdf (1 / 4) := by
      obtain ⟨ξ, hξ, hE⟩ := exists_hasDerivAt_eq_slope ncdf npdf (show (0:ℝ) < 1 / 4 by norm_num)
        continuous_ncdf.continuousOn fun x _ => hasDerivAt_ncdf x
      have hle : npdf (1 / 4) ≤ npdf ξ := by
        unfold npdf
        have h0 := hξ.1; have h1 := hξ.2
        gcongr
      have : npdf ξ * (1 / 4) = ncdf (1 / 4) - ncdf 0 := by rw [hE]; norm_num
      linarith
    rw [ncdf_zero] at hmv
    rw [hp2]; norm_num at hmv hn ⊢; linarith
  have hguess : Bsm.ivGuess 1 p = 1 / 2 := by
    unfold Bsm.ivGuess
    rw [if_neg (by intro h; linarith [h.2])]
    have hppos : 0 < p := by linarith
    have : p * (1 + p) / (2 * p + (1 - 1)) = ncdf (1 / 4) := by
      rw [sub_self, add_zero, div_eq_iff (by linarith), hp2]; ring
    rw [this]
    have hx : Bsm.nppf (ncdf (1 / 4)) = 1 / 4 :=
      Function.leftInverse_invFun strictMono_ncdf.injective _
    rw [hx, log_one, d1sigma_eq le_rfl, mul_zero, add_zero, sqrt_sq (by norm_num)]
    norm_num
  rw [hguess]
  simp only [Bsm.stdSmall, Bsm.stdD0, log_one]
  norm_num

end PyFENG
