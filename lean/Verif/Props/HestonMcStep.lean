import Verif.Props.HestonEta
import Verif.Props.HestonLaw

/-!
# C64, C106, C107: whole steps of the Heston simulation schemes

The statements of `Verif.Props.HestonGe` and `Verif.Props.HestonEta` concern the pieces of a step; here they are put together for the methods `cond_states_step` themselves.
-/

namespace PyFENG

open Real MeasureTheory Set Filter Topology Spec

namespace Heston

lemma phiExp_pos {m : Heston} (h : Regular m) {dt : ℝ} (hdt : 0 < dt) : 0 < (m.cir.phiExp dt).1 ∧ 0 < (m.cir.phiExp dt).2 := by
  unfold Cir.phiExp
  simp only [cir]
  refine ⟨?_, exp_pos _⟩
  have h1 := exp_lt_one_iff.2 (show (-m.mr * dt / 2 : ℝ) < 0 by have := mul_pos h.mr hdt; linarith)
  have h0 := exp_pos (-m.mr * dt / 2 : ℝ)
  have h2 : 1 < 1 / exp (-m.mr * dt / 2) := (one_lt_div h0).2 h1
  have : 0 < 1 / exp (-m.mr * dt / 2) - exp (-m.mr * dt / 2) := by linarith
  have := h.mr
  have := h.vov
  positivity

/-- The exact draw of the variance is almost surely positive. -/
lemma drawNcx2_congr {m : Heston} (h : Regular m) {dt : ℝ} (hdt : 0 < dt) (v0 : ℝ) {F G : ℝ → ℝ} (hFG : ∀ v, 0 < v → F v = G v) :
    Cir.drawNcx2 Ex.ncx2 m.cir dt v0 F = Cir.drawNcx2 Ex.ncx2 m.cir dt v0 G := by
  obtain ⟨h1, h2⟩ := phiExp_pos h hdt
  show Ex.poisson _ (fun n => Ex.gamma _ fun g => F ((m.cir.phiExp dt).2 / (m.cir.phiExp dt).1 * (2 * g))) =
    Ex.poisson _ (fun n => Ex.gamma _ fun g => G ((m.cir.phiExp dt).2 / (m.cir.phiExp dt).1 * (2 * g)))
  refine congrArg _ (funext fun n => ?_)
  refine setIntegral_congr_fun measurableSet_Ioi fun g hg => ?_
  have hg : 0 < g := hg
  simp only
  rw [hFG _ (by positivity)]

lemma chiDim_pos {m : Heston} (h : Regular m) : 0 < m.cir.chiDim := by
  unfold Cir.chiDim
  simp only [cir]
  have := h.mr; have := h.vov; have := h.theta
  positivity

lemma vov2dt_pos {m : Heston} (h : Regular m) {dt : ℝ} (hdt : 0 < dt) : 0 < m.vov2dt dt := by
  have := h.vov
  unfold vov2dt
  positivity

lemma besselArg_pos {m : Heston} (h : Regular m) {dt v0 v : ℝ} (hdt : 0 < dt) (h0 : 0 < v0) (hv : 0 < v) : 0 < m.besselArg dt v0 v :=
  mul_pos (sqrt_pos.2 (mul_pos h0 hv)) (phiExp_pos h hdt).1

/-- **C107.** One step of `HestonMcTseWan2013`: the variance is drawn from its exact law and, given the variance `v` drawn, the average variance has the mean and variance
returned by `cond_avgvar_mv` for the pair `(v_0, v)`. -/
theorem step_tse_wan_moments {m : Heston} (h : Regular m) {dt v0 : ℝ} (hdt : 0 < dt) (h0 : 0 < v0) (A B C : ℝ → ℝ) :
    m.stepTseWan rngEx besselIe dt v0 (fun r => A r.1 + B r.1 * r.2.1 + C r.1 * r.2.1 ^ 2) =
      Cir.drawNcx2 Ex.ncx2 m.cir dt v0 (fun v => let a := m.condAvgvarMv besselIe dt v0 v none 0; A v + B v * a.1 + C v * (a.2 * a.1 ^ 2 + a.1 ^ 2)) := by
  show Cir.drawNcx2 Ex.ncx2 m.cir dt v0 (fun v => rngEx.wald (m.condAvgvarMv besselIe dt v0 v none 0).1 ((m.condAvgvarMv besselIe dt v0 v none 0).1 / (m.condAvgvarMv besselIe dt v0 v none 0).2)
    (fun x => A v + B v * x + C v * x ^ 2)) = _
  refine drawNcx2_congr h hdt v0 fun v hv => ?_
  exact (tse_wan_draw_correct m (chiDim_pos h) (vov2dt_pos h hdt) (by linarith) (besselArg_pos h hdt h0 hv)).2.2 (A v) (B v) (C v)

/-- **C106.** One step of `HestonMcGlassermanKim2011`: the variance is drawn from its exact law and, given the variance `v` and the Bessel variable `k` drawn, the average variance has the mean and
variance returned by `cond_avgvar_mv` given `k`, whatever the truncation level. -/
theorem step_gk_moments {m : Heston} (h : Regular m) {dt v0 : ℝ} (hdt : 0 < dt) (h0 : 0 < v0) {kk : ℕ} (hk : 0.1 ≤ |m.mr * dt / 2| ∨ kk ≤ 20) (A B C : ℝ → ℝ) :
    m.stepGK rngEx besselIe kk dt v0 (fun r => A r.1 + B r.1 * r.2.1 + C r.1 * r.2.1 ^ 2) =
      Cir.drawNcx2 Ex.ncx2 m.cir dt v0 (fun v => m.drawEta rngEx besselIe dt v0 v fun k =>
        let a := m.condAvgvarMv besselIe dt v0 v (some (k : ℝ)) 0; A v + B v * a.1 + C v * (a.2 * a.1 ^ 2 + a.1 ^ 2)) := by
  show Cir.drawNcx2 Ex.ncx2 m.cir dt v0 (fun v => m.drawEta rngEx besselIe dt v0 v fun k => m.drawX1 rngEx kk dt v0 v fun x1 => m.drawX2 rngEx kk dt (m.cir.chiDim / 2) fun x2 =>
    sumDraws (M := Ex) (List.replicate k (m.drawX2 rngEx kk dt 2.0)) (x1 + x2) (fun x => A v + B v * x + C v * x ^ 2)) = _
  refine drawNcx2_congr h hdt v0 fun v hv => ?_
  refine congrArg _ (funext fun k => ?_)
  exact draw_gk_correct m (vov2dt_pos h hdt) (by linarith) (chiDim_pos h) k besselIe hk (A v) (B v) (C v)

lemma drawPoisGamma_congr {m : Heston} (h : Regular m) {dt : ℝ} (hdt : 0 < dt) (v0 : ℝ) {F G : ℝ × ℕ → ℝ} (hFG : ∀ r : ℝ × ℕ, 0 < r.1 → F r = G r) :
    Cir.drawPoisGamma Ex.gamma0 Ex.poisson m.cir dt v0 F = Cir.drawPoisGamma Ex.gamma0 Ex.poisson m.cir dt v0 G := by
  obtain ⟨h1, h2⟩ := phiExp_pos h hdt
  have hd : 0 < 4 * m.cir.mr * m.cir.theta / m.cir.sigma ^ 2 := by have := chiDim_pos h; unfold Cir.chiDim at this; rw [mul_right_comm] at this; exact this
  show Ex.poisson _ (fun n => Ex.gamma0 (4 * m.cir.mr * m.cir.theta / m.cir.sigma ^ 2 / 2 + n) fun g => F ((m.cir.phiExp dt).2 / (m.cir.phiExp dt).1 * 2 * g, n)) =
    Ex.poisson _ (fun n => Ex.gamma0 (4 * m.cir.mr * m.cir.theta / m.cir.sigma ^ 2 / 2 + n) fun g => G ((m.cir.phiExp dt).2 / (m.cir.phiExp dt).1 * 2 * g, n))
  refine congrArg _ (funext fun n => ?_)
  have hn : 4 * m.cir.mr * m.cir.theta / m.cir.sigma ^ 2 / 2 + (n:ℝ) ≠ 0 := by positivity
  unfold Ex.gamma0
  rw [if_neg hn, if_neg hn]
  unfold Ex.gamma
  refine setIntegral_congr_fun measurableSet_Ioi fun g hg => ?_
  have hg : 0 < g := hg
  simp only
  rw [hFG _ (by simp only; positivity)]

lemma HasMV_unique {D : Ex ℝ} {a b a' b' : ℝ} (h : HasMV D a b) (h' : HasMV D a' b') : a = a' ∧ b = b' := by
  have h1 := (h 0 1 0).symm.trans (h' 0 1 0)
  have h2 := (h 0 0 1).symm.trans (h' 0 0 1)
  have h1 : a = a' := by linarith
  subst h1
  exact ⟨rfl, by linarith⟩

/-- **C64.** The correction of `HestonMcChoiKwok2023PoisTd`: the conditional mean of the average variance is returned, and the correction added to the log of the conditional spot is the second-order
one, half the square of the slope of the log spot in the average variance times the conditional variance. The slope `k` is read off the result of `cond_spot_sigma`; mean and variance are those of the
gamma-expansion draw of the average variance given the terminal variance and the Poisson variable (`HestonMcChoiKwok2023PoisGe`). -/
theorem step_pois_td_correction {m : Heston} (h : Regular m) {dt v0 : ℝ} (hdt : 0 < dt) (h0 : 0 < v0) {kk : ℕ} (hk : 0.1 ≤ |m.mr * dt / 2| ∨ kk ≤ 20) (ive : ℝ → ℝ → ℝ) :
    ∃ k : ℝ, (∀ T v s a b c, T ≠ 0 → log (m.condResult T v (s, a + b * dt, c)).1 = log (m.condResult T v (s, a, c)).1 + k * b) ∧
    ∀ a : ℝ × ℕ → ℝ × ℝ, (∀ r, 0 < r.1 → HasMV (m.drawX123 rngEx kk dt (v0 + r.1) (0.5 * m.cir.chiDim + 2 * r.2)) (a r).1 (a r).2) →
      ∀ φ : ℝ × ℝ × ℝ → ℝ, m.stepPoisTd rngEx ive dt v0 (fun r => φ (r.1, r.2.1, m.stepCorr true dt r.2.2)) =
        Cir.drawPoisGamma Ex.gamma0 Ex.poisson m.cir dt v0 (fun r => φ (r.1, (a r).1, 1 / 2 * k ^ 2 * (a r).2)) := by
  refine ⟨m.rho * (1 / m.vov * m.mr - 0.5 * m.rho) * dt, fun T v s a b c hT => ?_, fun a ha φ => ?_⟩
  · rw [condResult_fst m hT, condResult_fst m hT]
    unfold stateSpot
    rw [log_exp, log_exp]
    have := h.vov.ne'
    field_simp
    ring
  · show Cir.drawPoisGamma Ex.gamma0 Ex.poisson m.cir dt v0 (fun r => φ (r.1, (m.condAvgvarMv ive dt v0 r.1 (some (r.2 : ℝ)) 0).1,
      m.stepCorr true dt { poisAvgvarV := some ((m.condAvgvarMv ive dt v0 r.1 (some (r.2 : ℝ)) 0).2 * (m.condAvgvarMv ive dt v0 r.1 (some (r.2 : ℝ)) 0).1 ^ 2) })) = _
    refine drawPoisGamma_congr h hdt v0 fun r hr => ?_
    obtain ⟨e1, e2⟩ := HasMV_unique (draw_x123_correct m (vov2dt_pos h hdt) (show 0 < v0 + r.1 by linarith) (chiDim_pos h) r.2 ive hk) (ha r hr)
    rw [e1] at e2 ⊢
    rw [e2]
    unfold stepCorr
    simp only [if_true]
    rw [show (0.5:ℝ) = 1 / 2 by norm_num]

/-- **C64.** `vol_paths` of `HestonMcAndersen2008` draws the variance from the same law as a simulation step, for every scheme. -/
theorem andersen_vol_step (m : Heston) (scheme : ℤ) (dt v0 : ℝ) (hs : scheme ≤ 4) :
    ∃ D E, m.volStepAndersen rngEx scheme dt v0 = .ok D ∧ m.stepAndersen rngEx scheme dt v0 = .ok E ∧ ∀ φ : ℝ → ℝ, D φ = E (fun r => φ r.1) := by
  unfold volStepAndersen stepAndersen
  by_cases h1 : scheme < 2
  · simp only [if_pos h1]
    exact ⟨_, _, rfl, rfl, fun φ => rfl⟩
  by_cases h2 : scheme = 2
  · simp only [if_neg h1, if_pos h2]
    exact ⟨_, _, rfl, rfl, fun φ => rfl⟩
  by_cases h3 : scheme = 3
  · simp only [if_neg h1, if_neg h2, if_pos h3]
    exact ⟨_, _, rfl, rfl, fun φ => rfl⟩
  have h4 : scheme = 4 := by omega
  simp only [if_neg h1, if_neg h2, if_neg h3, if_pos h4]
  exact ⟨_, _, rfl, rfl, fun φ => rfl⟩

/-- A concrete regular model. -/
example : Regular ⟨0.04, 1, -0.9, 0.5, 0.04, 0, 0, false⟩ := ⟨by norm_num, by norm_num, by norm_num⟩

end Heston

end PyFENG
