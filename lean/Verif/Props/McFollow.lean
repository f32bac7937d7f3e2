import Verif.Props.HestonMc
import Verif.Props.Sv32Mc
import Verif.Props.GarchMc
import Verif.Props.SabrMcPrice

/-!
# C64, C119, C122, C123: the Monte Carlo loops over several time steps

`cond_spot_sigma` calls `cond_states_step(dt, state)` once per time step.  Here the step is replaced by one that follows a given path of the volatility state: it gives the exact functionals of the path over the step
when it is called with the state of the path at the current time, and useless values otherwise.  The loop then has to produce the result for the whole interval.
-/

namespace PyFENG

open Real MeasureTheory Filter Topology Spec

/-- A step that follows the path `x`: called at time `t` with step `dt` and state `x t` it returns `out t (t + dt)`; called with any other state it returns `bad`. -/
noncomputable def Spec.followStep {β : Type} (x : ℝ → ℝ) (out : ℝ → ℝ → β) (bad : β) : ℝ → ℝ → StateM ℝ β := fun dt v t =>
  (open Classical in if v = x t then out t (t + dt) else bad, t + dt)

/-- The average of `f` over `[s, t]`. -/
noncomputable def Spec.avgOver (f : ℝ → ℝ) (s t : ℝ) : ℝ := (∫ u in s..t, f u) / (t - s)

lemma avgOver_mul {f : ℝ → ℝ} {t dt : ℝ} (hd : dt ≠ 0) : avgOver f t (t + dt) * dt = ∫ u in t..(t + dt), f u := by
  unfold avgOver
  rw [add_sub_cancel_left, div_mul_cancel₀ _ hd]

lemma int_step {f : ℝ → ℝ} (hf : Continuous f) (a t dt s : ℝ) : a + (∫ u in t..(t + dt), f u) + (∫ u in (t + dt)..(t + dt + s), f u) = a + ∫ u in t..(t + (dt + s)), f u := by
  rw [add_assoc, intervalIntegral.integral_add_adjacent_intervals (hf.intervalIntegrable _ _) (hf.intervalIntegrable _ _), add_assoc]

namespace Heston

lemma follow_loop (m : Heston) {v : ℝ → ℝ} (hv : Continuous v) (l : List ℝ) (hl : ∀ dt ∈ l, dt ≠ 0) (t a c : ℝ) (ex : HestonMcExtra) :
    ((m.condLoop (M := StateM ℝ) false (followStep v (fun s t => (v t, avgOver v s t, ex)) (0, 0, ex)) l (v t, a, c)).run t).1 =
      (v (t + l.sum), a + ∫ s in t..(t + l.sum), v s, c) := by
  induction l generalizing t a with
  | nil => simp [condLoop, StateT.run, pure, StateT.pure]
  | cons dt l ih =>
    have hd : dt ≠ 0 := hl dt (by simp)
    have h : (m.condLoop (M := StateM ℝ) false (followStep v (fun s t => (v t, avgOver v s t, ex)) (0, 0, ex)) (dt :: l) (v t, a, c)).run t =
        (m.condLoop (M := StateM ℝ) false (followStep v (fun s t => (v t, avgOver v s t, ex)) (0, 0, ex)) l
          ((followStep v (fun s t => (v t, avgOver v s t, ex)) (0, 0, ex) dt (v t) t).1.1, a + (followStep v (fun s t => (v t, avgOver v s t, ex)) (0, 0, ex) dt (v t) t).1.2.1 * dt, c + m.stepCorr false dt (followStep v (fun s t => (v t, avgOver v s t, ex)) (0, 0, ex) dt (v t) t).1.2.2)).run (t + dt) := rfl
    rw [h]
    have hs : (followStep v (fun s t => (v t, avgOver v s t, ex)) (0, 0, ex) dt (v t) t).1 = (v (t + dt), avgOver v t (t + dt), ex) := if_pos rfl
    have hc : m.stepCorr false dt ex = 0 := by unfold stepCorr; simp
    rw [hs]
    simp only [hc, add_zero]
    rw [ih (fun d hd' => hl d (by simp [hd'])), avgOver_mul hd, int_step hv, List.sum_cons, add_assoc]

/-- **C64.** `cond_spot_sigma` (without moment correction) over any number of time steps: if the steps follow a continuous variance path `v` exactly, the conditional forward ratio is `exp(ρ M - ρ²/2 ∫v dt)`, where
`M = (v_T - v_0 - ∫κ(θ - v)dt)/vov` is `∫√v dW` by the variance equation, and the volatility ratio is the square root of `(1-ρ²)` times the average variance over the initial one. -/
theorem cond_spot_sigma_follows (m : Heston) {v : ℝ → ℝ} (hv : Continuous v) {T : ℝ} (hT : T ≠ 0) (tobs : List ℝ) (hl : tobs.getLast? = some T) (hd : ∀ dt ∈ dts tobs, dt ≠ 0) (ex : HestonMcExtra) :
    ((m.condSpotSigma (M := StateM ℝ) false (followStep v (fun s t => (v t, avgOver v s t, ex)) (0, 0, ex)) tobs T (v 0)).run 0).1 =
      (exp (m.rho * ((v T - v 0 - ∫ t in (0:ℝ)..T, m.mr * (m.theta - v t)) / m.vov) - m.rho ^ 2 / 2 * ∫ t in (0:ℝ)..T, v t), √((1 - m.rho ^ 2) * (1 / T * ∫ t in (0:ℝ)..T, v t) / v 0)) := by
  have h : ((m.condSpotSigma (M := StateM ℝ) false (followStep v (fun s t => (v t, avgOver v s t, ex)) (0, 0, ex)) tobs T (v 0)).run 0).1 =
      m.condResult T (v 0) ((m.condLoop (M := StateM ℝ) false (followStep v (fun s t => (v t, avgOver v s t, ex)) (0, 0, ex)) (dts tobs) (v 0, 0, 0)).run 0).1 := rfl
  rw [h, m.follow_loop hv _ hd, sum_dts hl]
  have hi : (∫ t in (0:ℝ)..T, m.mr * (m.theta - v t)) = m.mr * (m.theta * T - ∫ t in (0:ℝ)..T, v t) := by
    rw [intervalIntegral.integral_const_mul, intervalIntegral.integral_sub (by simp) (hv.intervalIntegrable _ _), intervalIntegral.integral_const, smul_eq_mul]
    ring
  rw [hi]
  unfold condResult
  simp only [zero_add]
  generalize (∫ t in (0:ℝ)..T, v t) = J
  refine Prod.ext ?_ ?_
  · simp only
    congr 1
    norm_num
    field_simp
    ring
  · simp only
    congr 1
    norm_num
    ring

/-- The sum of `φ dt v w avgvar` over the steps, where `f dt v = (w, avgvar)` and each step starts from the `w` of the last. -/
noncomputable def Spec.sumAlong (f : ℝ → ℝ → ℝ × ℝ) (φ : ℝ → ℝ → ℝ → ℝ → ℝ) : List ℝ → ℝ → ℝ
  | [], _ => 0
  | dt :: l, v => φ dt v (f dt v).1 (f dt v).2 + sumAlong f φ l (f dt v).1

lemma realized_cond (m : Heston) (f : ℝ → ℝ → ℝ × ℝ) (l : List ℝ) (v a : ℝ) (φ : ℝ × ℝ → ℝ) :
    ∃ w, m.realizedLoop rngEx false true (fun dt v => (pure ((f dt v).1, (f dt v).2, {}) : Ex (ℝ × ℝ × HestonMcExtra))) l (v, a) φ = φ (w, a + Spec.sumAlong f m.condLogReturnVar l v) := by
  induction l generalizing v a with
  | nil => exact ⟨v, by rw [Spec.sumAlong, add_zero]; rfl⟩
  | cons dt l ih =>
    obtain ⟨w, hw⟩ := ih (f dt v).1 (a + m.condLogReturnVar dt v (f dt v).1 (f dt v).2)
    refine ⟨w, ?_⟩
    rw [Spec.sumAlong, ← add_assoc, ← hw]
    rfl

lemma realized_drawn (m : Heston) (f : ℝ → ℝ → ℝ × ℝ) (l : List ℝ) (hf : ∀ dt ∈ l, ∀ v, 0 ≤ (1 - m.rho ^ 2) * dt * (f dt v).2) (v a A B : ℝ) :
    m.realizedLoop rngEx false false (fun dt v => (pure ((f dt v).1, (f dt v).2, {}) : Ex (ℝ × ℝ × HestonMcExtra))) l (v, a) (fun s => A + B * s.2) = A + B * (a + Spec.sumAlong f m.condLogReturnVar l v) := by
  induction l generalizing v a with
  | nil => rw [Spec.sumAlong, add_zero]; rfl
  | cons dt l ih =>
    have h : m.realizedLoop rngEx false false (fun dt v => (pure ((f dt v).1, (f dt v).2, {}) : Ex (ℝ × ℝ × HestonMcExtra))) (dt :: l) (v, a) (fun s => A + B * s.2) =
        m.drawLogReturn rngEx dt v (f dt v).1 (f dt v).2 (fun x => m.realizedLoop rngEx false false (fun dt v => (pure ((f dt v).1, (f dt v).2, {}) : Ex (ℝ × ℝ × HestonMcExtra))) l ((f dt v).1, a + (x + 0.0) ^ 2) (fun s => A + B * s.2)) := rfl
    rw [h]
    have ih := fun v a => ih (fun d hd => hf d (by simp [hd])) v a
    simp only [ih]
    obtain ⟨h1, h2⟩ := m.cond_log_return_var_correct (v := v) (w := (f dt v).1) (hf dt (by simp) v)
    have h3 := h1 (A + B * (a + Spec.sumAlong f m.condLogReturnVar l (f dt v).1)) 0 B
    have h4 := h1 0 0 1
    simp only [zero_mul, zero_add, one_mul, add_zero] at h3 h4
    rw [h4] at h2
    rw [Spec.sumAlong, ← h2]
    refine Eq.trans (congrArg _ (funext fun x => ?_)) (h3.trans (by ring))
    norm_num
    ring

/-- **C64.** `return_var_realized` (without moment correction) over any number of steps: for a given variance path the average of the realised variance of the drawn returns is the value returned with `cond=True`, the
sum of the expected squared log returns of the steps divided by `texp`. -/
theorem return_var_realized_correct (m : Heston) (f : ℝ → ℝ → ℝ × ℝ) (tobs : List ℝ) (hf : ∀ dt ∈ dts tobs, ∀ v, 0 ≤ (1 - m.rho ^ 2) * dt * (f dt v).2) (texp : ℝ) :
    (∀ φ : ℝ → ℝ, m.returnVarRealized rngEx false true (fun dt v => (pure ((f dt v).1, (f dt v).2, {}) : Ex (ℝ × ℝ × HestonMcExtra))) tobs texp φ
      = φ (Spec.sumAlong f (fun dt v w a => m.drawLogReturn rngEx dt v w a fun x => x ^ 2) (dts tobs) m.sigma / texp)) ∧
    m.returnVarRealized rngEx false false (fun dt v => (pure ((f dt v).1, (f dt v).2, {}) : Ex (ℝ × ℝ × HestonMcExtra))) tobs texp (fun x => x)
      = Spec.sumAlong f (fun dt v w a => m.drawLogReturn rngEx dt v w a fun x => x ^ 2) (dts tobs) m.sigma / texp := by
  have e : ∀ (l : List ℝ), (∀ dt ∈ l, ∀ v, 0 ≤ (1 - m.rho ^ 2) * dt * (f dt v).2) → ∀ v, Spec.sumAlong f (fun dt v w a => m.drawLogReturn rngEx dt v w a fun x => x ^ 2) l v = Spec.sumAlong f m.condLogReturnVar l v := fun l => by
    induction l with
    | nil => intro _ v; rfl
    | cons dt l ih =>
      intro hl v
      rw [Spec.sumAlong, Spec.sumAlong, ih fun d hd => hl d (by simp [hd]), (m.cond_log_return_var_correct (v := v) (w := (f dt v).1) (hl dt (by simp) v)).2]
  rw [e _ hf]
  constructor
  · intro φ
    obtain ⟨w, hw⟩ := m.realized_cond f (dts tobs) m.sigma 0 (fun s => φ (s.2 / texp))
    have h : m.returnVarRealized rngEx false true (fun dt v => (pure ((f dt v).1, (f dt v).2, {}) : Ex (ℝ × ℝ × HestonMcExtra))) tobs texp φ =
        m.realizedLoop rngEx false true (fun dt v => (pure ((f dt v).1, (f dt v).2, {}) : Ex (ℝ × ℝ × HestonMcExtra))) (dts tobs) (m.sigma, 0) (fun s => φ (s.2 / texp)) := rfl
    rw [h, hw, zero_add]
  · have h : m.returnVarRealized rngEx false false (fun dt v => (pure ((f dt v).1, (f dt v).2, {}) : Ex (ℝ × ℝ × HestonMcExtra))) tobs texp (fun x => x) =
        m.realizedLoop rngEx false false (fun dt v => (pure ((f dt v).1, (f dt v).2, {}) : Ex (ℝ × ℝ × HestonMcExtra))) (dts tobs) (m.sigma, 0) (fun s => s.2 / texp) := rfl
    have h2 := m.realized_drawn f (dts tobs) hf m.sigma 0 0 (1 / texp)
    rw [h]
    simp only [zero_add] at h2
    rw [show (fun s : ℝ × ℝ => s.2 / texp) = fun s => 1 / texp * s.2 by ext s; ring, h2]
    ring

end Heston

namespace Sv32

lemma follow_loop {v : ℝ → ℝ} (hv : Continuous v) (l : List ℝ) (hl : ∀ dt ∈ l, dt ≠ 0) (t a : ℝ) :
    ((condLoop (M := StateM ℝ) (followStep v (fun s t => (v t, avgOver v s t)) (0, 0)) l (v t, a)).run t).1 = (v (t + l.sum), a + ∫ s in t..(t + l.sum), v s) := by
  induction l generalizing t a with
  | nil => simp [condLoop, StateT.run, pure, StateT.pure]
  | cons dt l ih =>
    have hd : dt ≠ 0 := hl dt (by simp)
    have h : (condLoop (M := StateM ℝ) (followStep v (fun s t => (v t, avgOver v s t)) (0, 0)) (dt :: l) (v t, a)).run t =
        (condLoop (M := StateM ℝ) (followStep v (fun s t => (v t, avgOver v s t)) (0, 0)) l
          ((followStep v (fun s t => (v t, avgOver v s t)) (0, 0) dt (v t) t).1.1, a + (followStep v (fun s t => (v t, avgOver v s t)) (0, 0) dt (v t) t).1.2 * dt)).run (t + dt) := rfl
    have hs : (followStep v (fun s t => (v t, avgOver v s t)) (0, 0) dt (v t) t).1 = (v (t + dt), avgOver v t (t + dt)) := if_pos rfl
    rw [h, hs]
    simp only
    rw [ih (fun d hd' => hl d (by simp [hd'])), avgOver_mul hd, int_step hv, List.sum_cons, add_assoc]

/-- **C119.** `cond_spot_sigma` of the 3/2 model over any number of time steps: if the steps follow a path `v` of the variance exactly, then with `I = ∫√v dW` the result is the exact conditional forward and volatility of the path. -/
theorem cond_spot_sigma_follows (m : Sv32) (hv : m.vov ≠ 0) {v : ℝ → ℝ} {T : ℝ} (hT : 0 < T) {N : ℕ → ℕ} (h : IsSv32Path m.vov v T N) (tobs : List ℝ) (hl : tobs.getLast? = some T) (hd : ∀ dt ∈ Heston.dts tobs, dt ≠ 0) :
    ∃ I, IsPathIntegral (fun t => 1 / (m.vov * v t)) (martingalePart (fun x => m.mr * x * (m.theta - x)) v) T N I ∧
      ((m.condSpotSigma (M := StateM ℝ) (followStep v (fun s t => (v t, avgOver v s t)) (0, 0)) tobs T (v 0)).run 0).1 =
        (exp (m.rho * I - m.rho ^ 2 / 2 * ∫ t in (0:ℝ)..T, v t), √((1 - m.rho ^ 2) * (1 / T * ∫ t in (0:ℝ)..T, v t)) / √(v 0)) := by
  obtain ⟨I, hI, h2⟩ := m.cond_spot_sigma_correct hv hT h
  refine ⟨I, hI, ?_⟩
  have h3 : ((m.condSpotSigma (M := StateM ℝ) (followStep v (fun s t => (v t, avgOver v s t)) (0, 0)) tobs T (v 0)).run 0).1 =
      m.condResult T (v 0) ((condLoop (M := StateM ℝ) (followStep v (fun s t => (v t, avgOver v s t)) (0, 0)) (Heston.dts tobs) (v 0, 0)).run 0).1 := rfl
  rw [h3, follow_loop h.cont _ hd, Heston.sum_dts hl, zero_add, zero_add, h2]

end Sv32

namespace GarchDiff

lemma follow_loop {v : ℝ → ℝ} (hv : Continuous v) (hs : Continuous fun t => √(v t)) (hi : Continuous fun t => 1 / √(v t)) (l : List ℝ) (hl : ∀ dt ∈ l, dt ≠ 0) (t a b c : ℝ) :
    ((condLoop (M := StateM ℝ) (followStep v (fun s t => (v t, avgOver v s t, avgOver (fun u => √(v u)) s t, some (avgOver (fun u => 1 / √(v u)) s t))) (0, 0, 0, none)) l (v t, a, b, some c)).run t).1 =
      (v (t + l.sum), a + ∫ s in t..(t + l.sum), v s, b + ∫ s in t..(t + l.sum), √(v s), some (c + ∫ s in t..(t + l.sum), 1 / √(v s))) := by
  induction l generalizing t a b c with
  | nil => simp [condLoop, StateT.run, pure, StateT.pure]
  | cons dt l ih =>
    have hd : dt ≠ 0 := hl dt (by simp)
    obtain ⟨F, hF⟩ : ∃ F : ℝ → ℝ → StateM ℝ (ℝ × ℝ × ℝ × Option ℝ), F = followStep v (fun s t => (v t, avgOver v s t, avgOver (fun u => √(v u)) s t, some (avgOver (fun u => 1 / √(v u)) s t))) (0, 0, 0, none) := ⟨_, rfl⟩
    have hs' : (F dt (v t) t).1 = (v (t + dt), avgOver v t (t + dt), avgOver (fun u => √(v u)) t (t + dt), some (avgOver (fun u => 1 / √(v u)) t (t + dt))) := by rw [hF]; exact if_pos rfl
    have h2 : (F dt (v t) t).2 = t + dt := by rw [hF]; rfl
    rw [← hF] at ih ⊢
    have h : (condLoop (M := StateM ℝ) F (dt :: l) (v t, a, b, some c)).run t =
        (condLoop (M := StateM ℝ) F l ((F dt (v t) t).1.1, a + (F dt (v t) t).1.2.1 * dt, b + (F dt (v t) t).1.2.2.1 * dt, (F dt (v t) t).1.2.2.2.bind fun x => some (c + x * dt))).run (F dt (v t) t).2 := rfl
    rw [h, hs', h2]
    simp only [Option.bind_some]
    rw [ih (fun d hd' => hl d (by simp [hd'])), avgOver_mul hd, avgOver_mul hd, avgOver_mul hd, int_step hv, int_step hs, int_step hi, List.sum_cons, add_assoc]

/-- **C122.** `cond_spot_sigma` of the GARCH diffusion over any number of time steps: if the steps follow a path `v` of the variance exactly, then with `I = ∫√v dW` the result is the exact conditional forward and volatility of the path. -/
theorem cond_spot_sigma_follows (m : GarchDiff) (hv : m.vov ≠ 0) {v : ℝ → ℝ} {T : ℝ} (hT : 0 < T) {N : ℕ → ℕ} (h : IsGarchPath m.vov v T N) (tobs : List ℝ) (hl : tobs.getLast? = some T) (hd : ∀ dt ∈ Heston.dts tobs, dt ≠ 0) :
    ∃ I, IsPathIntegral (fun t => 1 / (m.vov * √(v t))) (martingalePart (fun x => m.mr * (m.theta - x)) v) T N I ∧
      ((m.condSpotSigma (M := StateM ℝ) (followStep v (fun s t => (v t, avgOver v s t, avgOver (fun u => √(v u)) s t, some (avgOver (fun u => 1 / √(v u)) s t))) (0, 0, 0, none)) tobs T (v 0)).run 0).1 =
        (some (exp (m.rho * I - m.rho ^ 2 / 2 * ∫ t in (0:ℝ)..T, v t)), √((1 - m.rho ^ 2) * (1 / T * ∫ t in (0:ℝ)..T, v t)) / √(v 0)) := by
  obtain ⟨I, hI, h2⟩ := m.cond_spot_sigma_correct hv hT h
  refine ⟨I, hI, ?_⟩
  have hs : Continuous fun t => √(v t) := h.cont.sqrt
  have hi : Continuous fun t => 1 / √(v t) := continuous_const.div hs fun t => (sqrt_pos.2 (h.pos t)).ne'
  have h3 : ((m.condSpotSigma (M := StateM ℝ) (followStep v (fun s t => (v t, avgOver v s t, avgOver (fun u => √(v u)) s t, some (avgOver (fun u => 1 / √(v u)) s t))) (0, 0, 0, none)) tobs T (v 0)).run 0).1 =
      m.condResult T (v 0) ((condLoop (M := StateM ℝ) (followStep v (fun s t => (v t, avgOver v s t, avgOver (fun u => √(v u)) s t, some (avgOver (fun u => 1 / √(v u)) s t))) (0, 0, 0, none)) (Heston.dts tobs) (v 0, 0, 0, some 0)).run 0).1 := rfl
  rw [h3, follow_loop h.cont hs hi _ hd, Heston.sum_dts hl]
  simp only [zero_add]
  exact h2

end GarchDiff

namespace Sabr

lemma follow_loop {σ : ℝ → ℝ} (hv : Continuous σ) (l : List ℝ) (hl : ∀ dt ∈ l, dt ≠ 0) (t a : ℝ) :
    ((mcLoop (M := StateM ℝ) (followStep σ (fun s t => (σ t, avgOver (fun u => σ u ^ 2) s t)) (0, 0)) l (σ t, a)).run t).1 = (σ (t + l.sum), a + ∫ s in t..(t + l.sum), σ s ^ 2) := by
  induction l generalizing t a with
  | nil => simp [mcLoop, StateT.run, pure, StateT.pure]
  | cons dt l ih =>
    have hd : dt ≠ 0 := hl dt (by simp)
    obtain ⟨F, hF⟩ : ∃ F : ℝ → ℝ → StateM ℝ (ℝ × ℝ), F = followStep σ (fun s t => (σ t, avgOver (fun u => σ u ^ 2) s t)) (0, 0) := ⟨_, rfl⟩
    have hs' : (F dt (σ t) t).1 = (σ (t + dt), avgOver (fun u => σ u ^ 2) t (t + dt)) := by rw [hF]; exact if_pos rfl
    have h2 : (F dt (σ t) t).2 = t + dt := by rw [hF]; rfl
    rw [← hF] at ih ⊢
    have h : (mcLoop (M := StateM ℝ) F (dt :: l) (σ t, a)).run t = (mcLoop (M := StateM ℝ) F l ((F dt (σ t) t).1.1, a + (F dt (σ t) t).1.2 * dt)).run (F dt (σ t) t).2 := rfl
    rw [h, hs', h2]
    simp only
    rw [ih (fun d hd' => hl d (by simp [hd'])), avgOver_mul hd, int_step (show Continuous fun u => σ u ^ 2 from hv.pow 2), List.sum_cons, add_assoc]

/-- **C123.** `cond_spot_sigma` of the SABR model over any number of time steps: if the steps follow a path `σ` of the relative volatility from 1 exactly, then with `I = (σ_T - 1)/vov = ∫σ dW` the conditional forward ratio is
`exp(ρ α I - (ρ α)²/2 ∫σ² dt)` for `beta = 1` and `1 + ρ α I` for `beta = 0` (`α` the volatility relative to the forward), and the volatility ratio is `sqrt(1-ρ²)` times the root mean square volatility. -/
theorem cond_spot_sigma_follows (m : Sabr) {σ : ℝ → ℝ} (hσ : Continuous σ) (h0 : σ 0 = 1) {T : ℝ} (hT : T ≠ 0) (F : ℝ) (tobs : List ℝ) (hl : tobs.getLast? = some T) (hd : ∀ dt ∈ Heston.dts tobs, dt ≠ 0) :
    let I := (σ T - σ 0) / m.vov
    let A := ∫ t in (0:ℝ)..T, σ t ^ 2
    let r := ((m.mcCondSpotSigma (M := StateM ℝ) (followStep σ (fun s t => (σ t, avgOver (fun u => σ u ^ 2) s t)) (0, 0)) tobs T F).run 0).1
    (m.beta = 1 → r = (exp (m.rho * m.sigma * I - (m.rho * m.sigma) ^ 2 / 2 * A), √(1 - m.rho ^ 2) * √(1 / T * A))) ∧
    (m.beta = 0 → r = (1 + m.rho * (m.sigma / F) * I, √(1 - m.rho ^ 2) * √(1 / T * A))) := by
  intro I A r
  have h3 : r = m.mcResult T F ((mcLoop (M := StateM ℝ) (followStep σ (fun s t => (σ t, avgOver (fun u => σ u ^ 2) s t)) (0, 0)) (Heston.dts tobs) (1, 0)).run 0).1 := rfl
  have h4 := follow_loop hσ (Heston.dts tobs) hd 0 0
  rw [h0, Heston.sum_dts hl, zero_add, zero_add] at h4
  rw [h3, h4]
  have e : (∫ t in (0:ℝ)..T, σ t ^ 2) = T * (1 / T * A) := by
    simp only [A]
    field_simp
  rw [e]
  constructor
  · intro hb
    rw [m.mcResult_logn hb hT]
    refine Prod.ext ?_ rfl
    simp only [I, h0]
    congr 1
    field_simp
  · intro hb
    rw [m.mcResult_norm hb hT]
    refine Prod.ext ?_ rfl
    simp only [I, h0]
    ring

end Sabr

/-- The hypotheses on the times are met by two half-year steps. -/
example : ([1 / 2, 1] : List ℝ).getLast? = some 1 ∧ ∀ dt ∈ Heston.dts [1 / 2, 1], dt ≠ 0 := by
  refine ⟨rfl, fun dt h => ?_⟩
  simp [Heston.dts, McState.diff0, List.range, List.range.loop] at h
  rcases h with h | h <;> rw [h] <;> norm_num

end PyFENG
