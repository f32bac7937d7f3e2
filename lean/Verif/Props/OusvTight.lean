import Verif.Props.OusvCond

/-!
# C114, C117: the Monte Carlo loops of the OUSV model
-/

namespace PyFENG

open Real MeasureTheory Filter Topology Spec

namespace Ousv

variable (m : Ousv)

/-- **C114.** `OusvMcTimeDisc.cond_states_step` with scheme 0 returns, from the volatility `v`, the exact Ornstein–Uhlenbeck step `w` and the trapezoidal averages of the variance `(v² + w²)/2` and of the
volatility `(v + w)/2`, in the original units. -/
theorem step_td_trapezoid (dt v : ℝ) :
    ∃ D, m.stepTd rngEx 0 dt v true = .ok D ∧ ∀ φ : ℝ × ℝ × ℝ → ℝ, D φ = gaussE fun z =>
      φ (m.theta + (v - m.theta) * exp (-m.mr * dt) + m.vov * √((1 - exp (-m.mr * dt) ^ 2) / (2 * m.mr)) * z,
        (v ^ 2 + (m.theta + (v - m.theta) * exp (-m.mr * dt) + m.vov * √((1 - exp (-m.mr * dt) ^ 2) / (2 * m.mr)) * z) ^ 2) / 2,
        (v + (m.theta + (v - m.theta) * exp (-m.mr * dt) + m.vov * √((1 - exp (-m.mr * dt) ^ 2) / (2 * m.mr)) * z)) / 2) := by
  refine ⟨_, by unfold stepTd; rw [if_pos rfl], fun φ => ?_⟩
  show gaussE (fun z => φ _) = _
  congr 1
  ext z
  congr 1
  simp only [if_true, shift, volStep, Bool.false_eq_true, if_false]
  refine Prod.ext (by ring) (Prod.ext ?_ ?_) <;> ring

/-- A step that follows the path `X`: given the current volatility (less `theta`) at the current time it returns the next one and the averages of the path, and zeros if it is given anything else. -/
noncomputable def Spec.follow (X : ℝ → ℝ) (θ : ℝ) : ℝ → ℝ → StateM ℝ (ℝ × ℝ × ℝ) := fun dt v t =>
  (open Classical in if v = X t - θ then (X (t + dt) - θ, (∫ s in t..(t + dt), (X s - θ) ^ 2) / dt, (∫ s in t..(t + dt), (X s - θ)) / dt) else (0, 0, 0), t + dt)

lemma follow_loop {X : ℝ → ℝ} (hX : Continuous X) (θ : ℝ) (l : List ℝ) (hl : ∀ dt ∈ l, dt ≠ 0) (t a b : ℝ) :
    ((condLoop (M := StateM ℝ) (Spec.follow X θ) l (X t - θ, a, b)).run t).1 =
      (X (t + l.sum) - θ, a + ∫ s in t..(t + l.sum), (X s - θ) ^ 2, b + ∫ s in t..(t + l.sum), (X s - θ)) := by
  have hi : ∀ (f : ℝ → ℝ), Continuous f → ∀ a b, IntervalIntegrable f volume a b := fun f hf a b => hf.intervalIntegrable _ _
  induction l generalizing t a b with
  | nil => simp [condLoop, StateT.run, pure, StateT.pure]
  | cons dt l ih =>
    have hd : dt ≠ 0 := hl dt (by simp)
    have h : (condLoop (M := StateM ℝ) (Spec.follow X θ) (dt :: l) (X t - θ, a, b)).run t =
        (condLoop (M := StateM ℝ) (Spec.follow X θ) l ((Spec.follow X θ dt (X t - θ) t).1.1, a + (Spec.follow X θ dt (X t - θ) t).1.2.1 * dt, b + (Spec.follow X θ dt (X t - θ) t).1.2.2 * dt)).run (t + dt) := rfl
    rw [h]
    simp only [Spec.follow, if_true]
    rw [ih (fun d hd' => hl d (by simp [hd'])), div_mul_cancel₀ _ hd, div_mul_cancel₀ _ hd, List.sum_cons, add_assoc, add_assoc, add_assoc,
      intervalIntegral.integral_add_adjacent_intervals (hi _ (by fun_prop) _ _) (hi _ (by fun_prop) _ _), intervalIntegral.integral_add_adjacent_intervals (hi _ (by fun_prop) _ _) (hi _ (by fun_prop) _ _)]

/-- **C117.** `cond_spot_sigma` hands the volatility from step to step correctly: with steps that follow a continuous volatility path `X` from `vol_0`, the result is that of the exact functionals of the path over
the whole interval (to which `cond_spot_sigma_correct` applies), for every list of observation times. -/
theorem cond_spot_sigma_follows {X : ℝ → ℝ} (hX : Continuous X) (tobs : List ℝ) (hd : ∀ dt ∈ Heston.dts tobs, dt ≠ 0) :
    ((m.condSpotSigma (M := StateM ℝ) (Spec.follow X m.theta) tobs (Heston.dts tobs).sum (X 0)).run 0).1 =
      m.condResult (Heston.dts tobs).sum (X 0) (X (Heston.dts tobs).sum - m.theta, ∫ s in (0:ℝ)..(Heston.dts tobs).sum, (X s - m.theta) ^ 2, ∫ s in (0:ℝ)..(Heston.dts tobs).sum, (X s - m.theta)) := by
  have h : ((m.condSpotSigma (M := StateM ℝ) (Spec.follow X m.theta) tobs (Heston.dts tobs).sum (X 0)).run 0).1 =
      m.condResult (Heston.dts tobs).sum (X 0) ((condLoop (M := StateM ℝ) (Spec.follow X m.theta) (Heston.dts tobs) (X 0 - m.theta, 0, 0)).run 0).1 := rfl
  rw [h, follow_loop hX m.theta _ hd]
  simp

/-- The sum of `φ dt v w avgvar avgvol` over the steps, where `f dt v = (w, avgvar, avgvol)` and each step starts from the `w` of the last. -/
noncomputable def Spec.sumAlong (f : ℝ → ℝ → ℝ × ℝ × ℝ) (φ : ℝ → ℝ → ℝ → ℝ → ℝ → ℝ) : List ℝ → ℝ → ℝ
  | [], _ => 0
  | dt :: l, v => φ dt v (f dt v).1 (f dt v).2.1 (f dt v).2.2 + sumAlong f φ l (f dt v).1

lemma realized_cond (f : ℝ → ℝ → ℝ × ℝ × ℝ) (l : List ℝ) (v a : ℝ) (φ : ℝ × ℝ → ℝ) :
    ∃ w, m.realizedLoop rngEx true (fun dt v => (pure (f dt v) : Ex (ℝ × ℝ × ℝ))) l (v, a) φ = φ (w, a + Spec.sumAlong f m.condLogReturnVar l v) := by
  induction l generalizing v a with
  | nil => exact ⟨v, by rw [Spec.sumAlong, add_zero]; rfl⟩
  | cons dt l ih =>
    obtain ⟨w, hw⟩ := ih (f dt v).1 (a + m.condLogReturnVar dt v (f dt v).1 (f dt v).2.1 (f dt v).2.2)
    refine ⟨w, ?_⟩
    rw [Spec.sumAlong, ← add_assoc, ← hw]
    rfl

lemma realized_drawn (f : ℝ → ℝ → ℝ × ℝ × ℝ) (l : List ℝ) (hf : ∀ dt ∈ l, ∀ v, 0 ≤ (1 - m.rho ^ 2) * dt * (f dt v).2.1) (v a A B : ℝ) :
    m.realizedLoop rngEx false (fun dt v => (pure (f dt v) : Ex (ℝ × ℝ × ℝ))) l (v, a) (fun s => A + B * s.2) = A + B * (a + Spec.sumAlong f m.condLogReturnVar l v) := by
  induction l generalizing v a with
  | nil => rw [Spec.sumAlong, add_zero]; rfl
  | cons dt l ih =>
    have h : m.realizedLoop rngEx false (fun dt v => (pure (f dt v) : Ex (ℝ × ℝ × ℝ))) (dt :: l) (v, a) (fun s => A + B * s.2) =
        m.drawLogReturn rngEx dt v (f dt v).1 (f dt v).2.1 (f dt v).2.2 (fun x => m.realizedLoop rngEx false (fun dt v => (pure (f dt v) : Ex (ℝ × ℝ × ℝ))) l ((f dt v).1, a + x ^ 2) (fun s => A + B * s.2)) := rfl
    rw [h]
    have ih := fun v a => ih (fun d hd => hf d (by simp [hd])) v a
    simp only [ih]
    obtain ⟨h1, h2⟩ := m.cond_log_return_var_correct (v := v) (w := (f dt v).1) (b := (f dt v).2.2) (hf dt (by simp) v)
    have h3 := h1 (A + B * (a + Spec.sumAlong f m.condLogReturnVar l (f dt v).1)) 0 B
    have h4 := h1 0 0 1
    simp only [zero_mul, zero_add, one_mul, add_zero] at h3 h4
    rw [h4] at h2
    rw [Spec.sumAlong, ← h2]
    refine Eq.trans (congrArg _ (funext fun x => ?_)) (h3.trans (by ring))
    ring

/-- **C117.** `return_var_realized`: for a given volatility path the average of the realised variance of the drawn returns is the value returned with `cond=True`, the sum of the expected squared log returns of the
steps divided by `texp`. -/
theorem return_var_realized_correct (f : ℝ → ℝ → ℝ × ℝ × ℝ) (tobs : List ℝ) (hf : ∀ dt ∈ Heston.dts tobs, ∀ v, 0 ≤ (1 - m.rho ^ 2) * dt * (f dt v).2.1) (texp : ℝ) :
    (∀ φ : ℝ → ℝ, m.returnVarRealized rngEx true (fun dt v => (pure (f dt v) : Ex (ℝ × ℝ × ℝ))) tobs texp φ
      = φ (Spec.sumAlong f (fun dt v w a b => m.drawLogReturn rngEx dt v w a b fun x => x ^ 2) (Heston.dts tobs) m.sigma / texp)) ∧
    m.returnVarRealized rngEx false (fun dt v => (pure (f dt v) : Ex (ℝ × ℝ × ℝ))) tobs texp (fun x => x)
      = Spec.sumAlong f (fun dt v w a b => m.drawLogReturn rngEx dt v w a b fun x => x ^ 2) (Heston.dts tobs) m.sigma / texp := by
  have e : ∀ (l : List ℝ), (∀ dt ∈ l, ∀ v, 0 ≤ (1 - m.rho ^ 2) * dt * (f dt v).2.1) → ∀ v, Spec.sumAlong f (fun dt v w a b => m.drawLogReturn rngEx dt v w a b fun x => x ^ 2) l v = Spec.sumAlong f m.condLogReturnVar l v := fun l => by
    induction l with
    | nil => intro _ v; rfl
    | cons dt l ih =>
      intro hl v
      rw [Spec.sumAlong, Spec.sumAlong, ih fun d hd => hl d (by simp [hd]), (m.cond_log_return_var_correct (v := v) (w := (f dt v).1) (b := (f dt v).2.2) (hl dt (by simp) v)).2]
  rw [e _ hf]
  constructor
  · intro φ
    obtain ⟨w, hw⟩ := m.realized_cond f (Heston.dts tobs) m.sigma 0 (fun s => φ (s.2 / texp))
    have h : m.returnVarRealized rngEx true (fun dt v => (pure (f dt v) : Ex (ℝ × ℝ × ℝ))) tobs texp φ =
        m.realizedLoop rngEx true (fun dt v => (pure (f dt v) : Ex (ℝ × ℝ × ℝ))) (Heston.dts tobs) (m.sigma, 0) (fun s => φ (s.2 / texp)) := rfl
    rw [h, hw, zero_add]
  · have h : m.returnVarRealized rngEx false (fun dt v => (pure (f dt v) : Ex (ℝ × ℝ × ℝ))) tobs texp (fun x => x) =
        m.realizedLoop rngEx false (fun dt v => (pure (f dt v) : Ex (ℝ × ℝ × ℝ))) (Heston.dts tobs) (m.sigma, 0) (fun s => s.2 / texp) := rfl
    have h2 := m.realized_drawn f (Heston.dts tobs) hf m.sigma 0 0 (1 / texp)
    rw [h]
    simp only [zero_add] at h2
    rw [show (fun s : ℝ × ℝ => s.2 / texp) = fun s => 1 / texp * s.2 by ext s; ring, h2]
    ring

/-- The hypotheses are met: one observation after a year, and a step that keeps the volatility. -/
example : (∀ dt ∈ Heston.dts [1], dt ≠ 0) ∧ ∀ dt ∈ Heston.dts [1], ∀ v : ℝ, 0 ≤ (1 - (1 / 2 : ℝ) ^ 2) * dt * (v, v ^ 2, v).2.1 := by
  refine ⟨by simp [Heston.dts, McState.diff0], fun dt h v => ?_⟩
  simp [Heston.dts, McState.diff0] at h
  rw [h]
  positivity

end Ousv

end PyFENG
