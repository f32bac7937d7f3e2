import Verif.Props.Sv32Mgf
import Verif.Props.HestonMc
import Verif.Props.CirDraw
import Verif.Lemmas.Follmer

/-!
# C119: conditional simulation of the 3/2 model
-/

namespace PyFENG

open Real MeasureTheory Filter Topology Set Spec

/-- Specification: `v` is a path of the 3/2 variance `dv = mr v (theta - v) dt + vov v^{3/2} dW`: positive, continuous, with quadratic variation `∫ vov² v³ dt`. (The drift enters through
`Spec.martingalePart`.) -/
structure Spec.IsSv32Path (vov : ℝ) (v : ℝ → ℝ) (T : ℝ) (N : ℕ → ℕ) : Prop where
  cont : Continuous v
  pos : ∀ t, 0 < v t
  qv : HasQuadVar v (fun t => vov ^ 2 * v t ^ 3) T N

/-- `∫_0^t b(v) dW = v_t - v_0 - ∫_0^t a(v_s) ds` for a solution of `dv = a(v) dt + b(v) dW`. -/
noncomputable def Spec.martingalePart (a : ℝ → ℝ) (v : ℝ → ℝ) (t : ℝ) : ℝ := v t - v 0 - ∫ s in (0:ℝ)..t, a (v s)

namespace Sv32

/-- **C119.** `cond_spot_sigma`, when the accumulated states are the exact terminal variance and `∫v dt`: with `I = ∫√v dW`, that is the integral of `1/(vov v)` against `∫ vov v^{3/2} dW`, the conditional forward is
`exp(ρ I - ρ²/2 ∫v dt)` and the conditional volatility is `sqrt((1-ρ²) (1/T)∫v dt)`, relative to the initial volatility. -/
theorem cond_spot_sigma_correct (m : Sv32) (hv : m.vov ≠ 0) {v : ℝ → ℝ} {T : ℝ} (hT : 0 < T) {N : ℕ → ℕ} (h : IsSv32Path m.vov v T N) :
    ∃ I, IsPathIntegral (fun t => 1 / (m.vov * v t)) (martingalePart (fun x => m.mr * x * (m.theta - x)) v) T N I ∧
      m.condResult T (v 0) (v T, ∫ t in (0:ℝ)..T, v t) =
        (exp (m.rho * I - m.rho ^ 2 / 2 * ∫ t in (0:ℝ)..T, v t), √((1 - m.rho ^ 2) * (1 / T * ∫ t in (0:ℝ)..T, v t)) / √(v 0)) := by
  have hc := h.cont
  have hd1 : ∀ z : ℝ, 0 < z → HasDerivAt (fun z => log z / m.vov) (1 / (m.vov * z)) z := fun z hz => by
    refine ((Real.hasDerivAt_log hz.ne').div_const m.vov).congr_deriv ?_
    field_simp
  have hd2 : ∀ z : ℝ, 0 < z → HasDerivAt (fun z => 1 / (m.vov * z)) (-(1 / (m.vov * z ^ 2))) z := fun z hz => by
    have := (hasDerivAt_inv hz.ne').const_mul (1 / m.vov)
    have e : (fun z : ℝ => 1 / (m.vov * z)) = fun z => 1 / m.vov * z⁻¹ := by ext z; rw [one_div, mul_inv, one_div]
    rw [e]
    refine this.congr_deriv ?_
    field_simp
  have hc2 : ContinuousOn (fun z : ℝ => -(1 / (m.vov * z ^ 2))) (Ioi 0) := by
    refine ContinuousOn.neg (continuousOn_const.div (by fun_prop) fun z hz => ?_)
    have : (0:ℝ) < z := hz
    positivity
  have key := Follmer.ito hT h.cont h.pos (q := fun t => m.vov ^ 2 * v t ^ 3) (by fun_prop) (a := fun t => m.mr * v t * (m.theta - v t)) (by fun_prop) h.qv hd1 hd2 hc2
  refine ⟨_, key, ?_⟩
  have e1 : ∀ s : ℝ, 1 / (m.vov * v s) * (m.mr * v s * (m.theta - v s)) + -(1 / (m.vov * v s ^ 2)) / 2 * (m.vov ^ 2 * v s ^ 3) = m.mr * m.theta / m.vov - (m.mr + m.vov ^ 2 / 2) / m.vov * v s := fun s => by
    have := (h.pos s).ne'
    field_simp
    ring
  simp only [e1]
  have i1 : IntervalIntegrable (fun s : ℝ => (m.mr + m.vov ^ 2 / 2) / m.vov * v s) volume 0 T := (by fun_prop : Continuous fun s : ℝ => (m.mr + m.vov ^ 2 / 2) / m.vov * v s).intervalIntegrable _ _
  rw [intervalIntegral.integral_sub (by simp) i1, intervalIntegral.integral_const, intervalIntegral.integral_const_mul, smul_eq_mul, sub_zero]
  generalize hI : (∫ t in (0:ℝ)..T, v t) = J
  have h0 := h.pos 0
  have hT0 := h.pos T
  unfold condResult
  simp only
  refine Prod.ext ?_ ?_
  · simp only
    congr 1
    rw [log_div hT0.ne' h0.ne']
    field_simp
  · simp only
    rw [← sqrt_div' _ h0.le]
    congr 1
    norm_num
    ring

/-- The loop of `cond_spot_sigma` run on recorded steps. -/
noncomputable def replay : ℝ → ℝ → StateM (List (ℝ × ℝ)) (ℝ × ℝ) := fun _ _ s => (s.headD (0, 0), s.tail)

/-- **C119.** The loop accumulates, whatever the steps return, the last variance and the integral `Σ avgvar dt`. -/
theorem cond_loop_sums (l : List (ℝ × ℝ × ℝ)) (s0 : ℝ × ℝ) :
    ((condLoop (M := StateM (List (ℝ × ℝ))) replay (l.map fun p => p.1) s0).run (l.map fun p => p.2)).1 =
      ((l.getLast?.map fun p => p.2.1).getD s0.1, s0.2 + (l.map fun p => p.2.2 * p.1).sum) := by
  induction l generalizing s0 with
  | nil => simp [condLoop, StateT.run, pure, StateT.pure]
  | cons p l ih =>
    have h : (condLoop (M := StateM (List (ℝ × ℝ))) replay ((p :: l).map fun p => p.1) s0).run ((p :: l).map fun p => p.2) =
        (condLoop (M := StateM (List (ℝ × ℝ))) replay (l.map fun p => p.1) (p.2.1, s0.2 + p.2.2 * p.1)).run (l.map fun p => p.2) := rfl
    rw [h, ih]
    simp only [List.map_cons, List.sum_cons, add_assoc, List.getLast?_cons]
    cases l.getLast? <;> simp

/-! ### Time stepping -/

/-- **C119.** Schemes below 2 are the Euler and (scheme 1) Milstein schemes of `dv = a(v) dt + b(v) dW`, `a(v) = mr v (theta - v)`, `b(v) = vov v^{3/2}`, absorbed at 0; the average variance is the trapezoidal rule. `b'` is the derivative of `b`. -/
theorem step_euler_correct (m : Sv32) {scheme : ℤ} (hs : scheme < 2) {dt v b' : ℝ} (hdt : 0 ≤ dt) (hv : 0 < v) (hb : HasDerivAt (fun v : ℝ => m.vov * v ^ (3 / 2 : ℝ)) b' v) :
    ∃ D, stepTd rngEx m scheme dt v = .ok D ∧ ∀ φ : ℝ × ℝ → ℝ, D φ = gaussE (fun z =>
      let w := max 0 (v + m.mr * v * (m.theta - v) * dt + m.vov * v ^ (3 / 2 : ℝ) * (√dt * z) + if scheme = 1 then m.vov * v ^ (3 / 2 : ℝ) * b' / 2 * ((√dt * z) ^ 2 - dt) else 0)
      φ (w, (v + w) / 2)) := by
  have hb' : b' = m.vov * (3 / 2 * √v) := by
    have h := (hasDerivAt_rpow_const (p := (3 / 2 : ℝ)) (Or.inl hv.ne')).const_mul m.vov
    rw [hb.unique h, sqrt_eq_rpow]
    norm_num
  have h32 : v ^ (3 / 2 : ℝ) = v * √v := by
    rw [show (3 / 2 : ℝ) = 1 + 1 / 2 by norm_num, rpow_add hv, rpow_one, sqrt_eq_rpow]
  have hsv := sq_sqrt hv.le
  have hst := sq_sqrt hdt
  refine ⟨_, by rw [stepTd, varStep, if_pos hs]; rfl, fun φ => ?_⟩
  show gaussE (fun z => _) = _
  congr 1
  funext z
  have e : ∀ x : ℝ, (if x < 0 then 0 else x) = max 0 x := fun x => by
    split_ifs with h
    · rw [max_eq_left h.le]
    · rw [max_eq_right (not_lt.1 h)]
  have e2 : ((if (scheme == 1) = true then 1.0 + m.mr * (m.theta - v) * dt + m.vov * √(v * dt) * z + 0.75 * m.vov ^ 2 * v * (z ^ 2 - 1.0) * dt else 1.0 + m.mr * (m.theta - v) * dt + m.vov * √(v * dt) * z) * v)
      = v + m.mr * v * (m.theta - v) * dt + m.vov * v ^ (3 / 2 : ℝ) * (√dt * z) + if scheme = 1 then m.vov * v ^ (3 / 2 : ℝ) * b' / 2 * ((√dt * z) ^ 2 - dt) else 0 := by
    rw [sqrt_mul hv.le, h32, hb']
    have e3 : (√dt * z) ^ 2 = dt * z ^ 2 := by rw [mul_pow, hst]
    rw [e3]
    by_cases h1 : scheme = 1
    · rw [if_pos (by simp [h1]), if_pos h1]
      norm_num
      have : m.vov * (v * √v) * (m.vov * (3 / 2 * √v)) = 3 / 2 * m.vov ^ 2 * v * √v ^ 2 := by ring
      rw [this, hsv]
      ring
    · rw [if_neg (by simp [h1]), if_neg h1]
      norm_num
      ring
  simp only [e, ← e2]
  rfl

/-- **C119.** Schemes 2 and 3 draw the variance from the exact law: the reciprocal `1/var_t` has the moment generating function of the square-root process `cir` (see `cir_reciprocal`), and the average variance is the trapezoidal rule. -/
theorem step_exact_law (m : Sv32) {scheme : ℤ} (hs : scheme = 2 ∨ scheme = 3) (hmr : 0 < m.mr) (hth : 0 < m.theta) (hv : m.vov ≠ 0) {dt v : ℝ} (hdt : 0 < dt) {u : ℝ}
    (hu : 2 * (m.vov ^ 2 * (1 - exp (-(m.mr * m.theta * dt))) / (4 * (m.mr * m.theta))) * u < 1) :
    ∃ D, stepTd rngEx m scheme dt v = .ok D ∧ D (fun r => exp (u * (1 / r.1))) = m.cir.mgfVt dt (1 / v) u ∧
      ∀ φ : ℝ × ℝ → ℝ, D φ = D (fun r => φ (r.1, (v + r.1) / 2)) := by
  have hk : 0 < m.cir.mr := mul_pos hmr hth
  have ht : 0 < m.cir.theta := div_pos (by positivity) (mul_pos hmr hth)
  have key := Cir.draw_pois_gamma_mgf m.cir (dt := dt) (v0 := 1 / v) (u := u) hk ht hv hdt hu
  have one : ∀ x : ℝ, 1 / (1.0 / x) = x := fun x => by norm_num
  rcases hs with h | h
  · subst h
    refine ⟨_, rfl, ?_, fun φ => rfl⟩
    rw [← key, ← Cir.draw_ncx2_eq_pois_gamma m.cir dt (1 / v) (fun x => exp (u * x))]
    show Cir.drawNcx2 Ex.ncx2 m.cir dt (1 / v) (fun x => exp (u * (1 / (1.0 / x)))) = _
    simp only [one]
  · subst h
    refine ⟨_, rfl, ?_, fun φ => rfl⟩
    rw [← key]
    show Cir.drawPoisGamma Ex.gamma0 Ex.poisson m.cir dt (1 / v) (fun x => exp (u * (1 / (1.0 / x.1)))) = _
    simp only [one]
    have hd : 0 < 4 * m.cir.mr * m.cir.theta / m.cir.sigma ^ 2 := by have : m.cir.sigma = m.vov := rfl; rw [this]; positivity
    show Ex.poisson _ (fun n => Ex.gamma0 (4 * m.cir.mr * m.cir.theta / m.cir.sigma ^ 2 / 2 + n) fun g => exp (u * ((m.cir.phiExp dt).2 / (m.cir.phiExp dt).1 * 2 * g))) =
      Ex.poisson _ (fun n => Ex.gamma (4 * m.cir.mr * m.cir.theta / m.cir.sigma ^ 2 / 2 + n) fun g => exp (u * ((m.cir.phiExp dt).2 / (m.cir.phiExp dt).1 * 2 * g)))
    refine congrArg _ (funext fun n => ?_)
    have hn : 4 * m.cir.mr * m.cir.theta / m.cir.sigma ^ 2 / 2 + (n:ℝ) ≠ 0 := by positivity
    unfold Ex.gamma0
    rw [if_neg hn]

/-- **C119.** Any other scheme raises `ValueError`. -/
theorem step_invalid (m : Sv32) {scheme : ℤ} (hs : 3 < scheme) (dt v : ℝ) : stepTd rngEx m scheme dt v = .error .valueError := by
  unfold stepTd varStep
  rw [if_neg (by omega), if_neg (by omega), if_neg (by omega)]
  rfl

/-! ### The inverse-Gaussian step -/

/-- **C119.** `draw_from_mv` has the requested mean and variance `var_scaled * mean²` for a mean above machine precision, and is 0 below it; other distribution names raise `ValueError`. -/
theorem draw_from_mv_correct {eps mean vs : ℝ} (he : 0 ≤ eps) (hv : 0 < vs) (dist : String) :
    (dist.toLower = "ig" ∨ dist.toLower = "ga" ∨ dist.toLower = "ln" → ∃ d, drawFromMv rngEx eps mean vs dist = .ok d ∧
      (eps < mean → HasMV d mean (vs * mean ^ 2)) ∧ (mean ≤ eps → HasMV d 0 0)) ∧
    (dist.toLower ≠ "ig" → dist.toLower ≠ "ga" → dist.toLower ≠ "ln" → drawFromMv rngEx eps mean vs dist = .error .valueError) := by
  have heq : eps < mean → drawFromMv rngEx eps mean vs dist = Heston.drawFromMv rngEx mean vs dist := fun h => by
    unfold drawFromMv Heston.drawFromMv
    rw [if_pos h]
  refine ⟨fun hd => ?_, fun h1 h2 h3 => ?_⟩
  · by_cases hm : eps < mean
    · obtain ⟨d, h1, h2⟩ := Heston.draw_from_mv_correct (he.trans_lt hm) hv dist hd
      exact ⟨d, by rw [heq hm, h1], fun _ => h2, fun h => absurd hm (not_lt.2 h)⟩
    · refine ⟨_, by rw [drawFromMv, if_neg hm, if_pos hd], fun h => absurd h hm, fun _ A B C => ?_⟩
      show A + B * 0 + C * 0 ^ 2 = _
      ring
  · by_cases hm : eps < mean
    · rw [heq hm]; exact Heston.draw_from_mv_rejects dist h1 h2 h3
    · rw [drawFromMv, if_neg hm, if_neg (by tauto)]

/-- **C119.** One step of `Sv32McChoiKwok2023Ig` with any of the three distributions: the reciprocal of the variance is drawn from its exact law (see `step_exact_law`) and, given the variance drawn, the average variance has the mean
(when above machine precision) and the relative variance returned by `cond_avgvar_mv`; the average is 0 when that mean is not above machine precision. -/
theorem step_ig_moments (m : Sv32) {eps : ℝ} (he : 0 ≤ eps) (mv : ℝ → ℝ → ℝ → ℝ × ℝ) {dist : String} (hd : dist.toLower = "ig" ∨ dist.toLower = "ga" ∨ dist.toLower = "ln")
    (dt v0 : ℝ) (hmv : ∀ v, 0 < (mv dt v0 v).2) (A B C : ℝ → ℝ) :
    stepIg rngEx eps mv m dist dt v0 (fun r => match r with | .ok r => A r.1 + B r.1 * r.2 + C r.1 * r.2 ^ 2 | .error _ => 0) =
      Cir.drawNcx2 Ex.ncx2 m.cir dt (1 / v0) (fun x => let a := mv dt v0 (1 / x)
        let a1 := if eps < a.1 then a.1 else 0
        A (1 / x) + B (1 / x) * a1 + C (1 / x) * (a.2 * a1 ^ 2 + a1 ^ 2)) := by
  show Cir.drawNcx2 Ex.ncx2 m.cir dt (1 / v0) (fun x => _) = _
  refine congrArg _ (funext fun x => ?_)
  obtain ⟨d, h1, h2, h3⟩ := (draw_from_mv_correct (mean := (mv dt v0 (1 / x)).1) he (hmv (1 / x)) dist).1 hd
  have e1 : (1.0 / x : ℝ) = 1 / x := by norm_num
  simp only [e1, h1]
  by_cases hm : eps < (mv dt v0 (1 / x)).1
  · rw [if_pos hm]
    exact h2 hm (A (1 / x)) (B (1 / x)) (C (1 / x))
  · rw [if_neg hm]
    refine (h3 (not_lt.1 hm) (A (1 / x)) (B (1 / x)) (C (1 / x))).trans ?_
    ring

/-- An unknown distribution name makes every step raise `ValueError`. -/
theorem step_ig_invalid (m : Sv32) {eps : ℝ} (mv : ℝ → ℝ → ℝ → ℝ × ℝ) {dist : String} (h1 : dist.toLower ≠ "ig") (h2 : dist.toLower ≠ "ga") (h3 : dist.toLower ≠ "ln") (dt v0 : ℝ)
    (φ : Except McErr (ℝ × ℝ) → ℝ) :
    stepIg rngEx eps mv m dist dt v0 φ = Cir.drawNcx2 Ex.ncx2 m.cir dt (1 / v0) (fun _ => φ (.error .valueError)) := by
  have e : ∀ a b : ℝ, drawFromMv rngEx eps a b dist = .error .valueError := fun a b => by
    unfold drawFromMv
    rw [if_neg h1, if_neg h2, if_neg h3, if_neg (show ¬(dist.toLower = "ig" ∨ dist.toLower = "ga" ∨ dist.toLower = "ln") by tauto), ite_self]
  unfold stepIg
  simp only [e]
  rfl

/-- The hypotheses of `cond_spot_sigma_correct` are met: there are paths of the 3/2 model, for every volatility of variance. -/
example (ξ : ℝ) : ∃ v : ℝ → ℝ, IsSv32Path ξ v 1 (fun n => 2 ^ n) := by
  obtain ⟨x, B, hx, hB, hq⟩ := Follmer.exists_path
  have hB0 : 0 ≤ B := (abs_nonneg _).trans (hB 0)
  have hb : ∀ y ∈ Icc (-B) B, 0 < |ξ| * B + 1 - ξ * y / 2 := fun y hy => by
    have h1 : |ξ * y| ≤ |ξ| * B := by rw [abs_mul]; exact mul_le_mul_of_nonneg_left (abs_le.2 ⟨hy.1, hy.2⟩) (abs_nonneg _)
    have h2 := le_abs_self (ξ * y)
    have h3 : 0 ≤ |ξ| * B := by positivity
    linarith
  have hr : ∀ t, x t ∈ Icc (-B) B := fun t => ⟨(abs_le.1 (hB t)).1, (abs_le.1 (hB t)).2⟩
  have hd : ∀ y ∈ Icc (-B) B, HasDerivAt (fun y : ℝ => ((|ξ| * B + 1 - ξ * y / 2) ^ 2)⁻¹) (ξ * ((|ξ| * B + 1 - ξ * y / 2) ^ 3)⁻¹) y := fun y hy => by
    have h0 := (hb y hy).ne'
    have h1 : HasDerivAt (fun y : ℝ => |ξ| * B + 1 - ξ * y / 2) (-(ξ / 2)) y := by
      refine ((((hasDerivAt_id' y).const_mul ξ).div_const 2).const_sub (|ξ| * B + 1)).congr_deriv ?_
      ring
    refine (HasDerivAt.fun_inv (h1.fun_pow 2) (pow_ne_zero 2 h0)).congr_deriv ?_
    generalize |ξ| * B + 1 - ξ * y / 2 = w at *
    norm_num
    field_simp
  have hc : ContinuousOn (fun y : ℝ => ξ * ((|ξ| * B + 1 - ξ * y / 2) ^ 3)⁻¹) (Icc (-B) B) :=
    continuousOn_const.mul (ContinuousOn.inv₀ (by fun_prop) fun y hy => pow_ne_zero 3 (hb y hy).ne')
  have key := Follmer.qv_comp one_pos hx continuous_const hq hr hd hc
  refine ⟨fun t => ((|ξ| * B + 1 - ξ * x t / 2) ^ 2)⁻¹, ?_, fun t => ?_, ?_⟩
  · exact Continuous.inv₀ (by fun_prop) fun t => pow_ne_zero 2 (hb _ (hr t)).ne'
  · have := hb _ (hr t); positivity
  · refine Eq.subst (motive := fun q => HasQuadVar (fun t => ((|ξ| * B + 1 - ξ * x t / 2) ^ 2)⁻¹) q 1 (fun n => 2 ^ n)) ?_ key
    funext t
    have := hb _ (hr t)
    field_simp

/-- The hypothesis of `step_exact_law` is met. -/
example : 2 * ((1:ℝ) ^ 2 * (1 - exp (-(1 * 1 * 1))) / (4 * (1 * 1))) * 1 < 1 := by
  have := exp_pos (-(1 * 1 * 1) : ℝ)
  norm_num
  norm_num at this
  linarith

end Sv32

end PyFENG
