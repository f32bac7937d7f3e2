import Verif.Props.OusvMgf
import Verif.Lemmas.QuadVar
import Verif.Props.Bsm

/-!
# C117: conditional simulation of the price in the OUSV model
-/

namespace PyFENG

open Real MeasureTheory ProbabilityTheory Filter Topology Spec
open scoped NNReal

namespace Ousv

section
variable {Ω : Type*} {mΩ : MeasurableSpace Ω} {P : Measure Ω} {W X : ℝ≥0 → Ω → ℝ}

/-- **C117.** `cond_spot_sigma`, when the states accumulated over the steps are the exact functionals of the volatility path (terminal volatility, `∫σ²`, `∫σ`, relative to `theta`): the conditional forward is
`exp(ρ ∫σ dW - ρ²/2 ∫σ² dt)`, where `∫σ dW` is the Itô integral against the Brownian motion driving the volatility, and the conditional volatility is `sqrt((1-ρ²) (1/T)∫σ² dt)`, relative to `vol_0`. -/
theorem cond_spot_sigma_correct (m : Ousv) (hv : m.vov ≠ 0) {vol0 : ℝ} (h : IsOU P W X m.mr m.theta m.vov vol0) {T : ℝ≥0} (hT : 0 < T) :
    ∃ I : Ω → ℝ, IsItoIntegral P W X T I ∧ ∀ᵐ ω ∂P, (1e-64 : ℝ) ≤ 1 / T * (∫ s in (0:ℝ)..T, X s.toNNReal ω ^ 2) →
      m.condResult T vol0 (X T ω - m.theta, ∫ s in (0:ℝ)..T, (X s.toNNReal ω - m.theta) ^ 2, ∫ s in (0:ℝ)..T, (X s.toNNReal ω - m.theta)) =
        (exp (m.rho * I ω - m.rho ^ 2 / 2 * ∫ s in (0:ℝ)..T, X s.toNNReal ω ^ 2), √((1 - m.rho ^ 2) * (1 / T * ∫ s in (0:ℝ)..T, X s.toNNReal ω ^ 2)) / vol0) := by
  refine ⟨_, QuadVar.ito h hv (meas h) T, ?_⟩
  filter_upwards [h.bm.law.eval_zero_ae_eq_zero] with ω hω h64
  have hX0 : X 0 ω = vol0 := by
    have h2 := h.sde ω 0
    simpa [hω] using h2
  have hT' : (T : ℝ) ≠ 0 := by exact_mod_cast hT.ne'
  have hc := cont_X h ω
  have i1 : IntervalIntegrable (fun s : ℝ => X s.toNNReal ω) volume 0 T := hc.intervalIntegrable _ _
  have i2 : IntervalIntegrable (fun s : ℝ => X s.toNNReal ω ^ 2) volume 0 T := (hc.pow 2).intervalIntegrable _ _
  have e1 : ∫ s in (0:ℝ)..T, (X s.toNNReal ω - m.theta) = (∫ s in (0:ℝ)..T, X s.toNNReal ω) - m.theta * T := by
    rw [intervalIntegral.integral_sub i1 (by simp)]
    simp [mul_comm]
  have e2 : ∫ s in (0:ℝ)..T, (X s.toNNReal ω - m.theta) ^ 2 = (∫ s in (0:ℝ)..T, X s.toNNReal ω ^ 2) - 2 * m.theta * (∫ s in (0:ℝ)..T, X s.toNNReal ω) + m.theta ^ 2 * T := by
    have e : ∀ s : ℝ, (X s.toNNReal ω - m.theta) ^ 2 = X s.toNNReal ω ^ 2 - 2 * m.theta * X s.toNNReal ω + m.theta ^ 2 := fun s => by ring
    simp only [e]
    rw [intervalIntegral.integral_add (i2.sub (i1.const_mul _)) (by simp), intervalIntegral.integral_sub i2 (i1.const_mul _), intervalIntegral.integral_const_mul]
    simp [mul_comm]
  have e3 : ∫ s in (0:ℝ)..T, X s.toNNReal ω * (m.theta - X s.toNNReal ω) = m.theta * (∫ s in (0:ℝ)..T, X s.toNNReal ω) - ∫ s in (0:ℝ)..T, X s.toNNReal ω ^ 2 := by
    have e : ∀ s : ℝ, X s.toNNReal ω * (m.theta - X s.toNNReal ω) = m.theta * X s.toNNReal ω - X s.toNNReal ω ^ 2 := fun s => by ring
    simp only [e]
    rw [intervalIntegral.integral_sub (i1.const_mul _) i2, intervalIntegral.integral_const_mul]
  unfold condResult
  simp only
  rw [e1, e2, e3, hX0]
  generalize (∫ s in (0:ℝ)..T, X s.toNNReal ω) = J1 at *
  generalize (∫ s in (0:ℝ)..T, X s.toNNReal ω ^ 2) = J2 at *
  have ea : (J2 - 2 * m.theta * J1 + m.theta ^ 2 * T) / T + m.theta * (m.theta + 2 * ((J1 - m.theta * T) / T)) = 1 / T * J2 := by
    field_simp
    ring
  rw [ea, max_eq_left h64]
  refine Prod.ext ?_ rfl
  simp only
  congr 1
  norm_num
  field_simp
  ring

end

/-- The loop of `cond_spot_sigma` run on recorded steps `(dt, result)`. -/
noncomputable def replay : ℝ → ℝ → StateM (List (ℝ × ℝ × ℝ)) (ℝ × ℝ × ℝ) := fun _ _ s => (s.headD (0, 0, 0), s.tail)

/-- **C117.** The loop of `cond_spot_sigma` accumulates, whatever the steps return, the last volatility and the integrals `Σ avgvar dt`, `Σ avgvol dt`. -/
theorem cond_loop_sums (l : List (ℝ × ℝ × ℝ × ℝ)) (s0 : ℝ × ℝ × ℝ) :
    ((condLoop (M := StateM (List (ℝ × ℝ × ℝ))) replay (l.map fun p => p.1) s0).run (l.map fun p => p.2)).1 =
      ((l.getLast?.map fun p => p.2.1).getD s0.1, s0.2.1 + (l.map fun p => p.2.2.1 * p.1).sum, s0.2.2 + (l.map fun p => p.2.2.2 * p.1).sum) := by
  induction l generalizing s0 with
  | nil => simp [condLoop, StateT.run, pure, StateT.pure]
  | cons p l ih =>
    have h : (condLoop (M := StateM (List (ℝ × ℝ × ℝ))) replay ((p :: l).map fun p => p.1) s0).run ((p :: l).map fun p => p.2) =
        (condLoop (M := StateM (List (ℝ × ℝ × ℝ))) replay (l.map fun p => p.1) (p.2.1, s0.2.1 + p.2.2.1 * p.1, s0.2.2 + p.2.2.2 * p.1)).run (l.map fun p => p.2) := rfl
    rw [h, ih]
    simp only [List.map_cons, List.sum_cons, add_assoc, List.getLast?_cons]
    cases l.getLast? <;> simp

/-- **C117.** `cond_log_return_var` is the expected squared log return of `draw_log_return` given the volatility path. -/
theorem cond_log_return_var_correct (m : Ousv) {dt v w a b : ℝ} (ha : 0 ≤ (1 - m.rho ^ 2) * dt * a) :
    HasMV (m.drawLogReturn rngEx dt v w a b) (m.lnMean dt v w a b) ((1 - m.rho ^ 2) * dt * a) ∧
    m.drawLogReturn rngEx dt v w a b (fun x => x ^ 2) = m.condLogReturnVar dt v w a b := by
  have h := hasMV_normal.affine (√((1.0 - m.rho ^ 2) * dt * a)) (m.lnMean dt v w a b)
  have h1 : (1.0 : ℝ) = 1 := by norm_num
  have h2 : HasMV (m.drawLogReturn rngEx dt v w a b) (m.lnMean dt v w a b) ((1 - m.rho ^ 2) * dt * a) := by
    refine Spec.HasMV.congr (D := m.drawLogReturn rngEx dt v w a b) h (by ring) ?_
    rw [h1, sq_sqrt ha, mul_one]
  refine ⟨h2, ?_⟩
  have h3 := h2 0 0 1
  simp only [zero_mul, zero_add, one_mul] at h3
  unfold condLogReturnVar
  rw [h3, h1]
  ring

/-- **C117.** The log returns drawn step by step are those of the conditional model behind `cond_spot_sigma`: given the path of volatilities, their total is normal with the log of the conditional forward
(plus carry, minus half the variance) as mean and `(sigma_cond vol_0)² T` as variance. `l` is the list of steps `(dt, vol before, vol after, average variance, average volatility)`. -/
theorem log_returns_aggregate (m : Ousv) (hxi : m.vov ≠ 0) {v0 vT T S J : ℝ} (l : List (ℝ × ℝ × ℝ × ℝ × ℝ)) (hv0 : v0 ≠ 0) (hT : 0 < T) (hTs : (l.map fun p => p.1).sum = T)
    (hvT : (l.map fun p => p.2.2.1 ^ 2 - p.2.1 ^ 2).sum = vT ^ 2 - v0 ^ 2) (hS : (l.map fun p => p.2.2.2.1 * p.1).sum = S) (hJ : (l.map fun p => p.2.2.2.2 * p.1).sum = J)
    (hS0 : 1e-64 ≤ S / T) (hrho : m.rho ^ 2 ≤ 1) :
    let c := m.condResult T v0 (vT - m.theta, S - 2 * m.theta * J + m.theta ^ 2 * T, J - m.theta * T)
    (l.map fun p => m.lnMean p.1 p.2.1 p.2.2.1 p.2.2.2.1 p.2.2.2.2).sum = log c.1 + (m.intr - m.divr) * T - (c.2 * v0) ^ 2 * T / 2 ∧
    (l.map fun p => (1 - m.rho ^ 2) * p.1 * p.2.2.2.1).sum = (c.2 * v0) ^ 2 * T := by
  intro c
  have ea : (S - 2 * m.theta * J + m.theta ^ 2 * T) / T + m.theta * (m.theta + 2 * ((J - m.theta * T) / T)) = S / T := by
    field_simp
    ring
  have hpos : 0 < S / T := lt_of_lt_of_le (by norm_num) hS0
  have hc : (c.2 * v0) ^ 2 * T = (1 - m.rho ^ 2) * S := by
    simp only [c]
    unfold condResult
    simp only
    rw [ea, max_eq_left hS0, div_mul_cancel₀ _ hv0, sq_sqrt (mul_nonneg (by linarith) hpos.le)]
    field_simp
  have hl : log c.1 = m.rho / m.vov * ((vT ^ 2 - v0 ^ 2 - m.vov ^ 2 * T) / 2 - m.mr * (m.theta * J - S)) - m.rho ^ 2 / 2 * S := by
    simp only [c]
    unfold condResult
    simp only
    rw [ea, log_exp]
    norm_num
    field_simp
    ring
  rw [hc, hl]
  constructor
  · rw [← hvT, ← hS, ← hTs, ← hJ]
    clear hvT hS hTs hc hl hS0 hpos ea hJ
    clear c
    induction l with
    | nil => simp
    | cons p l ih =>
      simp only [List.map_cons, List.sum_cons]
      rw [ih]
      unfold lnMean
      norm_num
      field_simp
      ring
  · rw [← hS]
    clear hvT hS hTs hc hl hS0 hpos ea hJ
    clear c
    induction l with
    | nil => simp
    | cons p l ih =>
      simp only [List.map_cons, List.sum_cons]
      rw [ih]
      ring

/-- **C117 (disagreement).** `OusvUncorrBallRoma1994.price` builds its Black-Scholes model without `is_fwd`: quoting the forward as the underlying price breaks put-call parity whenever there is carry. -/
theorem ballroma_ignores_is_fwd (m : Ousv) (hf : m.isFwd = true) {K S T : ℝ} (hS : 0 < S) (hT : 0 < T) (hc : m.intr ≠ m.divr) :
    ¬ _root_.PyFENG.Spec.Parity (m.priceBallRoma K S T 1) (m.priceBallRoma K S T (-1)) (m.mp.df T) (m.mp.fwd S T) K := by
  have h := bsm_put_call_parity ⟨√(m.avgvarM T (some m.sigma) true), m.intr, m.divr, false⟩ K S T
  unfold _root_.PyFENG.Spec.Parity at h ⊢
  intro h2
  unfold priceBallRoma at h2
  rw [h] at h2
  have e1 : m.mp.df T = discount m.intr T := m.mp.df_eq_spec T
  have e2 : m.mp.fwd S T = S := by
    rw [m.mp.fwd_eq_forward, m.mp.forward_eq_spec]
    simp [mp, hf, forward]
  rw [e1, e2] at h2
  have e3 := mul_left_cancel₀ (exp_pos _).ne' h2
  simp only [forward, Bool.false_eq_true, if_false] at e3
  have e4 : S * exp ((m.intr - m.divr) * T) = S * 1 := by linarith
  have e5 := exp_eq_one_iff _ |>.1 (mul_left_cancel₀ hS.ne' e4)
  rcases mul_eq_zero.1 e5 with h6 | h6
  · exact hc (by linarith)
  · exact hT.ne' h6

/-- The conditional formulas apply to a volatility started at its long-run mean; Ornstein-Uhlenbeck processes exist for every parameter. -/
example : ∃ (Ω : Type) (_ : MeasurableSpace Ω) (P : Measure Ω) (W X : ℝ≥0 → Ω → ℝ), IsOU P W X 4 0.2 0.1 0.2 ∧
    ∃ I : Ω → ℝ, IsItoIntegral P W X 1 I := by
  obtain ⟨Ω, _, P, B, hB⟩ := exists_isBM
  have h := Ou.isOU hB 4 0.2 0.1 0.2
  refine ⟨Ω, _, P, B, _, h, ?_⟩
  obtain ⟨I, hI, -⟩ := cond_spot_sigma_correct ⟨0.2, 0.1, -0.7, 4, 0.2, 0, 0, false⟩ (by norm_num) h one_pos
  exact ⟨I, hI⟩

end Ousv

end PyFENG
