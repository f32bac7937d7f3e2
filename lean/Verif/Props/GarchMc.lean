import Verif.Props.Garch
import Verif.Props.Sv32Mc
import Verif.Props.BsmVar
import Verif.Lemmas.FollmerMore

/-!
# C121, C122: GARCH diffusion, conditional simulation and the approximate price
-/

namespace PyFENG

open MeasureTheory ProbabilityTheory Real Set Filter Topology
open scoped NNReal ENNReal
open Spec

/-- Specification: `v` is a path of the GARCH diffusion `dv = mr (theta - v) dt + vov v dW`: positive, continuous, with quadratic variation `∫ vov² v² dt`. (The drift enters through
`Spec.martingalePart`.) -/
structure Spec.IsGarchPath (vov : ℝ) (v : ℝ → ℝ) (T : ℝ) (N : ℕ → ℕ) : Prop where
  cont : Continuous v
  pos : ∀ t, 0 < v t
  qv : HasQuadVar v (fun t => vov ^ 2 * v t ^ 2) T N

namespace GarchDiff

variable {Ω : Type*} [mΩ : MeasurableSpace Ω] {P : Measure Ω} {B V : ℝ≥0 → Ω → ℝ} {κ θ ξ v0 : ℝ}

/-- **C122 (soundness of the specification).** Almost every path of a solution of the logarithmic equation `Spec.IsGarch` is a path of the GARCH diffusion, and the noise of `dv = κ(θ - v) dt + ξ v dB` recovered from it
is the Brownian motion: `∫ 1/(ξ v) (dv - κ(θ - v) dt) = B_T - B_0`. -/
theorem path_of_solution (h : IsGarch P B V κ θ ξ v0) (hξ : ξ ≠ 0) {T : ℝ≥0} (hT : 0 < T) :
    ∀ᵐ ω ∂P, IsGarchPath ξ (fun t => V t.toNNReal ω) T (fun n => 2 ^ n) ∧
      IsPathIntegral (fun t => 1 / (ξ * V t.toNNReal ω)) (martingalePart (fun x => κ * (θ - x)) fun t => V t.toNNReal ω) T (fun n => 2 ^ n) (B T ω - B 0 ω) := by
  have hT' : (0:ℝ) < T := by exact_mod_cast hT
  filter_upwards [Follmer.bm_path h.bm hT] with ω hq
  have hcB : Continuous fun t : ℝ => B t.toNNReal ω := (h.bm.cont ω).comp continuous_real_toNNReal
  have hcV := cont_V h ω
  set d : ℝ → ℝ := fun s => κ * θ / V s.toNNReal ω - κ - ξ ^ 2 / 2 with hd
  have hcd : Continuous d := ((continuous_const.div hcV fun s => (h.pos _ ω).ne').sub continuous_const).sub continuous_const
  -- the logarithm
  obtain ⟨C, hC⟩ := isCompact_Icc.exists_bound_of_continuousOn (s := Icc 0 (T:ℝ)) hcd.continuousOn
  have hC0 : 0 ≤ C := (norm_nonneg _).trans (hC 0 ⟨le_rfl, hT'.le⟩)
  have q1 := Follmer.qv_comp' hT' hcB continuous_const hq (f := fun y => ξ * y) (f' := fun _ => ξ) (fun y => by simpa using (hasDerivAt_id' y).const_mul ξ) continuous_const
  have q2 := Follmer.qv_add hT' (hcB.const_mul ξ) q1 hC0 (g := fun t => log v0 + ∫ s in (0:ℝ)..t, d s) (fun s hs t ht => by
    have e : log v0 + (∫ s in (0:ℝ)..t, d s) - (log v0 + ∫ u in (0:ℝ)..s, d u) = ∫ u in s..t, d u := by
      rw [← intervalIntegral.integral_interval_sub_left (hcd.intervalIntegrable 0 t) (hcd.intervalIntegrable 0 s)]
      ring
    rw [e]
    refine intervalIntegral.norm_integral_le_of_norm_le_const fun u hu => hC u ?_
    have := uIoc_subset_uIcc hu
    exact (uIcc_subset_Icc hs ht) this)
  have hlog : ∀ t ∈ Icc 0 (T:ℝ), log (V t.toNNReal ω) = ξ * B t.toNNReal ω + (log v0 + ∫ s in (0:ℝ)..t, d s) := fun t ht => by
    rw [h.sde, coe_toNNReal _ ht.1]; ring
  have q3 := Follmer.qv_congr hT' q2 hlog
  have hcl : Continuous fun t : ℝ => log (V t.toNNReal ω) := hcV.log fun t => (h.pos _ ω).ne'
  have q4 := Follmer.qv_comp' hT' hcl (by fun_prop) q3 (f := exp) (f' := exp) (fun y => Real.hasDerivAt_exp y) continuous_exp
  have q5 : HasQuadVar (fun t : ℝ => V t.toNNReal ω) (fun t => ξ ^ 2 * V t.toNNReal ω ^ 2) T (fun n => 2 ^ n) := by
    refine Follmer.qv_congr_density (Follmer.qv_congr hT' q4 fun t _ => ?_) fun t _ => ?_
    · rw [exp_log (h.pos _ ω)]
    · rw [exp_log (h.pos _ ω)]; ring
  refine ⟨⟨hcV, fun t => h.pos _ ω, q5⟩, ?_⟩
  have hd1 : ∀ z : ℝ, 0 < z → HasDerivAt (fun z => log z / ξ) (1 / (ξ * z)) z := fun z hz => by
    refine ((Real.hasDerivAt_log hz.ne').div_const ξ).congr_deriv ?_
    field_simp
  have hd2 : ∀ z : ℝ, 0 < z → HasDerivAt (fun z => 1 / (ξ * z)) (-(1 / (ξ * z ^ 2))) z := fun z hz => by
    have := (hasDerivAt_inv hz.ne').const_mul (1 / ξ)
    have e : (fun z : ℝ => 1 / (ξ * z)) = fun z => 1 / ξ * z⁻¹ := by ext z; rw [one_div, mul_inv, one_div]
    rw [e]
    refine this.congr_deriv ?_
    field_simp
  have hc2 : ContinuousOn (fun z : ℝ => -(1 / (ξ * z ^ 2))) (Ioi 0) := by
    refine ContinuousOn.neg (continuousOn_const.div (by fun_prop) fun z hz => ?_)
    have : (0:ℝ) < z := hz
    positivity
  have key := Follmer.ito hT' hcV (fun t => h.pos _ ω) (q := fun t => ξ ^ 2 * V t.toNNReal ω ^ 2) ((hcV.pow 2).const_mul _) (a := fun t => κ * (θ - V t.toNNReal ω))
    ((continuous_const.sub hcV).const_mul κ) q5 hd1 hd2 hc2
  refine Eq.subst (motive := fun I => IsPathIntegral (fun t => 1 / (ξ * V t.toNNReal ω)) (martingalePart (fun x => κ * (θ - x)) fun t => V t.toNNReal ω) T (fun n => 2 ^ n) I) ?_ key
  have e1 : ∀ s : ℝ, 1 / (ξ * V s.toNNReal ω) * (κ * (θ - V s.toNNReal ω)) + -(1 / (ξ * V s.toNNReal ω ^ 2)) / 2 * (ξ ^ 2 * V s.toNNReal ω ^ 2) = 1 / ξ * d s := fun s => by
    have := (h.pos s.toNNReal ω).ne'
    rw [hd]
    field_simp
    ring
  simp_rw [e1]
  rw [intervalIntegral.integral_const_mul, h.sde, h.sde, toNNReal_coe, Real.toNNReal_zero]
  simp only [NNReal.coe_zero, intervalIntegral.integral_same]
  have hI : (∫ s in (0:ℝ)..T, (κ * θ / V s.toNNReal ω - κ - ξ ^ 2 / 2)) = ∫ s in (0:ℝ)..T, d s := rfl
  rw [hI]
  field_simp
  ring

/-- **C122.** `cond_spot_sigma`, when the accumulated states are the exact terminal variance and the exact integrals of `v`, `√v` and `1/√v`: with `I = ∫√v dW`, that is the integral of `1/(vov √v)` against `∫ vov v dW`, the conditional
forward is `exp(ρ I - ρ²/2 ∫v dt)` and the conditional volatility is `sqrt((1-ρ²) (1/T)∫v dt)`, relative to the initial volatility. -/
theorem cond_spot_sigma_correct (m : GarchDiff) (hv : m.vov ≠ 0) {v : ℝ → ℝ} {T : ℝ} (hT : 0 < T) {N : ℕ → ℕ} (h : IsGarchPath m.vov v T N) :
    ∃ I, IsPathIntegral (fun t => 1 / (m.vov * √(v t))) (martingalePart (fun x => m.mr * (m.theta - x)) v) T N I ∧
      m.condResult T (v 0) (v T, ∫ t in (0:ℝ)..T, v t, ∫ t in (0:ℝ)..T, √(v t), some (∫ t in (0:ℝ)..T, 1 / √(v t))) =
        (some (exp (m.rho * I - m.rho ^ 2 / 2 * ∫ t in (0:ℝ)..T, v t)), √((1 - m.rho ^ 2) * (1 / T * ∫ t in (0:ℝ)..T, v t)) / √(v 0)) := by
  have hc := h.cont
  have hcs : Continuous fun t => √(v t) := hc.sqrt
  have hpos : ∀ t, 0 < √(v t) := fun t => sqrt_pos.2 (h.pos t)
  have hci : Continuous fun t => 1 / √(v t) := continuous_const.div hcs fun t => (hpos t).ne'
  have hd1 : ∀ z : ℝ, 0 < z → HasDerivAt (fun z => 2 * √z / m.vov) (1 / (m.vov * √z)) z := fun z hz => by
    refine (((Real.hasDerivAt_sqrt hz.ne').const_mul 2).div_const m.vov).congr_deriv ?_
    have := (sqrt_pos.2 hz).ne'
    field_simp
  have hd2 : ∀ z : ℝ, 0 < z → HasDerivAt (fun z => 1 / (m.vov * √z)) (-(1 / (2 * m.vov * √z ^ 3))) z := fun z hz => by
    have h0 := (sqrt_pos.2 hz).ne'
    have := ((Real.hasDerivAt_sqrt hz.ne').fun_inv h0).const_mul (1 / m.vov)
    have e : (fun z : ℝ => 1 / (m.vov * √z)) = fun z => 1 / m.vov * (√z)⁻¹ := by ext z; rw [one_div, mul_inv, one_div]
    rw [e]
    refine this.congr_deriv ?_
    field_simp
  have hc2 : ContinuousOn (fun z : ℝ => -(1 / (2 * m.vov * √z ^ 3))) (Ioi 0) := by
    refine ContinuousOn.neg (continuousOn_const.div (by fun_prop) fun z hz => ?_)
    have : 0 < √z := sqrt_pos.2 hz
    positivity
  have key := Follmer.ito hT h.cont h.pos (q := fun t => m.vov ^ 2 * v t ^ 2) (by fun_prop) (a := fun t => m.mr * (m.theta - v t)) (by fun_prop) h.qv hd1 hd2 hc2
  refine ⟨_, key, ?_⟩
  have e1 : ∀ s : ℝ, 1 / (m.vov * √(v s)) * (m.mr * (m.theta - v s)) + -(1 / (2 * m.vov * √(v s) ^ 3)) / 2 * (m.vov ^ 2 * v s ^ 2) =
      m.mr * m.theta / m.vov * (1 / √(v s)) - (m.mr / m.vov + m.vov / 4) * √(v s) := fun s => by
    have h0 := (hpos s).ne'
    have h2 : v s = √(v s) ^ 2 := (sq_sqrt (h.pos s).le).symm
    obtain ⟨w, hw⟩ : ∃ w, w = √(v s) := ⟨_, rfl⟩
    rw [← hw] at h0 h2 ⊢
    rw [h2]
    field_simp
    ring
  simp only [e1]
  rw [intervalIntegral.integral_sub ((hci.const_mul _).intervalIntegrable _ _) ((hcs.const_mul _).intervalIntegrable _ _), intervalIntegral.integral_const_mul, intervalIntegral.integral_const_mul]
  generalize (∫ t in (0:ℝ)..T, v t) = J
  generalize (∫ t in (0:ℝ)..T, √(v t)) = J1
  generalize (∫ t in (0:ℝ)..T, 1 / √(v t)) = J2
  have h0 := h.pos 0
  unfold condResult
  simp only [Option.bind_eq_bind, Option.bind_some]
  refine Prod.ext ?_ ?_
  · simp only
    congr 2
    field_simp
    ring
  · simp only
    rw [← sqrt_div' _ h0.le]
    congr 1
    norm_num
    field_simp

/-- The loop of `cond_spot_sigma` run on recorded steps. -/
noncomputable def replay : ℝ → ℝ → StateM (List (ℝ × ℝ × ℝ × Option ℝ)) (ℝ × ℝ × ℝ × Option ℝ) := fun _ _ s => (s.headD (0, 0, 0, none), s.tail)

/-- **C122.** The loop accumulates, whatever finite values the steps return, the last variance and the integrals `Σ avgvar dt`, `Σ avgvol dt`, `Σ avgivol dt`. -/
theorem cond_loop_sums (l : List (ℝ × ℝ × ℝ × ℝ × ℝ)) (v a b c : ℝ) :
    ((condLoop (M := StateM (List (ℝ × ℝ × ℝ × Option ℝ))) replay (l.map fun p => p.1) (v, a, b, some c)).run (l.map fun p => (p.2.1, p.2.2.1, p.2.2.2.1, some p.2.2.2.2))).1 =
      ((l.getLast?.map fun p => p.2.1).getD v, a + (l.map fun p => p.2.2.1 * p.1).sum, b + (l.map fun p => p.2.2.2.1 * p.1).sum, some (c + (l.map fun p => p.2.2.2.2 * p.1).sum)) := by
  induction l generalizing v a b c with
  | nil => simp [condLoop, StateT.run, pure, StateT.pure]
  | cons p l ih =>
    have h : (condLoop (M := StateM (List (ℝ × ℝ × ℝ × Option ℝ))) replay ((p :: l).map fun p => p.1) (v, a, b, some c)).run ((p :: l).map fun p => (p.2.1, p.2.2.1, p.2.2.2.1, some p.2.2.2.2)) =
        (condLoop (M := StateM (List (ℝ × ℝ × ℝ × Option ℝ))) replay (l.map fun p => p.1) (p.2.1, a + p.2.2.1 * p.1, b + p.2.2.2.1 * p.1, some (c + p.2.2.2.2 * p.1))).run
          (l.map fun p => (p.2.1, p.2.2.1, p.2.2.2.1, some p.2.2.2.2)) := rfl
    rw [h, ih]
    simp only [List.map_cons, List.sum_cons, add_assoc, List.getLast?_cons]
    cases l.getLast? <;> simp

/-- **C122 (disagreement).** Once a step returns an infinite average of the inverse volatility (the variance was floored at zero), the conditional spot of the path is not a finite number, whatever the other steps return. -/
theorem cond_spot_not_finite (m : GarchDiff) (T var0 : ℝ) (l : List (ℝ × ℝ × ℝ × ℝ × Option ℝ)) (hl : ∃ p ∈ l, p.2.2.2.2 = none) (v a b : ℝ) (c : Option ℝ) :
    (m.condResult T var0 ((condLoop (M := StateM (List (ℝ × ℝ × ℝ × Option ℝ))) replay (l.map fun p => p.1) (v, a, b, c)).run (l.map fun p => p.2)).1).1 = none := by
  have key : ((condLoop (M := StateM (List (ℝ × ℝ × ℝ × Option ℝ))) replay (l.map fun p => p.1) (v, a, b, c)).run (l.map fun p => p.2)).1.2.2.2 = none := by
    have gen : ∀ (l : List (ℝ × ℝ × ℝ × ℝ × Option ℝ)) (v a b : ℝ) (c : Option ℝ), (c = none ∨ ∃ p ∈ l, p.2.2.2.2 = none) →
        ((condLoop (M := StateM (List (ℝ × ℝ × ℝ × Option ℝ))) replay (l.map fun p => p.1) (v, a, b, c)).run (l.map fun p => p.2)).1.2.2.2 = none := by
      intro l
      induction l with
      | nil => intro v a b c h; rcases h with h | ⟨p, hp, _⟩; exacts [h, absurd hp List.not_mem_nil]
      | cons p l ih =>
        intro v a b c h
        refine ih p.2.1 (a + p.2.2.1 * p.1) (b + p.2.2.2.1 * p.1) (do
          let a ← c
          let b ← p.2.2.2.2
          some (a + b * p.1)) ?_
        rcases h with h | ⟨r, hr, hn⟩
        · left; rw [h]; rfl
        · rcases List.mem_cons.1 hr with e | e
          · left; rw [← e, hn]; cases c <;> rfl
          · exact Or.inr ⟨r, e, hn⟩
    exact gen l v a b c (Or.inr hl)
  unfold condResult
  simp only [key]
  rfl

/-! ### Time stepping -/

/-- **C122.** Schemes below 2 are the Euler and (scheme 1) Milstein schemes of `dv = a(v) dt + b(v) dW`, `a(v) = mr (theta - v)`, `b(v) = vov v`, floored at 0 (`b'` is the derivative of `b`); the averages are trapezoidal, and the average
of the inverse volatility is finite exactly when the new variance is positive. -/
theorem step_euler_correct (m : GarchDiff) {scheme : ℤ} (hs : scheme < 2) {dt v b' : ℝ} (hdt : 0 ≤ dt) (hv : 0 < v) (hb : HasDerivAt (fun v : ℝ => m.vov * v) b' v) :
    ∃ D, stepTd rngEx m scheme dt v = .ok D ∧ ∀ φ : ℝ × ℝ × ℝ × Option ℝ → ℝ, D φ = gaussE (fun z =>
      let w := max 0 (v + m.mr * (m.theta - v) * dt + m.vov * v * (√dt * z) + if scheme = 1 then m.vov * v * b' / 2 * ((√dt * z) ^ 2 - dt) else 0)
      φ (w, (v + w) / 2, (√v + √w) / 2, if 0 < w then some ((1 / √v + 1 / √w) / 2) else none)) := by
  have hb' : b' = m.vov := by
    have h : HasDerivAt (fun v : ℝ => m.vov * v) (m.vov * 1) v := (hasDerivAt_id' v).const_mul m.vov
    rw [hb.unique h, mul_one]
  have hst := sq_sqrt hdt
  refine ⟨_, by rw [stepTd, if_pos hs], fun φ => ?_⟩
  show gaussE (fun z => _) = _
  congr 1
  funext z
  have e : ∀ x : ℝ, (if x < 0 then 0 else x) = max 0 x := fun x => by
    split_ifs with h
    · rw [max_eq_left h.le]
    · rw [max_eq_right (not_lt.1 h)]
  have e2 : (if (scheme == 1) = true then v + m.mr * (m.theta - v) * dt + m.vov * v * √dt * z + m.vov ^ 2 / 2 * v * dt * (z ^ 2 - 1) else v + m.mr * (m.theta - v) * dt + m.vov * v * √dt * z)
      = v + m.mr * (m.theta - v) * dt + m.vov * v * (√dt * z) + if scheme = 1 then m.vov * v * b' / 2 * ((√dt * z) ^ 2 - dt) else 0 := by
    rw [hb', mul_pow, hst]
    by_cases h1 : scheme = 1
    · rw [if_pos (by simp [h1]), if_pos h1]
      ring
    · rw [if_neg (by simp [h1]), if_neg h1]
      ring
  simp only [← e2, ← e]
  have e3 : ∀ w : ℝ, 0 ≤ w → (do
      let a ← recip √v
      let b ← recip √w
      some ((a + b) / 2)) = if 0 < w then some ((1 / √v + 1 / √w) / 2) else none := fun w hw => by
    have h0 : √v ≠ 0 := (sqrt_pos.2 hv).ne'
    by_cases hw0 : 0 < w
    · have : √w ≠ 0 := (sqrt_pos.2 hw0).ne'
      rw [if_pos hw0]
      simp [recip, h0, this]
    · have : w = 0 := le_antisymm (not_lt.1 hw0) hw
      rw [if_neg hw0, this]
      simp [recip]
  have e4 : ∀ x : ℝ, 0 ≤ if x < 0 then (0:ℝ) else x := fun x => by rw [e]; exact le_max_left _ _
  rw [← e3 _ (e4 _)]
  rfl

/-- **C122.** Scheme 2 is the Euler scheme of the logarithmic equation (`Spec.IsGarch.sde`): the logarithm of the new variance is `log v + (mr theta/v - mr - vov²/2) dt + vov √dt z`; the variance stays positive, the averages are trapezoidal
and finite. -/
theorem step_log_correct (m : GarchDiff) {dt v : ℝ} (hv : 0 < v) :
    ∃ D, stepTd rngEx m 2 dt v = .ok D ∧ ∀ φ : ℝ × ℝ × ℝ × Option ℝ → ℝ, D φ = gaussE (fun z =>
      let w := exp (log v + (m.mr * m.theta / v - m.mr - m.vov ^ 2 / 2) * dt + m.vov * (√dt * z))
      φ (w, (v + w) / 2, (√v + √w) / 2, some ((1 / √v + 1 / √w) / 2))) := by
  refine ⟨_, by rw [stepTd, if_neg (by norm_num), if_pos rfl], fun φ => ?_⟩
  show gaussE (fun z => _) = _
  congr 1
  funext z
  have e1 : exp (-log v) = 1 / v := by rw [exp_neg, exp_log hv, one_div]
  have e2 : log v + (m.mr * m.theta / v - m.mr - m.vov ^ 2 / 2) * dt + m.vov * (√dt * z) = log v + (m.mr * m.theta * exp (-log v) - m.mr - m.vov ^ 2 / 2) * dt + m.vov * √dt * z := by
    rw [e1]; ring
  simp only [e2]
  have e3 : ∀ x : ℝ, exp x = exp (x / 2) ^ 2 := fun x => by rw [← exp_nat_mul]; congr 1; push_cast; ring
  have e4 : ∀ x : ℝ, √(exp x) = exp (x / 2) := fun x => by rw [e3, sqrt_sq (exp_pos _).le]
  have e5 : ∀ x : ℝ, some ((1 / √v + 1 / exp (x / 2)) / 2) = (do
      let a ← recip √v
      let b ← recip (exp (x / 2))
      some ((a + b) / 2)) := fun x => by
    have h0 : √v ≠ 0 := (sqrt_pos.2 hv).ne'
    simp [recip, h0]
  simp only [e4, e5]
  rw [e3 (log v + _ + _)]
  rfl

/-- **C122.** Any other scheme raises `ValueError`. -/
theorem step_invalid (m : GarchDiff) {scheme : ℤ} (hs : 2 < scheme) (dt v : ℝ) : stepTd rngEx m scheme dt v = .error .valueError := by
  unfold stepTd
  rw [if_neg (by omega), if_neg (by omega)]

/-- **C122 (disagreement).** The Euler scheme floors the variance at zero with positive probability, from every state: the average of the inverse volatility is then infinite, and the conditional spot of the path is not a finite number
(`cond_spot_not_finite`). -/
theorem euler_not_finite (m : GarchDiff) (hvov : 0 < m.vov) {dt v : ℝ} (hdt : 0 < dt) (hv : 0 < v) :
    ∃ D, stepTd rngEx m 0 dt v = .ok D ∧ 0 < D (fun r => if r.2.2.2 = none then 1 else 0) := by
  obtain ⟨D, h1, h2⟩ := step_euler_correct m (scheme := 0) (by norm_num) hdt.le hv (b' := m.vov * 1) ((hasDerivAt_id' v).const_mul m.vov)
  refine ⟨D, h1, ?_⟩
  rw [h2]
  set c := -(v + m.mr * (m.theta - v) * dt) / (m.vov * v * √dt) with hc
  have hs : 0 < m.vov * v * √dt := mul_pos (mul_pos hvov hv) (sqrt_pos.2 hdt)
  have e : (fun z : ℝ => (if (if 0 < max 0 (v + m.mr * (m.theta - v) * dt + m.vov * v * (√dt * z) + if (0:ℤ) = 1 then m.vov * v * (m.vov * 1) / 2 * ((√dt * z) ^ 2 - dt) else 0) then
      some ((1 / √v + 1 / √(max 0 (v + m.mr * (m.theta - v) * dt + m.vov * v * (√dt * z) + if (0:ℤ) = 1 then m.vov * v * (m.vov * 1) / 2 * ((√dt * z) ^ 2 - dt) else 0))) / 2) else none) = none then (1:ℝ) else 0)) = (Iic c).indicator (fun _ => 1) := by
    funext z
    have : (0 < max 0 (v + m.mr * (m.theta - v) * dt + m.vov * v * (√dt * z) + if (0:ℤ) = 1 then m.vov * v * (m.vov * 1) / 2 * ((√dt * z) ^ 2 - dt) else 0)) ↔ ¬ z ∈ Iic c := by
      rw [if_neg (by norm_num), add_zero, mem_Iic, not_le, hc, div_lt_iff₀ hs]
      constructor
      · intro h
        rcases lt_max_iff.1 h with h | h
        · exact absurd h (lt_irrefl _)
        · linarith
      · intro h
        exact lt_max_of_lt_right (by linarith)
    by_cases hz : z ∈ Iic c
    · rw [indicator_of_mem hz, if_pos]
      rw [if_neg (by rw [this]; exact not_not.2 hz)]
    · rw [indicator_of_notMem hz, if_neg]
      rw [if_pos (this.2 hz)]
      simp
  simp only [e]
  have : gaussE ((Iic c).indicator fun _ => (1:ℝ)) = ncdf c := by
    unfold gaussE ncdf
    exact integral_indicator_one measurableSet_Iic
  rw [this]
  exact ncdf_pos c

/-! ### The approximate price -/

/-- **C121.** What the second-order price is: the Black-Scholes price at the mean average variance plus half the variance of the average variance times `spot/forward` times the second derivative of the Black-Scholes price in the variance.
(The factor is the error of `d2_var`, C11.) -/
theorem price_law (m : GarchDiff) {K S T cp : ℝ} (hcp : IsCp cp) (hK : 0 < K) (hS : 0 < S) (hM : 0 < (m.avgvarMv T m.sigma).1) (hv : eps < √(m.avgvarMv T m.sigma).1 * √T) :
    m.price 2 K S T cp = .ok (Bsm.price ⟨√(m.avgvarMv T m.sigma).1, m.intr, m.divr, false⟩ K S T cp +
      1 / 2 * (m.avgvarMv T m.sigma).2 * (S / forward false m.intr m.divr S T *
        iteratedDeriv 2 (fun v => Bsm.price ⟨√v, m.intr, m.divr, false⟩ K S T cp) (m.avgvarMv T m.sigma).1)) := by
  have h := bsm_d2_var_law ⟨√(m.avgvarMv T m.sigma).1, m.intr, m.divr, false⟩ hcp hK hS (sqrt_pos.2 hM) hv
  rw [sq_sqrt hM.le] at h
  unfold price
  simp only
  rw [if_pos trivial]
  congr 2
  rw [h, MParams.forward_eq_spec]
  have hF : forward false m.intr m.divr S T ≠ 0 := by
    simp only [forward, Bool.false_eq_true, if_false]; positivity
  norm_num
  field_simp
  simp

/-- **C121, partial.** For equal rates and spot quotes, the second-order price is the expectation of the second-order Taylor polynomial, around the mean, of the Black-Scholes price as a function of the variance, evaluated at the average variance of the
GARCH diffusion over the life of the option.  Missing: different rates, where `price_law` shows the factor `spot/forward`; `is_fwd`, which is ignored (`price_ignores_is_fwd`). -/
theorem price_taylor_partial (m : GarchDiff) {K S T cp : ℝ} (hcp : IsCp cp) (hK : 0 < K) (hS : 0 < S) (hT : 0 < T) (hr : m.intr = m.divr) (hm : m.mr ≠ 0) (h1 : m.vov ^ 2 ≠ m.mr) (h2 : m.vov ^ 2 ≠ 2 * m.mr)
    (h : IsGarch P B V m.mr m.theta m.vov m.sigma) (hM : 0 < (m.avgvarMv T m.sigma).1) (hv : eps < √(m.avgvarMv T m.sigma).1 * √T) :
    let C := fun v => Bsm.price ⟨√v, m.intr, m.divr, false⟩ K S T cp
    let avg := fun ω => 1 / T * ∫ s in (0:ℝ)..T, V s.toNNReal ω
    let mean := ∫ ω, avg ω ∂P
    m.price 2 K S T cp = .ok (∫ ω, (C mean + deriv C mean * (avg ω - mean) + iteratedDeriv 2 C mean / 2 * (avg ω - mean) ^ 2) ∂P) := by
  intro C avg mean
  haveI := BmExp.isProb h.bm
  obtain ⟨e1, e2⟩ := avgvar_mv_correct m hm h1 h2 hT h
  have hmean : mean = (m.avgvarMv T m.sigma).1 := e1
  obtain ⟨i1, _⟩ := int_mean h hm hT.le
  obtain ⟨i2, _⟩ := int_second h hm rfl rfl (sub_ne_zero.2 (Ne.symm h1)) (sub_ne_zero.2 (Ne.symm h2)) hT.le
  have mL : MemLp avg 2 P := by
    have : MemLp (fun ω => ∫ s in (0:ℝ)..T, V s.toNNReal ω) 2 P := (memLp_two_iff_integrable_sq i1.aestronglyMeasurable).2 i2
    exact this.const_mul _
  have ia : Integrable avg P := mL.integrable (by norm_num)
  have mS : MemLp (fun ω => avg ω - mean) 2 P := mL.sub (memLp_const mean)
  have is2 : Integrable (fun ω => (avg ω - mean) ^ 2) P := mS.integrable_sq
  have is1 : Integrable (fun ω => avg ω - mean) P := ia.sub (integrable_const _)
  have z1 : ∫ ω, (avg ω - mean) ∂P = 0 := by
    rw [integral_sub ia (integrable_const _)]
    simp [mean]
  have z2 : ∫ ω, (avg ω - mean) ^ 2 ∂P = (m.avgvarMv T m.sigma).2 := by
    rw [← e2, variance_eq_integral mL.aemeasurable]
  rw [price_law m hcp hK hS hM hv]
  congr 1
  have i01 : Integrable (fun ω => C mean + deriv C mean * (avg ω - mean)) P := (integrable_const _).add (is1.const_mul _)
  rw [integral_add i01 (is2.const_mul _), integral_add (integrable_const _) (is1.const_mul _), integral_const_mul, integral_const_mul, z1, z2, hmean]
  have hF : S / forward false m.intr m.divr S T = 1 := by
    simp only [forward, Bool.false_eq_true, if_false, hr, sub_self, zero_mul, exp_zero, mul_one]
    exact div_self hS.ne'
  rw [hF]
  simp [C]
  ring

/-- **C121 (disagreement).** `is_fwd` is ignored: quoting the forward as the underlying price breaks put-call parity whenever there is carry, at every order. -/
theorem price_ignores_is_fwd (m : GarchDiff) (hf : m.isFwd = true) {order : ℤ} (ho : order ≤ 2) {K S T : ℝ} (hS : 0 < S) (hT : 0 < T) (hc : m.intr ≠ m.divr) :
    ∃ call put, m.price order K S T 1 = .ok call ∧ m.price order K S T (-1) = .ok put ∧
      Parity call put (discount m.intr T) (forward false m.intr m.divr S T) K ∧ ¬ Parity call put (discount m.intr T) (forward m.isFwd m.intr m.divr S T) K := by
  set bs : MParams := ⟨√(m.avgvarMv T m.sigma).1, m.intr, m.divr, false⟩ with hbs
  have h := bsm_put_call_parity bs K S T
  have key : ∃ x, m.price order K S T 1 = .ok (Bsm.price bs K S T 1 + x) ∧ m.price order K S T (-1) = .ok (Bsm.price bs K S T (-1) + x) := by
    unfold price
    simp only
    by_cases h2 : order = 2
    · exact ⟨_, by rw [if_pos h2], by rw [if_pos h2]; rfl⟩
    · exact ⟨0, by rw [if_neg h2, if_neg (by omega), add_zero], by rw [if_neg h2, if_neg (by omega), add_zero]⟩
  obtain ⟨x, hx1, hx2⟩ := key
  refine ⟨_, _, hx1, hx2, ?_, ?_⟩
  · unfold Parity at h ⊢
    rw [add_sub_add_right_eq_sub]
    exact h
  · unfold Parity at h ⊢
    rw [add_sub_add_right_eq_sub]
    intro h2
    have h3 := h.symm.trans h2
    have e3 := mul_left_cancel₀ (exp_pos _).ne' h3
    simp only [forward, hf, hbs, Bool.false_eq_true, if_false, if_true] at e3
    have e4 : S * exp ((m.intr - m.divr) * T) = S * 1 := by linarith
    have e5 := exp_eq_one_iff _ |>.1 (mul_left_cancel₀ hS.ne' e4)
    rcases mul_eq_zero.1 e5 with h6 | h6
    · exact hc (by linarith)
    · exact hT.ne' h6

/-- **C121.** Orders below 2 return the Black-Scholes price at the mean average variance; orders above 2 raise `ValueError`. -/
theorem price_order (m : GarchDiff) (order : ℤ) (K S T cp : ℝ) :
    (order < 2 → m.price order K S T cp = .ok (Bsm.price ⟨√(m.avgvarMv T m.sigma).1, m.intr, m.divr, false⟩ K S T cp)) ∧
    (2 < order → m.price order K S T cp = .error .valueError) := by
  unfold price
  refine ⟨fun h => ?_, fun h => ?_⟩
  · simp only
    rw [if_neg (by omega), if_neg (by omega)]
  · simp only
    rw [if_neg (by omega), if_pos (by omega)]

/-- The hypotheses of `avgvar_mv_correct`, `price_taylor_partial` and `path_of_solution` are met: every GARCH diffusion with positive parameters has a solution. -/
example (m : GarchDiff) (hv : 0 < m.sigma) (hk : 0 < m.mr) (ht : 0 < m.theta) :
    ∃ (Ω : Type) (_ : MeasurableSpace Ω) (P : Measure Ω) (B V : ℝ≥0 → Ω → ℝ), IsGarch P B V m.mr m.theta m.vov m.sigma := by
  obtain ⟨Ω, _, P, B, hB⟩ := exists_isBM
  exact ⟨Ω, _, P, B, _, GarchP.isGarch hB hv (mul_pos hk ht).le⟩


end GarchDiff

end PyFENG
