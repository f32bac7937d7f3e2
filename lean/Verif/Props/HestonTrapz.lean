import Verif.Props.HestonVolPathMom
import Mathlib.Analysis.Calculus.Deriv.MeanValue

/-!
# C148: bias of the average variance under the trapezoidal rule of `HestonMcAndersen2008`
-/

namespace PyFENG

open Real Set MeasureTheory

open Spec

/-! ### The trapezoidal rule on `exp(-x)` -/

lemma trap_exp_bounds {x : ℝ} (hx : 0 ≤ x) : 0 ≤ x * (1 + exp (-x)) / 2 - (1 - exp (-x)) ∧ x * (1 + exp (-x)) / 2 - (1 - exp (-x)) ≤ x ^ 3 / 12 := by
  have d0 : ∀ t : ℝ, HasDerivAt (fun t : ℝ => exp (-t)) (-exp (-t)) t := fun t => ((hasDerivAt_neg t).exp).congr_deriv (by ring)
  have d1 : ∀ t : ℝ, HasDerivAt (fun t : ℝ => t * (1 + exp (-t)) / 2 - (1 - exp (-t))) ((1 - (1 + t) * exp (-t)) / 2) t := fun t => by
    refine ((((hasDerivAt_id t).fun_mul ((d0 t).const_add 1)).div_const 2).fun_sub ((d0 t).const_sub 1)).congr_deriv ?_
    simp only [id]
    ring
  have hlow : ∀ t : ℝ, 0 ≤ (1 - (1 + t) * exp (-t)) / 2 := fun t => by
    have h1 := add_one_le_exp t
    have h2 : (1 + t) * exp (-t) ≤ exp t * exp (-t) := mul_le_mul_of_nonneg_right (by linarith) (exp_pos _).le
    rw [← exp_add, add_neg_cancel, exp_zero] at h2
    linarith
  have m1 : Monotone (fun t : ℝ => t * (1 + exp (-t)) / 2 - (1 - exp (-t))) := monotone_of_hasDerivAt_nonneg d1 hlow
  have d2 : ∀ t : ℝ, HasDerivAt (fun t : ℝ => t ^ 2 / 2 - (1 - (1 + t) * exp (-t))) (t - t * exp (-t)) t := fun t => by
    refine (((hasDerivAt_pow 2 t).div_const 2).fun_sub ((((hasDerivAt_id t).const_add 1).fun_mul (d0 t)).const_sub 1)).congr_deriv ?_
    simp only [id]
    push_cast
    ring
  have hq : ∀ t : ℝ, 0 ≤ t → 1 - (1 + t) * exp (-t) ≤ t ^ 2 / 2 := by
    intro t ht
    have mono : MonotoneOn (fun t : ℝ => t ^ 2 / 2 - (1 - (1 + t) * exp (-t))) (Ici 0) := by
      refine monotoneOn_of_deriv_nonneg (convex_Ici 0) (fun t _ => (d2 t).continuousAt.continuousWithinAt) (fun t _ => (d2 t).differentiableAt.differentiableWithinAt) ?_
      intro t ht
      rw [interior_Ici] at ht
      rw [(d2 t).deriv]
      have h0 : exp (-t) ≤ 1 := exp_le_one_iff.2 (by linarith [mem_Ioi.1 ht])
      nlinarith [mem_Ioi.1 ht]
    have := mono (mem_Ici.2 le_rfl) (mem_Ici.2 ht) ht
    simp at this
    linarith
  have d3 : ∀ t : ℝ, HasDerivAt (fun t : ℝ => t ^ 3 / 12 - (t * (1 + exp (-t)) / 2 - (1 - exp (-t)))) (t ^ 2 / 4 - (1 - (1 + t) * exp (-t)) / 2) t := fun t => by
    refine (((hasDerivAt_pow 3 t).div_const 12).fun_sub (d1 t)).congr_deriv ?_
    push_cast
    ring
  constructor
  · have := m1 hx
    simpa using this
  · have mono : MonotoneOn (fun t : ℝ => t ^ 3 / 12 - (t * (1 + exp (-t)) / 2 - (1 - exp (-t)))) (Ici 0) := by
      refine monotoneOn_of_deriv_nonneg (convex_Ici 0) (fun t _ => (d3 t).continuousAt.continuousWithinAt) (fun t _ => (d3 t).differentiableAt.differentiableWithinAt) ?_
      intro t ht
      rw [interior_Ici] at ht
      rw [(d3 t).deriv]
      linarith [hq t (mem_Ioi.1 ht).le]
    have := mono (mem_Ici.2 le_rfl) (mem_Ici.2 hx) hx
    simp at this
    linarith

namespace Heston

/-- Trapezoidal sum of the mean variance along steps `dts`, starting from `v`. -/
noncomputable def trapSum (k theta : ℝ) : ℝ → List ℝ → ℝ
  | _, [] => 0
  | v, d :: l => d * ((v + cirMean k theta d v) / 2) + trapSum k theta (cirMean k theta d v) l

/-- The integral of the mean variance over `[0, T]`. -/
noncomputable def meanInt (k theta T v : ℝ) : ℝ := theta * T + (v - theta) * ((1 - exp (-(k * T))) / k)

lemma trapSum_affine (k theta : ℝ) : ∀ l : List ℝ, ∃ a b : ℝ, ∀ v, trapSum k theta v l = a + b * v
  | [] => ⟨0, 0, fun v => by simp [trapSum]⟩
  | d :: l => by
    obtain ⟨a, b, h⟩ := trapSum_affine k theta l
    refine ⟨d * (theta * (1 - exp (-(k * d))) / 2) + a + b * (theta * (1 - exp (-(k * d)))), d * (1 + exp (-(k * d))) / 2 + b * exp (-(k * d)), fun v => ?_⟩
    simp only [trapSum, h]
    unfold cirMean
    ring

lemma meanInt_add {k : ℝ} (hk : k ≠ 0) (theta S T v : ℝ) : meanInt k theta (S + T) v = meanInt k theta S v + meanInt k theta T (cirMean k theta S v) := by
  unfold meanInt cirMean
  rw [show -(k * (S + T)) = -(k * S) + -(k * T) by ring, exp_add]
  field_simp
  ring

/-- Error of the trapezoidal rule: it has the sign of `v - theta` and is of second order in the largest step. -/
lemma trapSum_error {k theta H : ℝ} (hk : 0 < k) : ∀ (l : List ℝ) (v : ℝ), (∀ d ∈ l, 0 < d ∧ d ≤ H) →
    ∃ e : ℝ, 0 ≤ e ∧ e ≤ (k * H) ^ 2 / 12 * l.sum ∧ trapSum k theta v l - meanInt k theta l.sum v = (v - theta) * e
  | [], v, _ => ⟨0, le_rfl, by simp, by simp [trapSum, meanInt]⟩
  | d :: l, v, hl => by
    obtain ⟨e, he0, he1, he⟩ := trapSum_error (theta := theta) hk l (cirMean k theta d v) (fun x hx => hl x (List.mem_cons_of_mem _ hx))
    obtain ⟨hd, hdH⟩ := hl d List.mem_cons_self
    have hx := trap_exp_bounds (mul_pos hk hd).le
    have hE0 := exp_pos (-(k * d))
    have hE1 : exp (-(k * d)) ≤ 1 := exp_le_one_iff.2 (by linarith [mul_pos hk hd])
    refine ⟨(k * d * (1 + exp (-(k * d))) / 2 - (1 - exp (-(k * d)))) / k + exp (-(k * d)) * e, ?_, ?_, ?_⟩
    · exact add_nonneg (div_nonneg hx.1 hk.le) (mul_nonneg hE0.le he0)
    · rw [List.sum_cons, mul_add ((k * H) ^ 2 / 12)]
      apply add_le_add
      · rw [div_le_iff₀ hk]
        refine hx.2.trans ?_
        have : d ^ 2 ≤ H ^ 2 := pow_le_pow_left₀ hd.le hdH 2
        have h2 : 0 < k ^ 3 * d / 12 := by positivity
        calc (k * d) ^ 3 / 12 = k ^ 3 * d / 12 * d ^ 2 := by ring
          _ ≤ k ^ 3 * d / 12 * H ^ 2 := mul_le_mul_of_nonneg_left this h2.le
          _ = _ := by ring
      · exact (mul_le_of_le_one_left he0 hE1).trans he1
    · rw [List.sum_cons, meanInt_add hk.ne']
      have e1 : cirMean k theta d v - theta = (v - theta) * exp (-(k * d)) := by unfold cirMean; ring
      rw [e1] at he
      have e2 : d * ((v + cirMean k theta d v) / 2) - meanInt k theta d v = (v - theta) * ((k * d * (1 + exp (-(k * d))) / 2 - (1 - exp (-(k * d)))) / k) := by
        unfold meanInt cirMean
        field_simp
        ring
      simp only [trapSum]
      linear_combination e2 + he

/-! ### The simulated average variance -/

/-- A step returning the trapezoidal average, whose variance is drawn by `step1`. -/
def TrapStep (step1 : ℝ → ℝ → Ex ℝ) (step : ℝ → ℝ → Ex (ℝ × ℝ × HestonMcExtra)) : Prop :=
  ∀ {dt v : ℝ}, 0 < dt → 0 ≤ v → ∀ (F : ℝ × ℝ × HestonMcExtra → ℝ) (g : ℝ → ℝ), (∀ r, 0 ≤ r.1 → r.2.1 = (v + r.1) / 2 → F r = g r.1) → step dt v F = step1 dt v g

lemma condLoop_mean {m : Heston} (h : Regular m) (correct : Bool) {step1 : ℝ → ℝ → Ex ℝ} (hS : MomStep m.cir step1) {step : ℝ → ℝ → Ex (ℝ × ℝ × HestonMcExtra)}
    (hT : TrapStep step1 step) (φ : ℝ × ℝ × ℝ → ℝ) (A : ℝ) (hφ : ∀ s, 0 ≤ s.2.1 → φ s = A * s.2.1) :
    ∀ (l : List ℝ) (v acc mc : ℝ), (∀ d ∈ l, 0 < d) → 0 ≤ v → 0 ≤ acc → m.condLoop correct step l (v, acc, mc) φ = A * (acc + trapSum m.mr m.theta v l)
  | [], v, acc, mc, _, _, ha => by
    show φ (v, acc, mc) = _
    rw [hφ _ ha]
    simp [trapSum]
  | d :: l, v, acc, mc, hl, hv, ha => by
    have hd : 0 < d := hl d List.mem_cons_self
    obtain ⟨a, b, hab⟩ := trapSum_affine m.mr m.theta l
    show step d v (fun r => m.condLoop correct step l (r.1, acc + r.2.1 * d, mc + m.stepCorr correct d r.2.2) φ) = _
    rw [hT hd hv _ (fun x => (A * (acc + v / 2 * d + a)) + (A * (d / 2 + b)) * x + 0 * x ^ 2) fun r hr hr2 => by
      rw [condLoop_mean h correct hS hT φ A hφ l r.1 _ _ (fun x hx => hl x (List.mem_cons_of_mem _ hx)) hr (by rw [hr2]; positivity), hab, hr2]
      ring]
    rw [hS.mv hd hv]
    simp only [trapSum, hab]
    change A * (acc + v / 2 * d + a) + A * (d / 2 + b) * cirMean m.mr m.theta d v + 0 * (_ + _) = _
    ring

lemma trapStep_exact {m : Heston} (h : Regular m) : ∃ s, (∀ dt v, m.stepAndersen rngEx 3 dt v = .ok (s dt v)) ∧ TrapStep (stepPG m.cir) s := by
  refine ⟨_, fun dt v => rfl, fun {dt v} hdt hv F g hF => ?_⟩
  exact drawPoisGamma_congr h hdt v (F := fun p => F (p.1, (v + p.1) / 2, {})) (G := fun p => g p.1) fun r hr => hF _ hr.le rfl

lemma trapStep_ncx2 {m : Heston} (h : Regular m) : ∃ s, (∀ dt v, m.stepAndersen rngEx 2 dt v = .ok (s dt v)) ∧ TrapStep (stepPG m.cir) s := by
  refine ⟨_, fun dt v => rfl, fun {dt v} hdt hv F g hF => ?_⟩
  show Cir.drawNcx2 Ex.ncx2 m.cir dt v (fun x => F (x, (v + x) / 2, {})) = _
  rw [Cir.draw_ncx2_eq_pois_gamma, ← stepPG_eq m.cir h.mr h.theta h.vov.ne' dt v (fun x => F (x, (v + x) / 2, {}))]
  exact (momStepPG h).eq hdt hv fun x hx => hF _ hx rfl

lemma trapStep_qe {m : Heston} (h : Regular m) : ∃ s, (∀ dt v, m.stepAndersen rngEx 4 dt v = .ok (s dt v)) ∧ TrapStep (stepQE m) s := by
  refine ⟨_, fun dt v => rfl, fun {dt v} hdt hv F g hF => ?_⟩
  have := varStepQe_congr h hdt hv 1 (F := fun r => F (r.1, (v + r.1) / 2, { qeMCorr := some r.2 })) (G := fun r => g r.1) fun r hr => by
    rw [hF _ hr rfl, one_mul]
  rw [one_mul] at this
  exact this

/-- **C148.** Bias of the conditional volatility of `HestonMcAndersen2008` for the exact schemes (2, 3) and the quadratic-exponential one (4), with or without the
martingale correction: the mean of the squared conditional volatility differs from `(1 - rho^2) / v0` times the exact mean of the average variance (`avgvar_mv`) only by the
error of the trapezoidal rule, which has the sign of `v0 - theta` and is at most `(mr dt)^2 / 12 |v0 - theta|` (times `(1 - rho^2) / v0`) for steps of at most `dt`. -/
theorem andersen_avgvar_bias {m : Heston} (h : Regular m) (hρ : m.rho ^ 2 ≤ 1) {v0 : ℝ} (h0 : 0 < v0) (correct : Bool) {scheme : ℤ} (hs : scheme = 2 ∨ scheme = 3 ∨ scheme = 4)
    (tobs : List ℝ) {texp H : ℝ} (hT : 0 < texp) (hd : ∀ d ∈ dts tobs, 0 < d ∧ d ≤ H) (hsum : (dts tobs).sum = texp) :
    ∃ step : ℝ → ℝ → Ex (ℝ × ℝ × HestonMcExtra), (∀ dt v, m.stepAndersen rngEx scheme dt v = .ok (step dt v)) ∧
    ∃ e : ℝ, 0 ≤ e ∧ e ≤ (m.mr * H) ^ 2 / 12 ∧
      m.condSpotSigma correct step tobs texp v0 (fun p => p.2 ^ 2) = (1 - m.rho ^ 2) / v0 * ((m.cir.avgMv texp v0).1 + (v0 - m.theta) * e) := by
  have main : ∀ (step1 : ℝ → ℝ → Ex ℝ) (step : ℝ → ℝ → Ex (ℝ × ℝ × HestonMcExtra)), MomStep m.cir step1 → TrapStep step1 step →
      ∃ e : ℝ, 0 ≤ e ∧ e ≤ (m.mr * H) ^ 2 / 12 ∧
      m.condSpotSigma correct step tobs texp v0 (fun p => p.2 ^ 2) = (1 - m.rho ^ 2) / v0 * ((m.cir.avgMv texp v0).1 + (v0 - m.theta) * e) := by
    intro step1 step hS hTr
    obtain ⟨e, he0, he1, he⟩ := trapSum_error (theta := m.theta) h.mr (dts tobs) v0 hd
    refine ⟨e / texp, div_nonneg he0 hT.le, by rw [div_le_iff₀ hT, ← hsum]; exact he1, ?_⟩
    have hc : 0 ≤ (1 - m.rho ^ 2) / v0 := div_nonneg (by linarith) h0.le
    have key := condLoop_mean h correct hS hTr (fun s => (m.condResult texp v0 s).2 ^ 2) ((1 - m.rho ^ 2) / v0 / texp) (fun s hs => by
      show √((1.0 - m.rho ^ 2) / v0 * (s.2.1 / texp)) ^ 2 = _
      rw [show (1.0:ℝ) = 1 by norm_num, sq_sqrt (mul_nonneg hc (div_nonneg hs hT.le))]
      ring) (dts tobs) v0 0 0 (fun d hx => (hd d hx).1) h0.le le_rfl
    show m.condLoop correct step (dts tobs) (v0, 0, 0) (fun s => (m.condResult texp v0 s).2 ^ 2) = _
    rw [key]
    rw [hsum] at he
    have e2 : (m.cir.avgMv texp v0).1 = meanInt m.mr m.theta texp v0 / texp := by
      show m.theta + (v0 - m.theta) * exprel (-(m.mr * texp)) = _
      rw [Cir.exprel_neg (mul_pos h.mr hT).ne']
      unfold meanInt
      have := h.mr.ne'
      field_simp
    rw [e2, show trapSum m.mr m.theta v0 (dts tobs) = meanInt m.mr m.theta texp v0 + (v0 - m.theta) * e by linarith]
    ring
  rcases hs with rfl | rfl | rfl
  · obtain ⟨s, h1, h2⟩ := trapStep_ncx2 h
    exact ⟨s, h1, main _ s (momStepPG h) h2⟩
  · obtain ⟨s, h1, h2⟩ := trapStep_exact h
    exact ⟨s, h1, main _ s (momStepPG h) h2⟩
  · obtain ⟨s, h1, h2⟩ := trapStep_qe h
    exact ⟨s, h1, main _ s (momStepQE h) h2⟩

/-- The hypotheses are met: two half-year steps. -/
example : Regular ⟨0.04, 1, -0.9, 0.5, 0.04, 0, 0, false⟩ ∧ (∀ d ∈ dts [0.5, 1], 0 < d ∧ d ≤ 0.5) ∧ (dts [0.5, 1]).sum = 1 := by
  refine ⟨⟨by norm_num, by norm_num, by norm_num⟩, ?_, ?_⟩ <;> norm_num [dts, McState.diff0, List.range_succ]

end Heston

end PyFENG
