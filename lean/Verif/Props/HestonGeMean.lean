import Verif.Props.HestonTdMean
import Verif.Props.HestonLaw

/-!
# C148: no bias of the average variance in `HestonMcChoiKwok2023PoisGe`
-/

namespace PyFENG

open Real Set MeasureTheory

open Spec

namespace Heston

lemma cirMean_add {k theta S T v : ℝ} : cirMean k theta T (cirMean k theta S v) = cirMean k theta (S + T) v := by
  unfold cirMean
  rw [show -(k * (S + T)) = -(k * S) + -(k * T) by ring, exp_add]
  ring

/-- Affine functionals of the final state of the loop. -/
lemma condLoop_ge {m : Heston} (h : Regular m) (correct : Bool) (kk : ℕ) (φ : ℝ × ℝ × ℝ → ℝ) (A B C : ℝ) (hφ : ∀ s : ℝ × ℝ × ℝ, s.2.2 = 0 → φ s = A + B * s.1 + C * s.2.1) :
    ∀ (l : List ℝ) (v acc : ℝ), (∀ d ∈ l, 0 < d ∧ (0.2 ≤ m.mr * d ∨ kk ≤ 20)) → 0 ≤ v →
      m.condLoop correct (m.stepPoisGe rngEx kk) l (v, acc, 0) φ = A + B * cirMean m.mr m.theta l.sum v + C * (acc + tdSum m v l)
  | [], v, acc, _, _ => by
    show φ (v, acc, 0) = _
    rw [hφ _ rfl]
    simp [tdSum, cirMean]
  | d :: l, v, acc, hl, hv => by
    obtain ⟨hd, hb⟩ := hl d List.mem_cons_self
    have hvd := vov2dt_pos h hd
    have hb' : 0.1 ≤ |m.mr * d / 2| ∨ kk ≤ 20 := by
      refine hb.imp_left fun hb => ?_
      rw [abs_of_pos (by have := mul_pos h.mr hd; linarith)]
      norm_num at hb ⊢
      linarith
    obtain ⟨a, b, hab⟩ := tdSum_affine m l
    have hmc : ∀ x : ℝ, (0:ℝ) + m.stepCorr correct d {} = 0 := by
      intro _
      unfold stepCorr
      cases correct <;> simp
    have hmc := hmc 0
    have hcl : ∀ x : ℝ, B * cirMean m.mr m.theta l.sum x = B * (m.theta * (1 - exp (-(m.mr * l.sum)))) + B * exp (-(m.mr * l.sum)) * x := by
      intro x; unfold cirMean; ring
    show Cir.drawPoisGamma Ex.gamma0 Ex.poisson m.cir d v (fun r => m.drawX123 rngEx kk d (v + r.1) (0.5 * m.cir.chiDim + 2 * (r.2 : ℝ)) (fun x =>
      m.condLoop correct (m.stepPoisGe rngEx kk) l (r.1, acc + x * d, 0 + m.stepCorr correct d {}) φ)) = _
    rw [hmc]
    rw [drawPoisGamma_congr h hd v (G := fun r => (A + B * (m.theta * (1 - exp (-(m.mr * l.sum)))) + C * (acc + a) +
        C * d * ((m.x1star d 0).1 * v + (m.x2star d 0).1 * (m.cir.chiDim / 2))) +
      (B * exp (-(m.mr * l.sum)) + C * b + C * d * (m.x1star d 0).1) * r.1 + (C * d * ((m.x2star d 0).1 * 2)) * r.2) fun r hr => by
        have hX := draw_x123_correct m hvd (show 0 < v + r.1 by linarith) (chiDim_pos h) r.2 (fun _ _ => 0) hb'
          (A + B * (m.theta * (1 - exp (-(m.mr * l.sum)))) + B * exp (-(m.mr * l.sum)) * r.1 + C * (acc + (a + b * r.1))) (C * d) 0
        have e : (fun x => m.condLoop correct (m.stepPoisGe rngEx kk) l (r.1, acc + x * d, 0) φ) =
            fun x => (A + B * (m.theta * (1 - exp (-(m.mr * l.sum)))) + B * exp (-(m.mr * l.sum)) * r.1 + C * (acc + (a + b * r.1))) + C * d * x + 0 * x ^ 2 := by
          ext x
          rw [condLoop_ge h correct kk φ A B C hφ l r.1 _ (fun x hx => hl x (List.mem_cons_of_mem _ hx)) hr.le, hab, hcl]
          ring
        rw [e, hX]
        change _ + C * d * ((m.x1star d 0).1 * (v + r.1) + (m.x2star d 0).1 * (2 * (r.2 : ℝ) + m.cir.chiDim / 2)) + 0 * _ = _
        ring]
    rw [pg_affine h hd, List.sum_cons, ← cirMean_add, hcl]
    simp only [tdSum, hab]
    unfold tdAvg
    ring

/-- **C148.** The gamma-expansion scheme `HestonMcChoiKwok2023PoisGe` has no discretisation bias in the conditional forward: for every list of dates and every number `kk` of
gamma terms (up to 20 when a step is short), the mean of the logarithm of the conditional forward is `-rho^2 T / 2` times the exact mean of the average variance (`avgvar_mv`), up to
the Taylor branch of the code for short steps (an error of at most `7e-9 max(v0, theta)` in the mean of the average variance). -/
theorem pois_ge_log_forward_unbiased {m : Heston} (h : Regular m) {v0 : ℝ} (h0 : 0 < v0) (correct : Bool) (kk : ℕ)
    (tobs : List ℝ) {texp : ℝ} (hT : 0 < texp) (hd : ∀ d ∈ dts tobs, 0 < d ∧ (0.2 ≤ m.mr * d ∨ kk ≤ 20)) (hsum : (dts tobs).sum = texp) :
    ∃ e : ℝ, 0 ≤ e ∧ e ≤ 7 / 10 ^ 9 * max v0 m.theta ∧
      m.condSpotSigma correct (m.stepPoisGe rngEx kk) tobs texp v0 (fun p => log p.1) =
        -(m.rho ^ 2 * texp / 2) * (m.cir.avgMv texp v0).1 + (m.rho * m.mr / m.vov - m.rho ^ 2 / 2) * texp * e := by
  obtain ⟨he0, he1⟩ := tdSum_error h (le_max_right v0 m.theta) (dts tobs) v0 (fun d hx => (hd d hx).1) h0.le (le_max_left _ _)
  rw [hsum] at he0 he1
  refine ⟨(tdSum m v0 (dts tobs) - meanInt m.mr m.theta texp v0) / texp, div_nonneg he0 hT.le, by rw [div_le_iff₀ hT]; exact he1, ?_⟩
  have h5 : (0.5 : ℝ) = 1 / 2 := by norm_num
  have key := condLoop_ge h correct kk (fun s => log (m.condResult texp v0 s).1) (-(m.rho * (v0 + m.mr * texp * m.theta) / m.vov)) (m.rho / m.vov)
    (m.rho * m.mr / m.vov - m.rho ^ 2 / 2) (fun s hs => by
      show log (exp ((((s.1 - v0) + m.mr * texp * (s.2.1 / texp - m.theta)) / m.vov - 0.5 * m.rho * texp * (s.2.1 / texp)) * m.rho + s.2.2)) = _
      rw [log_exp, hs, h5]
      have := h.vov.ne'
      field_simp
      ring) (dts tobs) v0 0 hd h0.le
  show m.condLoop correct (m.stepPoisGe rngEx kk) (dts tobs) (v0, 0, 0) (fun s => log (m.condResult texp v0 s).1) = _
  rw [key, hsum]
  have e2 : (m.cir.avgMv texp v0).1 = meanInt m.mr m.theta texp v0 / texp := by
    show m.theta + (v0 - m.theta) * exprel (-(m.mr * texp)) = _
    rw [Cir.exprel_neg (mul_pos h.mr hT).ne']
    unfold meanInt
    have := h.mr.ne'
    field_simp
  rw [e2]
  unfold meanInt cirMean
  have := h.mr.ne'
  have := h.vov.ne'
  field_simp
  ring

lemma condLoop_ge_nonneg {m : Heston} (h : Regular m) (correct : Bool) (kk : ℕ) (φ : ℝ × ℝ × ℝ → ℝ) (A : ℝ) (hφ : ∀ s : ℝ × ℝ × ℝ, 0 ≤ s.2.1 → φ s = A * s.2.1) :
    ∀ (l : List ℝ) (v acc mc : ℝ), (∀ d ∈ l, 0 < d ∧ (0.2 ≤ m.mr * d ∨ kk ≤ 20)) → 0 ≤ v → 0 ≤ acc →
      m.condLoop correct (m.stepPoisGe rngEx kk) l (v, acc, mc) φ = A * (acc + tdSum m v l)
  | [], v, acc, mc, _, _, ha => by
    show φ (v, acc, mc) = _
    rw [hφ _ ha]
    simp [tdSum]
  | d :: l, v, acc, mc, hl, hv, ha => by
    obtain ⟨hd, hb⟩ := hl d List.mem_cons_self
    have hvd := vov2dt_pos h hd
    have hb' : 0.1 ≤ |m.mr * d / 2| ∨ kk ≤ 20 := by
      refine hb.imp_left fun hb => ?_
      rw [abs_of_pos (by have := mul_pos h.mr hd; linarith)]
      norm_num at hb ⊢
      linarith
    obtain ⟨a, b, hab⟩ := tdSum_affine m l
    show Cir.drawPoisGamma Ex.gamma0 Ex.poisson m.cir d v (fun r => m.drawX123 rngEx kk d (v + r.1) (0.5 * m.cir.chiDim + 2 * (r.2 : ℝ)) (fun x =>
      m.condLoop correct (m.stepPoisGe rngEx kk) l (r.1, acc + x * d, mc + m.stepCorr correct d {}) φ)) = _
    rw [drawPoisGamma_congr h hd v (G := fun r => (A * (acc + a) + A * d * ((m.x1star d 0).1 * v + (m.x2star d 0).1 * (m.cir.chiDim / 2))) +
      (A * b + A * d * (m.x1star d 0).1) * r.1 + (A * d * ((m.x2star d 0).1 * 2)) * r.2) fun r hr => by
        have hX := draw_x123_correct m hvd (show 0 < v + r.1 by linarith) (chiDim_pos h) r.2 (fun _ _ => 0) hb' (A * (acc + (a + b * r.1))) (A * d) 0
        rw [nonneg_x123 hvd kk _ _ _ (fun x => A * (acc + (a + b * r.1)) + A * d * x + 0 * x ^ 2) fun x hx => by
          rw [condLoop_ge_nonneg h correct kk φ A hφ l r.1 _ _ (fun x hx => hl x (List.mem_cons_of_mem _ hx)) hr.le (by positivity), hab]
          ring]
        rw [hX]
        change _ + A * d * ((m.x1star d 0).1 * (v + r.1) + (m.x2star d 0).1 * (2 * (r.2 : ℝ) + m.cir.chiDim / 2)) + 0 * _ = _
        ring]
    rw [pg_affine h hd]
    simp only [tdSum, hab]
    unfold tdAvg
    ring

/-- **C148.** In `HestonMcChoiKwok2023PoisGe` the mean of the squared conditional volatility is `(1 - rho^2) / v0` times the exact mean of the average variance (`avgvar_mv`), for
every list of dates and every number of gamma terms (up to 20 when a step is short), up to the Taylor branch for short steps. -/
theorem pois_ge_avgvar_unbiased {m : Heston} (h : Regular m) (hρ : m.rho ^ 2 ≤ 1) {v0 : ℝ} (h0 : 0 < v0) (correct : Bool) (kk : ℕ)
    (tobs : List ℝ) {texp : ℝ} (hT : 0 < texp) (hd : ∀ d ∈ dts tobs, 0 < d ∧ (0.2 ≤ m.mr * d ∨ kk ≤ 20)) (hsum : (dts tobs).sum = texp) :
    ∃ e : ℝ, 0 ≤ e ∧ e ≤ 7 / 10 ^ 9 * max v0 m.theta ∧
      m.condSpotSigma correct (m.stepPoisGe rngEx kk) tobs texp v0 (fun p => p.2 ^ 2) = (1 - m.rho ^ 2) / v0 * ((m.cir.avgMv texp v0).1 + e) := by
  obtain ⟨he0, he1⟩ := tdSum_error h (le_max_right v0 m.theta) (dts tobs) v0 (fun d hx => (hd d hx).1) h0.le (le_max_left _ _)
  rw [hsum] at he0 he1
  refine ⟨(tdSum m v0 (dts tobs) - meanInt m.mr m.theta texp v0) / texp, div_nonneg he0 hT.le, by rw [div_le_iff₀ hT]; exact he1, ?_⟩
  have hc : 0 ≤ (1 - m.rho ^ 2) / v0 := div_nonneg (by linarith) h0.le
  have key := condLoop_ge_nonneg h correct kk (fun s => (m.condResult texp v0 s).2 ^ 2) ((1 - m.rho ^ 2) / v0 / texp) (fun s hs => by
    show √((1.0 - m.rho ^ 2) / v0 * (s.2.1 / texp)) ^ 2 = _
    rw [show (1.0:ℝ) = 1 by norm_num, sq_sqrt (mul_nonneg hc (div_nonneg hs hT.le))]
    ring) (dts tobs) v0 0 0 hd h0.le le_rfl
  show m.condLoop correct (m.stepPoisGe rngEx kk) (dts tobs) (v0, 0, 0) (fun s => (m.condResult texp v0 s).2 ^ 2) = _
  rw [key]
  have e2 : (m.cir.avgMv texp v0).1 = meanInt m.mr m.theta texp v0 / texp := by
    show m.theta + (v0 - m.theta) * exprel (-(m.mr * texp)) = _
    rw [Cir.exprel_neg (mul_pos h.mr hT).ne']
    unfold meanInt
    have := h.mr.ne'
    field_simp
  rw [e2]
  field_simp
  ring

/-- The hypotheses are met: quarterly dates with one gamma term. -/
example : Regular ⟨0.04, 1, -0.9, 0.5, 0.04, 0, 0, false⟩ ∧ (∀ d ∈ dts [0.5, 1], 0 < d ∧ ((0.2:ℝ) ≤ 0.5 * d ∨ 1 ≤ 20)) ∧ (dts [0.5, 1]).sum = 1 := by
  refine ⟨⟨by norm_num, by norm_num, by norm_num⟩, ?_, ?_⟩ <;> norm_num [dts, McState.diff0, List.range_succ]

end Heston

end PyFENG
