import Verif.Props.HestonVolPath
import Verif.Props.HestonMcStep

/-!
# C147: means, variances and covariances along the simulated variance paths
-/

namespace PyFENG

open Real Set MeasureTheory

namespace Spec

/-- Mean of `V(t)` given `V(0) = v` for the CIR process `dV = k (theta - V) dt + sigma sqrt(V) dW`. -/
noncomputable def cirMean (k theta t v : ℝ) : ℝ := theta + (v - theta) * exp (-(k * t))

/-- Variance of `V(t)` given `V(0) = v`. -/
noncomputable def cirVar (k theta sigma t v : ℝ) : ℝ :=
  v * (sigma ^ 2 / k) * (exp (-(k * t)) - exp (-(k * t)) ^ 2) + theta * sigma ^ 2 / (2 * k) * (1 - exp (-(k * t))) ^ 2

end Spec

open Spec

namespace Heston

lemma stepPG_hasMV (c : Cir) (hk : 0 < c.mr) (hth : 0 < c.theta) (hs : c.sigma ≠ 0) {r : ℝ} (hr : 0 < r) (v : ℝ) :
    HasMV (stepPG c r v) (cirMean c.mr c.theta r v) (cirVar c.mr c.theta c.sigma r v) := by
  obtain ⟨e1, e2⟩ := c.scale_eq hk.ne' hs hr.ne'
  have hd : 0 < 4 * c.mr * c.theta / c.sigma ^ 2 := by positivity
  have hE : exp (-(c.mr * r)) < 1 := by
    rw [exp_lt_one_iff]
    linarith [mul_pos hk hr]
  set α := c.sigma ^ 2 * (1 - exp (-(c.mr * r))) / (4 * c.mr) with hα
  have ha : 0 < α := by
    have : 0 < 1 - exp (-(c.mr * r)) := by linarith
    positivity
  set h := 4 * c.mr * c.theta / c.sigma ^ 2 / 2 with hh
  have hg : ∀ n : ℕ, HasMV (do let g ← Ex.gamma0 (h + n); pure (0 + (2 * α) * g)) (2 * α * h + 2 * α * n) (4 * α ^ 2 * h + 4 * α ^ 2 * n) := by
    intro n
    refine ((hasMV_gamma0 (a := h + n) (by positivity)).affine (2 * α) 0).congr ?_ ?_ <;> ring
  have key := HasMV.poisson (mu := v * (c.phiExp r).2 * (c.phiExp r).1 / 2) hg
  have e : stepPG c r v = (do let n ← Ex.poisson (v * (c.phiExp r).2 * (c.phiExp r).1 / 2); (do let g ← Ex.gamma0 (h + n); pure (0 + (2 * α) * g))) := by
    funext φ
    show Ex.poisson _ (fun n => Ex.gamma0 (h + n) (fun g => φ ((c.phiExp r).2 / (c.phiExp r).1 * 2 * g))) =
      Ex.poisson _ (fun n => Ex.gamma0 (h + n) (fun g => φ (0 + 2 * α * g)))
    rw [e1]
    congr 1
    ext n
    congr 1
    ext g
    congr 1
    ring
  rw [e]
  have e3 : v * (c.phiExp r).2 * (c.phiExp r).1 * α = v * exp (-(c.mr * r)) := by rw [← e2]; ring
  have e4 : h * (2 * α) = c.theta * (1 - exp (-(c.mr * r))) := by
    rw [hh, hα]
    field_simp
  have e5 : 4 * α = c.sigma ^ 2 / c.mr * (1 - exp (-(c.mr * r))) := by
    rw [hα]; field_simp
  have e6 : 2 * α = c.sigma ^ 2 / (2 * c.mr) * (1 - exp (-(c.mr * r))) := by
    rw [hα]; field_simp; ring
  refine key.congr ?_ ?_
  · unfold cirMean
    linear_combination e4 + e3
  · unfold cirVar
    linear_combination (2 * α) * e4 + 4 * α * e3 + c.theta * (1 - exp (-(c.mr * r))) * e6 + v * exp (-(c.mr * r)) * e5

/-- A simulation step with non-negative values, linear, and with the mean and variance of the CIR process. -/
structure MomStep (c : Cir) (step : ℝ → ℝ → Ex ℝ) : Prop where
  congr : ∀ {dt v : ℝ}, 0 < dt → 0 ≤ v → ∀ (k : ℝ) (F G : ℝ → ℝ), (∀ x, 0 ≤ x → F x = k * G x) → step dt v F = k * step dt v G
  mv : ∀ {dt v : ℝ}, 0 < dt → 0 ≤ v → HasMV (step dt v) (cirMean c.mr c.theta dt v) (cirVar c.mr c.theta c.sigma dt v)

lemma MomStep.eq {c : Cir} {step : ℝ → ℝ → Ex ℝ} (hS : MomStep c step) {dt v : ℝ} (hdt : 0 < dt) (hv : 0 ≤ v) {F G : ℝ → ℝ} (h : ∀ x, 0 ≤ x → F x = G x) :
    step dt v F = step dt v G := by
  rw [hS.congr hdt hv 1 F G (fun x hx => by rw [h x hx, one_mul]), one_mul]

lemma momStepPG {m : Heston} (h : Regular m) : MomStep m.cir (stepPG m.cir) where
  congr := fun {dt v} hdt _ k F G hFG => by
    rw [← stepPG_smul m.cir h.mr h.theta h.vov.ne']
    exact drawPoisGamma_congr h hdt v (F := fun p => F p.1) (G := fun p => k * G p.1) fun r hr => hFG _ hr.le
  mv := fun hdt _ => stepPG_hasMV m.cir h.mr h.theta h.vov.ne' hdt _

/-- The quadratic-exponential step. -/
noncomputable def stepQE (m : Heston) (dt v : ℝ) : Ex ℝ := do
  let x ← m.varStepQe rngEx dt v
  pure x.1

lemma momStepQE {m : Heston} (h : Regular m) : MomStep m.cir (stepQE m) where
  congr := fun {dt v} hdt hv k F G hFG => varStepQe_congr h hdt hv k (F := fun r => F r.1) (G := fun r => G r.1) fun r hr => hFG _ hr
  mv := fun {dt v} hdt hv => by
    refine Spec.HasMV.congr (qe_moments h hdt hv) ?_ ?_
    · rfl
    · have hx : m.mr * dt ≠ 0 := (mul_pos h.mr hdt).ne'
      have hk := h.mr.ne'
      have hd := hdt.ne'
      show m.vov ^ 2 * dt * exprel (-(m.mr * dt)) * (v * exp (-(m.mr * dt)) + m.theta * (m.mr * dt) * exprel (-(m.mr * dt)) / 2) =
        cirVar m.mr m.theta m.vov dt v
      rw [Cir.exprel_neg hx]
      unfold cirVar
      generalize exp (-(m.mr * dt)) = E
      field_simp

section

variable {c : Cir} {step : ℝ → ℝ → Ex ℝ} (hS : MomStep c step)

include hS

lemma volLoop_smul' : ∀ (ts : List ℝ) (k p v : ℝ) (φ : List ℝ → ℝ), Dates p ts → 0 ≤ v →
    volLoop step p v ts (fun x => k * φ x) = k * volLoop step p v ts φ
  | [], _, _, _, _, _, _ => rfl
  | t :: ts, k, p, v, φ, hd, hv => by
    show step (t - p) v (fun v' => volLoop step t v' ts (fun r => k * φ (v' :: r))) = k * step (t - p) v (fun v' => volLoop step t v' ts (fun r => φ (v' :: r)))
    exact hS.congr (sub_pos.2 hd.1) hv k _ _ fun v' hv' => volLoop_smul' ts k t v' _ hd.2 hv'

lemma volLoop_one : ∀ (ts : List ℝ) (p v : ℝ), Dates p ts → 0 ≤ v → volLoop step p v ts (fun _ => 1) = 1
  | [], _, _, _, _ => rfl
  | t :: ts, p, v, hd, hv => by
    show step (t - p) v (fun v' => volLoop step t v' ts (fun _ => 1)) = 1
    rw [hS.eq (G := fun x => 1 + 0 * x + 0 * x ^ 2) (sub_pos.2 hd.1) hv fun v' hv' => by rw [volLoop_one ts t v' hd.2 hv']; ring]
    rw [hS.mv (sub_pos.2 hd.1) hv]
    ring

/-- Quadratic functionals of the value at the date `s`, whatever the dates before. -/
lemma volLoop_quad (hk : 0 < c.mr) {s : ℝ} {rest : List ℝ} (φ : List ℝ → ℝ) (A B C : ℝ)
    (h : ∀ v, 0 ≤ v → volLoop step s v rest (fun r => φ (v :: r)) = A + B * v + C * v ^ 2) :
    ∀ (ts : List ℝ) (p v : ℝ), Dates p (ts ++ s :: rest) → 0 ≤ v → volLoop step p v (ts ++ s :: rest) (fun r => φ (r.drop ts.length)) =
      A + B * cirMean c.mr c.theta (s - p) v + C * (cirVar c.mr c.theta c.sigma (s - p) v + cirMean c.mr c.theta (s - p) v ^ 2)
  | [], p, v, hd, hv => by
    show step (s - p) v (fun v' => volLoop step s v' rest (fun r => φ (v' :: r))) = _
    rw [hS.eq (sub_pos.2 hd.1) hv h]
    exact hS.mv (sub_pos.2 hd.1) hv A B C
  | t :: ts, p, v, hd, hv => by
    have ih := volLoop_quad hk φ A B C h ts t
    show step (t - p) v (fun v' => volLoop step t v' (ts ++ s :: rest) (fun r => φ (r.drop ts.length))) = _
    rw [hS.eq (sub_pos.2 hd.1) hv fun v' hv' => ih v' hd.2 hv']
    have hE : exp (-(c.mr * (s - p))) = exp (-(c.mr * (t - p))) * exp (-(c.mr * (s - t))) := by rw [← exp_add]; congr 1; ring
    have key := hS.mv (sub_pos.2 hd.1) hv
    unfold cirMean cirVar at *
    rw [hE]
    generalize exp (-(c.mr * (t - p))) = F at *
    generalize exp (-(c.mr * (s - t))) = G at *
    have e : (fun v' : ℝ => A + B * (c.theta + (v' - c.theta) * G) + C * (v' * (c.sigma ^ 2 / c.mr) * (G - G ^ 2) + c.theta * c.sigma ^ 2 / (2 * c.mr) * (1 - G) ^ 2 +
        (c.theta + (v' - c.theta) * G) ^ 2)) =
        fun v' => (A + B * (c.theta - c.theta * G) + C * (c.theta * c.sigma ^ 2 / (2 * c.mr) * (1 - G) ^ 2 + (c.theta - c.theta * G) ^ 2)) +
          (B * G + C * (c.sigma ^ 2 / c.mr * (G - G ^ 2) + 2 * (c.theta - c.theta * G) * G)) * v' + C * G ^ 2 * v' ^ 2 := by
      ext v'; ring
    rw [e, key]
    have hk' := hk.ne'
    field_simp
    ring

end

lemma moments_of_step {m : Heston} (h : Regular m) (h0 : 0 ≤ m.sigma) {step : ℝ → ℝ → Ex ℝ} (hS : MomStep m.cir step) (ts₁ ts₂ ts₃ : List ℝ) (s t : ℝ)
    (hd : Dates 0 (ts₁ ++ s :: (ts₂ ++ t :: ts₃))) (E : (List ℝ → ℝ) → ℝ)
    (hE : ∀ φ : List ℝ → ℝ, E φ = volLoop step 0 m.sigma (ts₁ ++ s :: (ts₂ ++ t :: ts₃)) (fun r => φ (m.sigma :: r))) :
    let Vs := fun path : List ℝ => path.getD (ts₁.length + 1) 0
    let Vt := fun path : List ℝ => path.getD (ts₁.length + 1 + (ts₂.length + 1)) 0
    E Vs = cirMean m.mr m.theta s m.sigma ∧ E Vt = cirMean m.mr m.theta t m.sigma ∧
    E (fun x => Vs x ^ 2) - E Vs ^ 2 = cirVar m.mr m.theta m.vov s m.sigma ∧
    E (fun x => Vs x * Vt x) - E Vs * E Vt = exp (-(m.mr * (t - s))) * cirVar m.mr m.theta m.vov s m.sigma := by
  intro Vs Vt
  have hds : Dates s (ts₂ ++ t :: ts₃) := by
    clear hE Vs Vt
    revert hd
    generalize (0:ℝ) = p
    induction ts₁ generalizing p with
    | nil => exact fun hd => hd.2
    | cons a l ih => exact fun hd => ih a hd.2
  have hdt : Dates t ts₃ := by
    clear hE Vs Vt hd
    revert hds
    generalize s = p
    induction ts₂ generalizing p with
    | nil => exact fun hd => hd.2
    | cons a l ih => exact fun hd => ih a hd.2
  have hd0 : ∀ (r : List ℝ) (n k : ℕ), r.getD (n + k) 0 = (r.drop n).getD k 0 := by
    intro r n k
    simp [List.getD]
  have hVs : ∀ r : List ℝ, Vs (m.sigma :: r) = (r.drop ts₁.length).getD 0 0 := by
    intro r
    rw [← hd0]
    simp [Vs]
  have hVt : ∀ r : List ℝ, Vt (m.sigma :: r) = (r.drop ts₁.length).getD (ts₂.length + 1) 0 := by
    intro r
    rw [← hd0]
    simp only [Vt]
    rw [show ts₁.length + 1 + (ts₂.length + 1) = (ts₁.length + (ts₂.length + 1)) + 1 by ring]
    simp
  have hk := h.mr
  have one := volLoop_one hS
  have smul := volLoop_smul' hS
  have const : ∀ (ts : List ℝ) (p v a : ℝ), Dates p ts → 0 ≤ v → volLoop step p v ts (fun _ => a) = a := by
    intro ts p v a hp hv
    have := smul ts a p v (fun _ => 1) hp hv
    simpa [one ts p v hp hv] using this
  -- the value at `t` seen from `s`
  have hts : ∀ v, 0 ≤ v → volLoop step s v (ts₂ ++ t :: ts₃) (fun r => r.getD ts₂.length 0) = cirMean m.mr m.theta (t - s) v := by
    intro v hv
    have := volLoop_quad hS hk (s := t) (rest := ts₃) (fun r => r.getD 0 0) 0 1 0 (fun v hv => by
      simp only [List.getD_cons_zero]
      rw [const _ _ _ _ hdt hv]; ring) ts₂ s v hds hv
    simp only [← hd0, add_zero] at this
    rw [this]
    show 0 + 1 * cirMean m.mr m.theta (t - s) v + _ = _
    ring
  have q1 := volLoop_quad hS hk (s := s) (rest := ts₂ ++ t :: ts₃) (fun r => r.getD 0 0) 0 1 0 (fun v hv => by
      simp only [List.getD_cons_zero]
      rw [const _ _ _ _ hds hv]; ring) ts₁ 0 m.sigma hd h0
  have q2 := volLoop_quad hS hk (s := s) (rest := ts₂ ++ t :: ts₃) (fun r => r.getD 0 0 ^ 2) 0 0 1 (fun v hv => by
      simp only [List.getD_cons_zero]
      rw [const _ _ _ _ hds hv]; ring) ts₁ 0 m.sigma hd h0
  have q3 := volLoop_quad hS hk (s := s) (rest := ts₂ ++ t :: ts₃) (fun r => r.getD (ts₂.length + 1) 0)
    (m.theta * (1 - exp (-(m.mr * (t - s))))) (exp (-(m.mr * (t - s)))) 0 (fun v hv => by
      simp only [List.getD_cons_succ]
      rw [hts v hv]; unfold cirMean; ring) ts₁ 0 m.sigma hd h0
  have q4 := volLoop_quad hS hk (s := s) (rest := ts₂ ++ t :: ts₃) (fun r => r.getD 0 0 * r.getD (ts₂.length + 1) 0)
    0 (m.theta * (1 - exp (-(m.mr * (t - s))))) (exp (-(m.mr * (t - s)))) (fun v hv => by
      simp only [List.getD_cons_zero, List.getD_cons_succ]
      rw [smul _ _ _ _ _ hds hv, hts v hv]; unfold cirMean; ring) ts₁ 0 m.sigma hd h0
  simp only [sub_zero] at q1 q2 q3 q4
  change _ = 0 + 1 * cirMean m.mr m.theta s m.sigma + 0 * (cirVar m.mr m.theta m.vov s m.sigma + cirMean m.mr m.theta s m.sigma ^ 2) at q1
  change _ = 0 + 0 * cirMean m.mr m.theta s m.sigma + 1 * (cirVar m.mr m.theta m.vov s m.sigma + cirMean m.mr m.theta s m.sigma ^ 2) at q2
  change _ = m.theta * (1 - exp (-(m.mr * (t - s)))) + exp (-(m.mr * (t - s))) * cirMean m.mr m.theta s m.sigma +
    0 * (cirVar m.mr m.theta m.vov s m.sigma + cirMean m.mr m.theta s m.sigma ^ 2) at q3
  change _ = 0 + m.theta * (1 - exp (-(m.mr * (t - s)))) * cirMean m.mr m.theta s m.sigma +
    exp (-(m.mr * (t - s))) * (cirVar m.mr m.theta m.vov s m.sigma + cirMean m.mr m.theta s m.sigma ^ 2) at q4
  have r1 : E Vs = cirMean m.mr m.theta s m.sigma := by
    rw [hE]; simp only [hVs]; rw [q1]; ring
  have r3 : E Vt = m.theta * (1 - exp (-(m.mr * (t - s)))) + exp (-(m.mr * (t - s))) * cirMean m.mr m.theta s m.sigma := by
    rw [hE]; simp only [hVt]; rw [q3]; ring
  have r2 : E (fun x => Vs x ^ 2) = cirVar m.mr m.theta m.vov s m.sigma + cirMean m.mr m.theta s m.sigma ^ 2 := by
    rw [hE]; simp only [hVs]; rw [q2]; ring
  have r4 : E (fun x => Vs x * Vt x) = m.theta * (1 - exp (-(m.mr * (t - s)))) * cirMean m.mr m.theta s m.sigma +
      exp (-(m.mr * (t - s))) * (cirVar m.mr m.theta m.vov s m.sigma + cirMean m.mr m.theta s m.sigma ^ 2) := by
    rw [hE]; simp only [hVs, hVt]; rw [q4]; ring
  refine ⟨r1, ?_, ?_, ?_⟩
  · rw [r3]
    unfold cirMean
    have hE' : exp (-(m.mr * t)) = exp (-(m.mr * s)) * exp (-(m.mr * (t - s))) := by rw [← exp_add]; congr 1; ring
    rw [hE']; ring
  · rw [r2, r1]; ring
  · rw [r4, r1, r3]; ring

/-- **C147** (moments): along a simulated path of the exact schemes, at any two of the observation dates `s < t`, the mean and the variance are those of the
CIR process and the covariance is `exp(-mr (t - s))` times the variance at the earlier date. -/
theorem vol_paths_moments {m : Heston} (h : Regular m) (h0 : 0 ≤ m.sigma) (ts₁ ts₂ ts₃ : List ℝ) (s t : ℝ) (hd : Dates 0 (ts₁ ++ s :: (ts₂ ++ t :: ts₃))) :
    let E := m.volPathsPoisTd rngEx false (ts₁ ++ s :: (ts₂ ++ t :: ts₃))
    let Vs := fun path : List ℝ => path.getD (ts₁.length + 1) 0
    let Vt := fun path : List ℝ => path.getD (ts₁.length + 1 + (ts₂.length + 1)) 0
    E Vs = cirMean m.mr m.theta s m.sigma ∧ E Vt = cirMean m.mr m.theta t m.sigma ∧
    E (fun x => Vs x ^ 2) - E Vs ^ 2 = cirVar m.mr m.theta m.vov s m.sigma ∧
    E (fun x => Vs x * Vt x) - E Vs * E Vt = exp (-(m.mr * (t - s))) * cirVar m.mr m.theta m.vov s m.sigma := by
  refine moments_of_step h h0 (momStepPG h) ts₁ ts₂ ts₃ s t hd _ fun φ => ?_
  have e0 : (storeVar false) = id := by ext x; simp [storeVar]
  show volLoop (stepPG m.cir) 0 m.sigma _ (fun r => φ ((m.sigma :: r).map (storeVar false))) = _
  simp only [e0, List.map_id]

/-- **C147** (moments of the quadratic-exponential scheme): scheme 4 of `HestonMcAndersen2008.vol_paths` is not exact, but the mean, the variance and the
autocovariance of its paths are those of the CIR process, for every increasing list of dates: no bias accumulates over the steps. -/
theorem vol_paths_qe_moments {m : Heston} (h : Regular m) (h0 : 0 ≤ m.sigma) (ts₁ ts₂ ts₃ : List ℝ) (s t : ℝ) (hd : Dates 0 (ts₁ ++ s :: (ts₂ ++ t :: ts₃))) :
    let Vs := fun path : List ℝ => path.getD (ts₁.length + 1) 0
    let Vt := fun path : List ℝ => path.getD (ts₁.length + 1 + (ts₂.length + 1)) 0
    ∃ E : Ex (List ℝ), m.volPathsAndersen rngEx 4 false (ts₁ ++ s :: (ts₂ ++ t :: ts₃)) = .ok E ∧
    E Vs = cirMean m.mr m.theta s m.sigma ∧ E Vt = cirMean m.mr m.theta t m.sigma ∧
    E (fun x => Vs x ^ 2) - E Vs ^ 2 = cirVar m.mr m.theta m.vov s m.sigma ∧
    E (fun x => Vs x * Vt x) - E Vs * E Vt = exp (-(m.mr * (t - s))) * cirVar m.mr m.theta m.vov s m.sigma := by
  refine ⟨_, rfl, moments_of_step h h0 (momStepQE h) ts₁ ts₂ ts₃ s t hd _ fun φ => ?_⟩
  have e0 : (storeVar false) = id := by ext x; simp [storeVar]
  show volLoop (stepQE m) 0 m.sigma _ (fun r => φ ((m.sigma :: r).map (storeVar false))) = _
  simp only [e0, List.map_id]

/-- The hypotheses are met. -/
example : Regular ⟨0.04, 1, -0.9, 0.5, 0.04, 0, 0, false⟩ ∧ (0:ℝ) ≤ 0.04 ∧ Dates 0 (([0.25] : List ℝ) ++ 0.5 :: ([0.75] ++ 1 :: [2])) :=
  ⟨⟨by norm_num, by norm_num, by norm_num⟩, by norm_num, by simp [Dates]; norm_num⟩

end Heston

end PyFENG
