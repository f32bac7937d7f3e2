import Verif.Props.HestonTrapz

/-!
# C148: no bias of the average variance in `HestonMcChoiKwok2023PoisTd`
-/

namespace PyFENG

open Real Set MeasureTheory

open Spec

namespace Heston

lemma pg_affine {m : Heston} (h : Regular m) {dt : ℝ} (hdt : 0 < dt) (v A B C : ℝ) :
    Cir.drawPoisGamma Ex.gamma0 Ex.poisson m.cir dt v (fun p => A + B * p.1 + C * p.2) =
      A + B * cirMean m.mr m.theta dt v + C * (v * (m.cir.phiExp dt).2 * (m.cir.phiExp dt).1 / 2) := by
  obtain ⟨e1, e2⟩ := m.cir.scale_eq (dt := dt) (ne_of_gt h.mr) (ne_of_gt h.vov) hdt.ne'
  have hk : 0 < m.cir.mr := h.mr
  have hs : 0 < m.cir.sigma := h.vov
  have hth : 0 < m.cir.theta := h.theta
  have hd : 0 < 4 * m.cir.mr * m.cir.theta / m.cir.sigma ^ 2 := by positivity
  show Ex.poisson _ (fun n => Ex.gamma0 (4 * m.cir.mr * m.cir.theta / m.cir.sigma ^ 2 / 2 + n) fun g => A + B * ((m.cir.phiExp dt).2 / (m.cir.phiExp dt).1 * 2 * g) + C * n) = _
  rw [e1]
  set α := m.cir.sigma ^ 2 * (1 - exp (-(m.cir.mr * dt))) / (4 * m.cir.mr) with hα
  set hh := 4 * m.cir.mr * m.cir.theta / m.cir.sigma ^ 2 / 2 with hhd
  have hg : ∀ n : ℕ, Ex.gamma0 (hh + n) (fun g => A + B * (α * 2 * g) + C * n) = (A + B * (α * 2) * hh) + (B * (α * 2) + C) * n + 0 * (n * (n - 1)) := by
    intro n
    have := hasMV_gamma0 (a := hh + n) (by positivity) (A + C * n) (B * (α * 2)) 0
    have e : (fun g : ℝ => A + B * (α * 2 * g) + C * n) = fun g => (A + C * n) + B * (α * 2) * g + 0 * g ^ 2 := by ext g; ring
    rw [e, this]
    ring
  simp only [hg]
  rw [Ex.poisson_quad]
  have e4 : hh * (2 * α) = m.theta * (1 - exp (-(m.mr * dt))) := by
    rw [hhd, hα]
    show 4 * m.mr * m.theta / m.vov ^ 2 / 2 * (2 * (m.vov ^ 2 * (1 - exp (-(m.mr * dt))) / (4 * m.mr))) = _
    have := h.mr.ne'
    have := h.vov.ne'
    field_simp
  have e3 : v * (m.cir.phiExp dt).2 * (m.cir.phiExp dt).1 * α = v * exp (-(m.mr * dt)) := by
    rw [mul_assoc v, mul_assoc v, e2]; rfl
  unfold cirMean
  linear_combination B * e4 + B * e3

/-- The exact tails at `kk = 0` reproduce the mean of the average variance. -/
lemma td_identity {m : Heston} (h : Regular m) {dt : ℝ} (hdt : 0 < dt) (v : ℝ) :
    dt * ((Spec.x1Tail m dt 0).1 * (v + cirMean m.mr m.theta dt v) +
      (Spec.x2Tail m dt 0).1 * (v * (m.cir.phiExp dt).2 * (m.cir.phiExp dt).1 + m.cir.chiDim / 2)) = meanInt m.mr m.theta dt v := by
  have hv := vov2dt_pos h hdt
  have ha : 0 < m.mr * dt / 2 := by have := mul_pos h.mr hdt; linarith
  rw [m.x1Tail_zero hv, m.x2Tail_zero hv, (hasSum_cone ha.ne').tsum_eq, (Coth.hasSum_one ha.ne').tsum_eq]
  simp only
  have hE : exp (-(m.mr * dt)) = exp (-(m.mr * dt / 2)) ^ 2 := by rw [← exp_nat_mul]; congr 1; push_cast; ring
  have hlt : exp (-(m.mr * dt / 2)) < 1 := by rw [exp_lt_one_iff]; linarith
  have hpos := exp_pos (-(m.mr * dt / 2))
  have hc : cosh (m.mr * dt / 2) = (1 / exp (-(m.mr * dt / 2)) + exp (-(m.mr * dt / 2))) / 2 := by rw [cosh_eq, one_div, ← exp_neg, neg_neg]
  have hs : sinh (m.mr * dt / 2) = (1 / exp (-(m.mr * dt / 2)) - exp (-(m.mr * dt / 2))) / 2 := by rw [sinh_eq, one_div, ← exp_neg, neg_neg]
  obtain ⟨-, e2⟩ := m.cir.scale_eq (dt := dt) (ne_of_gt h.mr) (ne_of_gt h.vov) hdt.ne'
  change _ * (m.vov ^ 2 * (1 - exp (-(m.mr * dt))) / (4 * m.mr)) = exp (-(m.mr * dt)) at e2
  rw [mul_assoc v]
  have hk := h.mr.ne'
  have hvv := h.vov.ne'
  have hd := hdt.ne'
  have hchi : m.cir.chiDim = 4 * m.theta * m.mr / m.vov ^ 2 := rfl
  rw [hchi]
  unfold meanInt cirMean vov2dt
  rw [hc, hs]
  rw [hE] at e2 ⊢
  generalize exp (-(m.mr * dt / 2)) = f at *
  have hf1 : 1 - f ^ 2 ≠ 0 := by nlinarith
  have hw : (m.cir.phiExp dt).2 * (m.cir.phiExp dt).1 = f ^ 2 * (4 * m.mr) / (m.vov ^ 2 * (1 - f ^ 2)) := by
    rw [eq_div_iff (mul_ne_zero (pow_ne_zero 2 hvv) hf1)]
    rwa [mul_div_assoc', div_eq_iff (mul_ne_zero four_ne_zero hk)] at e2
  rw [hw]
  have hf : f ≠ 0 := hpos.ne'
  have h1 : (1 / f + f) / 2 / ((1 / f - f) / 2) = (1 + f ^ 2) / (1 - f ^ 2) := by field_simp
  have h2 : 1 / ((1 / f - f) / 2) = 2 * f / (1 - f ^ 2) := by field_simp
  rw [h1, h2]
  field_simp
  ring

/-- Mean of the average returned by one step. -/
noncomputable def tdAvg (m : Heston) (dt v : ℝ) : ℝ :=
  (m.x1star dt 0).1 * (v + cirMean m.mr m.theta dt v) + (m.x2star dt 0).1 * (v * (m.cir.phiExp dt).2 * (m.cir.phiExp dt).1 + m.cir.chiDim / 2)

lemma cirMean_mem {k theta dt v K : ℝ} (hk : 0 < k) (hdt : 0 < dt) (h0 : 0 ≤ v) (hth : 0 ≤ theta) (hv : v ≤ K) (hK : theta ≤ K) :
    0 ≤ cirMean k theta dt v ∧ cirMean k theta dt v ≤ K := by
  have hE0 := exp_pos (-(k * dt))
  have hE1 : exp (-(k * dt)) ≤ 1 := exp_le_one_iff.2 (by linarith [mul_pos hk hdt])
  unfold cirMean
  constructor
  · have h1 : 0 ≤ theta * (1 - exp (-(k * dt))) := mul_nonneg hth (by linarith)
    have h2 := mul_nonneg h0 hE0.le
    nlinarith
  · have h1 : theta * (1 - exp (-(k * dt))) ≤ K * (1 - exp (-(k * dt))) := mul_le_mul_of_nonneg_right hK (by linarith)
    have h2 := mul_le_mul_of_nonneg_right hv hE0.le
    nlinarith

lemma tdAvg_error {m : Heston} (h : Regular m) {dt v K : ℝ} (hdt : 0 < dt) (h0 : 0 ≤ v) (hv : v ≤ K) (hK : m.theta ≤ K) :
    0 ≤ dt * tdAvg m dt v - meanInt m.mr m.theta dt v ∧ dt * tdAvg m dt v - meanInt m.mr m.theta dt v ≤ 7 / 10 ^ 9 * K * dt := by
  have hvd := vov2dt_pos h hdt
  have ha : 0 < m.mr * dt / 2 := by have := mul_pos h.mr hdt; linarith
  have hM := cirMean_mem h.mr hdt h0 h.theta.le hv hK
  have hK0 : 0 ≤ K := h0.trans hv
  set w := (m.cir.phiExp dt).2 * (m.cir.phiExp dt).1 with hw
  obtain ⟨-, e2⟩ := m.cir.scale_eq (dt := dt) (ne_of_gt h.mr) (ne_of_gt h.vov) hdt.ne'
  change w * (m.vov ^ 2 * (1 - exp (-(m.mr * dt))) / (4 * m.mr)) = exp (-(m.mr * dt)) at e2
  have hE0 := exp_pos (-(m.mr * dt))
  have hE1 : exp (-(m.mr * dt)) < 1 := exp_lt_one_iff.2 (by linarith [mul_pos h.mr hdt])
  have hvov := h.vov
  have hmr := h.mr
  have hth := h.theta
  have hw1 : w = exp (-(m.mr * dt)) * (4 * m.mr) / (m.vov ^ 2 * (1 - exp (-(m.mr * dt)))) := by
    have : (1 - exp (-(m.mr * dt))) ≠ 0 := by linarith
    rw [eq_div_iff (mul_ne_zero (pow_ne_zero 2 hvov.ne') this)]
    rwa [mul_div_assoc', div_eq_iff (mul_ne_zero four_ne_zero hmr.ne')] at e2
  have hw0 : 0 ≤ w := by
    rw [hw1]
    have : 0 < 1 - exp (-(m.mr * dt)) := by linarith
    positivity
  have hw4 : m.vov2dt dt * w ≤ 4 := by
    have hq : 0 < 1 - exp (-(m.mr * dt)) := by linarith
    have hx : m.mr * dt * exp (-(m.mr * dt)) ≤ 1 - exp (-(m.mr * dt)) := by
      have h1 := add_one_le_exp (m.mr * dt)
      have h2 : (m.mr * dt + 1) * exp (-(m.mr * dt)) ≤ exp (m.mr * dt) * exp (-(m.mr * dt)) := mul_le_mul_of_nonneg_right h1 hE0.le
      rw [← exp_add, add_neg_cancel, exp_zero] at h2
      linarith
    have e : m.vov2dt dt * w = 4 * (m.mr * dt * exp (-(m.mr * dt))) / (1 - exp (-(m.mr * dt))) := by
      rw [hw1]; unfold vov2dt; field_simp
    rw [e, div_le_iff₀ hq]
    linarith
  have hchi : m.vov2dt dt * (m.cir.chiDim / 2) = 2 * m.theta * (m.mr * dt) := by
    show m.vov ^ 2 * dt * (4 * m.theta * m.mr / m.vov ^ 2 / 2) = _
    field_simp
    ring
  have hc0 := (chiDim_pos h).le
  have key : dt * tdAvg m dt v - meanInt m.mr m.theta dt v = dt * (((m.x1star dt 0).1 - (Spec.x1Tail m dt 0).1) * (v + cirMean m.mr m.theta dt v) +
      ((m.x2star dt 0).1 - (Spec.x2Tail m dt 0).1) * (v * w + m.cir.chiDim / 2)) := by
    rw [← td_identity h hdt v]
    unfold tdAvg
    rw [hw]
    ring
  rw [key]
  by_cases hb : 0.1 ≤ |m.mr * dt / 2|
  · rw [(m.x1star_correct hvd hb 0).1, (m.x2star_correct hvd hb 0).1, sub_self, sub_self, zero_mul, zero_mul, add_zero, mul_zero]
    exact ⟨le_rfl, by positivity⟩
  · have hb := not_le.1 hb
    obtain ⟨a1, a2, -⟩ := m.x1star_taylor hvd hb 0
    obtain ⟨b1, b2, -⟩ := m.x2star_taylor hvd hb 0
    rw [abs_of_pos ha] at hb
    have hs : m.mr * dt < 0.2 := by norm_num at hb ⊢; linarith
    generalize (m.x1star dt 0).1 - (Spec.x1Tail m dt 0).1 = d1 at *
    generalize (m.x2star dt 0).1 - (Spec.x2Tail m dt 0).1 = d2 at *
    have p1 : 0 ≤ v + cirMean m.mr m.theta dt v := by linarith [hM.1]
    have p2 : 0 ≤ v * w + m.cir.chiDim / 2 := by have := mul_nonneg h0 hw0; linarith
    refine ⟨mul_nonneg hdt.le (add_nonneg (mul_nonneg a1 p1) (mul_nonneg b1 p2)), ?_⟩
    have q1 : d1 * (v + cirMean m.mr m.theta dt v) ≤ 1 / 10 ^ 9 * (2 * K) := mul_le_mul a2 (by linarith [hM.2]) p1 (by norm_num)
    have q2 : d2 * (v * w + m.cir.chiDim / 2) ≤ 1 / 10 ^ 9 * (5 * K) := by
      refine (mul_le_mul_of_nonneg_right b2 p2).trans ?_
      rw [mul_assoc]
      refine mul_le_mul_of_nonneg_left ?_ (by norm_num)
      have r1 : v * (m.vov2dt dt * w) ≤ K * 4 := mul_le_mul hv hw4 (mul_nonneg hvd.le hw0) hK0
      have r2 : 2 * m.theta * (m.mr * dt) ≤ 2 * K * 0.2 := mul_le_mul (by linarith) hs.le (by positivity) (by positivity)
      norm_num at r2
      have : m.vov2dt dt * (v * w + m.cir.chiDim / 2) = v * (m.vov2dt dt * w) + m.vov2dt dt * (m.cir.chiDim / 2) := by ring
      rw [this, hchi]
      linarith
    calc dt * (d1 * (v + cirMean m.mr m.theta dt v) + d2 * (v * w + m.cir.chiDim / 2)) ≤ dt * (1 / 10 ^ 9 * (2 * K) + 1 / 10 ^ 9 * (5 * K)) :=
        mul_le_mul_of_nonneg_left (add_le_add q1 q2) hdt.le
      _ = _ := by ring

/-- Expected sum of the averages along the steps. -/
noncomputable def tdSum (m : Heston) : ℝ → List ℝ → ℝ
  | _, [] => 0
  | v, d :: l => d * tdAvg m d v + tdSum m (cirMean m.mr m.theta d v) l

lemma tdSum_affine (m : Heston) : ∀ l : List ℝ, ∃ a b : ℝ, ∀ v, tdSum m v l = a + b * v
  | [] => ⟨0, 0, fun v => by simp [tdSum]⟩
  | d :: l => by
    obtain ⟨a, b, hh⟩ := tdSum_affine m l
    refine ⟨tdSum m 0 (d :: l), tdSum m 1 (d :: l) - tdSum m 0 (d :: l), fun v => ?_⟩
    simp only [tdSum, hh]
    unfold tdAvg cirMean
    ring

lemma tdSum_error {m : Heston} (h : Regular m) {K : ℝ} (hK : m.theta ≤ K) : ∀ (l : List ℝ) (v : ℝ), (∀ d ∈ l, 0 < d) → 0 ≤ v → v ≤ K →
    0 ≤ tdSum m v l - meanInt m.mr m.theta l.sum v ∧ tdSum m v l - meanInt m.mr m.theta l.sum v ≤ 7 / 10 ^ 9 * K * l.sum
  | [], v, _, _, _ => by simp [tdSum, meanInt]
  | d :: l, v, hl, h0, hv => by
    have hd : 0 < d := hl d List.mem_cons_self
    have hM := cirMean_mem h.mr hd h0 h.theta.le hv hK
    have ih := tdSum_error h hK l _ (fun x hx => hl x (List.mem_cons_of_mem _ hx)) hM.1 hM.2
    have he := tdAvg_error h hd h0 hv hK
    rw [List.sum_cons, meanInt_add h.mr.ne']
    simp only [tdSum]
    constructor
    · linarith [ih.1, he.1]
    · linarith [ih.2, he.2]

lemma condLoop_td {m : Heston} (h : Regular m) (correct : Bool) (ive : ℝ → ℝ → ℝ) (φ : ℝ × ℝ × ℝ → ℝ) (A : ℝ) (hφ : ∀ s, 0 ≤ s.2.1 → φ s = A * s.2.1) :
    ∀ (l : List ℝ) (v acc mc : ℝ), (∀ d ∈ l, 0 < d) → 0 ≤ v → 0 ≤ acc → m.condLoop correct (m.stepPoisTd rngEx ive) l (v, acc, mc) φ = A * (acc + tdSum m v l)
  | [], v, acc, mc, _, _, ha => by
    show φ (v, acc, mc) = _
    rw [hφ _ ha]
    simp [tdSum]
  | d :: l, v, acc, mc, hl, hv, ha => by
    have hd : 0 < d := hl d List.mem_cons_self
    have hvd := vov2dt_pos h hd
    obtain ⟨a, b, hab⟩ := tdSum_affine m l
    have hx := (m.x1star_pos hvd 0).1
    have hz := (m.x2star_pos hvd (kk := 0) (Or.inr (by norm_num))).1
    show Cir.drawPoisGamma Ex.gamma0 Ex.poisson m.cir d v (fun r => m.condLoop correct (m.stepPoisTd rngEx ive) l
      (r.1, acc + ((m.x1star d 0).1 * (v + r.1) + (m.x2star d 0).1 * (2 * (r.2 : ℝ) + m.cir.chiDim / 2)) * d, _) φ) = _
    rw [drawPoisGamma_congr h hd v (G := fun r => (A * (acc + ((m.x1star d 0).1 * v + (m.x2star d 0).1 * (m.cir.chiDim / 2)) * d + a)) +
      (A * ((m.x1star d 0).1 * d + b)) * r.1 + (A * ((m.x2star d 0).1 * 2 * d)) * r.2) fun r hr => by
        rw [condLoop_td h correct ive φ A hφ l r.1 _ _ (fun x hx => hl x (List.mem_cons_of_mem _ hx)) hr.le (by have := chiDim_pos h; positivity), hab]
        ring]
    rw [pg_affine h hd]
    simp only [tdSum, hab]
    unfold tdAvg
    ring

/-- **C148.** `cond_spot_sigma` of `HestonMcChoiKwok2023PoisTd` has no discretisation bias: for every list of dates the mean of the squared conditional volatility is
`(1 - rho^2) / v0` times the exact mean of the average variance (`avgvar_mv`), up to the Taylor branch of the code for short steps, which is at most `7e-9` of the larger of
`v0` and `theta` too large. -/
theorem pois_td_avgvar_unbiased {m : Heston} (h : Regular m) (hρ : m.rho ^ 2 ≤ 1) {v0 : ℝ} (h0 : 0 < v0) (correct : Bool) (ive : ℝ → ℝ → ℝ)
    (tobs : List ℝ) {texp : ℝ} (hT : 0 < texp) (hd : ∀ d ∈ dts tobs, 0 < d) (hsum : (dts tobs).sum = texp) :
    ∃ e : ℝ, 0 ≤ e ∧ e ≤ 7 / 10 ^ 9 * max v0 m.theta ∧
      m.condSpotSigma correct (m.stepPoisTd rngEx ive) tobs texp v0 (fun p => p.2 ^ 2) = (1 - m.rho ^ 2) / v0 * ((m.cir.avgMv texp v0).1 + e) := by
  obtain ⟨he0, he1⟩ := tdSum_error h (le_max_right v0 m.theta) (dts tobs) v0 hd h0.le (le_max_left _ _)
  rw [hsum] at he0 he1
  refine ⟨(tdSum m v0 (dts tobs) - meanInt m.mr m.theta texp v0) / texp, div_nonneg he0 hT.le, by rw [div_le_iff₀ hT]; exact he1, ?_⟩
  have hc : 0 ≤ (1 - m.rho ^ 2) / v0 := div_nonneg (by linarith) h0.le
  have key := condLoop_td h correct ive (fun s => (m.condResult texp v0 s).2 ^ 2) ((1 - m.rho ^ 2) / v0 / texp) (fun s hs => by
    show √((1.0 - m.rho ^ 2) / v0 * (s.2.1 / texp)) ^ 2 = _
    rw [show (1.0:ℝ) = 1 by norm_num, sq_sqrt (mul_nonneg hc (div_nonneg hs hT.le))]
    ring) (dts tobs) v0 0 0 hd h0.le le_rfl
  show m.condLoop correct (m.stepPoisTd rngEx ive) (dts tobs) (v0, 0, 0) (fun s => (m.condResult texp v0 s).2 ^ 2) = _
  rw [key]
  have e2 : (m.cir.avgMv texp v0).1 = meanInt m.mr m.theta texp v0 / texp := by
    show m.theta + (v0 - m.theta) * exprel (-(m.mr * texp)) = _
    rw [Cir.exprel_neg (mul_pos h.mr hT).ne']
    unfold meanInt
    have := h.mr.ne'
    field_simp
  rw [e2]
  field_simp
  ring

end Heston

end PyFENG
