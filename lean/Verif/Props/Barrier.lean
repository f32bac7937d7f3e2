import Verif.Lemmas.Bach
import Verif.Props.Bsm

/-! # C14: barrier options -/

open MeasureTheory ProbabilityTheory Set Filter Topology Real

namespace PyFENG

/-- **C14 (Bsm).** Knock-in plus knock-out is the vanilla option, for all inputs. -/
theorem bsm_barrier_in_plus_out (m : MParams) (K B S T cp : ℝ) :
    Bsm.priceBarrier m K B S T cp 1 + Bsm.priceBarrier m K B S T cp (-1) = Bsm.price m K S T cp := by
  rw [← Bsm.priceSuboptimal_self]
  unfold Bsm.priceBarrier priceBarrierWith
  simp only [show (1:ℝ) > 0 by norm_num, if_true, show ¬ (-1:ℝ) > 0 by norm_num, if_false]
  ring

/-- Weight of the reflected path in the method of images. -/
private lemma bsm_image {b σ S B T : ℝ} (hS : 0 < S) (hB : 0 < B) (hs : 0 < σ * √T) (hT : 0 < T)
    (z : ℝ) :
    (B / S) ^ (2 * b / σ ^ 2 - 1)
      * exp (2 * log (B / S) / (σ * √T) * z - (2 * log (B / S) / (σ * √T)) ^ 2 / 2)
      = exp (-2 * (log S - log B) * (log (Spec.gbm (S * exp (b * T)) (σ * √T) z) - log B)
          / (σ ^ 2 * T)) := by
  have hσ : σ ≠ 0 := by rintro rfl; simp at hs
  have hTT : √T ^ 2 = T := sq_sqrt hT.le
  have hT0 : √T ≠ 0 := by positivity
  have hlog : log (Spec.gbm (S * exp (b * T)) (σ * √T) z)
      = log S + b * T + (σ * √T * z - (σ * √T) ^ 2 / 2) := by
    unfold Spec.gbm
    rw [log_mul (by positivity) (by positivity), log_mul (by positivity) (by positivity), log_exp,
      log_exp]
  rw [rpow_def_of_pos (by positivity), ← exp_add, hlog, log_div hB.ne' hS.ne']
  congr 1
  have e : σ ^ 2 * T = (σ * √T) ^ 2 := by rw [mul_pow, hTT]
  rw [e]
  conv_rhs => rw [show b * T = b * √T ^ 2 by rw [hTT]]
  field_simp
  ring

private lemma gbm_reflect {F s S B : ℝ} (hS : 0 < S) (hB : 0 < B) (hs : 0 < s) (z : ℝ) :
    Spec.gbm (F * (B / S) ^ 2) s z = Spec.gbm F s (z + 2 * log (B / S) / s) := by
  unfold Spec.gbm
  have : s * (z + 2 * log (B / S) / s) - s ^ 2 / 2
      = (log (B / S) + log (B / S)) + (s * z - s ^ 2 / 2) := by field_simp; ring
  rw [this, exp_add, exp_add, exp_log (by positivity)]
  ring

/-- density ratio of the reflected path -/
private noncomputable def imgW (m : MParams) (S B T z : ℝ) : ℝ :=
  exp (-2 * (log S - log B) * (log (Spec.gbm (m.fwd S T) (m.sigma * √T) z) - log B)
    / (m.sigma ^ 2 * T))

private lemma bsm_X' (m : MParams) {S B T : ℝ} (hS : 0 < S) (hB : 0 < B) (hs : 0 < m.sigma * √T)
    (hfwd : ∀ x, m.fwd x T = x * exp ((m.intr - m.divr) * T)) (z : ℝ) :
    Spec.gbm (m.fwd (Bsm.spotReflected B S) T) (m.sigma * √T) z
      = Spec.gbm (m.fwd S T) (m.sigma * √T) (z + 2 * log (B / S) / (m.sigma * √T)) := by
  rw [← gbm_reflect hS hB hs, hfwd, hfwd]
  congr 1
  unfold Bsm.spotReflected; field_simp

private lemma bsm_himg (m : MParams) {S B T : ℝ} (hS : 0 < S) (hB : 0 < B) (hT : 0 < T)
    (hs : 0 < m.sigma * √T)
    (hfwd : ∀ x, m.fwd x T = x * exp ((m.intr - m.divr) * T)) (g : ℝ → ℝ) :
    Bsm.barrierPsi m B S
        * Spec.gaussE (fun z => g (Spec.gbm (m.fwd (Bsm.spotReflected B S) T) (m.sigma * √T) z))
      = Spec.gaussE fun z => g (Spec.gbm (m.fwd S T) (m.sigma * √T) z) * imgW m S B T z := by
  have hw := bsm_image (b := m.intr - m.divr) hS hB hs hT
  have := gaussE_shift (fun z => g (Spec.gbm (m.fwd S T) (m.sigma * √T) z))
    (2 * log (B / S) / (m.sigma * √T))
  simp only [bsm_X' m hS hB hs hfwd, this]
  unfold Spec.gaussE
  rw [← integral_const_mul]
  congr 1; ext z
  unfold imgW
  beta_reduce
  rw [hfwd S, ← hw z]
  unfold Bsm.barrierPsi; ring

private lemma bsm_himgI (m : MParams) {S B T : ℝ} (hS : 0 < S) (hB : 0 < B) (hT : 0 < T)
    (hs : 0 < m.sigma * √T)
    (hfwd : ∀ x, m.fwd x T = x * exp ((m.intr - m.divr) * T)) (g : ℝ → ℝ)
    (hg : Integrable (fun z => g (Spec.gbm (m.fwd (Bsm.spotReflected B S) T) (m.sigma * √T) z))
      (gaussianReal 0 1)) :
    Integrable (fun z => g (Spec.gbm (m.fwd S T) (m.sigma * √T) z) * imgW m S B T z)
      (gaussianReal 0 1) := by
  have hw := bsm_image (b := m.intr - m.divr) hS hB hs hT
  simp only [bsm_X' m hS hB hs hfwd] at hg
  have := (integrable_shift (fun z => g (Spec.gbm (m.fwd S T) (m.sigma * √T) z)) _ hg).const_mul
    (Bsm.barrierPsi m B S)
  refine this.congr (ae_of_all _ fun z => ?_)
  unfold imgW
  beta_reduce
  rw [hfwd S, ← hw z]
  unfold Bsm.barrierPsi; ring

private lemma hfwd_of (m : MParams) {T : ℝ} (hdrift : m.isFwd = false ∨ m.intr = m.divr) (x : ℝ) :
    m.fwd x T = x * exp ((m.intr - m.divr) * T) := by
  rw [m.fwd_eq_forward]; unfold MParams.forward
  rcases hdrift with h | h
  · rw [h]; simp
  · rw [h]; simp

/-- **C14 (Bsm).** Representation of the knock-out price by the reflection principle: the price is the
discounted expectation of the vanilla payoff times the probability that the (log-)price path from
`S` to `S_T` has not touched the barrier.  The asset drifts at `intr - divr`
(`is_fwd = False`, or a driftless forward with `intr = divr`), and the strike is on the live side of
the barrier in the "non-reverse" cases (`B ≤ K` for a down-barrier call, `K ≤ B` for an up-barrier
put); this last restriction is necessary, see `bsm_barrier_dead_strike_wrong`. -/
theorem bsm_barrier_knockout_partial (m : MParams) {K B S T cp : ℝ} (hcp : Spec.IsCp cp)
    (hS : 0 < S) (hK : 0 < K) (hB : 0 < B) (hT : 0 < T) (hσ : eps ≤ m.sigma * √T)
    (hdrift : m.isFwd = false ∨ m.intr = m.divr)
    (hlive : (cp = 1 → B < S → B ≤ K) ∧ (cp = -1 → S ≤ B → K ≤ B)) :
    Bsm.priceBarrier m K B S T cp (-1) = Spec.discount m.intr T * Spec.gaussE fun z =>
      let ST := Spec.gbm (S * exp ((m.intr - m.divr) * T)) (m.sigma * √T) z
      Spec.payoff cp K ST * Spec.bridgeSurvival (log S) (log B) (log ST) (m.sigma ^ 2 * T) := by
  have hfwd := hfwd_of m (T := T) hdrift
  have hs : 0 < m.sigma * √T := lt_of_lt_of_le eps_pos hσ
  have hstd := sigmaStd_of_le hσ
  have hR : 0 < Bsm.spotReflected B S := by unfold Bsm.spotReflected; positivity
  have hXpos : ∀ z, 0 < Spec.gbm (m.fwd S T) (m.sigma * √T) z := fun z => by
    unfold Spec.gbm; have := m.fwd_pos hS T; positivity
  have hpos : ∀ K2, K2 = K ∨ K2 = B → 0 < K2 := by rintro K2 (rfl | rfl) <;> assumption
  unfold Bsm.priceBarrier
  rw [barrier_ko_abstract (D := m.df T) (X := Spec.gbm (m.fwd S T) (m.sigma * √T))
    (X' := Spec.gbm (m.fwd (Bsm.spotReflected B S) T) (m.sigma * √T))
    (w := imgW m S B T)
    (c := m.df T * (m.fwd (Bsm.spotReflected B S) T - K)) hcp (by norm_num)
    (fun K2 h => by rw [Bsm.priceSuboptimal_eq m hcp hS (hpos K2 h), hstd])
    (fun K2 h => by rw [Bsm.priceSuboptimal_eq m hcp hR (hpos K2 h), hstd]) ?_
    (integrable_gbm _ _) (measurable_gbm _ _) (integrable_gbm _ _) (measurable_gbm _ _) ?_ ?_ ?_ hlive]
  · rw [m.df_eq_spec]
    congr 2; ext z
    rw [hfwd]
    unfold Spec.bridgeSurvival
    simp only []
    congr 1
    have hz := hXpos z
    rw [hfwd] at hz
    have hsign : 0 < (S - B) * (Spec.gbm (S * exp ((m.intr - m.divr) * T)) (m.sigma * √T) z - B)
        ↔ 0 < (log S - log B) *
          (log (Spec.gbm (S * exp ((m.intr - m.divr) * T)) (m.sigma * √T) z) - log B) := by
      rw [mul_pos_iff, mul_pos_iff]
      simp only [sub_pos, sub_neg, log_lt_log_iff hB hS, log_lt_log_iff hB hz, log_lt_log_iff hS hB,
        log_lt_log_iff hz hB]
    simp only [hsign, imgW, hfwd]
  · intro K2
    unfold Bsm.priceSuboptimal
    rcases hcp with rfl | rfl
    · simp only [one_mul, neg_one_mul, ncdf_neg]; ring
    · simp only [one_mul, neg_one_mul, ncdf_neg, neg_neg]; ring
  · exact fun g => bsm_himg m hS hB hT hs hfwd g
  · exact fun g hg => bsm_himgI m hS hB hT hs hfwd g hg
  · rintro z (h | h)
    · simp [imgW, h]
    · simp [imgW, h]

/-- **C14 (Bsm).** Non-vacuity: a down-and-out call with carry. -/
example : ∃ (m : MParams) (K B S T : ℝ), m.intr ≠ m.divr ∧ B < S ∧ B ≤ K ∧ 0 < B ∧ 0 < T ∧
    eps ≤ m.sigma * √T :=
  ⟨⟨0.2, 0.05, 0.1, false⟩, 110, 90, 100, 1, by norm_num, by norm_num, by norm_num, by norm_num,
    by norm_num, by rw [sqrt_one]; linarith [eps_lt]⟩

/-- **C14 (Bsm).** The knock-out option is worthless when the spot is on the barrier. -/
theorem bsm_barrier_knockout_at_barrier (m : MParams) {K B T cp : ℝ} (hcp : Spec.IsCp cp)
    (hB : 0 < B) : Bsm.priceBarrier m K B B T cp (-1) = 0 := by
  have h1 : Bsm.barrierPsi m B B = 1 := by
    unfold Bsm.barrierPsi; rw [div_self hB.ne', one_rpow]
  have h2 : Bsm.spotReflected B B = B := by unfold Bsm.spotReflected; field_simp
  unfold Bsm.priceBarrier priceBarrierWith
  rw [h1, h2]
  rcases hcp with rfl | rfl
  · simp only [lt_irrefl, if_false, gt_iff_lt, show ¬ (0:ℝ) < -1 by norm_num, mul_one, one_mul]
    unfold Bsm.priceSuboptimal
    simp only [one_mul, neg_one_mul, ncdf_neg]; ring
  · simp only [lt_irrefl, if_false, gt_iff_lt, show ¬ (0:ℝ) < -1 by norm_num,
      show ((-1:ℝ) * -1) = 1 by norm_num, one_mul, zero_lt_one, if_true]
    ring

/-- **C14 (Bsm).** Trivially knocked-out options are worthless: an up-and-out call whose barrier is
not above the strike, and a down-and-out put whose barrier is not below the strike. -/
theorem bsm_barrier_trivial_zero (m : MParams) {K B S T : ℝ} :
    (S ≤ B → B ≤ K → Bsm.priceBarrier m K B S T 1 (-1) = 0) ∧
    (B < S → K ≤ B → Bsm.priceBarrier m K B S T (-1) (-1) = 0) := by
  constructor
  · intro h1 h2
    unfold Bsm.priceBarrier priceBarrierWith
    simp only [not_lt.2 h1, if_false, gt_iff_lt, show ¬ (0:ℝ) < -1 by norm_num, mul_one, one_mul,
      max_eq_left h2]
    ring
  · intro h1 h2
    unfold Bsm.priceBarrier priceBarrierWith
    have : -1 * max (-1 * K) (-1 * B) = K := by rw [max_eq_left (by linarith)]; ring
    simp only [h1, if_true, gt_iff_lt, show ¬ (0:ℝ) < -1 by norm_num, one_mul, if_false, this]
    ring

/-- A Brownian-bridge survival probability is a probability. -/
lemma bridgeSurvival_mem {x b y v : ℝ} (hv : 0 < v) :
    0 ≤ Spec.bridgeSurvival x b y v ∧ Spec.bridgeSurvival x b y v ≤ 1 := by
  unfold Spec.bridgeSurvival
  split_ifs with h
  · refine ⟨sub_nonneg.2 (exp_le_one_iff.2 ?_), by linarith [exp_pos (-2 * (x - b) * (y - b) / v)]⟩
    rw [show -2 * (x - b) * (y - b) / v = -(2 * ((x - b) * (y - b)) / v) by ring]
    have : 0 ≤ 2 * ((x - b) * (y - b)) / v := by positivity
    linarith
  · norm_num

/-- **C14 (Bsm).** A knock-out option is worth at least zero and at most the vanilla option (live
strike). -/
theorem bsm_barrier_knockout_bounds_partial (m : MParams) {K B S T cp : ℝ} (hcp : Spec.IsCp cp)
    (hS : 0 < S) (hK : 0 < K) (hB : 0 < B) (hT : 0 < T) (hσ : eps ≤ m.sigma * √T)
    (hdrift : m.isFwd = false ∨ m.intr = m.divr)
    (hlive : (cp = 1 → B < S → B ≤ K) ∧ (cp = -1 → S ≤ B → K ≤ B)) :
    0 ≤ Bsm.priceBarrier m K B S T cp (-1) ∧
      Bsm.priceBarrier m K B S T cp (-1) ≤ Bsm.price m K S T cp := by
  have hs : 0 < m.sigma * √T := lt_of_lt_of_le eps_pos hσ
  have hσ0 : m.sigma ≠ 0 := by intro h; rw [h] at hs; simp at hs
  have hv : 0 < m.sigma ^ 2 * T := by positivity
  have hD : 0 < Spec.discount m.intr T := by unfold Spec.discount; positivity
  have hp : ∀ x, 0 ≤ Spec.payoff cp K x := fun x => le_max_right _ _
  rw [bsm_barrier_knockout_partial m hcp hS hK hB hT hσ hdrift hlive]
  constructor
  · exact mul_nonneg hD.le (integral_nonneg fun z => mul_nonneg (hp _) (bridgeSurvival_mem hv).1)
  · rw [Bsm.price_eq_black, sigmaStd_of_le hσ, ← gaussE_black hcp (m.fwd_pos hS T) hK hs,
      m.df_eq_spec, hfwd_of m hdrift]
    refine mul_le_mul_of_nonneg_left (integral_mono_of_nonneg
      (ae_of_all _ fun z => mul_nonneg (hp _) (bridgeSurvival_mem hv).1)
      (integrable_payoff (integrable_gbm _ _) _ _) (ae_of_all _ fun z => ?_)) hD.le
    exact mul_le_of_le_one_right (hp _) (bridgeSurvival_mem hv).2

/-- **C14 (Bsm), violated.** For a down-and-out call whose strike lies strictly below the barrier
(`K < B < S`) the code ignores the barrier truncation of the payoff: the price is strictly smaller
than the discounted expectation of the payoff of the surviving paths. -/
theorem bsm_barrier_dead_strike_wrong (m : MParams) {K B S T : ℝ} (hK : 0 < K) (hKB : K < B)
    (hBS : B < S) (hT : 0 < T) (hσ : eps ≤ m.sigma * √T)
    (hdrift : m.isFwd = false ∨ m.intr = m.divr) :
    Bsm.priceBarrier m K B S T 1 (-1) < Spec.discount m.intr T * Spec.gaussE fun z =>
      let ST := Spec.gbm (S * exp ((m.intr - m.divr) * T)) (m.sigma * √T) z
      Spec.payoff 1 K ST * Spec.bridgeSurvival (log S) (log B) (log ST) (m.sigma ^ 2 * T) := by
  have hB : 0 < B := hK.trans hKB
  have hS : 0 < S := hB.trans hBS
  have hfwd := hfwd_of m (T := T) hdrift
  have hs : 0 < m.sigma * √T := lt_of_lt_of_le eps_pos hσ
  have hσ0 : m.sigma ≠ 0 := by intro h; rw [h] at hs; simp at hs
  have hv : 0 < m.sigma ^ 2 * T := by positivity
  have hstd := sigmaStd_of_le hσ
  have hD : 0 < Spec.discount m.intr T := by unfold Spec.discount; positivity
  have hR : 0 < Bsm.spotReflected B S := by unfold Bsm.spotReflected; positivity
  have hF := m.fwd_pos hS T
  set X := Spec.gbm (m.fwd S T) (m.sigma * √T) with hXd
  have hXpos : ∀ z, 0 < X z := fun z => by rw [hXd]; unfold Spec.gbm; positivity
  unfold Bsm.priceBarrier
  rw [barrier_ko_mirror (by norm_num) (Or.inl ⟨rfl, hBS⟩),
    Bsm.priceSuboptimal_eq m (Or.inl rfl) hS hK, Bsm.priceSuboptimal_eq m (Or.inl rfl) hR hK, hstd,
    m.df_eq_spec]
  simp only [subPay_self]
  rw [← hfwd S, ← hXd]
  have hI := integrable_payoff (integrable_gbm (m.fwd S T) (m.sigma * √T)) 1 K
  have hI2 := bsm_himgI m hS hB hT hs hfwd (Spec.payoff 1 K)
    (integrable_payoff (integrable_gbm _ _) 1 K)
  have himg := bsm_himg m hS hB hT hs hfwd (Spec.payoff 1 K)
  rw [← hXd] at hI hI2 himg
  have hIt : Integrable (fun z => Spec.payoff 1 K (X z)
      * Spec.bridgeSurvival (log S) (log B) (log (X z)) (m.sigma ^ 2 * T)) (gaussianReal 0 1) := by
    refine hI.mono' ?_ (ae_of_all _ fun z => ?_)
    · have hXm : Measurable X := measurable_gbm _ _
      refine Measurable.aestronglyMeasurable ?_
      unfold Spec.payoff Spec.bridgeSurvival
      refine Measurable.mul (by fun_prop) (Measurable.ite ?_ (by fun_prop) measurable_const)
      exact measurableSet_lt measurable_const (by fun_prop)
    · have hp : 0 ≤ Spec.payoff 1 K (X z) := le_max_right _ _
      rw [norm_of_nonneg (mul_nonneg hp (bridgeSurvival_mem hv).1)]
      exact mul_le_of_le_one_right hp (bridgeSurvival_mem hv).2
  rw [show ∀ a b c : ℝ, a * b - c * (a * Spec.gaussE fun z =>
      Spec.payoff 1 K (Spec.gbm (m.fwd (Bsm.spotReflected B S) T) (m.sigma * √T) z))
      = a * (b - c * Spec.gaussE fun z => Spec.payoff 1 K
        (Spec.gbm (m.fwd (Bsm.spotReflected B S) T) (m.sigma * √T) z)) from fun a b c => by ring, himg]
  refine mul_lt_mul_of_pos_left ?_ hD
  unfold Spec.gaussE
  have hId : Integrable (fun z => Spec.payoff 1 K (X z) - Spec.payoff 1 K (X z) * imgW m S B T z)
    (gaussianReal 0 1) := hI.sub hI2
  beta_reduce
  rw [← sub_pos, ← integral_sub hI hI2, ← integral_sub hIt hId]
  have hpt : ∀ z, (Spec.payoff 1 K (X z)
      * Spec.bridgeSurvival (log S) (log B) (log (X z)) (m.sigma ^ 2 * T)
      - (Spec.payoff 1 K (X z) - Spec.payoff 1 K (X z) * imgW m S B T z))
      = if B < X z then 0 else Spec.payoff 1 K (X z) * (imgW m S B T z - 1) := by
    intro z
    have hl : 0 < log S - log B := sub_pos.2 ((log_lt_log_iff hB hS).2 hBS)
    unfold Spec.bridgeSurvival
    by_cases hz : B < X z
    · have : 0 < log (X z) - log B := sub_pos.2 ((log_lt_log_iff hB (hXpos z)).2 hz)
      rw [if_pos (mul_pos hl this), if_pos hz]
      unfold imgW; rw [← hXd]; ring
    · have : log (X z) - log B ≤ 0 := sub_nonpos.2 ((log_le_log_iff (hXpos z) hB).2 (not_lt.1 hz))
      rw [if_neg (not_lt.2 (mul_nonpos_of_nonneg_of_nonpos hl.le this)), if_neg hz]
      ring
  have hw1 : ∀ z, X z ≤ B → 1 ≤ imgW m S B T z ∧ (X z < B → 1 < imgW m S B T z) := by
    intro z hz
    have hl : 0 < log S - log B := sub_pos.2 ((log_lt_log_iff hB hS).2 hBS)
    have h1 : log (X z) - log B ≤ 0 := sub_nonpos.2 ((log_le_log_iff (hXpos z) hB).2 hz)
    have e : -2 * (log S - log B) * (log (X z) - log B) / (m.sigma ^ 2 * T)
        = (2 * (log S - log B) * -(log (X z) - log B)) / (m.sigma ^ 2 * T) := by ring
    unfold imgW; rw [← hXd, e]
    constructor
    · exact one_le_exp (div_nonneg (mul_nonneg (by positivity) (by linarith)) hv.le)
    · intro h2
      have h3 : log (X z) - log B < 0 := sub_neg.2 ((log_lt_log_iff (hXpos z) hB).2 h2)
      rw [one_lt_exp_iff]
      exact div_pos (mul_pos (by positivity) (by linarith)) hv
  refine (integral_pos_iff_support_of_nonneg ?_ (hIt.sub hId)).2 ?_
  · intro z
    simp only [Pi.zero_apply, Pi.sub_apply]
    rw [hpt]
    split_ifs with h
    · exact le_rfl
    · exact mul_nonneg (le_max_right _ _) (by linarith [(hw1 z (not_lt.1 h)).1])
  · have hcont : Continuous X := by rw [hXd]; unfold Spec.gbm; fun_prop
    have hopen : IsOpen (X ⁻¹' Ioo K B) := isOpen_Ioo.preimage hcont
    have hne : (X ⁻¹' Ioo K B).Nonempty := by
      refine ⟨(log ((K + B) / 2 / m.fwd S T) + (m.sigma * √T) ^ 2 / 2) / (m.sigma * √T), ?_⟩
      have : X ((log ((K + B) / 2 / m.fwd S T) + (m.sigma * √T) ^ 2 / 2) / (m.sigma * √T))
          = (K + B) / 2 := by
        rw [hXd]; unfold Spec.gbm
        rw [mul_div_cancel₀ _ hs.ne', add_sub_cancel_right, exp_log (by positivity)]
        field_simp
      simp only [mem_preimage, this]
      constructor <;> linarith
    have hvol := hopen.measure_pos volume hne
    have hg : 0 < (gaussianReal 0 1) (X ⁻¹' Ioo K B) := by
      rw [pos_iff_ne_zero]
      intro h0
      exact hvol.ne' ((gaussianReal_absolutelyContinuous' 0 one_ne_zero) h0)
    refine lt_of_lt_of_le hg (measure_mono fun z hz => ?_)
    simp only [mem_preimage, mem_Ioo] at hz
    rw [Function.mem_support, Pi.sub_apply, hpt, if_neg (not_lt.2 hz.2.le)]
    have h1 := (hw1 z hz.2.le).2 hz.2
    have h2 : Spec.payoff 1 K (X z) = X z - K := by
      unfold Spec.payoff; rw [one_mul, max_eq_left (by linarith)]
    rw [h2]
    exact (mul_pos (by linarith) (by linarith)).ne'

/-- **C14 (Bsm), violated.** With `is_fwd = True` the quoted price is a (driftless) forward, but the
reflection weight still uses the drift `intr - divr`.  For a down-and-out call on the forward with
`intr > divr` the price is strictly larger than the discounted expectation over surviving paths. -/
theorem bsm_barrier_is_fwd_wrong (m : MParams) {K B S T : ℝ} (hfw : m.isFwd = true)
    (hr : m.divr < m.intr) (hB : 0 < B) (hBS : B < S) (hBK : B ≤ K) (hT : 0 < T)
    (hσ : eps ≤ m.sigma * √T) :
    Spec.discount m.intr T * Spec.gaussE (fun z =>
      let ST := Spec.gbm S (m.sigma * √T) z
      Spec.payoff 1 K ST * Spec.bridgeSurvival (log S) (log B) (log ST) (m.sigma ^ 2 * T))
      < Bsm.priceBarrier m K B S T 1 (-1) := by
  have hS : 0 < S := hB.trans hBS
  have hK : 0 < K := lt_of_lt_of_le hB hBK
  have hs : 0 < m.sigma * √T := lt_of_lt_of_le eps_pos hσ
  have hσ0 : m.sigma ≠ 0 := by intro h; rw [h] at hs; simp at hs
  have hR : 0 < Bsm.spotReflected B S := by unfold Bsm.spotReflected; positivity
  -- the correct value is the code's value for a model without rates
  have h0 := bsm_barrier_knockout_partial ⟨m.sigma, 0, 0, true⟩ (K := K) (cp := 1) (Or.inl rfl) hS hK
    hB hT hσ (Or.inr rfl) ⟨fun _ _ => hBK, fun h => by norm_num at h⟩
  simp only [sub_self, zero_mul, exp_zero, mul_one] at h0
  have hd : Spec.discount 0 T = 1 := by simp [Spec.discount]
  rw [hd, one_mul] at h0
  simp only []
  rw [← h0]
  unfold Bsm.priceBarrier
  rw [barrier_ko_mirror (by norm_num) (Or.inl ⟨rfl, hBS⟩),
    barrier_ko_mirror (by norm_num) (Or.inl ⟨rfl, hBS⟩)]
  simp only [Bsm.priceSuboptimal_self, Bsm.price_eq_black]
  have hf : ∀ x, m.fwd x T = x := fun x => by unfold MParams.fwd; rw [hfw]; simp
  have hf' : ∀ x, (MParams.mk m.sigma 0 0 true).fwd x T = x := fun x => by
    unfold MParams.fwd; simp
  have hdf : (MParams.mk m.sigma 0 0 true).df T = 1 := by unfold MParams.df; simp
  have hbk := black_pos (cp := 1) (Or.inl rfl) hR hK (sigmaStd_pos m.sigma T)
  have hlt : Bsm.barrierPsi m B S < Bsm.barrierPsi ⟨m.sigma, 0, 0, true⟩ B S := by
    unfold Bsm.barrierPsi
    refine rpow_lt_rpow_of_exponent_gt (by positivity) ((div_lt_one hS).2 hBS) ?_
    simp only [sub_self, mul_zero, zero_div]
    have : 0 < 2 * (m.intr - m.divr) / m.sigma ^ 2 := by
      have : 0 < m.intr - m.divr := by linarith
      positivity
    linarith
  rw [hdf, ← m.df_eq_spec]
  simp only [hf, hf', one_mul]
  have := mul_lt_mul_of_pos_right hlt hbk
  have hD := m.df_pos T
  nlinarith [mul_lt_mul_of_pos_left this hD]

/-- Non-vacuity of the two counterexample theorems. -/
example : ∃ (m : MParams) (K B S T : ℝ), 0 < K ∧ K < B ∧ B < S ∧ 0 < T ∧ eps ≤ m.sigma * √T
    ∧ m.isFwd = false :=
  ⟨⟨0.2, 0.05, 0.1, false⟩, 80, 90, 100, 1, by norm_num, by norm_num, by norm_num, by norm_num,
    by rw [sqrt_one]; linarith [eps_lt], rfl⟩

example : ∃ (m : MParams) (K B S T : ℝ), m.isFwd = true ∧ m.divr < m.intr ∧ 0 < B ∧ B < S ∧ B ≤ K ∧
    0 < T ∧ eps ≤ m.sigma * √T :=
  ⟨⟨0.2, 0.05, 0, true⟩, 100, 90, 100, 1, rfl, by norm_num, by norm_num, by norm_num, by norm_num,
    by norm_num, by rw [sqrt_one]; linarith [eps_lt]⟩

/-! ### Norm -/

/-- **C14 (Norm).** Knock-in plus knock-out is the Bachelier expectation of the vanilla payoff. -/
theorem norm_barrier_in_plus_out (m : MParams) {K B S T cp : ℝ} (hcp : Spec.IsCp cp)
    (hσ : eps ≤ m.sigma * √T) :
    Norm.priceBarrier m K B S T cp 1 + Norm.priceBarrier m K B S T cp (-1)
      = Spec.discount m.intr T * Spec.gaussE fun z => Spec.payoff cp K
          (Spec.abm (Spec.forward m.isFwd m.intr m.divr S T) (m.sigma * √T) z) := by
  have h := Norm.priceSuboptimal_eq m (K := K) (K2 := K) (S := S) (T := T) hcp
  simp only [subPay_self, sigmaStd_of_le hσ, m.fwd_eq_forward, m.forward_eq_spec, m.df_eq_spec] at h
  rw [← h]
  unfold Norm.priceBarrier priceBarrierWith
  simp only [show (1:ℝ) > 0 by norm_num, if_true, show ¬ (-1:ℝ) > 0 by norm_num, if_false]
  ring

/-- **C14 (Norm).** The knock-out option is worthless when the spot is on the barrier. -/
theorem norm_barrier_knockout_at_barrier (m : MParams) {K B T cp : ℝ} (hcp : Spec.IsCp cp) :
    Norm.priceBarrier m K B B T cp (-1) = 0 := by
  have h2 : 2 * B - B = B := by ring
  unfold Norm.priceBarrier priceBarrierWith
  rw [h2]
  rcases hcp with rfl | rfl
  · simp only [lt_irrefl, if_false, gt_iff_lt, show ¬ (0:ℝ) < -1 by norm_num, mul_one, one_mul]
    unfold Norm.priceSuboptimal
    simp only [one_mul, neg_one_mul, ncdf_neg]; ring
  · simp only [lt_irrefl, if_false, gt_iff_lt, show ¬ (0:ℝ) < -1 by norm_num,
      show ((-1:ℝ) * -1) = 1 by norm_num, one_mul, zero_lt_one, if_true]
    ring

/-- **C14 (Norm).** Reflection-principle representation of the knock-out price when the asset has no
drift (`psi = 1` in the code: "need to fix this") and the strike is on the live side. -/
theorem norm_barrier_knockout_partial (m : MParams) {K B S T cp : ℝ} (hcp : Spec.IsCp cp)
    (hT : 0 < T) (hσ : eps ≤ m.sigma * √T) (hdrift : m.isFwd = true ∨ m.intr = m.divr)
    (hlive : (cp = 1 → B < S → B ≤ K) ∧ (cp = -1 → S ≤ B → K ≤ B)) :
    Norm.priceBarrier m K B S T cp (-1) = Spec.discount m.intr T * Spec.gaussE fun z =>
      let ST := Spec.abm S (m.sigma * √T) z
      Spec.payoff cp K ST * Spec.bridgeSurvival S B ST (m.sigma ^ 2 * T) := by
  have hs : 0 < m.sigma * √T := lt_of_lt_of_le eps_pos hσ
  have hσ0 : m.sigma ≠ 0 := by intro h; rw [h] at hs; simp at hs
  have hTT : √T ^ 2 = T := sq_sqrt hT.le
  have hfwd : ∀ x, m.fwd x T = x := by
    intro x
    rw [m.fwd_eq_forward]; unfold MParams.forward
    rcases hdrift with h | h <;> simp [h]
  have hstd := sigmaStd_of_le hσ
  set c := 2 * (B - S) / (m.sigma * √T) with hc
  have hX' : ∀ z, Spec.abm (2 * B - S) (m.sigma * √T) z = Spec.abm S (m.sigma * √T) (z + c) := by
    intro z; unfold Spec.abm; rw [hc]; field_simp; ring
  have hw : ∀ z, exp (c * z - c ^ 2 / 2)
      = exp (-2 * (S - B) * (Spec.abm S (m.sigma * √T) z - B) / (m.sigma ^ 2 * T)) := by
    intro z
    congr 1
    rw [show m.sigma ^ 2 * T = (m.sigma * √T) ^ 2 by rw [mul_pow, hTT], hc]
    unfold Spec.abm
    field_simp
    ring
  unfold Norm.priceBarrier
  rw [barrier_ko_abstract (D := m.df T) (X := Spec.abm S (m.sigma * √T))
    (X' := Spec.abm (2 * B - S) (m.sigma * √T)) (w := fun z => exp (c * z - c ^ 2 / 2))
    (c := m.df T * (2 * B - S - K)) hcp (by norm_num)
    (fun K2 _ => by rw [Norm.priceSuboptimal_eq m hcp, hstd, hfwd])
    (fun K2 _ => by rw [Norm.priceSuboptimal_eq m hcp, hstd, hfwd]) ?_
    (integrable_abm _ _) (measurable_abm _ _) (integrable_abm _ _) (measurable_abm _ _) ?_ ?_ ?_ hlive]
  · rw [m.df_eq_spec]
    congr 2; ext z
    unfold Spec.bridgeSurvival
    simp only [hw]
  · intro K2
    unfold Norm.priceSuboptimal
    simp only [hfwd]
    rcases hcp with rfl | rfl
    · simp only [one_mul, neg_one_mul, ncdf_neg]; ring
    · simp only [one_mul, neg_one_mul, ncdf_neg, neg_neg]; ring
  · intro g
    rw [one_mul]; simp only [hX']
    exact gaussE_shift (fun z => g (Spec.abm S (m.sigma * √T) z)) c
  · intro g hg
    simp only [hX'] at hg
    exact integrable_shift (fun z => g (Spec.abm S (m.sigma * √T) z)) c hg
  · rintro z (h | h)
    · simp [hw, h]
    · simp [hw, h]

example : ∃ (m : MParams) (K B S T : ℝ), (m.isFwd = true ∨ m.intr = m.divr) ∧ B < S ∧ B ≤ K ∧ 0 < T ∧
    eps ≤ m.sigma * √T :=
  ⟨⟨20, 0.05, 0, true⟩, 100, 90, 100, 1, Or.inl rfl, by norm_num, by norm_num, by norm_num,
    by rw [sqrt_one]; linarith [eps_lt]⟩

end PyFENG
