import Verif.Props.Cev
import Verif.Lemmas.PriceLaw
import Verif.Lemmas.Ncx2Lim
import Mathlib.Analysis.SpecialFunctions.Pow.Asymptotics

/-!
# C83: the law behind CEV prices
-/

namespace PyFENG

open Real Filter Topology Set MeasureTheory

namespace Cev

/-! ### Limits of the levels -/

lemma tendsto_lev_top {b V : ℝ} (hb : 0 < b) (hV : 0 < V) : Tendsto (cevLev b V) atTop atTop := by
  unfold cevLev
  exact (tendsto_rpow_atTop (by linarith)).atTop_div_const (by linarith)

lemma tendsto_lev_zero {b V : ℝ} (hb : 0 < b) : Tendsto (cevLev b V) (𝓝[>] 0) (𝓝 0) := by
  unfold cevLev
  have h : Tendsto (fun x : ℝ => x ^ (2 * b)) (𝓝[>] 0) (𝓝 0) := by
    have := (continuousAt_rpow_const (0 : ℝ) (2 * b) (Or.inr (by linarith))).tendsto
    rw [zero_rpow (by linarith)] at this
    exact this.mono_left nhdsWithin_le_nhds
  simpa using h.div_const (2 * V)

lemma tendsto_lev_top' {b V : ℝ} (hb : b < 0) : Tendsto (cevLev b V) atTop (𝓝 0) := by
  unfold cevLev
  have h : Tendsto (fun x : ℝ => x ^ (-(2 * -b))) atTop (𝓝 0) := tendsto_rpow_neg_atTop (by linarith)
  rw [show -(2 * -b) = 2 * b by ring] at h
  simpa using h.div_const (2 * V)

lemma tendsto_lev_zero' {b V : ℝ} (hb : b < 0) (hV : 0 < V) : Tendsto (cevLev b V) (𝓝[>] 0) atTop := by
  unfold cevLev
  exact (tendsto_rpow_neg_nhdsGT_zero (by linarith)).atTop_div_const (by linarith)

lemma tendsto_ncP_mu_zero {a y : ℝ} (ha : 0 < a) (hy : 0 ≤ y) {ι : Type*} {l : Filter ι} {u : ι → ℝ} (hu : Tendsto u l (𝓝 0)) :
    Tendsto (fun i => ncP a y (u i)) l (𝓝 (gammaInc a y)) := by
  have h := (hasDerivAt_ncP_mu ha hy 0).continuousAt.tendsto
  rw [ncP_zero] at h
  exact h.comp hu

lemma tendsto_ncP_mu_top {a y : ℝ} (ha : 0 < a) (hy : 0 ≤ y) {ι : Type*} {l : Filter ι} {u : ι → ℝ} (hu : Tendsto u l atTop) :
    Tendsto (fun i => ncP a y (u i)) l (𝓝 0) := by
  have h2 : Tendsto (fun i => exp y * (1 / 2) ^ a * exp (-(u i / 2))) l (𝓝 (exp y * (1 / 2) ^ a * 0)) :=
    (tendsto_exp_neg_atTop_nhds_zero.comp (hu.atTop_div_const (by norm_num : (0 : ℝ) < 2))).const_mul _
  rw [mul_zero] at h2
  refine tendsto_of_tendsto_of_tendsto_of_le_of_le' tendsto_const_nhds h2 ?_ ?_
  · filter_upwards [hu.eventually_ge_atTop 0] with i hi using ncP_nonneg ha hy hi
  · filter_upwards [hu.eventually_ge_atTop 0] with i hi using ncP_le_exp ha hy hi

lemma tendsto_ncP_y_zero {a mu : ℝ} (ha : 0 < a) (hm : 0 ≤ mu) {ι : Type*} {l : Filter ι} {u : ι → ℝ} (hu : Tendsto u l (𝓝 0))
    (hp : ∀ᶠ i in l, 0 ≤ u i) : Tendsto (fun i => ncP a (u i) mu) l (𝓝 0) := by
  have h1 : Tendsto (fun i => u i ^ a / Real.Gamma (a + 1)) l (𝓝 (0 ^ a / Real.Gamma (a + 1))) :=
    (((continuousAt_rpow_const (0 : ℝ) a (Or.inr ha.le)).tendsto).comp hu).div_const _
  rw [zero_rpow ha.ne', zero_div] at h1
  refine tendsto_of_tendsto_of_tendsto_of_le_of_le' tendsto_const_nhds h1 ?_ ?_
  · filter_upwards [hp] with i hi using ncP_nonneg ha hi hm
  · filter_upwards [hp] with i hi using (ncP_le_gammaInc ha hi hm).trans (gammaInc_le_pow ha hi)

/-! ### The call curve -/

/-- The terminal density of the price, `beta < 1`. -/
noncomputable def densLt (b F V s : ℝ) : ℝ :=
  ncG (1 / (2 * b) + 1) (cevLev b V F) (cevLev b V s) * (cevLev b V s * (2 * b / s))

/-- The terminal density of the price, `beta > 1`. -/
noncomputable def densGt (b F V s : ℝ) : ℝ :=
  ncG (-1 / (2 * b) + 1) (cevLev b V s) (cevLev b V F) * (cevLev b V s * (-(2 * b) / s))

lemma callCurve_lt {beta F V : ℝ} (hb : beta < 1) (hF : 0 < F) (hV : 0 < V) :
    CallCurve (fun s => coreB beta F s V) (fun s => dK beta F s V) (densLt (1 - beta) F V) F 0
      (gammaInc (1 / (2 * (1 - beta))) (cevLev (1 - beta) V F)) := by
  have hb' : 0 < 1 - beta := by linarith
  have hnu : 0 < 1 / (2 * (1 - beta)) := by positivity
  have y0 := cevLev_pos (b := 1 - beta) hV hF
  have hsG : Tendsto (fun s => s * dK beta F s V) atTop (𝓝 0) := by
    unfold dK
    simp only [hb, if_true]
    set nu := 1 / (2 * (1 - beta)) with hnudef
    have h1 := (tendsto_rpow_mul_exp_neg_mul_atTop_nhds_zero nu (1 / 2) (by norm_num)).comp (tendsto_lev_top hb' hV)
    have h2 := h1.const_mul ((2 * V) ^ nu * (exp (cevLev (1 - beta) V F) * (1 / 2) ^ nu))
    rw [mul_zero] at h2
    refine tendsto_of_tendsto_of_tendsto_of_le_of_le' tendsto_const_nhds h2 ?_ ?_
    · filter_upwards [eventually_gt_atTop 0] with s hs
      exact mul_nonneg hs.le (ncP_nonneg hnu y0.le (cevLev_pos hV hs).le)
    · filter_upwards [eventually_gt_atTop 0] with s hs
      have h3 := ncP_le_exp hnu y0.le (cevLev_pos (b := 1 - beta) hV hs).le
      have h4 := cevLev_rpow (b := 1 - beta) hb'.ne' hV hs
      rw [← hnudef] at h4
      have h5 : (0 : ℝ) < (2 * V) ^ nu := by positivity
      simp only [Function.comp_apply]
      rw [h4]
      calc _ ≤ s * (exp (cevLev (1 - beta) V F) * (1 / 2) ^ nu * exp (-(cevLev (1 - beta) V s / 2))) :=
            mul_le_mul_of_nonneg_left h3 hs.le
        _ = _ := by
            rw [show -(1 / 2) * cevLev (1 - beta) V s = -(cevLev (1 - beta) V s / 2) by ring]
            field_simp
  have lev0 : ∀ᶠ s in 𝓝[>] (0 : ℝ), 0 ≤ cevLev (1 - beta) V s := by
    filter_upwards [self_mem_nhdsWithin] with s hs using (cevLev_pos hV hs).le
  have hG0 : Tendsto (fun s => dK beta F s V) (𝓝[>] 0) (𝓝 (gammaInc (1 / (2 * (1 - beta))) (cevLev (1 - beta) V F))) := by
    unfold dK
    simp only [hb, if_true]
    exact tendsto_ncP_mu_zero hnu y0.le (tendsto_lev_zero hb')
  have hid : Tendsto (fun s : ℝ => s) (𝓝[>] 0) (𝓝 0) := tendsto_nhdsWithin_of_tendsto_nhds tendsto_id
  have eC : ∀ s, coreB beta F s V = F * (1 - ncP (1 / (2 * (1 - beta)) + 1) (cevLev (1 - beta) V s) (cevLev (1 - beta) V F))
      - s * dK beta F s V := by
    intro s
    unfold coreB dK cevLt
    simp only [hb, if_true]
  refine ⟨fun s hs => ?_, fun s hs => ?_, fun s hs => ?_, hG0, hsG, ?_, ?_, gammaInc_le_one hnu y0.le⟩
  · refine (hasDerivAt_coreB hb.ne (hasDerivAt_const s F) (hasDerivAt_id' s) (hasDerivAt_const s V) hF hs hV).congr_deriv ?_
    ring
  · unfold dK densLt
    simp only [hb, if_true]
    refine (hasDerivAt_ncP hnu (hasDerivAt_const s (cevLev (1 - beta) V F))
      (hasDerivAt_cevLev (b := 1 - beta) (hasDerivAt_const s V) (hasDerivAt_id' s) hV hs) y0).congr_deriv ?_
    ring
  · unfold densLt
    have := ncG_pos (a := 1 / (2 * (1 - beta)) + 1) (by linarith) y0 (cevLev_pos (b := 1 - beta) hV hs).le
    have := cevLev_pos (b := 1 - beta) hV hs
    have hs' : 0 < s := hs
    positivity
  · simp only [eC]
    have h1 := tendsto_ncP_y_zero (a := 1 / (2 * (1 - beta)) + 1) (by linarith) y0.le (tendsto_lev_zero (V := V) hb') lev0
    have h2 := ((h1.const_sub 1).const_mul F).sub (hid.mul hG0)
    simpa using h2
  · simp only [eC]
    have h1 := (tendsto_ncP_y_top (a := 1 / (2 * (1 - beta)) + 1) (by linarith) y0.le).comp (tendsto_lev_top hb' hV)
    have h2 := ((h1.const_sub 1).const_mul F).sub hsG
    simpa using h2

lemma callCurve_gt {beta F V : ℝ} (hb : 1 < beta) (hF : 0 < F) (hV : 0 < V) :
    CallCurve (fun s => coreB beta F s V) (fun s => dK beta F s V) (densGt (1 - beta) F V) F
      (F * gammaSf (cevLev (1 - beta) V F) (-1 / (2 * (1 - beta)))) 1 := by
  have hb' : 1 - beta < 0 := by linarith
  have hnu : 0 < -1 / (2 * (1 - beta)) := div_pos_of_neg_of_neg (by norm_num) (by linarith)
  have y0 := cevLev_pos (b := 1 - beta) hV hF
  have hbn : ¬ beta < 1 := not_lt.2 hb.le
  have hsG : Tendsto (fun s => s * dK beta F s V) atTop (𝓝 0) := by
    unfold dK
    simp only [hbn, if_false]
    set nu := -1 / (2 * (1 - beta)) with hnudef
    have h2 := (tendsto_lev_top' (V := V) hb').const_mul ((2 * V) ^ (1 / (2 * (1 - beta))) / Real.Gamma (nu + 1 + 1))
    rw [mul_zero] at h2
    refine tendsto_of_tendsto_of_tendsto_of_le_of_le' tendsto_const_nhds h2 ?_ ?_
    · filter_upwards [eventually_gt_atTop 0] with s hs
      exact mul_nonneg hs.le (ncP_nonneg (by linarith) (cevLev_pos hV hs).le y0.le)
    · filter_upwards [eventually_gt_atTop 0] with s hs
      have hy := cevLev_pos (b := 1 - beta) hV hs
      have h3 := (ncP_le_gammaInc (a := nu + 1) (by linarith) hy.le y0.le).trans (gammaInc_le_pow (by linarith) hy.le)
      have h4 := cevLev_rpow_neg (b := 1 - beta) hb'.ne hV hs
      rw [← hnudef] at h4
      refine (mul_le_mul_of_nonneg_left h3 hs.le).trans (le_of_eq ?_)
      rw [rpow_add_one hy.ne', h4]
      field_simp
  have lev0 : ∀ᶠ s in atTop, 0 ≤ cevLev (1 - beta) V s := by
    filter_upwards [eventually_gt_atTop 0] with s hs using (cevLev_pos hV hs).le
  have hG0 : Tendsto (fun s => dK beta F s V) (𝓝[>] 0) (𝓝 1) := by
    unfold dK
    simp only [hbn, if_false]
    exact (tendsto_ncP_y_top (a := -1 / (2 * (1 - beta)) + 1) (by linarith) y0.le).comp (tendsto_lev_zero' hb' hV)
  have hid : Tendsto (fun s : ℝ => s) (𝓝[>] 0) (𝓝 0) := tendsto_nhdsWithin_of_tendsto_nhds tendsto_id
  have eC : ∀ s, coreB beta F s V = F * (1 - ncP (-1 / (2 * (1 - beta))) (cevLev (1 - beta) V F) (cevLev (1 - beta) V s))
      - s * dK beta F s V := by
    intro s
    unfold coreB dK cevGt
    simp only [hbn, if_false]
  refine ⟨fun s hs => ?_, fun s hs => ?_, fun s hs => ?_, hG0, hsG, ?_, ?_, le_rfl⟩
  · refine (hasDerivAt_coreB hb.ne' (hasDerivAt_const s F) (hasDerivAt_id' s) (hasDerivAt_const s V) hF hs hV).congr_deriv ?_
    ring
  · unfold dK densGt
    simp only [hbn, if_false]
    refine (hasDerivAt_ncP (a := -1 / (2 * (1 - beta)) + 1) (by linarith)
      (hasDerivAt_cevLev (b := 1 - beta) (hasDerivAt_const s V) (hasDerivAt_id' s) hV hs)
      (hasDerivAt_const s (cevLev (1 - beta) V F)) (cevLev_pos hV hs)).congr_deriv ?_
    ring
  · unfold densGt
    have := ncG_pos (a := -1 / (2 * (1 - beta)) + 1) (by linarith) (cevLev_pos (b := 1 - beta) hV hs) y0.le
    have := cevLev_pos (b := 1 - beta) hV hs
    have hs' : 0 < s := hs
    have h3 : 0 < -(2 * (1 - beta)) := by linarith
    positivity
  · simp only [eC]
    have h1 := tendsto_ncP_mu_top hnu y0.le (tendsto_lev_zero' hb' hV)
    have h2 := ((h1.const_sub 1).const_mul F).sub (hid.mul hG0)
    simpa using h2
  · simp only [eC]
    have h1 := tendsto_ncP_mu_zero hnu y0.le (tendsto_lev_top' (V := V) hb')
    have h2 := ((h1.const_sub 1).const_mul F).sub hsG
    simpa [gammaSf] using h2

/-! ### Prices as expectations -/

lemma fwd_spec (m : Cev) (S T : ℝ) : Spec.forward m.isFwd m.intr m.divr S T = m.mp.fwd S T := by
  rw [MParams.fwd_eq_forward, MParams.forward_eq_spec]; rfl

lemma massZero_eq (m : Cev) (hb : m.beta < 1) {S T : ℝ} (hF : 0 < m.mp.fwd S T) :
    m.massZero S T = some (1 - gammaInc (1 / (2 * (1 - m.beta))) (m.lev T (m.mp.fwd S T))) := by
  have h := z0_eq m hF T
  have ha : (0.5 : ℝ) / (1 - m.beta) = 1 / (2 * (1 - m.beta)) := by
    rw [show (0.5 : ℝ) = 1 / 2 by norm_num, div_div]
  have hpos : ¬ ((1 : ℝ) / (2 * (1 - m.beta)) ≤ 0) := not_le.2 (div_pos one_pos (by linarith))
  unfold massZero gammaSf
  simp only [show m.mp.forward S T = m.mp.fwd S T by rw [MParams.fwd_eq_forward], ha, hpos, if_false]
  congr 3
  rw [show (0.5 : ℝ) = 1 / 2 by norm_num, div_div, ← one_div_mul_one_div, h]
  ring

/-- **C83**: for `beta < 1` all CEV prices at one expiry are discounted expectations of the payoff under one law of the terminal price: a
probability on `[0, ∞)` with mean equal to the forward, whose atom at zero is what `mass_zero` returns. -/
theorem cev_price_eq_expectation (m : Cev) (hb : m.beta < 1) (hs : 0 < m.sigma) {S T : ℝ} (hS : 0 < S) (hT : 0 < T)
    (hv : eps ≤ (m.sigma / Spec.forward m.isFwd m.intr m.divr S T ^ (1 - m.beta)) ^ 2 * T) :
    ∃ μ : Measure ℝ, IsProbabilityMeasure μ ∧ μ (Iio 0) = 0 ∧ Integrable (fun s => s) μ ∧
      ∫ s, s ∂μ = Spec.forward m.isFwd m.intr m.divr S T ∧ m.massZero S T = some (μ {0}).toReal ∧
      ∀ K > 0, ∀ cp, Spec.IsCp cp → m.price K S T cp = Spec.discount m.intr T * ∫ s, Spec.payoff cp K s ∂μ := by
  rw [fwd_spec] at hv ⊢
  have hF := m.mp.fwd_pos hS T
  have hW := m.effVar_pos hb.ne hs hT
  have h := callCurve_lt hb hF hW
  have h4 : Spec.discount m.intr T = m.mp.df T := (m.mp.df_eq_spec T).symm
  refine ⟨_, h.prob, CallCurve.mixLaw_neg _ _, h.mean.1, by rw [h.mean.2, sub_zero], ?_, ?_⟩
  · rw [CallCurve.mixLaw_zero, ENNReal.toReal_ofReal (by linarith [h.hg0]), m.massZero_eq hb hF]
    rfl
  · intro K hK cp hcp
    rw [h4, m.price_eq hcp hF hK hv]
    congr 1
    unfold core Spec.payoff
    rcases hcp with rfl | rfl
    · have := (h.call_law hK).2
      simp only [gt_iff_lt, zero_lt_one, if_true, add_zero, one_mul]
      rw [this, sub_zero]
    · have := h.put_law hK
      simp only [gt_iff_lt, show ¬ (0 : ℝ) < -1 by norm_num, if_false, neg_mul, one_mul, neg_sub]
      rw [this]
      ring

/-- **C83**: for `beta > 1` the terminal price is positive with mean strictly below the forward (the discounted price is a strict local
martingale): puts are discounted expectations, calls are kept in parity and exceed the expected payoff by the discounted mean defect. -/
theorem cev_price_beta_gt_one (m : Cev) (hb : 1 < m.beta) (hs : 0 < m.sigma) {S T : ℝ} (hS : 0 < S) (hT : 0 < T)
    (hv : eps ≤ (m.sigma / Spec.forward m.isFwd m.intr m.divr S T ^ (1 - m.beta)) ^ 2 * T) :
    ∃ μ : Measure ℝ, IsProbabilityMeasure μ ∧ μ (Iic 0) = 0 ∧ Integrable (fun s => s) μ ∧
      ∫ s, s ∂μ < Spec.forward m.isFwd m.intr m.divr S T ∧
      ∀ K > 0, m.price K S T (-1) = Spec.discount m.intr T * ∫ s, Spec.payoff (-1) K s ∂μ ∧
        m.price K S T 1 = Spec.discount m.intr T * (∫ s, Spec.payoff 1 K s ∂μ
          + (Spec.forward m.isFwd m.intr m.divr S T - ∫ s, s ∂μ)) := by
  rw [fwd_spec] at hv ⊢
  have hF := m.mp.fwd_pos hS T
  have hW := m.effVar_pos hb.ne' hs hT
  have h := callCurve_gt hb hF hW
  have h4 : Spec.discount m.intr T = m.mp.df T := (m.mp.df_eq_spec T).symm
  have hnu : 0 < -1 / (2 * (1 - m.beta)) := div_pos_of_neg_of_neg (by norm_num) (by linarith)
  refine ⟨_, h.prob, ?_, h.mean.1, ?_, ?_⟩
  · rw [← Iio_union_right, measure_union_null_iff]
    refine ⟨CallCurve.mixLaw_neg _ _, ?_⟩
    rw [CallCurve.mixLaw_zero]
    simp
  · rw [h.mean.2]
    have := gammaInc_strict hnu (cevLev_pos (b := 1 - m.beta) hW hF).le
    have : 0 < m.mp.fwd S T * gammaSf (cevLev (1 - m.beta) (m.effVar T) (m.mp.fwd S T)) (-1 / (2 * (1 - m.beta))) := by
      unfold gammaSf
      exact mul_pos hF (by linarith)
    linarith
  · intro K hK
    rw [h4, m.price_eq (Or.inr rfl) hF hK hv, m.price_eq (Or.inl rfl) hF hK hv]
    unfold core Spec.payoff
    have h1 := (h.call_law hK).2
    have h2 := h.put_law hK
    simp only [gt_iff_lt, zero_lt_one, if_true, add_zero, one_mul, show ¬ (0 : ℝ) < -1 by norm_num, if_false, neg_mul, neg_sub]
    rw [h1, h2, h.mean.2]
    constructor
    · ring
    · ring

/-- **C83**: no-arbitrage bounds on either side of `beta = 1`: the put lies in `[df max(K-F,0), df K]`, the call in `[df max(F-K,0), df F]`. -/
theorem cev_price_bounds (m : Cev) (hb : m.beta ≠ 1) (hs : 0 < m.sigma) {K S T : ℝ} (hK : 0 < K) (hS : 0 < S) (hT : 0 < T)
    (hv : eps ≤ (m.sigma / Spec.forward m.isFwd m.intr m.divr S T ^ (1 - m.beta)) ^ 2 * T) :
    m.price K S T 1 ∈ Icc (Spec.discount m.intr T * max (Spec.forward m.isFwd m.intr m.divr S T - K) 0)
      (Spec.discount m.intr T * Spec.forward m.isFwd m.intr m.divr S T) ∧
    m.price K S T (-1) ∈ Icc (Spec.discount m.intr T * max (K - Spec.forward m.isFwd m.intr m.divr S T) 0) (Spec.discount m.intr T * K) := by
  have hpar := m.cev_parity K S T
  unfold Spec.Parity at hpar
  have hput : ∃ μ : Measure ℝ, IsProbabilityMeasure μ ∧ μ (Iio 0) = 0 ∧ Integrable (fun s => s) μ ∧
      ∫ s, s ∂μ ≤ Spec.forward m.isFwd m.intr m.divr S T ∧
      m.price K S T (-1) = Spec.discount m.intr T * ∫ s, Spec.payoff (-1) K s ∂μ := by
    rcases lt_or_gt_of_ne hb with h | h
    · obtain ⟨μ, h1, h2, h3, h4, -, h6⟩ := m.cev_price_eq_expectation h hs hS hT hv
      exact ⟨μ, h1, h2, h3, h4.le, h6 K hK (-1) (Or.inr rfl)⟩
    · obtain ⟨μ, h1, h2, h3, h4, h6⟩ := m.cev_price_beta_gt_one h hs hS hT hv
      exact ⟨μ, h1, measure_mono_null Iio_subset_Iic_self h2, h3, h4.le, (h6 K hK).1⟩
  obtain ⟨μ, h1, h2, h3, h4, h5⟩ := hput
  have hd : 0 < Spec.discount m.intr T := exp_pos _
  have hi : Integrable (fun s => max (K - s) 0) μ := by
    have := ((integrable_const K).sub h3).pos_part
    exact this
  have e : ∀ s : ℝ, Spec.payoff (-1) K s = max (K - s) 0 := fun s => by unfold Spec.payoff; congr 1; ring
  simp only [e] at h5
  have hnn : 0 ≤ ∫ s, max (K - s) 0 ∂μ := integral_nonneg fun s => le_max_right _ _
  have hlow : K - Spec.forward m.isFwd m.intr m.divr S T ≤ ∫ s, max (K - s) 0 ∂μ := by
    have : ∫ s, (K - s) ∂μ ≤ ∫ s, max (K - s) 0 ∂μ := integral_mono ((integrable_const K).sub h3) hi fun s => le_max_left _ _
    rw [integral_sub (integrable_const K) h3] at this
    simp at this
    linarith
  have hup : ∫ s, max (K - s) 0 ∂μ ≤ K := by
    have : ∫ s, max (K - s) 0 ∂μ ≤ ∫ _, K ∂μ := by
      refine integral_mono_ae hi (integrable_const K) ?_
      have : ∀ᵐ s ∂μ, ¬ s < 0 := by
        rw [ae_iff]
        simp only [not_not]
        exact h2
      filter_upwards [this] with s hs
      exact max_le (by linarith [not_lt.1 hs]) hK.le
    simpa using this
  have hp1 : m.price K S T (-1) ∈ Icc (Spec.discount m.intr T * max (K - Spec.forward m.isFwd m.intr m.divr S T) 0)
      (Spec.discount m.intr T * K) := by
    rw [h5]
    exact ⟨mul_le_mul_of_nonneg_left (max_le hlow hnn) hd.le, mul_le_mul_of_nonneg_left hup hd.le⟩
  refine ⟨?_, hp1⟩
  have hc : m.price K S T 1 = m.price K S T (-1) + Spec.discount m.intr T * (Spec.forward m.isFwd m.intr m.divr S T - K) := by linarith
  have hmax : max (Spec.forward m.isFwd m.intr m.divr S T - K) 0
      = max (K - Spec.forward m.isFwd m.intr m.divr S T) 0 + (Spec.forward m.isFwd m.intr m.divr S T - K) := by
    rcases le_total (Spec.forward m.isFwd m.intr m.divr S T) K with h | h
    · rw [max_eq_right (by linarith), max_eq_left (by linarith)]; ring
    · rw [max_eq_left (by linarith), max_eq_right (by linarith)]; ring
  rw [hc, hmax]
  constructor
  · rw [mul_add]; linarith [hp1.1]
  · linarith [hp1.2]

/-- **C83**: `mass_zero` is a probability strictly between 0 and 1 for `beta < 1`, in both conventions. -/
theorem cev_mass_zero_mem (m : Cev) (hb : m.beta < 1) (hs : 0 < m.sigma) {S T : ℝ} (hS : 0 < S) (hT : 0 < T) :
    ∃ p, m.massZero S T = some p ∧ 0 < p ∧ p < 1 := by
  have hF := m.mp.fwd_pos hS T
  have hnu : 0 < 1 / (2 * (1 - m.beta)) := div_pos one_pos (by linarith)
  have hy := m.lev_pos hb.ne hs hT hF
  refine ⟨_, m.massZero_eq hb hF, ?_, ?_⟩
  · linarith [gammaInc_strict hnu hy.le]
  · linarith [gammaInc_pos hnu hy]

end Cev

end PyFENG
