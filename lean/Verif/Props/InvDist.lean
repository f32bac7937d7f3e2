import Verif.Model.InvDist
import Verif.Lemmas.PriceLaw
import Verif.Lemmas.Ncx2Lim
import Verif.Lemmas.Black
import Verif.Props.DistQuad
import Mathlib.Analysis.SpecialFunctions.Pow.Asymptotics

/-!
# C39: inverse gamma and inverse Gaussian pricing models
-/

namespace PyFENG

open Real Filter Topology Set MeasureTheory

/-- Textbook density of the inverse gamma law with shape `alpha` and scale `beta`. -/
noncomputable def Spec.invGammaPDF (alpha beta s : ℝ) : ℝ :=
  beta ^ alpha / Real.Gamma alpha * s ^ (-alpha - 1) * exp (-beta / s)

/-- The inverse gamma law. -/
noncomputable def Spec.invGammaMeasure (alpha beta : ℝ) : Measure ℝ :=
  (volume.restrict (Ioi 0)).withDensity fun s => ENNReal.ofReal (Spec.invGammaPDF alpha beta s)

namespace InvGam

lemma dens_eq {alpha beta s : ℝ} (hb : 0 < beta) (hs : 0 < s) :
    gammaPdf alpha (beta / s) * (beta / s ^ 2) = Spec.invGammaPDF alpha beta s := by
  unfold gammaPdf Spec.invGammaPDF
  rw [div_rpow hb.le hs.le, rpow_sub_one hb.ne', rpow_sub_one hs.ne', rpow_sub_one hs.ne', rpow_neg hs.le, neg_div]
  have h1 := (rpow_pos_of_pos hs alpha).ne'
  field_simp

lemma gammaPdf_step {a y : ℝ} (ha : 0 < a) (hy : 0 < y) : gammaPdf (a + 1) y = y / a * gammaPdf a y := by
  unfold gammaPdf
  rw [Real.Gamma_add_one ha.ne', add_sub_cancel_right, rpow_sub_one hy.ne']
  have := (Real.Gamma_pos_of_pos ha).ne'
  field_simp

lemma hasDerivAt_inc {a beta s : ℝ} (ha : 0 < a) (hb : 0 < beta) (hs : 0 < s) :
    HasDerivAt (fun s => gammaInc a (beta / s)) (-(gammaPdf a (beta / s) * (beta / s ^ 2))) s := by
  have h := (hasDerivAt_gammaInc ha (div_pos hb hs)).comp s ((hasDerivAt_const s beta).div (hasDerivAt_id' s) hs.ne')
  refine h.congr_deriv ?_
  ring

lemma tendsto_inv_top {beta : ℝ} : Tendsto (fun s : ℝ => beta / s) atTop (𝓝 0) := tendsto_const_nhds.div_atTop tendsto_id

lemma tendsto_inv_zero {beta : ℝ} (hb : 0 < beta) : Tendsto (fun s : ℝ => beta / s) (𝓝[>] 0) atTop := by
  simp only [div_eq_mul_inv]
  exact tendsto_inv_nhdsGT_zero.const_mul_atTop hb

lemma tendsto_inc_zero {a : ℝ} (ha : 0 < a) {ι : Type*} {l : Filter ι} {u : ι → ℝ} (hu : Tendsto u l (𝓝 0)) (hp : ∀ᶠ i in l, 0 ≤ u i) :
    Tendsto (fun i => gammaInc a (u i)) l (𝓝 0) := by
  have h1 : Tendsto (fun i => u i ^ a / Real.Gamma (a + 1)) l (𝓝 (0 ^ a / Real.Gamma (a + 1))) :=
    (((continuousAt_rpow_const (0 : ℝ) a (Or.inr ha.le)).tendsto).comp hu).div_const _
  rw [zero_rpow ha.ne', zero_div] at h1
  refine tendsto_of_tendsto_of_tendsto_of_le_of_le' tendsto_const_nhds h1 ?_ ?_
  · filter_upwards [hp] with i hi using gammaInc_nonneg ha hi
  · filter_upwards [hp] with i hi using gammaInc_le_pow ha hi

/-- Call values of the inverse gamma law. -/
lemma callCurve {a beta : ℝ} (ha : 0 < a) (hb : 0 < beta) :
    CallCurve (fun s => beta / a * gammaInc a (beta / s) - s * gammaInc (a + 1) (beta / s)) (fun s => gammaInc (a + 1) (beta / s))
      (Spec.invGammaPDF (a + 1) beta) (beta / a) 0 1 := by
  have hpos : ∀ᶠ s : ℝ in atTop, 0 ≤ beta / s := by
    filter_upwards [eventually_gt_atTop 0] with s hs using (div_pos hb hs).le
  have hG0 : Tendsto (fun s => gammaInc (a + 1) (beta / s)) (𝓝[>] 0) (𝓝 1) :=
    (tendsto_gammaInc (by linarith)).comp (tendsto_inv_zero hb)
  have hid : Tendsto (fun s : ℝ => s) (𝓝[>] 0) (𝓝 0) := tendsto_nhdsWithin_of_tendsto_nhds tendsto_id
  have hGi : Tendsto (fun s => s * gammaInc (a + 1) (beta / s)) atTop (𝓝 0) := by
    have h1 : Tendsto (fun s : ℝ => beta * ((beta / s) ^ a / Real.Gamma (a + 1 + 1))) atTop (𝓝 (beta * (0 ^ a / Real.Gamma (a + 1 + 1)))) :=
      ((((continuousAt_rpow_const (0 : ℝ) a (Or.inr ha.le)).tendsto).comp tendsto_inv_top).div_const _).const_mul _
    rw [zero_rpow ha.ne', zero_div, mul_zero] at h1
    refine tendsto_of_tendsto_of_tendsto_of_le_of_le' tendsto_const_nhds h1 ?_ ?_
    · filter_upwards [eventually_gt_atTop 0] with s hs
      exact mul_nonneg hs.le (gammaInc_nonneg (by linarith) (div_pos hb hs).le)
    · filter_upwards [eventually_gt_atTop 0] with s hs
      refine (mul_le_mul_of_nonneg_left (gammaInc_le_pow (by linarith) (div_pos hb hs).le) hs.le).trans (le_of_eq ?_)
      rw [rpow_add_one (div_pos hb hs).ne']
      field_simp
  refine ⟨fun s hs => ?_, fun s hs => ?_, fun s hs => ?_, hG0, hGi, ?_, ?_, le_rfl⟩
  · have h1 := hasDerivAt_inc ha hb hs
    have h2 := hasDerivAt_inc (a := a + 1) (by linarith) hb hs
    refine ((h1.const_mul (beta / a)).sub ((hasDerivAt_id' s).mul h2)).congr_deriv ?_
    rw [gammaPdf_step ha (div_pos hb hs)]
    have hs' : s ≠ 0 := ne_of_gt hs
    field_simp
    ring
  · rw [← dens_eq hb hs]
    exact hasDerivAt_inc (by linarith) hb hs
  · have hG := Real.Gamma_pos_of_pos (show 0 < a + 1 by linarith)
    have hs' : 0 < s := hs
    unfold Spec.invGammaPDF
    positivity
  · have h1 := ((tendsto_gammaInc ha).comp (tendsto_inv_zero hb)).const_mul (beta / a)
    have h2 := h1.sub (hid.mul hG0)
    simpa using h2
  · have h1 := (tendsto_inc_zero ha (tendsto_inv_top (beta := beta)) hpos).const_mul (beta / a)
    have h2 := h1.sub hGi
    simpa using h2

lemma mixLaw_eq (a beta : ℝ) : mixLaw (1 - 1) (Spec.invGammaPDF a beta) = Spec.invGammaMeasure a beta := by
  unfold mixLaw Spec.invGammaMeasure
  simp

/-- Second moment. -/
lemma second {a beta : ℝ} (ha : 0 < a) (hb : 0 < beta) :
    ∫ s, s ^ 2 ∂(Spec.invGammaMeasure (a + 2) beta) = beta ^ 2 / ((a + 1) * a) := by
  have h := CallCurve.ftc (g := fun s => -(beta ^ 2 / ((a + 1) * a) * gammaInc a (beta / s)))
    (g' := fun s => Spec.invGammaPDF (a + 2) beta s * s ^ 2) (l := 0) (m := -(beta ^ 2 / ((a + 1) * a) * 1)) (fun s hs => ?_) (fun s hs => ?_) ?_ ?_
  · have hc := callCurve (a := a + 1) (by linarith) hb
    have e : a + 1 + 1 = a + 2 := by ring
    rw [e] at hc
    have := (hc.integral_mixLaw (p := fun s => s ^ 2) h.1).2
    rw [← mixLaw_eq, this, h.2]
    simp
  · have h1 := (hasDerivAt_inc ha hb hs).const_mul (beta ^ 2 / ((a + 1) * a))
    refine h1.neg.congr_deriv ?_
    rw [← dens_eq hb hs, show a + 2 = a + 1 + 1 by ring, gammaPdf_step (by linarith) (div_pos hb hs), gammaPdf_step ha (div_pos hb hs)]
    have hs' : s ≠ 0 := ne_of_gt hs
    field_simp
  · have hG := Real.Gamma_pos_of_pos (show 0 < a + 2 by linarith)
    have hs' : 0 < s := hs
    unfold Spec.invGammaPDF
    positivity
  · exact (((tendsto_gammaInc ha).comp (tendsto_inv_zero hb)).const_mul _).neg
  · have hpos : ∀ᶠ s : ℝ in atTop, 0 ≤ beta / s := by
      filter_upwards [eventually_gt_atTop 0] with s hs using (div_pos hb hs).le
    have h1 := ((tendsto_inc_zero ha (tendsto_inv_top (beta := beta)) hpos).const_mul (beta ^ 2 / ((a + 1) * a))).neg
    simpa using h1

lemma alpha_gt (m : InvGam) {S T : ℝ} (hs : m.mp.sigma ≠ 0) (hT : 0 < T) : 2 < (m.alphaBeta S T).1 := by
  unfold alphaBeta
  have : 1 < exp (m.mp.sigma ^ 2 * T) := by
    rw [one_lt_exp_iff]; positivity
  have : 0 < 1 / (exp (m.mp.sigma ^ 2 * T) - 1) := div_pos one_pos (by linarith)
  simp only
  linarith

lemma beta_pos (m : InvGam) {S T : ℝ} (hs : m.mp.sigma ≠ 0) (hS : 0 < S) (hT : 0 < T) : 0 < (m.alphaBeta S T).2 := by
  have h := m.alpha_gt (S := S) hs hT
  have hF := m.mp.fwd_pos hS T
  rw [MParams.fwd_eq_forward] at hF
  unfold alphaBeta at h ⊢
  simp only at h ⊢
  exact mul_pos (by linarith) hF

/-- **C39**: the inverse gamma law chosen by `alpha_beta` is a probability whose mean is the forward and whose second moment is that of the
lognormal law with the same volatility, in both conventions. -/
theorem invgam_moments (m : InvGam) {S T : ℝ} (hs : m.mp.sigma ≠ 0) (hS : 0 < S) (hT : 0 < T) :
    let ab := m.alphaBeta S T
    let F := Spec.forward m.mp.isFwd m.mp.intr m.mp.divr S T
    IsProbabilityMeasure (Spec.invGammaMeasure ab.1 ab.2) ∧ ∫ s, s ∂(Spec.invGammaMeasure ab.1 ab.2) = F ∧
      ∫ s, s ^ 2 ∂(Spec.invGammaMeasure ab.1 ab.2) = F ^ 2 * exp (m.mp.sigma ^ 2 * T) := by
  intro ab F
  have ha := m.alpha_gt (S := S) hs hT
  have hb := m.beta_pos hs hS hT
  have hc := callCurve (a := ab.1 - 1) (by linarith) hb
  rw [sub_add_cancel] at hc
  have hbF : (m.alphaBeta S T).2 = ((m.alphaBeta S T).1 - 1) * F := by
    unfold alphaBeta
    simp only
    rw [MParams.forward_eq_spec]
  have he : 0 < exp (m.mp.sigma ^ 2 * T) - 1 := by
    have : 1 < exp (m.mp.sigma ^ 2 * T) := by rw [one_lt_exp_iff]; positivity
    linarith
  rw [← mixLaw_eq]
  refine ⟨hc.prob, ?_, ?_⟩
  · rw [hc.mean.2, hbF]
    have : ab.1 - 1 ≠ 0 := by linarith
    change (ab.1 - 1) * F / (ab.1 - 1) - 0 = F
    rw [mul_div_cancel_left₀ _ this, sub_zero]
  · rw [mixLaw_eq]
    have h2 := second (a := ab.1 - 2) (by linarith) hb
    rw [sub_add_cancel] at h2
    rw [h2, hbF]
    have e1 : ab.1 = 1 / (exp (m.mp.sigma ^ 2 * T) - 1) + 2 := rfl
    change ((ab.1 - 1) * F) ^ 2 / _ = _
    rw [e1]
    have he' := he.ne'
    field_simp
    ring

/-- **C39**: with `spot` a spot price, `InvGam.price` is the discounted expected payoff under that law (hence in parity and within the
no-arbitrage bounds), for calls and puts. -/
theorem invgam_price_eq_expectation (m : InvGam) {K S T cp : ℝ} (hcp : Spec.IsCp cp) (hs : m.mp.sigma ≠ 0) (hK : 0 < K) (hS : 0 < S)
    (hT : 0 < T) (hfw : m.mp.isFwd = false) :
    m.price K S T cp = Spec.discount m.mp.intr T
      * ∫ s, Spec.payoff cp K s ∂(Spec.invGammaMeasure (m.alphaBeta S T).1 (m.alphaBeta S T).2) := by
  have ha := m.alpha_gt (S := S) hs hT
  have hb := m.beta_pos hs hS hT
  have hc := callCurve (a := (m.alphaBeta S T).1 - 1) (by linarith) hb
  rw [sub_add_cancel] at hc
  have hbF : (m.alphaBeta S T).2 = ((m.alphaBeta S T).1 - 1) * (S * (exp (-T * m.mp.divr) / exp (-T * m.mp.intr))) := by
    unfold alphaBeta
    simp only
    rw [MParams.forward_eq_spec]
    unfold Spec.forward
    rw [hfw, ← exp_sub]
    simp only [Bool.false_eq_true, if_false]
    congr 3
    ring
  rw [← mixLaw_eq]
  have hd : Spec.discount m.mp.intr T = exp (-T * m.mp.intr) := by unfold Spec.discount; congr 1; ring
  have hF : S * (exp (-T * m.mp.divr) / exp (-T * m.mp.intr)) = (m.alphaBeta S T).2 / ((m.alphaBeta S T).1 - 1) := by
    rw [hbF]
    have : (m.alphaBeta S T).1 - 1 ≠ 0 := by linarith
    field_simp
  unfold price priceFormula
  simp only [Bool.false_eq_true, if_false, one_div_div, hF, gammaCdf, gammaSf]
  generalize (m.alphaBeta S T).1 = al at *
  generalize (m.alphaBeta S T).2 = be at *
  have hal : al - 1 ≠ 0 := by linarith
  rw [hd]
  unfold Spec.payoff
  rcases hcp with rfl | rfl
  · have := (hc.call_law hK).2
    simp only [gt_iff_lt, zero_lt_one, if_true, one_mul]
    rw [this]
    field_simp
    ring
  · have := hc.put_law hK
    simp only [gt_iff_lt, show ¬ (0 : ℝ) < -1 by norm_num, if_false, neg_mul, one_mul, neg_sub]
    rw [this]
    field_simp
    ring

/-- **C39**: `cdf(cp=1)` is the probability of finishing above the strike in both conventions. -/
theorem invgam_cdf_correct (m : InvGam) {K S T : ℝ} (hs : m.mp.sigma ≠ 0) (hK : 0 < K) (hS : 0 < S) (hT : 0 < T) :
    m.cdf K S T 1 = ((Spec.invGammaMeasure (m.alphaBeta S T).1 (m.alphaBeta S T).2) (Ioi K)).toReal ∧
    m.cdf K S T (-1) = 1 - m.cdf K S T 1 := by
  have ha := m.alpha_gt (S := S) hs hT
  have hb := m.beta_pos hs hS hT
  have hc := callCurve (a := (m.alphaBeta S T).1 - 1) (by linarith) hb
  rw [sub_add_cancel] at hc
  constructor
  · unfold cdf gammaCdf
    simp only [gt_iff_lt, zero_lt_one, if_true, one_div_div]
    unfold Spec.invGammaMeasure
    rw [withDensity_apply _ measurableSet_Ioi, Measure.restrict_restrict measurableSet_Ioi,
      inter_eq_left.2 (Ioi_subset_Ioi hK.le), ← ofReal_integral_eq_lintegral_ofReal (hc.mass.1.mono_set (Ioi_subset_Ioi hK.le))]
    · have hi := integral_Ioi_of_hasDerivAt_of_nonneg' (a := K) (g := fun s => -gammaInc (m.alphaBeta S T).1 ((m.alphaBeta S T).2 / s))
        (fun s hs => (hc.hG s (hK.trans_le hs)).neg.congr_deriv (neg_neg _)) (fun s hs => hc.hf s (hK.trans hs)) hc.tendsto_G.neg
      rw [hi, ENNReal.toReal_ofReal]
      · ring
      · simp only [neg_zero, zero_sub, neg_neg]
        exact gammaInc_nonneg (by linarith) (div_pos hb hK).le
    · filter_upwards [ae_restrict_mem measurableSet_Ioi] with s hs using hc.hf s (hK.trans hs)
  · unfold cdf gammaCdf gammaSf
    simp [show ¬ (0 : ℝ) < -1 by norm_num]

/-- With `is_fwd=True` the flag is dropped by `price`: call minus put is computed with the forward of `spot` grown once more. -/
theorem invgam_parity_actual (m : InvGam) {K S T : ℝ} (hb : (m.alphaBeta S T).2 ≠ 0) :
    Spec.Parity (m.price K S T 1) (m.price K S T (-1)) (Spec.discount m.mp.intr T) (Spec.forward false m.mp.intr m.mp.divr S T) K := by
  have hd : Spec.discount m.mp.intr T = exp (-T * m.mp.intr) := by unfold Spec.discount; congr 1; ring
  have hf : Spec.forward false m.mp.intr m.mp.divr S T = S * (exp (-T * m.mp.divr) / exp (-T * m.mp.intr)) := by
    unfold Spec.forward
    rw [← exp_sub]
    simp only [Bool.false_eq_true, if_false]
    congr 2
    ring
  unfold Spec.Parity price priceFormula gammaSf gammaCdf
  simp only [gt_iff_lt, zero_lt_one, if_true, show ¬ (0 : ℝ) < -1 by norm_num, if_false, Bool.false_eq_true, hd, hf]
  field_simp
  ring

/-- … so parity with the forward the caller gave is violated whenever the carry is not zero. -/
theorem invgam_parity_isFwd_false (m : InvGam) {K S T : ℝ} (hs : m.mp.sigma ≠ 0) (hS : 0 < S) (hT : 0 < T)
    (hfw : m.mp.isFwd = true) (hc : m.mp.intr ≠ m.mp.divr) :
    ¬ Spec.Parity (m.price K S T 1) (m.price K S T (-1)) (Spec.discount m.mp.intr T)
      (Spec.forward m.mp.isFwd m.mp.intr m.mp.divr S T) K := by
  have h := m.invgam_parity_actual (K := K) (S := S) (T := T) (m.beta_pos hs hS hT).ne'
  unfold Spec.Parity at h ⊢
  intro h2
  rw [h] at h2
  have hd : Spec.discount m.mp.intr T ≠ 0 := (exp_pos _).ne'
  have h3 := mul_left_cancel₀ hd h2
  unfold Spec.forward at h3
  rw [hfw] at h3
  simp only [Bool.false_eq_true, if_false, if_true] at h3
  have h4 : S * exp ((m.mp.intr - m.mp.divr) * T) = S * 1 := by linarith
  have h5 := mul_left_cancel₀ hS.ne' h4
  rw [exp_eq_one_iff] at h5
  rcases mul_eq_zero.1 h5 with h6 | h6
  · exact hc (sub_eq_zero.1 h6)
  · exact hT.ne' h6

end InvGam

namespace InvGauss

lemma ig_int {lam : ℝ} (k : ℕ) (hk : ∫ x, x ^ k ∂(Spec.igMeasure 1 lam) = 1) :
    IntegrableOn (fun x => Spec.igPDF 1 lam x * x ^ k) (Ioi 0) ∧ ∫ x in Ioi 0, Spec.igPDF 1 lam x * x ^ k = 1 := by
  have hmeas : Measurable (fun x => ENNReal.ofReal (Spec.igPDF 1 lam x)) := by
    unfold Spec.igPDF; fun_prop
  have e : ∫ x, x ^ k ∂(Spec.igMeasure 1 lam) = ∫ x in Ioi 0, Spec.igPDF 1 lam x * x ^ k := by
    unfold Spec.igMeasure
    rw [integral_withDensity_eq_integral_toReal_smul hmeas (by simp)]
    refine setIntegral_congr_fun measurableSet_Ioi fun x hx => ?_
    simp only [smul_eq_mul]
    rw [ENNReal.toReal_ofReal (by unfold Spec.igPDF; positivity)]
  rw [hk] at e
  refine ⟨?_, e.symm⟩
  by_contra h
  have := integral_undef h
  linarith

lemma igPDF_nonneg (mu lam x : ℝ) : 0 ≤ Spec.igPDF mu lam x := by unfold Spec.igPDF; positivity

lemma igPDF_rec {lam k : ℝ} (hk : 0 < k) : Spec.igPDF 1 lam (1 / k) / k ^ 2 = k * Spec.igPDF 1 lam k := by
  unfold Spec.igPDF
  have e1 : -lam * (1 / k - 1) ^ 2 / (2 * 1 ^ 2 * (1 / k)) = -lam * (k - 1) ^ 2 / (2 * 1 ^ 2 * k) := by
    field_simp
    ring
  have e2 : √(lam / (2 * π * (1 / k) ^ 3)) = k ^ 3 * √(lam / (2 * π * k ^ 3)) := by
    rw [show lam / (2 * π * (1 / k) ^ 3) = (k ^ 3) ^ 2 * (lam / (2 * π * k ^ 3)) by field_simp,
      sqrt_mul (by positivity), sqrt_sq (by positivity)]
  rw [e1, e2]
  field_simp

/-- Distribution function of the inverse Gaussian law with unit mean. -/
noncomputable def igH (lam x : ℝ) : ℝ := ∫ t in (0 : ℝ)..x, Spec.igPDF 1 lam t

lemma invgauss_eq {s x : ℝ} (hs : 0 < s) : invgaussCdf s (1 / s) x = igH (1 / s) x := by
  unfold invgaussCdf igH
  have h2 := intervalIntegral.integral_comp_div (a := 0) (b := x) (f := fun t => 1 / √(2 * π * t ^ 3) * exp (-(1 / (2 * t)) * ((t - s) / s) ^ 2)) (c := 1 / s) (by positivity)
  rw [zero_div] at h2
  have h3 : (∫ t in (0 : ℝ)..(x / (1 / s)), 1 / √(2 * π * t ^ 3) * exp (-(1 / (2 * t)) * ((t - s) / s) ^ 2)) =
      s * ∫ t in (0 : ℝ)..x, 1 / √(2 * π * (t / (1 / s)) ^ 3) * exp (-(1 / (2 * (t / (1 / s)))) * ((t / (1 / s) - s) / s) ^ 2) := by
    rw [h2, smul_eq_mul, ← mul_assoc, mul_one_div_cancel hs.ne', one_mul]
  rw [h3, ← intervalIntegral.integral_const_mul]
  congr 1
  ext t
  unfold Spec.igPDF
  rcases eq_or_ne t 0 with rfl | ht
  · simp
  have e1 : -(1 / (2 * (t / (1 / s)))) * ((t / (1 / s) - s) / s) ^ 2 = -(1 / s) * (t - 1) ^ 2 / (2 * 1 ^ 2 * t) := by
    field_simp
  have e2 : √(1 / s / (2 * π * t ^ 3)) = s * (1 / √(2 * π * (t / (1 / s)) ^ 3)) := by
    rw [show 1 / s / (2 * π * t ^ 3) = s ^ 2 * (1 / (2 * π * (t / (1 / s)) ^ 3)) by field_simp,
      sqrt_mul (by positivity), sqrt_sq hs.le, sqrt_div zero_le_one, sqrt_one]
  rw [e1, e2]
  ring

lemma raw {lam : ℝ} (hl : 0 < lam) :
    (IntegrableOn (Spec.igPDF 1 lam) (Ioi 0) ∧ ∫ x in Ioi 0, Spec.igPDF 1 lam x = 1) ∧
    (IntegrableOn (fun x => Spec.igPDF 1 lam x * x) (Ioi 0) ∧ ∫ x in Ioi 0, Spec.igPDF 1 lam x * x = 1) := by
  obtain ⟨h0, h1, -⟩ := DistInvGauss.raw_moments (mu := 1) (lam := lam) one_pos hl
  have i0 := ig_int (lam := lam) 0 h0
  have i1 := ig_int (lam := lam) 1 (by simpa using h1)
  simp only [pow_zero, mul_one, pow_one] at i0 i1
  exact ⟨i0, i1⟩

lemma igH_tail {lam x : ℝ} (hl : 0 < lam) (hx : 0 ≤ x) : 1 - igH lam x = ∫ t in Ioi x, Spec.igPDF 1 lam t := by
  obtain ⟨⟨hi, h1⟩, -⟩ := raw hl
  unfold igH
  rw [← Ioc_union_Ioi_eq_Ioi hx, setIntegral_union (Ioc_disjoint_Ioi le_rfl) measurableSet_Ioi
    (hi.mono_set Ioc_subset_Ioi_self) (hi.mono_set (Ioi_subset_Ioi hx))] at h1
  rw [intervalIntegral.integral_of_le hx]
  linarith

lemma igPDF_cont {lam x : ℝ} (hx : 0 < x) : ContinuousAt (Spec.igPDF 1 lam) x := by
  unfold Spec.igPDF
  have h1 : 2 * π * x ^ 3 ≠ 0 := by positivity
  have h2 : 2 * (1 : ℝ) ^ 2 * x ≠ 0 := by positivity
  fun_prop (disch := assumption)

lemma hasDerivAt_igH {lam x : ℝ} (hl : 0 < lam) (hx : 0 < x) : HasDerivAt (igH lam) (Spec.igPDF 1 lam x) x := by
  obtain ⟨⟨hi, -⟩, -⟩ := raw hl
  refine intervalIntegral.integral_hasDerivAt_right ?_ ?_ (igPDF_cont hx)
  · rw [intervalIntegrable_iff_integrableOn_Ioc_of_le hx.le]
    exact hi.mono_set Ioc_subset_Ioi_self
  · refine ⟨univ, univ_mem, ?_⟩
    refine Measurable.aestronglyMeasurable ?_
    unfold Spec.igPDF; fun_prop

lemma igH_zero {lam : ℝ} (hl : 0 < lam) : Tendsto (igH lam) (𝓝[>] 0) (𝓝 0) := by
  obtain ⟨⟨hi, -⟩, -⟩ := raw hl
  have h : ContinuousOn (igH lam) (Icc 0 1) := by
    have := intervalIntegral.continuousOn_primitive_interval (μ := volume) (f := Spec.igPDF 1 lam) (a := 0) (b := 1) (by
      rw [uIcc_of_le zero_le_one, integrableOn_Icc_iff_integrableOn_Ioc]
      exact hi.mono_set Ioc_subset_Ioi_self)
    rwa [uIcc_of_le zero_le_one] at this
  have h2 := (h 0 (by simp)).tendsto
  have h3 : igH lam 0 = 0 := by unfold igH; simp
  rw [h3] at h2
  refine h2.mono_left ?_
  rw [← nhdsWithin_Ioc_eq_nhdsGT (zero_lt_one' ℝ)]
  exact nhdsWithin_mono _ Ioc_subset_Icc_self

lemma igH_top {lam : ℝ} (hl : 0 < lam) : Tendsto (igH lam) atTop (𝓝 1) := by
  obtain ⟨⟨hi, h1⟩, -⟩ := raw hl
  rw [← h1]
  exact intervalIntegral_tendsto_integral_Ioi 0 hi tendsto_id

lemma tail_first {lam : ℝ} (hl : 0 < lam) : Tendsto (fun s => s * (1 - igH lam s)) atTop (𝓝 0) := by
  obtain ⟨⟨hi, -⟩, ⟨hi1, h1⟩⟩ := raw hl
  have ht : Tendsto (fun s => ∫ t in Ioi s, Spec.igPDF 1 lam t * t) atTop (𝓝 0) := by
    have h2 := (intervalIntegral_tendsto_integral_Ioi 0 hi1 tendsto_id).const_sub 1
    rw [h1, sub_self] at h2
    refine h2.congr' ?_
    filter_upwards [eventually_ge_atTop 0] with s hs
    simp only [id]
    have h3 := h1
    rw [← Ioc_union_Ioi_eq_Ioi hs, setIntegral_union (Ioc_disjoint_Ioi le_rfl) measurableSet_Ioi
      (hi1.mono_set Ioc_subset_Ioi_self) (hi1.mono_set (Ioi_subset_Ioi hs))] at h3
    rw [intervalIntegral.integral_of_le hs]
    linarith
  refine tendsto_of_tendsto_of_tendsto_of_le_of_le' tendsto_const_nhds ht ?_ ?_
  · filter_upwards [eventually_ge_atTop 0] with s hs
    rw [igH_tail hl hs]
    exact mul_nonneg hs (integral_nonneg fun t => igPDF_nonneg _ _ _)
  · filter_upwards [eventually_ge_atTop 0] with s hs
    rw [igH_tail hl hs, ← integral_const_mul]
    refine setIntegral_mono_on ((hi.mono_set (Ioi_subset_Ioi hs)).const_mul _) (hi1.mono_set (Ioi_subset_Ioi hs)) measurableSet_Ioi fun t ht => ?_
    rw [mul_comm]
    exact mul_le_mul_of_nonneg_left (le_of_lt ht) (igPDF_nonneg _ _ _)

lemma callCurve {lam : ℝ} (hl : 0 < lam) :
    CallCurve (fun k => igH lam (1 / k) - k * (1 - igH lam k)) (fun k => 1 - igH lam k) (Spec.igPDF 1 lam) 1 0 1 := by
  have hid : Tendsto (fun s : ℝ => s) (𝓝[>] 0) (𝓝 0) := tendsto_nhdsWithin_of_tendsto_nhds tendsto_id
  have hG0 : Tendsto (fun k => 1 - igH lam k) (𝓝[>] 0) (𝓝 1) := by
    simpa using (igH_zero hl).const_sub 1
  refine ⟨fun s hs => ?_, fun s hs => ?_, fun s _ => igPDF_nonneg _ _ _, hG0, tail_first hl, ?_, ?_, le_rfl⟩
  · have hs0 : s ≠ 0 := ne_of_gt hs
    have h1 := (hasDerivAt_igH hl (one_div_pos.2 hs)).comp s ((hasDerivAt_const s (1 : ℝ)).div (hasDerivAt_id' s) hs0)
    have h2 := (hasDerivAt_id' s).mul ((hasDerivAt_igH hl hs).const_sub 1)
    refine (h1.sub h2).congr_deriv ?_
    have h3 := igPDF_rec (lam := lam) hs
    have h4 : Spec.igPDF 1 lam (1 / s) = s * Spec.igPDF 1 lam s * s ^ 2 := by
      rw [← h3]; field_simp
    rw [h4]
    field_simp
    ring
  · exact (hasDerivAt_igH hl hs).const_sub 1
  · have h1 := (igH_top hl).comp (InvGam.tendsto_inv_zero (beta := 1) one_pos)
    have h2 := h1.sub (hid.mul hG0)
    simpa using h2
  · have h0 : Tendsto (fun s : ℝ => 1 / s) atTop (𝓝[>] 0) := by
      simp only [one_div]
      exact tendsto_inv_atTop_nhdsGT_zero
    have h1 := (igH_zero hl).comp h0
    have h2 := h1.sub (tail_first hl)
    simpa using h2

lemma mixLaw_eq (lam : ℝ) : mixLaw (1 - 1) (Spec.igPDF 1 lam) = Spec.igMeasure 1 lam := by
  unfold mixLaw Spec.igMeasure
  simp

lemma lam_pos (m : InvGauss) {T : ℝ} (hs : m.mp.sigma ≠ 0) (hT : 0 < T) : 0 < exp (m.mp.sigma ^ 2 * T) - 1 := by
  have : 1 < exp (m.mp.sigma ^ 2 * T) := by rw [one_lt_exp_iff]; positivity
  linarith

/-- **C39**: the inverse Gaussian law used (price relative `S_T / F`) is a probability of unit mean whose second moment is that of the
lognormal law with the same volatility. -/
theorem invgauss_moments (m : InvGauss) {T : ℝ} (hs : m.mp.sigma ≠ 0) (hT : 0 < T) :
    let law := Spec.igMeasure 1 (1 / (exp (m.mp.sigma ^ 2 * T) - 1))
    IsProbabilityMeasure law ∧ ∫ x, x ∂law = 1 ∧ ∫ x, x ^ 2 ∂law = exp (m.mp.sigma ^ 2 * T) := by
  intro law
  have hl := m.lam_pos hs hT
  have hc := callCurve (one_div_pos.2 hl)
  obtain ⟨-, h1, h2, -⟩ := DistInvGauss.raw_moments (mu := 1) (lam := 1 / (exp (m.mp.sigma ^ 2 * T) - 1)) one_pos (one_div_pos.2 hl)
  refine ⟨?_, h1, ?_⟩
  · change IsProbabilityMeasure (Spec.igMeasure 1 (1 / (exp (m.mp.sigma ^ 2 * T) - 1)))
    rw [← mixLaw_eq]; exact hc.prob
  · rw [h2]
    field_simp
    ring

/-- **C39**: `InvGauss.price` is the discounted expected payoff of `F` times an inverse Gaussian variable, in both conventions. -/
theorem invgauss_price_eq_expectation (m : InvGauss) {K S T cp : ℝ} (hcp : Spec.IsCp cp) (hs : m.mp.sigma ≠ 0) (hK : 0 < K) (hS : 0 < S)
    (hT : 0 < T) :
    m.price K S T cp = Spec.discount m.mp.intr T
      * ∫ x, Spec.payoff cp K (Spec.forward m.mp.isFwd m.mp.intr m.mp.divr S T * x) ∂(Spec.igMeasure 1 (1 / (exp (m.mp.sigma ^ 2 * T) - 1))) := by
  have hl := m.lam_pos hs hT
  have hc := callCurve (one_div_pos.2 hl)
  have hF : 0 < m.mp.fwd S T := m.mp.fwd_pos hS T
  rw [← MParams.forward_eq_spec, ← MParams.fwd_eq_forward, ← mixLaw_eq, ← MParams.df_eq_spec]
  unfold price
  simp only [invgaussSf, invgauss_eq hl]
  generalize m.mp.fwd S T = F at *
  generalize m.mp.df T = df at *
  generalize exp (m.mp.sigma ^ 2 * T) - 1 = s at *
  have hKF := div_pos hK hF
  have e : ∀ x, Spec.payoff cp K (F * x) = F * max (cp * (x - K / F)) 0 := by
    intro x
    unfold Spec.payoff
    rw [mul_max_of_nonneg _ _ hF.le, mul_zero]
    congr 1
    field_simp
  simp only [e, integral_const_mul]
  rcases hcp with rfl | rfl
  · have h := (hc.call_law hKF).2
    simp only [gt_iff_lt, zero_lt_one, if_true, one_mul]
    rw [h]
    simp only [one_div_div]
    ring
  · have h := hc.put_law hKF
    simp only [gt_iff_lt, show ¬ (0 : ℝ) < -1 by norm_num, if_false, neg_mul, one_mul, neg_sub]
    rw [h]
    simp only [one_div_div]
    ring

/-- **C39**: `cdf` gives the probability of finishing above (`cp=1`) or below (`cp=-1`) the strike, in both conventions. -/
theorem invgauss_cdf_correct (m : InvGauss) {K S T : ℝ} (hs : m.mp.sigma ≠ 0) (hK : 0 < K) (hS : 0 < S) (hT : 0 < T) :
    m.cdf K S T 1 = ((Spec.igMeasure 1 (1 / (exp (m.mp.sigma ^ 2 * T) - 1)))
      {x | K < Spec.forward m.mp.isFwd m.mp.intr m.mp.divr S T * x}).toReal ∧ m.cdf K S T (-1) = 1 - m.cdf K S T 1 := by
  have hl := m.lam_pos hs hT
  have hF : 0 < m.mp.fwd S T := m.mp.fwd_pos hS T
  rw [← MParams.forward_eq_spec, ← MParams.fwd_eq_forward]
  unfold cdf
  simp only [invgaussSf, invgauss_eq hl]
  generalize m.mp.fwd S T = F at *
  generalize exp (m.mp.sigma ^ 2 * T) - 1 = s at *
  constructor
  · have hset : {x | K < F * x} = Ioi (K / F) := by
      ext x
      simp only [Set.mem_ofPred_eq, mem_Ioi, div_lt_iff₀ hF, mul_comm F]
    obtain ⟨⟨hi, -⟩, -⟩ := raw (one_div_pos.2 hl)
    have hKF := div_pos hK hF
    simp only [gt_iff_lt, zero_lt_one, if_true, hset]
    unfold Spec.igMeasure
    rw [withDensity_apply _ measurableSet_Ioi, Measure.restrict_restrict measurableSet_Ioi,
      inter_eq_left.2 (Ioi_subset_Ioi hKF.le), ← ofReal_integral_eq_lintegral_ofReal (hi.mono_set (Ioi_subset_Ioi hKF.le)) (ae_of_all _ fun x => igPDF_nonneg _ _ _),
      ENNReal.toReal_ofReal (integral_nonneg fun x => igPDF_nonneg _ _ _), igH_tail (one_div_pos.2 hl) hKF.le]
  · simp [show ¬ (0 : ℝ) < -1 by norm_num]

/-- **C39**: put-call parity, both conventions. -/
theorem invgauss_parity (m : InvGauss) {K S T : ℝ} (hS : 0 < S) :
    Spec.Parity (m.price K S T 1) (m.price K S T (-1)) (Spec.discount m.mp.intr T)
      (Spec.forward m.mp.isFwd m.mp.intr m.mp.divr S T) K := by
  have hF : 0 < m.mp.fwd S T := m.mp.fwd_pos hS T
  rw [← MParams.forward_eq_spec, ← MParams.fwd_eq_forward, ← MParams.df_eq_spec]
  unfold Spec.Parity price invgaussSf
  simp only [gt_iff_lt, zero_lt_one, if_true, show ¬ (0 : ℝ) < -1 by norm_num, if_false]
  field_simp
  ring

end InvGauss

/-- The hypotheses of the C39 theorems are met by a concrete model. -/
example : ∃ m : InvGam, m.mp.sigma ≠ 0 ∧ m.mp.isFwd = false ∧ (m.alphaBeta 100 1).1 > 2 :=
  ⟨⟨⟨0.2, 0.05, 0.01, false⟩⟩, by norm_num, rfl, InvGam.alpha_gt _ (by norm_num) (by norm_num)⟩

end PyFENG
