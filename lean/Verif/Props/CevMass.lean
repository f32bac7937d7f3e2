import Verif.Props.CevLaw
import Verif.Lemmas.Kang

/-!
# C84: `mass_zero_t0` is the small-time rate of the mass at zero
-/

namespace PyFENG

open Real Filter Topology Set MeasureTheory

lemma gammaSf_lower {a : ℝ} (ha : 0 < a) {x : ℝ} (hx : 1 ≤ x) :
    -x - 1 - |a - 1| * log (x + 1) - log (Real.Gamma a) ≤ log (gammaSf x a) := by
  have hG := Real.Gamma_pos_of_pos ha
  have hx0 : 0 ≤ x := by linarith
  have hlow : (x + 1) ^ (-|a - 1|) * exp (-(x + 1)) / Real.Gamma a ≤ gammaSf x a := by
    unfold gammaSf
    rw [← integral_gammaPdf_Ioi ha hx0]
    have hi := (integrableOn_gammaPdf ha).mono_set (Ioi_subset_Ioi hx0)
    calc _ = ∫ _ in Ioc x (x + 1), (x + 1) ^ (-|a - 1|) * exp (-(x + 1)) / Real.Gamma a := by simp
      _ ≤ ∫ t in Ioc x (x + 1), gammaPdf a t := by
          refine setIntegral_mono_on (integrableOn_const (by simp)) (hi.mono_set Ioc_subset_Ioi_self) measurableSet_Ioc fun t ht => ?_
          unfold gammaPdf
          have ht1 : 1 ≤ t := hx.trans ht.1.le
          refine div_le_div_of_nonneg_right ?_ hG.le
          refine mul_le_mul ?_ (exp_le_exp.2 (by linarith [ht.2])) (exp_pos _).le (by positivity)
          calc (x + 1) ^ (-|a - 1|) ≤ t ^ (-|a - 1|) := rpow_le_rpow_of_nonpos (by linarith) ht.2 (by simp)
            _ ≤ t ^ (a - 1) := rpow_le_rpow_of_exponent_le ht1 (neg_abs_le _)
      _ ≤ _ := by
          refine setIntegral_mono_set hi ?_ (Ioc_subset_Ioi_self).eventuallyLE
          filter_upwards [ae_restrict_mem measurableSet_Ioi] with t ht
          exact gammaPdf_nonneg ha (hx0.trans (le_of_lt ht))
  have hpos : 0 < (x + 1) ^ (-|a - 1|) * exp (-(x + 1)) / Real.Gamma a := by positivity
  have := log_le_log hpos hlow
  rw [log_div (by positivity) hG.ne', log_mul (by positivity) (exp_pos _).ne', log_exp, log_rpow (by linarith)] at this
  linarith

lemma gammaSf_upper {a : ℝ} (ha : 0 < a) {d : ℝ} (hd : 0 < d) (hd1 : d < 1) {x : ℝ} (hx : 0 ≤ x) :
    log (gammaSf x a) ≤ -(1 - d) * x - a * log d := by
  have hG := Real.Gamma_pos_of_pos ha
  have e := Real.integral_rpow_mul_exp_neg_mul_Ioi ha hd
  have hint : IntegrableOn (fun t : ℝ => t ^ (a - 1) * exp (-(d * t))) (Ioi 0) := by
    by_contra hc
    rw [integral_undef hc] at e
    have : 0 < (1 / d) ^ a * Real.Gamma a := by positivity
    exact this.ne e
  have hup : gammaSf x a ≤ exp (-(1 - d) * x) * (1 / d) ^ a := by
    unfold gammaSf
    rw [← integral_gammaPdf_Ioi ha hx]
    have hi := (integrableOn_gammaPdf ha).mono_set (Ioi_subset_Ioi hx)
    calc _ ≤ ∫ t in Ioi x, exp (-(1 - d) * x) / Real.Gamma a * (t ^ (a - 1) * exp (-(d * t))) := by
          refine setIntegral_mono_on hi ((hint.mono_set (Ioi_subset_Ioi hx)).const_mul _) measurableSet_Ioi fun t ht => ?_
          have ht' : x < t := ht
          unfold gammaPdf
          rw [show exp (-(1 - d) * x) / Real.Gamma a * (t ^ (a - 1) * exp (-(d * t)))
            = t ^ (a - 1) * (exp (-(1 - d) * x) * exp (-(d * t))) / Real.Gamma a by ring, ← exp_add]
          refine div_le_div_of_nonneg_right (mul_le_mul_of_nonneg_left (exp_le_exp.2 ?_) (rpow_nonneg (by linarith) _)) hG.le
          nlinarith
      _ ≤ ∫ t in Ioi 0, exp (-(1 - d) * x) / Real.Gamma a * (t ^ (a - 1) * exp (-(d * t))) := by
          refine setIntegral_mono_set (hint.const_mul _) ?_ (Ioi_subset_Ioi hx).eventuallyLE
          filter_upwards [ae_restrict_mem measurableSet_Ioi] with t ht
          have : 0 < t := ht
          exact mul_nonneg (by positivity) (by positivity)
      _ = _ := by
          rw [integral_const_mul, e]
          field_simp
  have hpos : 0 < gammaSf x a := by unfold gammaSf; linarith [gammaInc_strict ha hx]
  have := log_le_log hpos hup
  rw [log_mul (exp_pos _).ne' (by positivity), log_exp, log_rpow (by positivity), one_div, log_inv] at this
  linarith

/-- Logarithmic tail of the gamma law. -/
lemma tendsto_log_gammaSf {a : ℝ} (ha : 0 < a) : Tendsto (fun x => log (gammaSf x a) / x) atTop (𝓝 (-1)) := by
  rw [tendsto_order]
  constructor
  · intro b hb
    have hl : Tendsto (fun x : ℝ => -1 - (1 + log (Real.Gamma a)) * x⁻¹ - |a - 1| * (log (x + 1) / x)) atTop
        (𝓝 (-1 - (1 + log (Real.Gamma a)) * 0 - |a - 1| * 0)) := by
      refine (tendsto_const_nhds.sub (tendsto_inv_atTop_zero.const_mul _)).sub (Tendsto.const_mul _ ?_)
      have h1 : Tendsto (fun x : ℝ => log (x + 1) / (x + 1)) atTop (𝓝 0) := by
        have := (isLittleO_log_id_atTop.tendsto_div_nhds_zero).comp (tendsto_atTop_add_const_right atTop (1 : ℝ) tendsto_id)
        exact this
      have h2 : Tendsto (fun x : ℝ => 1 + x⁻¹) atTop (𝓝 (1 + 0)) := tendsto_const_nhds.add tendsto_inv_atTop_zero
      have h3 := h1.mul h2
      rw [zero_mul] at h3
      refine h3.congr' ?_
      filter_upwards [eventually_gt_atTop 0] with x hx
      field_simp
    have hev := hl.eventually (lt_mem_nhds (show b < -1 - (1 + log (Real.Gamma a)) * 0 - |a - 1| * 0 by linarith))
    filter_upwards [hev, eventually_ge_atTop 1] with x h1 h2
    have h3 := gammaSf_lower ha h2
    have hx : 0 < x := by linarith
    rw [lt_div_iff₀ hx]
    refine lt_of_lt_of_le (mul_lt_mul_of_pos_right h1 hx) (le_trans (le_of_eq ?_) h3)
    field_simp
    ring
  · intro b hb
    obtain ⟨d, hd0, hd1, hdb⟩ : ∃ d : ℝ, 0 < d ∧ d < 1 ∧ -(1 - d) < b := by
      refine ⟨min (1 / 2) ((b + 1) / 2), by have := lt_min (show (0:ℝ) < 1/2 by norm_num) (show 0 < (b + 1) / 2 by linarith); exact this, ?_, ?_⟩
      · exact (min_le_left _ _).trans_lt (by norm_num)
      · have := min_le_right (1 / 2 : ℝ) ((b + 1) / 2)
        linarith
    have hu : Tendsto (fun x : ℝ => -(1 - d) - a * log d * x⁻¹) atTop (𝓝 (-(1 - d) - a * log d * 0)) :=
      tendsto_const_nhds.sub (tendsto_inv_atTop_zero.const_mul _)
    have hev := hu.eventually (gt_mem_nhds (show -(1 - d) - a * log d * 0 < b by linarith))
    filter_upwards [hev, eventually_gt_atTop 0] with x h1 hx
    have h3 := gammaSf_upper ha hd0 hd1 hx.le
    rw [div_lt_iff₀ hx]
    refine lt_of_le_of_lt (h3.trans (le_of_eq ?_)) (mul_lt_mul_of_pos_right h1 hx)
    field_simp

namespace Cev

lemma continuous_mul_exprel : ContinuousAt exprel 0 := by
  have h : HasDerivAt exp (exp 0) 0 := Real.hasDerivAt_exp 0
  rw [exp_zero] at h
  have h2 := hasDerivAt_iff_tendsto_slope.1 h
  rw [continuousAt_iff_punctured_nhds]
  have e0 : exprel 0 = 1 := by simp [exprel]
  rw [e0]
  refine h2.congr' ?_
  filter_upwards [self_mem_nhdsWithin] with x hx
  have hx' : x ≠ 0 := hx
  simp [slope_def_field, exprel, hx']

lemma massZeroT0_eq (m : Cev) {S T : ℝ} (hF : 0 < m.mp.fwd S T) (hT : 0 < T) :
    m.massZeroT0 S T = T * m.lev T (m.mp.fwd S T) := by
  have h := z0_eq m hF T
  unfold massZeroT0
  simp only [show m.mp.forward S T = m.mp.fwd S T by rw [MParams.fwd_eq_forward]]
  have : m.lev T (m.mp.fwd S T) = (1 / (((1 - m.beta) * (m.sigma / m.mp.fwd S T ^ (1 - m.beta))) ^ 2 * T
    * exprel (2 * (m.intr - m.divr) * (1 - m.beta) * T))) / 2 := by rw [h]; ring
  rw [this, show (0.5 : ℝ) = 1 / 2 by norm_num]
  rw [show ((1 - m.beta) * (m.sigma / m.mp.fwd S T ^ (1 - m.beta))) ^ 2 * T * exprel (2 * (m.intr - m.divr) * (1 - m.beta) * T)
    = T * (((1 - m.beta) * (m.sigma / m.mp.fwd S T ^ (1 - m.beta))) ^ 2 * exprel (2 * (m.intr - m.divr) * (1 - m.beta) * T)) by ring]
  generalize ((1 - m.beta) * (m.sigma / m.mp.fwd S T ^ (1 - m.beta))) ^ 2 * exprel (2 * (m.intr - m.divr) * (1 - m.beta) * T) = w
  rw [one_div (T * w), mul_inv]
  field_simp

lemma tendsto_massZeroT0 (m : Cev) (hb : m.beta ≠ 1) (hs : 0 < m.sigma) {S : ℝ} (hS : 0 < S) :
    Tendsto (fun T => m.massZeroT0 S T) (𝓝[>] 0) (𝓝 (S ^ (2 * (1 - m.beta)) / (2 * ((1 - m.beta) ^ 2 * m.sigma ^ 2)))) := by
  have hb1 : (1 - m.beta) ≠ 0 := sub_ne_zero.2 hb.symm
  have hf : Tendsto (fun T => m.mp.fwd S T) (𝓝[>] 0) (𝓝 S) := by
    have h := (m.fwd_deriv_T S 0).continuousAt.tendsto
    have e : m.mp.fwd S 0 = S := by
      rw [MParams.fwd_eq_forward, MParams.forward_eq_spec]
      unfold Spec.forward mp
      simp
    rw [e] at h
    exact h.mono_left nhdsWithin_le_nhds
  have hex : Tendsto (fun T => exprel (2 * (m.intr - m.divr) * (1 - m.beta) * T)) (𝓝[>] 0) (𝓝 1) := by
    have h := continuous_mul_exprel.tendsto
    rw [show exprel 0 = 1 by simp [exprel]] at h
    refine h.comp ?_
    have : Tendsto (fun T : ℝ => 2 * (m.intr - m.divr) * (1 - m.beta) * T) (𝓝 0) (𝓝 (2 * (m.intr - m.divr) * (1 - m.beta) * 0)) :=
      tendsto_id.const_mul _
    rw [mul_zero] at this
    exact this.mono_left nhdsWithin_le_nhds
  have hp := (hf.rpow_const (p := 1 - m.beta) (Or.inl hS.ne'))
  have h1 := (((tendsto_const_nhds (x := m.sigma)).div hp (rpow_pos_of_pos hS _).ne').const_mul (1 - m.beta)).pow 2
  have hne : ((1 - m.beta) * (m.sigma / S ^ (1 - m.beta))) ^ 2 * 1 ≠ 0 := by
    have := rpow_pos_of_pos hS (1 - m.beta)
    positivity
  have h2 := (tendsto_const_nhds (x := (0.5 : ℝ))).div (h1.mul hex) hne
  have e : (0.5 : ℝ) / (((1 - m.beta) * (m.sigma / S ^ (1 - m.beta))) ^ 2 * 1)
      = S ^ (2 * (1 - m.beta)) / (2 * ((1 - m.beta) ^ 2 * m.sigma ^ 2)) := by
    rw [mul_pow, sq_div_rpow hS]
    have := (rpow_pos_of_pos hS (2 * (1 - m.beta))).ne'
    field_simp
    norm_num
  rw [e] at h2
  refine h2.congr fun T => ?_
  unfold massZeroT0
  simp only [show m.mp.forward S T = m.mp.fwd S T by rw [MParams.fwd_eq_forward]]
  rfl

/-- **C84**: `mass_zero_t0` is what its docstring says: `-T log(mass_zero(T))` and `mass_zero_t0` have the same limit as `T → 0`,
the squared geodesic distance to zero over two, `S^(2-2beta) / (2 (1-beta)^2 sigma^2)`. -/
theorem cev_mass_zero_t0 (m : Cev) (hb : m.beta < 1) (hs : 0 < m.sigma) {S : ℝ} (hS : 0 < S) :
    Tendsto (fun T => m.massZeroT0 S T) (𝓝[>] 0) (𝓝 (S ^ (2 * (1 - m.beta)) / (2 * ((1 - m.beta) ^ 2 * m.sigma ^ 2)))) ∧
    Tendsto (fun T => -T * log ((m.massZero S T).getD 0)) (𝓝[>] 0)
      (𝓝 (S ^ (2 * (1 - m.beta)) / (2 * ((1 - m.beta) ^ 2 * m.sigma ^ 2)))) := by
  have hT0 := m.tendsto_massZeroT0 hb.ne hs hS
  refine ⟨hT0, ?_⟩
  have hnu : 0 < 1 / (2 * (1 - m.beta)) := div_pos one_pos (by linarith)
  have hb1 : 0 < (1 - m.beta) := by linarith
  have hlev : Tendsto (fun T => m.lev T (m.mp.fwd S T)) (𝓝[>] 0) atTop := by
    have hc : 0 < S ^ (2 * (1 - m.beta)) / (2 * ((1 - m.beta) ^ 2 * m.sigma ^ 2)) := by positivity
    have h := hT0.pos_mul_atTop hc tendsto_inv_nhdsGT_zero
    refine h.congr' ?_
    filter_upwards [self_mem_nhdsWithin] with T hT
    have hT' : 0 < T := hT
    rw [m.massZeroT0_eq (m.mp.fwd_pos hS T) hT']
    field_simp
  have h1 := (tendsto_log_gammaSf hnu).comp hlev
  have h2 := (hT0.mul h1).neg
  rw [mul_neg_one, neg_neg] at h2
  refine h2.congr' ?_
  filter_upwards [self_mem_nhdsWithin] with T hT
  have hT' : 0 < T := hT
  have hF := m.mp.fwd_pos hS T
  have hl := (m.lev_pos hb.ne hs hT' hF).ne'
  rw [m.massZeroT0_eq hF hT', m.massZero_eq hb hF]
  simp only [Function.comp_apply, Option.getD_some, gammaSf]
  field_simp

end Cev

end PyFENG
