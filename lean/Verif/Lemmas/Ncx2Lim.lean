import Verif.Lemmas.Ncx2
import Mathlib.MeasureTheory.Integral.IntegralEqImproper
import Mathlib.Analysis.Normed.Group.Tannery
import Mathlib.Analysis.SpecialFunctions.Gamma.Basic
import Mathlib.MeasureTheory.Integral.Gamma

/-!
# Limits of the noncentral chi-squared distribution function
-/

namespace PyFENG

open Real Filter Topology Set MeasureTheory

lemma gammaInc_le_pow {a : ℝ} (ha : 0 < a) {y : ℝ} (hy : 0 ≤ y) : gammaInc a y ≤ y ^ a / Real.Gamma (a + 1) := by
  unfold gammaInc
  have h1 : ∫ t in (0 : ℝ)..y, t ^ (a - 1) * exp (-t) ≤ ∫ t in (0 : ℝ)..y, t ^ (a - 1) := by
    refine intervalIntegral.integral_mono_on hy (gammaIntegrand_intervalIntegrable ha hy)
      (intervalIntegral.intervalIntegrable_rpow' (by linarith)) fun t ht => ?_
    exact mul_le_of_le_one_right (rpow_nonneg ht.1 _) (exp_le_one_iff.2 (by linarith [ht.1]))
  rw [integral_rpow (Or.inl (by linarith)), sub_add_cancel, zero_rpow ha.ne', sub_zero] at h1
  rw [Real.Gamma_add_one ha.ne']
  have hG := Real.Gamma_pos_of_pos ha
  rw [div_le_div_iff₀ hG (by positivity)]
  calc _ ≤ y ^ a / a * (a * Real.Gamma a) := by gcongr
    _ = _ := by field_simp

lemma gammaInc_antitone {a : ℝ} (ha : 0 < a) {y : ℝ} (hy : 0 ≤ y) (j : ℕ) : gammaInc (a + j) y ≤ gammaInc a y := by
  induction j with
  | zero => simp
  | succ n ih =>
    have hn : 0 < a + (n : ℝ) := by positivity
    have h1 := gammaInc_succ hn hy
    have h2 := gammaPdf_nonneg (a := a + n + 1) (by positivity) hy
    push_cast
    rw [← add_assoc]
    linarith

lemma ncP_le_gammaInc {a : ℝ} (ha : 0 < a) {y mu : ℝ} (hy : 0 ≤ y) (hm : 0 ≤ mu) : ncP a y mu ≤ gammaInc a y :=
  poisMix_le (gammaInc_abs ha hy) (gammaInc_antitone ha hy) hm

lemma ncP_zero {a y : ℝ} : ncP a y 0 = gammaInc a y := by
  unfold ncP
  rw [poisMix_zero]
  simp

lemma tendsto_gammaInc {a : ℝ} (ha : 0 < a) : Tendsto (gammaInc a) atTop (𝓝 1) := by
  have h := Real.GammaIntegral_convergent ha
  have h1 := intervalIntegral_tendsto_integral_Ioi 0 h tendsto_id
  rw [← Real.Gamma_eq_integral ha] at h1
  have h2 := h1.div_const (Real.Gamma a)
  rw [div_self (Real.Gamma_pos_of_pos ha).ne'] at h2
  refine h2.congr fun y => ?_
  unfold gammaInc
  simp only [id_eq, mul_comm]

lemma gammaInc_strict {a : ℝ} (ha : 0 < a) {y : ℝ} (hy : 0 ≤ y) : gammaInc a y < 1 := by
  have h1 := gammaInc_succ ha (show (0 : ℝ) ≤ y + 1 by linarith)
  have hmono : gammaInc a y < gammaInc a (y + 1) := by
    unfold gammaInc
    have hG := Real.Gamma_pos_of_pos ha
    refine div_lt_div_of_pos_right ?_ hG
    have i1 := gammaIntegrand_intervalIntegrable ha hy
    have i2 := gammaIntegrand_intervalIntegrable ha (show (0 : ℝ) ≤ y + 1 by linarith)
    have i3 := i1.symm.trans i2
    rw [← intervalIntegral.integral_add_adjacent_intervals i1 i3]
    have : 0 < ∫ t in y..(y + 1), t ^ (a - 1) * exp (-t) := by
      refine intervalIntegral.intervalIntegral_pos_of_pos_on i3 (fun t ht => ?_) (by linarith)
      have : 0 < t := hy.trans_lt ht.1
      positivity
    linarith
  exact hmono.trans_le (gammaInc_le_one ha (by linarith))

lemma gammaInc_pos {a : ℝ} (ha : 0 < a) {y : ℝ} (hy : 0 < y) : 0 < gammaInc a y := by
  unfold gammaInc
  refine div_pos ?_ (Real.Gamma_pos_of_pos ha)
  refine intervalIntegral.intervalIntegral_pos_of_pos_on (gammaIntegrand_intervalIntegrable ha hy.le) (fun t ht => ?_) hy
  have : 0 < t := ht.1
  positivity

lemma tendsto_ncP_y_top {a : ℝ} (ha : 0 < a) {mu : ℝ} (hm : 0 ≤ mu) : Tendsto (fun y => ncP a y mu) atTop (𝓝 1) := by
  unfold ncP poisMix
  have h : Tendsto (fun y => ∑' j : ℕ, mu ^ j / j.factorial * gammaInc (a + j) y) atTop (𝓝 (∑' j : ℕ, mu ^ j / j.factorial * 1)) := by
    refine tendsto_tsum_of_dominated_convergence (bound := fun j : ℕ => mu ^ j / j.factorial) (Real.summable_pow_div_factorial mu) ?_ ?_
    · intro j
      exact (tendsto_gammaInc (by positivity)).const_mul _
    · filter_upwards [eventually_ge_atTop 0] with y hy j
      rw [norm_mul, Real.norm_eq_abs, Real.norm_eq_abs, abs_of_nonneg (by positivity)]
      exact mul_le_of_le_one_right (by positivity) (gammaInc_abs ha hy j)
  have h2 := h.const_mul (exp (-mu))
  have h3 := poisMix_const 1 mu
  unfold poisMix at h3
  rwa [h3] at h2

lemma gammaInc_le_two {a : ℝ} (ha : 0 < a) {y : ℝ} (hy : 0 ≤ y) : gammaInc a y ≤ exp y * (1 / 2) ^ a := by
  have hG := Real.Gamma_pos_of_pos ha
  unfold gammaInc
  rw [div_le_iff₀ hG]
  have e := Real.integral_rpow_mul_exp_neg_mul_Ioi ha (show (0 : ℝ) < 2 by norm_num)
  have hint : IntegrableOn (fun t : ℝ => t ^ (a - 1) * exp (-(2 * t))) (Ioi 0) := by
    by_contra hc
    rw [integral_undef hc] at e
    have : 0 < (1 / (2 : ℝ)) ^ a * Real.Gamma a := by positivity
    exact this.ne e
  have h1 : ∫ t in (0 : ℝ)..y, t ^ (a - 1) * exp (-t) ≤ ∫ t in Ioc 0 y, exp y * (t ^ (a - 1) * exp (-(2 * t))) := by
    rw [intervalIntegral.integral_of_le hy]
    refine setIntegral_mono_on ?_ ?_ measurableSet_Ioc fun t ht => ?_
    · exact (intervalIntegrable_iff_integrableOn_Ioc_of_le hy).1 (gammaIntegrand_intervalIntegrable ha hy)
    · exact (hint.mono_set Ioc_subset_Ioi_self).const_mul _
    · rw [← mul_assoc, mul_comm (exp y), mul_assoc, ← exp_add]
      exact mul_le_mul_of_nonneg_left (exp_le_exp.2 (by linarith [ht.2])) (rpow_nonneg ht.1.le _)
  refine h1.trans ?_
  rw [integral_const_mul, mul_assoc, ← e]
  refine mul_le_mul_of_nonneg_left ?_ (exp_pos y).le
  refine setIntegral_mono_set hint ?_ (Ioc_subset_Ioi_self).eventuallyLE
  filter_upwards [ae_restrict_mem measurableSet_Ioi] with t ht
  have : 0 < t := ht
  exact mul_nonneg (rpow_nonneg this.le _) (exp_pos _).le

/-- The distribution function decays exponentially in the noncentrality. -/
lemma ncP_le_exp {a : ℝ} (ha : 0 < a) {y mu : ℝ} (hy : 0 ≤ y) (hm : 0 ≤ mu) : ncP a y mu ≤ exp y * (1 / 2) ^ a * exp (-(mu / 2)) := by
  unfold ncP poisMix
  have hs : HasSum (fun j : ℕ => mu ^ j / j.factorial * (exp y * (1 / 2) ^ (a + j))) (exp y * (1 / 2) ^ a * exp (mu / 2)) := by
    have h := (NormedSpace.expSeries_div_hasSum_exp (𝔸 := ℝ) (mu / 2)).mul_left (exp y * (1 / 2) ^ a)
    rw [← Real.exp_eq_exp_ℝ] at h
    refine h.congr_fun ?_
    intro j
    rw [rpow_add (by norm_num), rpow_natCast, div_pow, div_pow, one_pow]
    ring
  have hle : ∑' j : ℕ, mu ^ j / j.factorial * gammaInc (a + j) y ≤ exp y * (1 / 2) ^ a * exp (mu / 2) := by
    rw [← hs.tsum_eq]
    refine Summable.tsum_le_tsum (fun j => ?_) (summable_pow_div_factorial_mul (gammaInc_abs ha hy) mu) hs.summable
    exact mul_le_mul_of_nonneg_left (gammaInc_le_two (by positivity) hy) (by positivity)
  calc _ ≤ exp (-mu) * (exp y * (1 / 2) ^ a * exp (mu / 2)) := mul_le_mul_of_nonneg_left hle (exp_pos _).le
    _ = exp y * (1 / 2) ^ a * (exp (-mu) * exp (mu / 2)) := by ring
    _ = _ := by rw [← exp_add]; congr 2; ring

end PyFENG
