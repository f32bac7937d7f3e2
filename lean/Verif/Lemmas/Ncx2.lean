import Verif.Model.Ncx2
import Mathlib.MeasureTheory.Integral.IntervalIntegral.FundThmCalculus
import Mathlib.Analysis.Calculus.SmoothSeries
import Mathlib.Analysis.Calculus.FDeriv.Partial
import Mathlib.Analysis.SpecialFunctions.Exponential
import Mathlib.Analysis.SpecialFunctions.Pow.Deriv
import Mathlib.Analysis.SpecialFunctions.Integrals.Basic

/-!
# Calculus of the noncentral chi-squared distribution function
-/

namespace PyFENG

open Real Filter Topology Set

/-! ### Incomplete gamma -/

lemma gammaIntegrand_intervalIntegrable {a : ℝ} (ha : 0 < a) {y : ℝ} (_ : 0 ≤ y) :
    IntervalIntegrable (fun t : ℝ => t ^ (a - 1) * exp (-t)) MeasureTheory.volume 0 y := by
  refine (intervalIntegral.intervalIntegrable_rpow' (by linarith)).mul_continuousOn ?_
  fun_prop

lemma gammaInc_zero (a : ℝ) : gammaInc a 0 = 0 := by simp [gammaInc]

lemma gammaInc_nonneg {a : ℝ} (ha : 0 < a) {y : ℝ} (hy : 0 ≤ y) : 0 ≤ gammaInc a y := by
  unfold gammaInc
  refine div_nonneg (intervalIntegral.integral_nonneg hy fun t ht => ?_) (Real.Gamma_pos_of_pos ha).le
  exact mul_nonneg (rpow_nonneg ht.1 _) (exp_pos _).le

lemma gammaInc_le_one {a : ℝ} (ha : 0 < a) {y : ℝ} (hy : 0 ≤ y) : gammaInc a y ≤ 1 := by
  unfold gammaInc
  rw [div_le_one (Real.Gamma_pos_of_pos ha), Real.Gamma_eq_integral ha, intervalIntegral.integral_of_le hy]
  have h := Real.GammaIntegral_convergent ha
  have e : ∀ t : ℝ, t ^ (a - 1) * exp (-t) = exp (-t) * t ^ (a - 1) := fun t => mul_comm _ _
  simp only [e]
  refine MeasureTheory.setIntegral_mono_set h ?_ ?_
  · refine (MeasureTheory.ae_restrict_mem measurableSet_Ioi).mono fun t ht => ?_
    exact mul_nonneg (exp_pos _).le (rpow_nonneg (le_of_lt ht) _)
  · exact (Ioc_subset_Ioi_self).eventuallyLE

lemma gammaPdf_nonneg {a : ℝ} (ha : 0 < a) {y : ℝ} (hy : 0 ≤ y) : 0 ≤ gammaPdf a y :=
  div_nonneg (mul_nonneg (rpow_nonneg hy _) (exp_pos _).le) (Real.Gamma_pos_of_pos ha).le

lemma gammaPdf_pos {a : ℝ} (ha : 0 < a) {y : ℝ} (hy : 0 < y) : 0 < gammaPdf a y :=
  div_pos (mul_pos (rpow_pos_of_pos hy _) (exp_pos _)) (Real.Gamma_pos_of_pos ha)

/-- Integration by parts. -/
lemma gammaInc_succ {a : ℝ} (ha : 0 < a) {y : ℝ} (hy : 0 ≤ y) : gammaInc a y - gammaInc (a + 1) y = gammaPdf (a + 1) y := by
  have hG := Real.Gamma_pos_of_pos ha
  have hFTC : ∫ t in (0 : ℝ)..y, (a * (t ^ (a - 1) * exp (-t)) - t ^ (a + 1 - 1) * exp (-t)) = y ^ a * exp (-y) - 0 ^ a * exp (-0) := by
    refine intervalIntegral.integral_eq_sub_of_hasDeriv_right_of_le hy (f := fun t => t ^ a * exp (-t)) ?_ ?_ ?_
    · exact (Continuous.mul (continuous_id.rpow_const fun _ => Or.inr ha.le) (by fun_prop)).continuousOn
    · intro t ht
      have h1 := (Real.hasDerivAt_rpow_const (x := t) (p := a) (Or.inl ht.1.ne')).mul ((hasDerivAt_neg t).exp)
      refine (h1.congr_deriv ?_).hasDerivWithinAt
      simp only [add_sub_cancel_right]
      ring
    · exact ((gammaIntegrand_intervalIntegrable ha hy).const_mul a).sub (gammaIntegrand_intervalIntegrable (by linarith) hy)
  rw [intervalIntegral.integral_sub ((gammaIntegrand_intervalIntegrable ha hy).const_mul a)
    (gammaIntegrand_intervalIntegrable (by linarith) hy), intervalIntegral.integral_const_mul, zero_rpow ha.ne'] at hFTC
  unfold gammaInc gammaPdf
  rw [Real.Gamma_add_one ha.ne']
  rw [add_sub_cancel_right] at *
  field_simp
  linarith

lemma hasDerivAt_gammaInc {a : ℝ} (ha : 0 < a) {y : ℝ} (hy : 0 < y) : HasDerivAt (gammaInc a) (gammaPdf a y) y := by
  unfold gammaInc gammaPdf
  refine HasDerivAt.div_const ?_ _
  refine intervalIntegral.integral_hasDerivAt_right (gammaIntegrand_intervalIntegrable ha hy.le) ?_ ?_
  · refine ContinuousAt.stronglyMeasurableAtFilter (s := Ioi 0) isOpen_Ioi (fun t ht => ?_) y hy
    exact (continuousAt_rpow_const _ _ (Or.inl (ne_of_gt ht))).mul (by fun_prop)
  · exact (continuousAt_rpow_const _ _ (Or.inl hy.ne')).mul (by fun_prop)

lemma gammaPdf_le_one {a : ℝ} (ha : 1 < a) {y : ℝ} (hy : 0 ≤ y) : gammaPdf a y ≤ 1 := by
  have h := gammaInc_succ (a := a - 1) (by linarith) hy
  rw [sub_add_cancel] at h
  linarith [gammaInc_le_one (a := a - 1) (by linarith) hy, gammaInc_nonneg (a := a) (by linarith) hy]

/-! ### Poisson mixtures -/

lemma summable_pow_div_factorial_mul {c : ℕ → ℝ} {C : ℝ} (hc : ∀ j, |c j| ≤ C) (mu : ℝ) :
    Summable fun j : ℕ => mu ^ j / j.factorial * c j := by
  refine Summable.of_norm_bounded ((Real.summable_pow_div_factorial |mu|).mul_right C) fun j => ?_
  rw [norm_mul, norm_div, norm_pow, Real.norm_eq_abs, Real.norm_eq_abs, Real.norm_eq_abs, Nat.abs_cast]
  exact mul_le_mul_of_nonneg_left (hc j) (by positivity)

lemma poisMix_sub {c d : ℕ → ℝ} {C D : ℝ} (hc : ∀ j, |c j| ≤ C) (hd : ∀ j, |d j| ≤ D) (mu : ℝ) :
    poisMix c mu - poisMix d mu = poisMix (fun j => c j - d j) mu := by
  unfold poisMix
  rw [← mul_sub, ← (summable_pow_div_factorial_mul hc mu).tsum_sub (summable_pow_div_factorial_mul hd mu)]
  simp only [mul_sub]

lemma poisMix_const (x mu : ℝ) : poisMix (fun _ => x) mu = x := by
  unfold poisMix
  rw [tsum_mul_right, (NormedSpace.expSeries_div_hasSum_exp mu).tsum_eq, ← Real.exp_eq_exp_ℝ, ← mul_assoc, ← exp_add]
  simp

lemma poisMix_nonneg {c : ℕ → ℝ} (hc : ∀ j, 0 ≤ c j) {mu : ℝ} (hm : 0 ≤ mu) : 0 ≤ poisMix c mu :=
  mul_nonneg (exp_pos _).le (tsum_nonneg fun j => mul_nonneg (by positivity) (hc j))

lemma poisMix_pos {c : ℕ → ℝ} {C : ℝ} (hC : ∀ j, |c j| ≤ C) (hc : ∀ j, 0 < c j) {mu : ℝ} (hm : 0 ≤ mu) : 0 < poisMix c mu := by
  refine mul_pos (exp_pos _) ?_
  refine (summable_pow_div_factorial_mul hC mu).tsum_pos (fun j => mul_nonneg (by positivity) (hc j).le) 0 ?_
  simpa using hc 0

lemma poisMix_le {c : ℕ → ℝ} {C x : ℝ} (hC : ∀ j, |c j| ≤ C) (hc : ∀ j, c j ≤ x) {mu : ℝ} (hm : 0 ≤ mu) : poisMix c mu ≤ x := by
  rw [← poisMix_const x mu]
  refine mul_le_mul_of_nonneg_left ?_ (exp_pos _).le
  refine (summable_pow_div_factorial_mul hC mu).tsum_le_tsum (fun j => ?_)
    (summable_pow_div_factorial_mul (c := fun _ => x) (fun _ => le_rfl) mu)
  exact mul_le_mul_of_nonneg_left (hc j) (by positivity)

lemma poisMix_zero (c : ℕ → ℝ) : poisMix c 0 = c 0 := by
  unfold poisMix
  rw [tsum_eq_single 0 fun j hj => by simp [hj]]
  simp

lemma hasDerivAt_expSeries {c : ℕ → ℝ} {C : ℝ} (hc : ∀ j, |c j| ≤ C) (mu : ℝ) :
    HasDerivAt (fun m : ℝ => ∑' j : ℕ, m ^ j / j.factorial * c j) (∑' j : ℕ, mu ^ j / j.factorial * c (j + 1)) mu := by
  have hC : 0 ≤ C := (abs_nonneg _).trans (hc 0)
  have e : (fun m : ℝ => ∑' j : ℕ, m ^ j / j.factorial * c j)
      = fun m => c 0 + ∑' j : ℕ, m ^ (j + 1) / (j + 1).factorial * c (j + 1) := by
    ext m
    rw [(summable_pow_div_factorial_mul hc m).tsum_eq_zero_add]
    simp
  rw [e]
  refine HasDerivAt.const_add _ ?_
  refine hasDerivAt_tsum_of_isPreconnected (u := fun j : ℕ => (|mu| + 1) ^ j / j.factorial * C) (t := Metric.ball 0 (|mu| + 1))
    (g := fun (j : ℕ) m => m ^ (j + 1) / (j + 1).factorial * c (j + 1))
    (g' := fun (j : ℕ) m => m ^ j / j.factorial * c (j + 1)) (y₀ := 0)
    ((Real.summable_pow_div_factorial _).mul_right C) Metric.isOpen_ball
    (convex_ball _ _).isPreconnected ?_ ?_ ?_ ?_ ?_
  · intro j m _
    refine (((hasDerivAt_pow (j + 1) m).div_const _).mul_const _).congr_deriv ?_
    rw [Nat.factorial_succ]
    have := Nat.factorial_pos j
    push_cast
    field_simp
  · intro j m hm
    rw [mem_ball_zero_iff, Real.norm_eq_abs] at hm
    rw [norm_mul, norm_div, norm_pow, Real.norm_eq_abs, Real.norm_eq_abs, Real.norm_eq_abs, Nat.abs_cast]
    gcongr
    exact hc _
  · simp; positivity
  · simp
  · simp

lemma hasDerivAt_poisMix {c : ℕ → ℝ} {C : ℝ} (hc : ∀ j, |c j| ≤ C) (mu : ℝ) :
    HasDerivAt (poisMix c) (poisMix (fun j => c (j + 1) - c j) mu) mu := by
  have h := ((hasDerivAt_neg mu).exp).mul (hasDerivAt_expSeries hc mu)
  have e := poisMix_sub (c := fun j => c (j + 1)) (d := c) (fun j => hc (j + 1)) hc mu
  rw [← e]
  refine h.congr_deriv ?_
  unfold poisMix
  ring

/-! ### The distribution function in half variables -/

/-- `ncx2Cdf` in half variables. -/
noncomputable def ncP (a y mu : ℝ) : ℝ := poisMix (fun j => gammaInc (a + j) y) mu

/-- `2 * ncx2Pdf` in half variables. -/
noncomputable def ncG (a y mu : ℝ) : ℝ := poisMix (fun j => gammaPdf (a + j) y) mu

lemma ncx2Cdf_eq (x df nc : ℝ) : ncx2Cdf x df nc = ncP (df / 2) (x / 2) (nc / 2) := rfl

lemma ncx2Pdf_eq (x df nc : ℝ) : ncx2Pdf x df nc = ncG (df / 2) (x / 2) (nc / 2) / 2 := by
  unfold ncx2Pdf ncG poisMix
  simp only [mul_div_assoc', tsum_div_const]

lemma gammaInc_abs {a : ℝ} (ha : 0 < a) {y : ℝ} (hy : 0 ≤ y) (j : ℕ) : |gammaInc (a + j) y| ≤ 1 := by
  have hj : (0 : ℝ) ≤ j := Nat.cast_nonneg j
  rw [abs_of_nonneg (gammaInc_nonneg (by linarith) hy)]
  exact gammaInc_le_one (by linarith) hy

lemma gammaPdf_abs {a : ℝ} (ha : 0 < a) {y : ℝ} (hy : 0 ≤ y) (j : ℕ) : |gammaPdf (a + j) y| ≤ max 1 (gammaPdf a y) := by
  have hj : (0 : ℝ) ≤ j := Nat.cast_nonneg j
  rw [abs_of_nonneg (gammaPdf_nonneg (by linarith) hy)]
  rcases Nat.eq_zero_or_pos j with h | h
  · subst h; simp
  · have : (1 : ℝ) ≤ j := by exact_mod_cast h
    exact (gammaPdf_le_one (by linarith) hy).trans (le_max_left _ _)

lemma ncP_nonneg {a : ℝ} (ha : 0 < a) {y mu : ℝ} (hy : 0 ≤ y) (hm : 0 ≤ mu) : 0 ≤ ncP a y mu :=
  poisMix_nonneg (fun j => gammaInc_nonneg (by positivity) hy) hm

lemma ncP_le_one {a : ℝ} (ha : 0 < a) {y mu : ℝ} (hy : 0 ≤ y) (hm : 0 ≤ mu) : ncP a y mu ≤ 1 :=
  poisMix_le (gammaInc_abs ha hy) (fun j => gammaInc_le_one (by positivity) hy) hm

lemma ncG_pos {a : ℝ} (ha : 0 < a) {y mu : ℝ} (hy : 0 < y) (hm : 0 ≤ mu) : 0 < ncG a y mu :=
  poisMix_pos (gammaPdf_abs ha hy.le) (fun j => gammaPdf_pos (by positivity) hy) hm

/-- Raising the number of degrees of freedom by two. -/
lemma ncP_succ {a : ℝ} (ha : 0 < a) {y : ℝ} (hy : 0 ≤ y) (mu : ℝ) : ncP a y mu - ncP (a + 1) y mu = ncG (a + 1) y mu := by
  unfold ncP ncG
  rw [poisMix_sub (gammaInc_abs ha hy) (gammaInc_abs (by linarith) hy)]
  congr 1
  ext j
  rw [show a + 1 + (j : ℝ) = a + j + 1 by ring]
  exact gammaInc_succ (by positivity) hy

lemma hasDerivAt_ncP_mu {a : ℝ} (ha : 0 < a) {y : ℝ} (hy : 0 ≤ y) (mu : ℝ) :
    HasDerivAt (fun m => ncP a y m) (-ncG (a + 1) y mu) mu := by
  refine (hasDerivAt_poisMix (gammaInc_abs ha hy) mu).congr_deriv ?_
  unfold ncG
  rw [← sub_eq_zero, sub_neg_eq_add]
  unfold poisMix
  rw [← mul_add, ← Summable.tsum_add]
  · rw [mul_eq_zero]; right
    rw [← tsum_zero (β := ℕ)]
    congr 1
    ext j
    have h := gammaInc_succ (a := a + j) (by positivity) hy
    push_cast
    rw [show a + 1 + (j : ℝ) = a + j + 1 by ring, ← h, show a + ((j : ℝ) + 1) = a + j + 1 by ring]
    ring
  · refine summable_pow_div_factorial_mul (C := 2) (fun j => ?_) mu
    refine (abs_sub _ _).trans ?_
    linarith [gammaInc_abs ha hy j, gammaInc_abs ha hy (j + 1)]
  · exact summable_pow_div_factorial_mul (gammaPdf_abs (by linarith) hy) mu

lemma hasDerivAt_ncP_y {a : ℝ} (ha : 0 < a) {y : ℝ} (hy : 0 < y) (mu : ℝ) :
    HasDerivAt (fun x => ncP a x mu) (ncG a y mu) y := by
  unfold ncP ncG poisMix
  refine HasDerivAt.const_mul _ ?_
  have e0 : ∀ x : ℝ, 0 ≤ x → ∑' j : ℕ, mu ^ j / j.factorial * gammaInc (a + j) x
      = gammaInc a x + ∑' j : ℕ, mu ^ (j + 1) / (j + 1).factorial * gammaInc (a + (j + 1 : ℕ)) x := fun x hx => by
    rw [(summable_pow_div_factorial_mul (gammaInc_abs ha hx) mu).tsum_eq_zero_add]
    simp
  have e1 : ∑' j : ℕ, mu ^ j / j.factorial * gammaPdf (a + j) y
      = gammaPdf a y + ∑' j : ℕ, mu ^ (j + 1) / (j + 1).factorial * gammaPdf (a + (j + 1 : ℕ)) y := by
    rw [(summable_pow_div_factorial_mul (gammaPdf_abs ha hy.le) mu).tsum_eq_zero_add]
    simp
  rw [e1]
  have hev : (fun x => ∑' j : ℕ, mu ^ j / j.factorial * gammaInc (a + j) x) =ᶠ[𝓝 y]
      fun x => gammaInc a x + ∑' j : ℕ, mu ^ (j + 1) / (j + 1).factorial * gammaInc (a + (j + 1 : ℕ)) x := by
    filter_upwards [lt_mem_nhds hy] with x hx using e0 x hx.le
  refine HasDerivAt.congr_of_eventuallyEq ?_ hev
  refine (hasDerivAt_gammaInc ha hy).add ?_
  have hs : Summable fun j : ℕ => |mu| ^ (j + 1) / (j + 1).factorial :=
    (summable_nat_add_iff 1).2 (Real.summable_pow_div_factorial |mu|)
  have hpos : ∀ j : ℕ, 1 < a + ((j + 1 : ℕ) : ℝ) := fun j => by push_cast; have : (0 : ℝ) ≤ j := Nat.cast_nonneg j; linarith
  refine hasDerivAt_tsum_of_isPreconnected (u := fun j : ℕ => |mu| ^ (j + 1) / (j + 1).factorial) (t := Ioi 0)
    (g := fun (j : ℕ) x => mu ^ (j + 1) / (j + 1).factorial * gammaInc (a + (j + 1 : ℕ)) x)
    (g' := fun (j : ℕ) x => mu ^ (j + 1) / (j + 1).factorial * gammaPdf (a + (j + 1 : ℕ)) x) (y₀ := y) hs isOpen_Ioi
    isPreconnected_Ioi ?_ ?_ hy ?_ hy
  · intro j x hx
    exact (hasDerivAt_gammaInc (by linarith [hpos j]) hx).const_mul _
  · intro j x hx
    have hx' : (0 : ℝ) ≤ x := le_of_lt hx
    rw [norm_mul, norm_div, norm_pow, Real.norm_eq_abs, Real.norm_eq_abs, Real.norm_eq_abs, Nat.abs_cast,
      abs_of_nonneg (gammaPdf_nonneg (by linarith [hpos j]) hx')]
    exact mul_le_of_le_one_right (by positivity) (gammaPdf_le_one (hpos j) hx')
  · exact (summable_nat_add_iff 1).2 (summable_pow_div_factorial_mul (gammaInc_abs ha hy.le) mu)

/-! ### Bessel form of the density -/

/-- The entire function `∑ s^j / (j! Γ(a+j))` (a modified Bessel function). -/
noncomputable def besselB (a s : ℝ) : ℝ := ∑' j : ℕ, s ^ j / j.factorial * (Real.Gamma (a + j))⁻¹

lemma inv_Gamma_abs {a : ℝ} (ha : 0 < a) (j : ℕ) : |(Real.Gamma (a + j))⁻¹| ≤ exp 1 * max 1 (gammaPdf a 1) := by
  have h := gammaPdf_abs ha zero_le_one j
  have e : (Real.Gamma (a + j))⁻¹ = exp 1 * gammaPdf (a + j) 1 := by
    unfold gammaPdf
    rw [one_rpow, one_mul, exp_neg]
    have := (exp_pos 1).ne'
    field_simp
  rw [e, abs_mul, abs_of_pos (exp_pos 1)]
  exact mul_le_mul_of_nonneg_left h (exp_pos 1).le

lemma continuous_besselB {a : ℝ} (ha : 0 < a) : Continuous (besselB a) :=
  continuous_iff_continuousAt.2 fun s => (hasDerivAt_expSeries (inv_Gamma_abs ha) s).continuousAt

/-- The recurrence `I_{ν-1} - I_{ν+1} = (2ν/z) I_ν`. -/
lemma besselB_rec {a : ℝ} (ha : 0 < a) (s : ℝ) : besselB a s = a * besselB (a + 1) s + s * besselB (a + 2) s := by
  have h1 := summable_pow_div_factorial_mul (inv_Gamma_abs ha) s
  have h2 := summable_pow_div_factorial_mul (inv_Gamma_abs (a := a + 1) (by linarith)) s
  have h3 := summable_pow_div_factorial_mul (inv_Gamma_abs (a := a + 2) (by linarith)) s
  have hd : ∀ j : ℕ, s ^ j / j.factorial * (Real.Gamma (a + j))⁻¹ - a * (s ^ j / j.factorial * (Real.Gamma (a + 1 + j))⁻¹)
      = j * (s ^ j / j.factorial * (Real.Gamma (a + 1 + j))⁻¹) := by
    intro j
    have hp : 0 < a + j := by positivity
    rw [show a + 1 + (j : ℝ) = a + j + 1 by ring, Real.Gamma_add_one hp.ne']
    have := (Real.Gamma_pos_of_pos hp).ne'
    have := hp.ne'
    field_simp
    ring
  have h4 : Summable fun j : ℕ => (j : ℝ) * (s ^ j / j.factorial * (Real.Gamma (a + 1 + j))⁻¹) := by
    simpa only [hd] using h1.sub (h2.mul_left a)
  have h5 : ∑' j : ℕ, (j : ℝ) * (s ^ j / j.factorial * (Real.Gamma (a + 1 + j))⁻¹) = s * besselB (a + 2) s := by
    rw [h4.tsum_eq_zero_add]
    unfold besselB
    rw [← tsum_mul_left]
    simp only [Nat.cast_zero, zero_mul, zero_add]
    congr 1
    ext j
    rw [Nat.factorial_succ]
    have := Nat.factorial_pos j
    push_cast
    rw [show a + 1 + ((j : ℝ) + 1) = a + 2 + j by ring, pow_succ]
    field_simp
  rw [← h5]
  unfold besselB
  rw [← tsum_mul_left, ← (h2.mul_left a).tsum_add h4]
  congr 1
  ext j
  linarith [hd j]

lemma ncG_eq_bessel {a : ℝ} (ha : 0 < a) {y : ℝ} (hy : 0 < y) (mu : ℝ) :
    ncG a y mu = exp (-mu - y) * y ^ (a - 1) * besselB a (mu * y) := by
  unfold ncG poisMix besselB
  rw [← tsum_mul_left, ← tsum_mul_left]
  congr 1
  ext j
  unfold gammaPdf
  beta_reduce
  rw [show a + (j : ℝ) - 1 = (a - 1) + j by ring, rpow_add hy, rpow_natCast, mul_pow, sub_eq_add_neg (-mu), exp_add]
  have := (Real.Gamma_pos_of_pos (show 0 < a + (j : ℝ) by positivity)).ne'
  field_simp

lemma continuousAt_ncG {a : ℝ} (ha : 0 < a) {y : ℝ} (hy : 0 < y) (mu : ℝ) :
    ContinuousAt (fun p : ℝ × ℝ => ncG a p.1 p.2) (y, mu) := by
  have hev : (fun p : ℝ × ℝ => ncG a p.1 p.2) =ᶠ[𝓝 (y, mu)]
      fun p => exp (-p.2 - p.1) * p.1 ^ (a - 1) * besselB a (p.2 * p.1) := by
    have : ∀ᶠ p : ℝ × ℝ in 𝓝 (y, mu), 0 < p.1 := continuousAt_fst.eventually (lt_mem_nhds hy)
    filter_upwards [this] with p hp using ncG_eq_bessel ha hp _
  refine ContinuousAt.congr ?_ hev.symm
  refine ContinuousAt.mul (ContinuousAt.mul (by fun_prop) ?_) ?_
  · exact continuousAt_fst.rpow_const (Or.inl hy.ne')
  · exact (continuous_besselB ha).continuousAt.comp (by fun_prop)

/-- The total derivative of the distribution function along a path. -/
lemma hasDerivAt_ncP {a : ℝ} (ha : 0 < a) {y mu : ℝ → ℝ} {y' mu' t : ℝ} (hy : HasDerivAt y y' t) (hmu : HasDerivAt mu mu' t)
    (hpos : 0 < y t) :
    HasDerivAt (fun t => ncP a (y t) (mu t)) (ncG a (y t) (mu t) * y' - ncG (a + 1) (y t) (mu t) * mu') t := by
  have h := hasStrictFDerivAt_uncurry_coprod (𝕜 := ℝ) (u := (y t, mu t)) (f := fun y m => ncP a y m)
    (f₁ := fun y m => ContinuousLinearMap.toSpanSingleton ℝ (ncG a y m))
    (f₂ := fun y m => ContinuousLinearMap.toSpanSingleton ℝ (-ncG (a + 1) y m)) ?_ ?_ ?_ ?_
  · have h2 := h.hasFDerivAt.comp_hasDerivAt t (hy.prodMk hmu)
    refine h2.congr_deriv ?_
    simp [Function.HasUncurry.uncurry]
    ring
  · have : ∀ᶠ p : ℝ × ℝ in 𝓝 (y t, mu t), 0 < p.1 := continuousAt_fst.eventually (lt_mem_nhds hpos)
    filter_upwards [this] with p hp using (hasDerivAt_ncP_y ha hp p.2).hasFDerivAt
  · have : ∀ᶠ p : ℝ × ℝ in 𝓝 (y t, mu t), 0 < p.1 := continuousAt_fst.eventually (lt_mem_nhds hpos)
    filter_upwards [this] with p hp using (hasDerivAt_ncP_mu ha hp.le p.2).hasFDerivAt
  · have h1 := continuousAt_ncG ha hpos (mu t)
    exact (ContinuousLinearMap.toSpanSingletonCLE (𝕜 := ℝ) (E := ℝ)).continuous.continuousAt.comp h1
  · have h1 := (continuousAt_ncG (a := a + 1) (by linarith) hpos (mu t)).neg
    exact (ContinuousLinearMap.toSpanSingletonCLE (𝕜 := ℝ) (E := ℝ)).continuous.continuousAt.comp h1

/-- Exchange lemma: swapping argument and noncentrality. -/
lemma ncG_exchange {a : ℝ} (ha : 0 < a) {y mu : ℝ} (hy : 0 < y) (hmu : 0 < mu) :
    mu ^ (a - 1) * ncG a y mu = y ^ (a - 1) * ncG a mu y := by
  rw [ncG_eq_bessel ha hy, ncG_eq_bessel ha hmu, mul_comm y mu, show -y - mu = -mu - y by ring]
  ring

/-- The contiguous relation behind the one-term Greeks. -/
lemma ncG_contig {a : ℝ} (ha : 0 < a) {y mu : ℝ} (hy : 0 < y) (hmu : 0 < mu) :
    mu * (mu ^ a * ncG (a + 2) y mu - y ^ a * ncG a mu y) = -a * mu ^ a * ncG (a + 1) y mu := by
  rw [ncG_eq_bessel (by linarith) hy, ncG_eq_bessel ha hmu, ncG_eq_bessel (by linarith) hy, mul_comm y mu,
    besselB_rec ha (mu * y), show a + 2 - 1 = a + 1 by ring, show a + 1 - 1 = a by ring, rpow_add_one hy.ne',
    show -y - mu = -mu - y by ring, rpow_sub_one hmu.ne']
  field_simp
  ring

end PyFENG
