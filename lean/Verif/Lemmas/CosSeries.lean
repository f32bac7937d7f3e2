import Mathlib.Analysis.Fourier.AddCircle
import Mathlib.Analysis.SpecialFunctions.Integrals.Basic

/-!
# Fourier cosine series of a continuous function on `[0, w]`

The cosine series converges to the even `2w`-periodic extension when its coefficients are absolutely summable.
-/

namespace PyFENG

open Real MeasureTheory

/-- The distance of `x` to the nearest multiple of `2w`: the point of `[0, w]` obtained from `x` by reflections. -/
noncomputable def foldAbs (w x : ℝ) : ℝ := |x - round (x / (2 * w)) * (2 * w)|

lemma foldAbs_eq_norm (w x : ℝ) : foldAbs w x = ‖(x : AddCircle (2 * w))‖ := by
  rw [AddCircle.norm_eq, foldAbs, div_eq_inv_mul]

lemma foldAbs_of_mem {w x : ℝ} (hw : 0 < w) (h0 : 0 ≤ x) (h1 : x ≤ w) : foldAbs w x = x := by
  rw [foldAbs_eq_norm, (AddCircle.norm_coe_eq_abs_iff _ (by positivity)).2, abs_of_nonneg h0]
  rw [abs_of_nonneg h0, abs_of_pos (by positivity)]
  linarith

lemma foldAbs_nonneg (w x : ℝ) : 0 ≤ foldAbs w x := abs_nonneg _

lemma foldAbs_le {w : ℝ} (hw : 0 < w) (x : ℝ) : foldAbs w x ≤ w := by
  rw [foldAbs_eq_norm]
  refine (AddCircle.norm_le_half_period _ (by positivity)).trans ?_
  rw [abs_of_pos (by positivity)]
  linarith

lemma foldAbs_continuous (w : ℝ) : Continuous (foldAbs w) := by
  have : foldAbs w = fun x : ℝ => ‖(x : AddCircle (2 * w))‖ := funext (foldAbs_eq_norm w)
  rw [this]
  have h2 : Continuous fun x : ℝ => (x : AddCircle (2 * w)) := AddCircle.continuous_mk' _
  exact h2.norm

/-- The `k`-th cosine coefficient of `v` on `[0, w]`. -/
noncomputable def cosCoef (v : ℝ → ℝ) (w : ℝ) (k : ℕ) : ℝ := 2 / w * ∫ t in (0 : ℝ)..w, v t * cos (k * π / w * t)

lemma fourierCoeff_fold {v : ℝ → ℝ} (hv : Continuous v) {w : ℝ} (hw : 0 < w) (n : ℤ) :
    haveI : Fact (0 < 2 * w) := ⟨by positivity⟩
    fourierCoeff (fun θ : AddCircle (2 * w) => ((v ‖θ‖ : ℝ) : ℂ)) n = ((cosCoef v w n.natAbs / 2 : ℝ) : ℂ) := by
  have : Fact (0 < 2 * w) := ⟨by positivity⟩
  rw [fourierCoeff_eq_intervalIntegral _ _ (-w), show -w + 2 * w = w by ring]
  set g : ℝ → ℂ := fun x => Complex.exp (2 * π * Complex.I * (-n : ℤ) * x / (2 * w : ℝ)) * ((v |x| : ℝ) : ℂ) with hg
  have hcont : Continuous g := by
    have : Continuous fun x : ℝ => v |x| := hv.comp continuous_abs
    fun_prop
  have h1 : ∫ x in (-w)..w, fourier (-n) (x : AddCircle (2 * w)) • ((v ‖(x : AddCircle (2 * w))‖ : ℝ) : ℂ) = ∫ x in (-w)..w, g x := by
    refine intervalIntegral.integral_congr fun x hx => ?_
    rw [Set.uIcc_of_le (by linarith)] at hx
    have : ‖(x : AddCircle (2 * w))‖ = |x| := by
      rw [(AddCircle.norm_coe_eq_abs_iff _ (by positivity)).2]
      rw [abs_of_pos (show 0 < 2 * w by positivity)]
      rw [abs_le]; constructor <;> linarith [hx.1, hx.2]
    simp only [this, hg, smul_eq_mul]
    rw [fourier_coe_apply]
  rw [h1, ← intervalIntegral.integral_add_adjacent_intervals (hcont.intervalIntegrable (-w) 0) (hcont.intervalIntegrable 0 w)]
  have h2 : ∫ x in (-w)..0, g x = ∫ x in (0 : ℝ)..w, g (-x) := by
    rw [intervalIntegral.integral_comp_neg, neg_zero]
  have hcn : Continuous fun x => g (-x) := hcont.comp continuous_neg
  rw [h2, ← intervalIntegral.integral_add (hcn.intervalIntegrable _ _) (hcont.intervalIntegrable _ _)]
  have h3 : ∫ x in (0 : ℝ)..w, (g (-x) + g x) = ∫ x in (0 : ℝ)..w, ((2 * (v x * cos (n.natAbs * π / w * x)) : ℝ) : ℂ) := by
    refine intervalIntegral.integral_congr fun x hx => ?_
    rw [Set.uIcc_of_le hw.le] at hx
    simp only [hg, abs_neg, abs_of_nonneg hx.1]
    have hc : cos (n.natAbs * π / w * x) = cos (n * π / w * x) := by
      rcases Int.natAbs_eq n with h | h
      · conv_rhs => rw [h]
        simp
      · generalize n.natAbs = k at h
        subst h
        rw [show ((-(k : ℤ) : ℤ) : ℝ) * π / w * x = -(k * π / w * x) by push_cast; ring, Real.cos_neg]
    rw [hc]
    have hwc : (w : ℂ) ≠ 0 := by exact_mod_cast hw.ne'
    have e1 : (2 * (π : ℂ) * Complex.I * ((-n : ℤ) : ℂ) * ((-x : ℝ) : ℂ) / ((2 * w : ℝ) : ℂ)) = ((n * π / w * x : ℝ) : ℂ) * Complex.I := by
      push_cast; field_simp
    have e2 : (2 * (π : ℂ) * Complex.I * ((-n : ℤ) : ℂ) * (x : ℂ) / ((2 * w : ℝ) : ℂ)) = -((n * π / w * x : ℝ) : ℂ) * Complex.I := by
      push_cast; field_simp
    rw [e1, e2]
    have := Complex.two_cos ((n * π / w * x : ℝ) : ℂ)
    rw [← add_mul, ← this]
    push_cast
    ring
  rw [h3, intervalIntegral.integral_ofReal, intervalIntegral.integral_const_mul]
  unfold cosCoef
  rw [Complex.real_smul, ← Complex.ofReal_mul]
  congr 1
  field_simp

/-- Cosine series. -/
lemma hasSum_cosSeries {v : ℝ → ℝ} (hv : Continuous v) {w : ℝ} (hw : 0 < w) (hs : Summable (cosCoef v w)) (x : ℝ) :
    HasSum (fun k : ℕ => (if k = 0 then 1 / 2 else 1) * cosCoef v w k * cos (k * π / w * x)) (v (foldAbs w x)) := by
  have : Fact (0 < 2 * w) := ⟨by positivity⟩
  let f : C(AddCircle (2 * w), ℂ) := ⟨fun θ => ((v ‖θ‖ : ℝ) : ℂ), by
    exact Complex.continuous_ofReal.comp (hv.comp continuous_norm)⟩
  have hcoef : ∀ n : ℤ, fourierCoeff f n = ((cosCoef v w n.natAbs / 2 : ℝ) : ℂ) := fun n => fourierCoeff_fold hv hw n
  have hsum : Summable (fourierCoeff f) := by
    have h2 : Summable fun k : ℕ => ((cosCoef v w k / 2 : ℝ) : ℂ) := by
      exact_mod_cast Complex.hasSum_ofReal.2 (hs.div_const 2).hasSum |>.summable
    refine Summable.of_nat_of_neg ?_ ?_
    · refine h2.congr fun k => ?_
      rw [hcoef]; simp
    · refine h2.congr fun k => ?_
      rw [hcoef]; simp
  have hp := has_pointwise_sum_fourier_series_of_summable hsum (x : AddCircle (2 * w))
  have hp2 := hp.nat_add_neg
  have hfx : f (x : AddCircle (2 * w)) = ((v (foldAbs w x) : ℝ) : ℂ) := by
    rw [foldAbs_eq_norm]; rfl
  rw [hfx] at hp2
  have hterm : ∀ n : ℕ, fourierCoeff f n • fourier (n : ℤ) (x : AddCircle (2 * w))
      + fourierCoeff f (-n : ℤ) • fourier (-n : ℤ) (x : AddCircle (2 * w))
      = ((cosCoef v w n * cos (n * π / w * x) : ℝ) : ℂ) := by
    intro n
    rw [hcoef, hcoef, fourier_coe_apply, fourier_coe_apply]
    simp only [Int.natAbs_natCast, Int.natAbs_neg, smul_eq_mul]
    have hwc : (w : ℂ) ≠ 0 := by exact_mod_cast hw.ne'
    have e1 : (2 * (π : ℂ) * Complex.I * ((n : ℤ) : ℂ) * (x : ℂ) / ((2 * w : ℝ) : ℂ)) = ((n * π / w * x : ℝ) : ℂ) * Complex.I := by
      push_cast; field_simp
    have e2 : (2 * (π : ℂ) * Complex.I * ((-(n : ℤ) : ℤ) : ℂ) * (x : ℂ) / ((2 * w : ℝ) : ℂ)) = -((n * π / w * x : ℝ) : ℂ) * Complex.I := by
      push_cast; field_simp
    rw [e1, e2, ← mul_add, ← Complex.two_cos]
    push_cast
    ring
  simp only [hterm] at hp2
  have h0 : fourierCoeff f (0 : ℤ) • fourier (0 : ℤ) (x : AddCircle (2 * w)) = ((cosCoef v w 0 / 2 : ℝ) : ℂ) := by
    rw [hcoef]; simp
  rw [h0, ← Complex.ofReal_add, Complex.hasSum_ofReal] at hp2
  have hsingle : HasSum (fun k : ℕ => if k = 0 then cosCoef v w 0 / 2 else 0) (cosCoef v w 0 / 2) := hasSum_ite_eq 0 _
  have := hp2.sub hsingle
  rw [add_sub_cancel_right] at this
  have hfun : (fun k : ℕ => (if k = 0 then 1 / 2 else 1) * cosCoef v w k * cos (k * π / w * x)) =
      fun b : ℕ => cosCoef v w b * cos (b * π / w * x) - if b = 0 then cosCoef v w 0 / 2 else 0 := by
    funext k
    by_cases hk : k = 0
    · subst hk; simp; ring
    · simp [hk]
  rw [hfun]
  exact this

end PyFENG
