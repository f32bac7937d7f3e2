import Verif.Spec
import Mathlib.Analysis.Fourier.Inversion
import Mathlib.Analysis.SpecialFunctions.ImproperIntegrals
import Mathlib.Probability.Moments.ComplexMGF
import Mathlib.MeasureTheory.Integral.Prod

/-!
# Lewis' Fourier formula for a call price
-/

namespace PyFENG

open MeasureTheory Real Complex Set FourierTransform ProbabilityTheory

lemma integrable_inv_sq_add_quarter : Integrable (fun u : ℝ => 1 / (u ^ 2 + 1 / 4)) := by
  have h := (integrable_inv_one_add_sq.comp_mul_left' (R := (2 : ℝ)) (by norm_num)).const_mul 4
  refine h.congr (Filter.Eventually.of_forall fun u => ?_)
  have : 1 + (2 * u) ^ 2 ≠ 0 := by positivity
  have : u ^ 2 + 1 / 4 ≠ 0 := by positivity
  simp only
  field_simp
  ring

/-- The Fourier transform of `exp(-|v|/2)`. -/
lemma fourier_exp_abs (w : ℝ) :
    Integrable (fun v : ℝ => ((rexp (-|v| / 2) : ℝ) : ℂ)) ∧
    𝓕 (fun v : ℝ => ((rexp (-|v| / 2) : ℝ) : ℂ)) w = 1 / (((2 * π * w) ^ 2 + 1 / 4 : ℝ) : ℂ) := by
  set a1 : ℂ := 1 / 2 - 2 * π * w * I with ha1
  set a2 : ℂ := -1 / 2 - 2 * π * w * I with ha2
  have r1 : 0 < a1.re := by simp [ha1]
  have r2 : a2.re < 0 := by simp [ha2]; norm_num
  have i1 := integrableOn_exp_mul_complex_Iic r1 0
  have i2 := integrableOn_exp_mul_complex_Ioi r2 0
  have j1 : EqOn (fun v : ℝ => cexp (↑(-2 * π * (v * w)) * I) • ((rexp (-|v| / 2) : ℝ) : ℂ)) (fun v : ℝ => cexp (a1 * v)) (Iic 0) := by
    intro v hv
    simp only [smul_eq_mul, ofReal_exp, ← Complex.exp_add]
    rw [abs_of_nonpos hv]
    congr 1; push_cast; rw [ha1]; ring
  have j2 : EqOn (fun v : ℝ => cexp (↑(-2 * π * (v * w)) * I) • ((rexp (-|v| / 2) : ℝ) : ℂ)) (fun v : ℝ => cexp (a2 * v)) (Ioi 0) := by
    intro v hv
    simp only [smul_eq_mul, ofReal_exp, ← Complex.exp_add]
    rw [abs_of_pos hv]
    congr 1; push_cast; rw [ha2]; ring
  have hint : Integrable (fun v : ℝ => cexp (↑(-2 * π * (v * w)) * I) • ((rexp (-|v| / 2) : ℝ) : ℂ)) := by
    rw [← integrableOn_univ, ← Iic_union_Ioi (a := (0 : ℝ)), integrableOn_union]
    exact ⟨i1.congr_fun j1.symm measurableSet_Iic, i2.congr_fun j2.symm measurableSet_Ioi⟩
  constructor
  · have hm : AEStronglyMeasurable (fun v : ℝ => ((rexp (-|v| / 2) : ℝ) : ℂ)) := by
      have : Continuous (fun v : ℝ => ((rexp (-|v| / 2) : ℝ) : ℂ)) := by fun_prop
      exact this.aestronglyMeasurable
    refine hint.mono hm (Filter.Eventually.of_forall fun v => ?_)
    rw [norm_smul, Complex.norm_exp_ofReal_mul_I, one_mul]
  · rw [Real.fourier_eq']
    have hre : ∀ v : ℝ, (inner ℝ v w : ℝ) = v * w := fun v => by simp [mul_comm]
    simp only [hre]
    rw [← setIntegral_univ, ← Iic_union_Ioi (a := (0 : ℝ)),
      setIntegral_union (by simp [Set.disjoint_left]) measurableSet_Ioi
        (hint.integrableOn) (hint.integrableOn),
      setIntegral_congr_fun measurableSet_Iic j1, setIntegral_congr_fun measurableSet_Ioi j2,
      integral_exp_mul_complex_Iic r1, integral_exp_mul_complex_Ioi r2]
    have n1 : a1 ≠ 0 := fun h => by rw [h] at r1; simp at r1
    have n2 : a2 ≠ 0 := fun h => by rw [h] at r2; simp at r2
    have n3 : (((2 * π * w) ^ 2 + 1 / 4 : ℝ) : ℂ) ≠ 0 := by
      rw [ofReal_ne_zero]; positivity
    have hprod : a1 * a2 = -(((2 * π * w) ^ 2 + 1 / 4 : ℝ) : ℂ) := by
      rw [ha1, ha2]; push_cast; ring_nf; rw [I_sq]; ring
    have hdiff : a2 - a1 = -1 := by rw [ha1, ha2]; ring
    simp only [ofReal_zero, mul_zero, Complex.exp_zero]
    rw [show (1 / a1 + -1 / a2 : ℂ) = (a2 - a1) / (a1 * a2) by field_simp; ring, hdiff, hprod]
    rw [neg_div_neg_eq]

/-- `∫ e^{iuy}/(u²+1/4) du = 2π e^{-|y|/2}`, real form. -/
lemma integral_cos_div (y : ℝ) :
    ∫ u : ℝ, Real.cos (u * y) / (u ^ 2 + 1 / 4) = 2 * π * rexp (-|y| / 2) := by
  have hc : Continuous (fun v : ℝ => ((rexp (-|v| / 2) : ℝ) : ℂ)) := by fun_prop
  have hF : 𝓕 (fun v : ℝ => ((rexp (-|v| / 2) : ℝ) : ℂ)) = fun w : ℝ => 1 / (((2 * π * w) ^ 2 + 1 / 4 : ℝ) : ℂ) :=
    funext fun w => (fourier_exp_abs w).2
  have hFi : Integrable (𝓕 (fun v : ℝ => ((rexp (-|v| / 2) : ℝ) : ℂ))) := by
    rw [hF]
    have := (integrable_inv_sq_add_quarter.comp_mul_left' (R := 2 * π) (by positivity)).ofReal (𝕜 := ℂ)
    refine this.congr (Filter.Eventually.of_forall fun u => ?_)
    push_cast; rfl
  have hinv := hc.fourierInv_fourier_eq (fourier_exp_abs 0).1 hFi
  have h1 := congrFun hinv y
  rw [hF, Real.fourierInv_eq'] at h1
  have hre : ∀ v : ℝ, (inner ℝ v y : ℝ) = v * y := fun v => by simp [mul_comm]
  simp only [hre, smul_eq_mul] at h1
  have h2 := congrArg Complex.re h1
  rw [ofReal_re] at h2
  have hint2 : Integrable (fun v : ℝ => cexp (↑(2 * π * (v * y)) * I) * (1 / (((2 * π * v) ^ 2 + 1 / 4 : ℝ) : ℂ))) := by
    rw [hF] at hFi
    refine hFi.bdd_mul (c := 1) (by fun_prop) (Filter.Eventually.of_forall fun v => ?_)
    rw [Complex.norm_exp_ofReal_mul_I]
  have h3 : (∫ v : ℝ, cexp (↑(2 * π * (v * y)) * I) * (1 / (((2 * π * v) ^ 2 + 1 / 4 : ℝ) : ℂ))).re
      = ∫ v : ℝ, Real.cos (2 * π * v * y) / ((2 * π * v) ^ 2 + 1 / 4) := by
    have := integral_re (𝕜 := ℂ) hint2
    simp only [RCLike.re_to_complex] at this
    rw [← this]
    refine integral_congr_ae (Filter.Eventually.of_forall fun v => ?_)
    simp only
    rw [← ofReal_one, ← ofReal_div, Complex.re_mul_ofReal, Complex.exp_ofReal_mul_I_re]
    rw [mul_assoc (2 * π)]
    ring
  rw [h3] at h2
  have h4 := Measure.integral_comp_mul_left (fun u : ℝ => Real.cos (u * y) / (u ^ 2 + 1 / 4)) (2 * π)
  rw [h4] at h2
  rw [abs_of_pos (by positivity), smul_eq_mul] at h2
  rw [← h2, ← mul_assoc, mul_inv_cancel₀ (by positivity), one_mul]

/-- Half-line form. -/
lemma integral_cos_div_Ioi (y : ℝ) :
    ∫ u in Ioi (0 : ℝ), Real.cos (u * y) / (u ^ 2 + 1 / 4) = π * rexp (-|y| / 2) := by
  have h := integral_comp_abs (f := fun u => Real.cos (u * y) / (u ^ 2 + 1 / 4))
  have h2 : ∫ u : ℝ, Real.cos (|u| * y) / (|u| ^ 2 + 1 / 4) = ∫ u : ℝ, Real.cos (u * y) / (u ^ 2 + 1 / 4) := by
    refine integral_congr_ae (Filter.Eventually.of_forall fun u => ?_)
    simp only
    rw [sq_abs]
    rcases abs_cases u with ⟨h, _⟩ | ⟨h, _⟩ <;> rw [h]
    rw [neg_mul, Real.cos_neg]
  rw [h2, integral_cos_div] at h
  linarith

/-- `√k · e^{x/2} · e^{-|x - log k|/2} = min(e^x, k)`. -/
lemma sqrt_mul_exp_abs {k : ℝ} (hk : 0 < k) (x : ℝ) :
    √k * (rexp (x / 2) * rexp (-|x - Real.log k| / 2)) = min (rexp x) k := by
  have hs : √k = rexp (Real.log k / 2) := by
    rw [Real.sqrt_eq_rpow, Real.rpow_def_of_pos hk]; congr 1; ring
  rw [hs, ← Real.exp_add, ← Real.exp_add]
  rcases le_total x (Real.log k) with h | h
  · rw [abs_of_nonpos (by linarith), min_eq_left ((Real.le_log_iff_exp_le hk).1 h)]
    congr 1; ring
  · rw [abs_of_nonneg (by linarith), min_eq_right ((Real.log_le_iff_le_exp hk).1 h)]
    rw [show Real.log k / 2 + (x / 2 + -(x - Real.log k) / 2) = Real.log k by ring, Real.exp_log hk]

/-- **Lewis' formula.**  For any law `μ` of the log price with `E[e^X] < ∞`. -/
lemma lewis_min {μ : Measure ℝ} [IsProbabilityMeasure μ] (hint : Integrable (fun x => rexp x) μ) {k : ℝ} (hk : 0 < k) :
    ∫ x, min (rexp x) k ∂μ = √k / π * ∫ u in Ioi (0 : ℝ),
      (cexp (-(u * Real.log k : ℝ) * I) * complexMGF id μ (1 / 2 + u * I)).re / (u ^ 2 + 1 / 4) := by
  set L := Real.log k with hL
  have hhalf : Integrable (fun x => rexp (x / 2)) μ := by
    refine (hint.add (integrable_const (1 : ℝ))).mono (by fun_prop) (Filter.Eventually.of_forall fun x => ?_)
    simp only [Pi.add_apply]
    rw [Real.norm_eq_abs, Real.norm_eq_abs, abs_of_pos (Real.exp_pos _), abs_of_pos (by positivity)]
    rcases le_total x 0 with h | h
    · have : rexp (x / 2) ≤ 1 := Real.exp_le_one_iff.2 (by linarith)
      have := Real.exp_pos x; linarith
    · have : rexp (x / 2) ≤ rexp x := Real.exp_le_exp.2 (by linarith)
      linarith
  -- the inner integral
  have hin : ∀ u : ℝ, (cexp (-(u * L : ℝ) * I) * complexMGF id μ (1 / 2 + u * I)).re
      = ∫ x, rexp (x / 2) * Real.cos (u * (x - L)) ∂μ := by
    intro u
    unfold complexMGF
    rw [← integral_const_mul]
    have he : ∀ x : ℝ, cexp (-(u * L : ℝ) * I) * cexp ((1 / 2 + u * I) * (id x : ℝ))
        = ((rexp (x / 2) : ℝ) : ℂ) * cexp ((u * (x - L) : ℝ) * I) := by
      intro x
      rw [ofReal_exp, ← Complex.exp_add, ← Complex.exp_add]
      congr 1; simp only [id]; push_cast; ring
    have hi : Integrable (fun x => ((rexp (x / 2) : ℝ) : ℂ) * cexp ((u * (x - L) : ℝ) * I)) μ := by
      have hc := hhalf.ofReal (𝕜 := ℂ)
      refine (hc.bdd_mul (c := 1) (f := fun x : ℝ => cexp ((u * (x - L) : ℝ) * I)) ?_ (Filter.Eventually.of_forall fun x => ?_)).congr
        (Filter.Eventually.of_forall fun x => mul_comm _ _)
      · exact (by fun_prop : Continuous fun x : ℝ => cexp ((u * (x - L) : ℝ) * I)).aestronglyMeasurable
      · rw [Complex.norm_exp_ofReal_mul_I]
    rw [integral_congr_ae (Filter.Eventually.of_forall he)]
    have := integral_re (𝕜 := ℂ) hi
    simp only [RCLike.re_to_complex] at this
    rw [← this]
    refine integral_congr_ae (Filter.Eventually.of_forall fun x => ?_)
    simp only
    rw [Complex.re_ofReal_mul, Complex.exp_ofReal_mul_I_re]
  simp only [hin]
  -- Fubini
  have hprod : Integrable (fun p : ℝ × ℝ => 1 / (p.1 ^ 2 + 1 / 4) * rexp (p.2 / 2))
      ((volume.restrict (Ioi (0 : ℝ))).prod μ) :=
    (integrable_inv_sq_add_quarter.integrableOn (s := Ioi 0)).mul_prod hhalf
  have hprod2 : Integrable (fun p : ℝ × ℝ => rexp (p.2 / 2) * Real.cos (p.1 * (p.2 - L)) / (p.1 ^ 2 + 1 / 4))
      ((volume.restrict (Ioi (0 : ℝ))).prod μ) := by
    refine hprod.mono ?_ (Filter.Eventually.of_forall fun p => ?_)
    · have : Measurable fun p : ℝ × ℝ => rexp (p.2 / 2) * Real.cos (p.1 * (p.2 - L)) / (p.1 ^ 2 + 1 / 4) := by fun_prop
      exact this.aestronglyMeasurable
    · rw [norm_div, norm_mul, norm_mul, norm_div, norm_one]
      have h1 : ‖Real.cos (p.1 * (p.2 - L))‖ ≤ 1 := Real.abs_cos_le_one _
      have h2 : 0 < ‖p.1 ^ 2 + 1 / 4‖ := by rw [norm_pos_iff]; positivity
      rw [div_le_iff₀ h2]
      have h3 : 0 ≤ ‖rexp (p.2 / 2)‖ := norm_nonneg _
      have h4 : 1 / ‖p.1 ^ 2 + 1 / 4‖ * ‖rexp (p.2 / 2)‖ * ‖p.1 ^ 2 + 1 / 4‖ = ‖rexp (p.2 / 2)‖ := by
        generalize ‖p.1 ^ 2 + 1 / 4‖ = w at h2
        field_simp
      rw [h4]
      exact mul_le_of_le_one_right h3 h1
  have hsw : ∫ u in Ioi (0 : ℝ), (∫ x, rexp (x / 2) * Real.cos (u * (x - L)) ∂μ) / (u ^ 2 + 1 / 4)
      = ∫ x, (∫ u in Ioi (0 : ℝ), rexp (x / 2) * Real.cos (u * (x - L)) / (u ^ 2 + 1 / 4)) ∂μ := by
    rw [← integral_integral_swap (f := fun u x => rexp (x / 2) * Real.cos (u * (x - L)) / (u ^ 2 + 1 / 4)) hprod2]
    refine integral_congr_ae (Filter.Eventually.of_forall fun u => ?_)
    simp only
    rw [integral_div]
  rw [hsw, ← integral_const_mul]
  refine integral_congr_ae (Filter.Eventually.of_forall fun x => ?_)
  simp only
  have : ∫ u in Ioi (0 : ℝ), rexp (x / 2) * Real.cos (u * (x - L)) / (u ^ 2 + 1 / 4)
      = rexp (x / 2) * (π * rexp (-|x - L| / 2)) := by
    rw [← integral_cos_div_Ioi, ← integral_const_mul]
    refine integral_congr_ae (Filter.Eventually.of_forall fun u => ?_)
    simp only; ring
  rw [this, ← sqrt_mul_exp_abs hk x, ← hL]
  have := Real.pi_pos
  field_simp

end PyFENG
