import Verif.Lemmas.Black
import Verif.Lemmas.Barrier
import Verif.Lemmas.Moments
import Mathlib.MeasureTheory.Integral.Prod
import Mathlib.MeasureTheory.Function.Jacobian

/-!
# Moments of the terminal price from call prices of all strikes (Carr-Madan)
-/

namespace PyFENG

open MeasureTheory ProbabilityTheory Real Set

/-- Specification: the `n`-th moment of the terminal price (`n ≥ 2`) spanned by the call prices `C(K)`, `K > 0`, discount factor `df`:
`E[A^n] = ∫ n (n-1) K^(n-2) C(K)/df dK` for a non-negative terminal price. -/
noncomputable def Spec.callMoment (C : ℝ → ℝ) (df : ℝ) (n : ℕ) : ℝ := ∫ K in Ioi (0:ℝ), n * (n - 1) * K ^ (n - 2) * (C K / df)

namespace CallMoments

lemma inner (m : ℕ) {a : ℝ} (ha : 0 ≤ a) :
    IntegrableOn (fun K => K ^ m * max (a - K) 0) (Ioi 0) ∧
      ∫ K in Ioi (0:ℝ), K ^ m * max (a - K) 0 = a ^ (m + 2) / ((m + 1) * (m + 2)) := by
  have hz : ∀ K ∈ Ioi (0:ℝ) \ Ioc 0 a, K ^ m * max (a - K) 0 = 0 := fun K hK => by
    have : a < K := by
      by_contra h
      exact hK.2 ⟨hK.1, not_lt.1 h⟩
    rw [max_eq_right (by linarith), mul_zero]
  have hc : Continuous fun K : ℝ => K ^ m * max (a - K) 0 := by fun_prop
  have hi : IntegrableOn (fun K => K ^ m * max (a - K) 0) (Ioc 0 a) := (hc.integrableOn_Icc).mono_set Ioc_subset_Icc_self
  refine ⟨?_, ?_⟩
  · have : IntegrableOn (fun K => K ^ m * max (a - K) 0) (Ioi (0:ℝ) \ Ioc 0 a) :=
      (integrableOn_zero (s := Ioi (0:ℝ) \ Ioc 0 a)).congr_fun (fun K hK => (hz K hK).symm) (measurableSet_Ioi.diff measurableSet_Ioc)
    have h := hi.union this
    rwa [union_sdiff_cancel (fun x hx => hx.1)] at h
  · rw [setIntegral_eq_of_subset_of_forall_diff_eq_zero measurableSet_Ioi (Ioc_subset_Ioi_self : Ioc 0 a ⊆ Ioi 0) hz,
      ← intervalIntegral.integral_of_le ha]
    have e : ∫ K in (0:ℝ)..a, K ^ m * max (a - K) 0 = ∫ K in (0:ℝ)..a, (a * K ^ m - K ^ (m + 1)) := by
      refine intervalIntegral.integral_congr fun K hK => ?_
      rw [Set.uIcc_of_le ha] at hK
      rw [max_eq_left (by linarith [hK.2])]
      ring
    rw [e, intervalIntegral.integral_sub (by apply Continuous.intervalIntegrable; fun_prop) (by apply Continuous.intervalIntegrable; fun_prop),
      intervalIntegral.integral_const_mul, integral_pow, integral_pow]
    push_cast
    have h1 : (m:ℝ) + 1 ≠ 0 := by positivity
    have h2 : (m:ℝ) + 2 ≠ 0 := by positivity
    have h3 : (m:ℝ) + 1 + 1 ≠ 0 := by positivity
    rw [zero_pow (by omega), zero_pow (by omega)]
    field_simp
    ring

/-- Moments from calls, for a non-negative random variable. -/
lemma span {Ω : Type*} [MeasurableSpace Ω] {μ : Measure Ω} [IsProbabilityMeasure μ] {A : Ω → ℝ} (hA : Measurable A) (h0 : ∀ ω, 0 ≤ A ω) (m : ℕ)
    (hi : Integrable (fun ω => A ω ^ (m + 2)) μ) :
    IntegrableOn (fun K => K ^ m * ∫ ω, max (A ω - K) 0 ∂μ) (Ioi 0) ∧
    ∫ K in Ioi (0:ℝ), K ^ m * ∫ ω, max (A ω - K) 0 ∂μ = (∫ ω, A ω ^ (m + 2) ∂μ) / ((m + 1) * (m + 2)) := by
  have hmeas : Measurable (Function.uncurry fun (K : ℝ) (ω : Ω) => K ^ m * max (A ω - K) 0) := by
    have : Measurable fun p : ℝ × Ω => p.1 ^ m * max (A p.2 - p.1) 0 := by fun_prop
    exact this
  have hint : Integrable (Function.uncurry fun (K : ℝ) (ω : Ω) => K ^ m * max (A ω - K) 0) ((volume.restrict (Ioi (0:ℝ))).prod μ) := by
    rw [integrable_prod_iff' hmeas.aestronglyMeasurable]
    refine ⟨ae_of_all _ fun ω => (inner m (h0 ω)).1, ?_⟩
    have e : (fun ω => ∫ K in Ioi (0:ℝ), ‖Function.uncurry (fun (K : ℝ) (ω : Ω) => K ^ m * max (A ω - K) 0) (K, ω)‖) =
        fun ω => A ω ^ (m + 2) / ((m + 1) * (m + 2)) := by
      funext ω
      rw [← (inner m (h0 ω)).2]
      refine setIntegral_congr_fun measurableSet_Ioi fun K hK => ?_
      simp only [Function.uncurry_apply_pair]
      rw [Real.norm_of_nonneg (mul_nonneg (pow_nonneg (le_of_lt hK) _) (le_max_right _ _))]
    rw [e]
    exact hi.div_const _
  have hK : ∀ K : ℝ, K ^ m * ∫ ω, max (A ω - K) 0 ∂μ = ∫ ω, K ^ m * max (A ω - K) 0 ∂μ := fun K => (integral_const_mul _ _).symm
  simp only [hK]
  refine ⟨hint.integral_prod_left, ?_⟩
  rw [integral_integral_swap hint, ← integral_div]
  exact integral_congr_ae (ae_of_all _ fun ω => (inner m (h0 ω)).2)

/-- Change of variable to the lognormal driver. -/
lemma subst {F s : ℝ} (hF : 0 < F) (hs : 0 < s) (g : ℝ → ℝ) :
    (IntegrableOn g (Ioi 0) ↔ Integrable fun z => s * Spec.gbm F s z * g (Spec.gbm F s z)) ∧
      ∫ K in Ioi (0:ℝ), g K = ∫ z, s * Spec.gbm F s z * g (Spec.gbm F s z) := by
  have himg : (fun z => Spec.gbm F s z) '' univ = Ioi 0 := by
    ext K
    constructor
    · rintro ⟨z, -, rfl⟩
      exact mul_pos hF (exp_pos _)
    · intro hK
      refine ⟨(log (K / F) + s ^ 2 / 2) / s, trivial, ?_⟩
      simp only [Spec.gbm]
      rw [mul_div_cancel₀ _ hs.ne', add_sub_cancel_right, exp_log (div_pos hK hF), mul_div_cancel₀ _ hF.ne']
  have hd : ∀ z ∈ (univ : Set ℝ), HasDerivWithinAt (fun z => Spec.gbm F s z) (s * Spec.gbm F s z) univ z := fun z _ => by
    have h := ((((hasDerivAt_id' z).const_mul s).sub_const (s ^ 2 / 2)).exp.const_mul F)
    refine (h.congr_deriv ?_).hasDerivWithinAt
    unfold Spec.gbm; ring
  have hinj : InjOn (fun z => Spec.gbm F s z) univ := fun x _ y _ h => by
    have h1 := exp_injective (mul_left_cancel₀ hF.ne' (show F * exp (s * x - s ^ 2 / 2) = F * exp (s * y - s ^ 2 / 2) from h))
    have : s * x = s * y := by linarith
    exact mul_left_cancel₀ hs.ne' this
  have h1 := integrableOn_image_iff_integrableOn_abs_deriv_smul MeasurableSet.univ hd hinj g
  have h2 := integral_image_eq_integral_abs_deriv_smul MeasurableSet.univ hd hinj g
  have e : (fun z => |s * Spec.gbm F s z| • g (Spec.gbm F s z)) = fun z => s * Spec.gbm F s z * g (Spec.gbm F s z) := by
    funext z
    rw [abs_of_pos (mul_pos hs (show 0 < Spec.gbm F s z from mul_pos hF (exp_pos _))), smul_eq_mul]
  rw [himg, integrableOn_univ, e] at h1
  rw [himg, Measure.restrict_univ, e] at h2
  exact ⟨h1, h2⟩

/-- Moments of the lognormal law times a quadratic in the Gaussian driver. -/
lemma quad {F s : ℝ} (hs : 0 < s) (n : ℕ) (a b c : ℝ) :
    Integrable (fun z => (a - b * z / s + c * (z ^ 2 - 1) / s ^ 2) * Spec.gbm F s z ^ n) (gaussianReal 0 1) ∧
    Spec.gaussE (fun z => (a - b * z / s + c * (z ^ 2 - 1) / s ^ 2) * Spec.gbm F s z ^ n) =
      (a - n * b + n ^ 2 * c) * (F ^ n * exp (s ^ 2) ^ ((n * (n - 1) : ℝ) / 2)) := by
  have e : ∀ z, Spec.gbm F s z ^ n = (F ^ n * exp (s ^ 2) ^ ((n * (n - 1) : ℝ) / 2)) * exp ((n * s) * z - (n * s) ^ 2 / 2) := fun z => by
    unfold Spec.gbm
    rw [mul_pow, ← exp_nat_mul, ← exp_mul, mul_assoc, ← exp_add]
    congr 2; ring
  have hp := gaussE_poly (a - n * b + c * (n ^ 2 * s ^ 2 - 1) / s ^ 2) (-b / s + 2 * c * n / s) (c / s ^ 2) 0 0
  have ep : (fun z : ℝ => (a - n * b + c * (n ^ 2 * s ^ 2 - 1) / s ^ 2) + (-b / s + 2 * c * n / s) * z + (c / s ^ 2) * z ^ 2 + 0 * z ^ 3 + 0 * z ^ 4) =
      fun z => (fun y => a - b * y / s + c * (y ^ 2 - 1) / s ^ 2) (z + n * s) := by
    funext z; simp only; field_simp; ring
  rw [ep] at hp
  have hI := integrable_shift (fun y => a - b * y / s + c * (y ^ 2 - 1) / s ^ 2) (n * s) hp.1
  have hE := gaussE_shift (fun y => a - b * y / s + c * (y ^ 2 - 1) / s ^ 2) (n * s)
  rw [hp.2] at hE
  have ee : (fun z => (a - b * z / s + c * (z ^ 2 - 1) / s ^ 2) * Spec.gbm F s z ^ n) = fun z =>
      (F ^ n * exp (s ^ 2) ^ ((n * (n - 1) : ℝ) / 2)) * ((a - b * z / s + c * (z ^ 2 - 1) / s ^ 2) * exp ((n * s) * z - (n * s) ^ 2 / 2)) := by
    funext z; rw [e]; ring
  rw [ee]
  refine ⟨hI.const_mul _, ?_⟩
  unfold Spec.gaussE at hE ⊢
  rw [integral_const_mul, ← hE]
  have := hs.ne'
  field_simp
  ring

end CallMoments

end PyFENG
