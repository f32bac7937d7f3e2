import Verif.Spec
import Mathlib.Probability.Moments.MGFAnalytic
import Mathlib.MeasureTheory.Function.ConditionalExpectation.Basic
import Mathlib.Topology.Algebra.Module.Cardinality

/-!
# Exponential moments determine conditional expectations
-/

namespace PyFENG

open MeasureTheory ProbabilityTheory Real Set

/-- Two finite measures with the same finite moment generating function (off a countable set) are equal. -/
lemma measure_ext_of_mgf {μ ν : Measure ℝ} [IsFiniteMeasure μ] [IsFiniteMeasure ν] (hμ : ∀ b : ℝ, Integrable (fun x => exp (b * x)) μ)
    (hν : ∀ b : ℝ, Integrable (fun x => exp (b * x)) ν) {D : Set ℝ} (hD : D.Countable)
    (h : ∀ b ∉ D, ∫ x, exp (b * x) ∂μ = ∫ x, exp (b * x) ∂ν) : μ = ν := by
  have c1 : Continuous (mgf id μ) := continuous_mgf hμ
  have c2 : Continuous (mgf id ν) := continuous_mgf hν
  have e : mgf id μ = mgf id ν := by
    refine Continuous.ext_on (hD.dense_compl ℝ) c1 c2 fun b hb => ?_
    exact h b hb
  have h0 : μ = 0 ↔ ν = 0 := by
    have := congrFun e 0
    simp only [mgf, zero_mul, exp_zero, integral_const, smul_eq_mul, mul_one] at this
    rw [← Measure.measure_univ_eq_zero, ← Measure.measure_univ_eq_zero (μ := ν), ← measureReal_eq_zero_iff, ← measureReal_eq_zero_iff, this]
  have hs : integrableExpSet id μ = univ := by
    ext b; simpa [integrableExpSet] using hμ b
  have hc := eqOn_complexMGF_of_mgf' e h0
  refine Measure.ext_of_complexMGF_id_eq ?_
  ext z
  exact hc (by simp [hs])

lemma mgf_withDensity {Ω : Type*} [MeasurableSpace Ω] {P : Measure Ω} {X : Ω → ℝ} (hX : Measurable X) {f : Ω → ℝ} (hf : Measurable f) (h0 : ∀ ω, 0 ≤ f ω)
    (hi : ∀ b : ℝ, Integrable (fun ω => f ω * exp (b * X ω)) P) :
    IsFiniteMeasure ((P.withDensity fun ω => ENNReal.ofReal (f ω)).map X) ∧
    ∀ b : ℝ, Integrable (fun x => exp (b * x)) ((P.withDensity fun ω => ENNReal.ofReal (f ω)).map X) ∧
      ∫ x, exp (b * x) ∂((P.withDensity fun ω => ENNReal.ofReal (f ω)).map X) = ∫ ω, f ω * exp (b * X ω) ∂P := by
  have hif : Integrable f P := by simpa using hi 0
  have hfin : IsFiniteMeasure (P.withDensity fun ω => ENNReal.ofReal (f ω)) := isFiniteMeasure_withDensity_ofReal hif.2
  refine ⟨Measure.isFiniteMeasure_map _ _, fun b => ?_⟩
  have hme : Measurable fun x : ℝ => exp (b * x) := by fun_prop
  have e : ∀ ω, (ENNReal.ofReal (f ω)).toReal • exp (b * X ω) = f ω * exp (b * X ω) := fun ω => by
    rw [ENNReal.toReal_ofReal (h0 ω), smul_eq_mul]
  constructor
  · rw [integrable_map_measure hme.aestronglyMeasurable hX.aemeasurable, integrable_withDensity_iff_integrable_smul' hf.ennreal_ofReal (by simp)]
    simp only [Function.comp_apply, e]
    exact hi b
  · rw [integral_map hX.aemeasurable hme.aestronglyMeasurable, integral_withDensity_eq_integral_toReal_smul hf.ennreal_ofReal (by simp)]
    simp only [e]

/-- If `E[f e^{bX}] = E[g(X) e^{bX}]` for all `b` off a countable set, then `f` and `g(X)` have the same integral over every event about `X`. -/
lemma setIntegral_eq_of_mgf {Ω : Type*} [MeasurableSpace Ω] {P : Measure Ω} {X : Ω → ℝ} (hX : Measurable X) {f g : Ω → ℝ} (hf : Measurable f)
    (hg : Measurable g)
    (hfi : ∀ b : ℝ, Integrable (fun ω => f ω * exp (b * X ω)) P) (hgi : ∀ b : ℝ, Integrable (fun ω => g ω * exp (b * X ω)) P)
    {D : Set ℝ} (hD : D.Countable) (h : ∀ b ∉ D, ∫ ω, f ω * exp (b * X ω) ∂P = ∫ ω, g ω * exp (b * X ω) ∂P) {A : Set ℝ} (hA : MeasurableSet A) :
    ∫ ω in X ⁻¹' A, f ω ∂P = ∫ ω in X ⁻¹' A, g ω ∂P := by
  have abs_exp_mul : ∀ (u : Ω → ℝ) (b : ℝ), (fun ω => |u ω| * exp (b * X ω)) = fun ω => ‖u ω * exp (b * X ω)‖ := fun u b => by
    ext ω; rw [norm_mul, norm_eq_abs, norm_eq_abs, abs_of_pos (exp_pos _)]
  set F : Ω → ℝ := fun ω => |f ω| + f ω + (|g ω| - g ω) with hF
  set G : Ω → ℝ := fun ω => |f ω| - f ω + (|g ω| + g ω) with hG
  have hFi : ∀ b : ℝ, Integrable (fun ω => F ω * exp (b * X ω)) P := fun b => by
    have i1 : Integrable (fun ω => |f ω| * exp (b * X ω)) P := by rw [abs_exp_mul]; exact (hfi b).norm
    have i2 : Integrable (fun ω => |g ω| * exp (b * X ω)) P := by rw [abs_exp_mul]; exact (hgi b).norm
    have := (i1.add (hfi b)).add (i2.sub (hgi b))
    refine this.congr (Filter.Eventually.of_forall fun ω => ?_)
    simp only [Pi.add_apply, Pi.sub_apply, hF]; ring
  have hGi : ∀ b : ℝ, Integrable (fun ω => G ω * exp (b * X ω)) P := fun b => by
    have i1 : Integrable (fun ω => |f ω| * exp (b * X ω)) P := by rw [abs_exp_mul]; exact (hfi b).norm
    have i2 : Integrable (fun ω => |g ω| * exp (b * X ω)) P := by rw [abs_exp_mul]; exact (hgi b).norm
    have := (i1.sub (hfi b)).add (i2.add (hgi b))
    refine this.congr (Filter.Eventually.of_forall fun ω => ?_)
    simp only [Pi.add_apply, Pi.sub_apply, hG]; ring
  have hFG : ∀ b ∉ D, ∫ ω, F ω * exp (b * X ω) ∂P = ∫ ω, G ω * exp (b * X ω) ∂P := fun b hb => by
    have e : ∀ ω, F ω * exp (b * X ω) = G ω * exp (b * X ω) + (2 * (f ω * exp (b * X ω)) - 2 * (g ω * exp (b * X ω))) := fun ω => by
      simp only [hF, hG]; ring
    simp_rw [e]
    have hsub : Integrable (fun ω => 2 * (f ω * exp (b * X ω)) - 2 * (g ω * exp (b * X ω))) P := ((hfi b).const_mul 2).sub ((hgi b).const_mul 2)
    rw [integral_add (hGi b) hsub, integral_sub ((hfi b).const_mul 2) ((hgi b).const_mul 2), integral_const_mul,
      integral_const_mul, h b hb]
    ring
  have hFm : Measurable F := (hf.abs.add hf).add (hg.abs.sub hg)
  have hGm : Measurable G := (hf.abs.sub hf).add (hg.abs.add hg)
  have hF0 : ∀ ω, 0 ≤ F ω := fun ω => by
    have := neg_abs_le (f ω); have := le_abs_self (g ω); simp only [hF]; linarith
  have hG0 : ∀ ω, 0 ≤ G ω := fun ω => by
    have := neg_abs_le (g ω); have := le_abs_self (f ω); simp only [hG]; linarith
  obtain ⟨f1, a1⟩ := mgf_withDensity hX hFm hF0 hFi
  obtain ⟨f2, a2⟩ := mgf_withDensity hX hGm hG0 hGi
  have hm := measure_ext_of_mgf (fun b => (a1 b).1) (fun b => (a2 b).1) hD fun b hb => by rw [(a1 b).2, (a2 b).2]; exact hFG b hb
  have hS : MeasurableSet (X ⁻¹' A) := hX hA
  have hmA := congrArg (fun μ => μ A) hm
  simp only [Measure.map_apply hX hA, withDensity_apply _ hS] at hmA
  have iF : Integrable F P := by simpa using hFi 0
  have iG : Integrable G P := by simpa using hGi 0
  have jf : Integrable f P := by simpa using hfi 0
  have jg : Integrable g P := by simpa using hgi 0
  have h1 : ∫ ω in X ⁻¹' A, F ω ∂P = ∫ ω in X ⁻¹' A, G ω ∂P := by
    rw [integral_eq_lintegral_of_nonneg_ae (Filter.Eventually.of_forall hF0) hFm.aestronglyMeasurable,
      integral_eq_lintegral_of_nonneg_ae (Filter.Eventually.of_forall hG0) hGm.aestronglyMeasurable, hmA]
  have e : ∀ ω, F ω = G ω + (2 * f ω - 2 * g ω) := fun ω => by simp only [hF, hG]; ring
  simp_rw [e] at h1
  have hsub : IntegrableOn (fun ω => 2 * f ω - 2 * g ω) (X ⁻¹' A) P := ((jf.const_mul 2).sub (jg.const_mul 2)).integrableOn
  rw [integral_add iG.integrableOn hsub, integral_sub (jf.const_mul 2).integrableOn (jg.const_mul 2).integrableOn,
    integral_const_mul, integral_const_mul] at h1
  linarith

/-- Exponential moments identify conditional expectations: if `E[f e^{bX}] = E[φ(X) e^{bX}]`, then `E[f | X] = φ(X)`. -/
lemma condExp_eq_of_mgf {Ω : Type*} [MeasurableSpace Ω] {P : Measure Ω} [IsProbabilityMeasure P] {X : Ω → ℝ} (hX : Measurable X) {f : Ω → ℝ} (hf : Measurable f)
    {φ : ℝ → ℝ} (hφ : Measurable φ)
    (hfi : ∀ b : ℝ, Integrable (fun ω => f ω * exp (b * X ω)) P) (hgi : ∀ b : ℝ, Integrable (fun ω => φ (X ω) * exp (b * X ω)) P)
    {D : Set ℝ} (hD : D.Countable) (h : ∀ b ∉ D, ∫ ω, f ω * exp (b * X ω) ∂P = ∫ ω, φ (X ω) * exp (b * X ω) ∂P) :
    (fun ω => φ (X ω)) =ᵐ[P] P[f | MeasurableSpace.comap X inferInstance] := by
  have hm : MeasurableSpace.comap X inferInstance ≤ ‹MeasurableSpace Ω› := hX.comap_le
  have jf : Integrable f P := by simpa using hfi 0
  have jg : Integrable (fun ω => φ (X ω)) P := by simpa using hgi 0
  refine ae_eq_condExp_of_forall_setIntegral_eq hm jf (fun s _ _ => jg.integrableOn) ?_ ?_
  · rintro s ⟨A, hA, rfl⟩ _
    exact (setIntegral_eq_of_mgf hX hf (hφ.comp hX) hfi hgi hD h hA).symm
  · exact (hφ.comp (comap_measurable X)).stronglyMeasurable.aestronglyMeasurable

end PyFENG
