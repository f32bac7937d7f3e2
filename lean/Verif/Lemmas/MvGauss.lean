import Verif.Spec
import Mathlib.Probability.Distributions.Gaussian.Multivariate
import Mathlib.MeasureTheory.Integral.Pi

/-!
# Multivariate normal vectors: the specification law, linear images, exponential tilting
-/

namespace PyFENG

open MeasureTheory ProbabilityTheory Matrix WithLp
open scoped ENNReal NNReal Matrix MatrixOrder Matrix.Norms.L2Operator

set_option linter.unusedSectionVars false
set_option linter.style.haveILetI false

/-- Specification: the law of a centred Gaussian vector with covariance matrix `S`. -/
noncomputable def Spec.mvn {ι : Type*} [Fintype ι] [DecidableEq ι] (S : Matrix ι ι ℝ) : Measure (ι → ℝ) :=
  (multivariateGaussian 0 S).map (fun z i => z i)

/-- Specification: independent standard normals. -/
noncomputable def Spec.iid (κ : Type*) [Fintype κ] : Measure (κ → ℝ) := Measure.pi fun _ => gaussianReal 0 1

namespace MvGauss

variable {ι κ : Type*} [Fintype ι] [DecidableEq ι] [Fintype κ]

instance : IsProbabilityMeasure (Spec.iid κ) := by unfold Spec.iid; infer_instance

lemma measurable_ofLp : Measurable (fun (z : EuclideanSpace ℝ ι) (i : ι) => z i) := by fun_prop

instance (S : Matrix ι ι ℝ) : IsProbabilityMeasure (Spec.mvn S) := by
  unfold Spec.mvn
  exact Measure.isProbabilityMeasure_map (by fun_prop)

lemma integral_cexp_gauss (z : ℂ) : ∫ x : ℝ, Complex.exp (z * x) ∂(gaussianReal 0 1) = Complex.exp (z ^ 2 / 2) := by
  have h := complexMGF_id_gaussianReal (μ := 0) (v := 1) z
  unfold complexMGF at h
  simp only [id] at h
  rw [h]
  simp

/-- Exponential moments of independent normals with complex coefficients. -/
lemma integral_cexp_iid (c : κ → ℂ) : ∫ x, Complex.exp (∑ k, c k * (x k : ℂ)) ∂(Spec.iid κ) = Complex.exp (∑ k, c k ^ 2 / 2) := by
  unfold Spec.iid
  simp_rw [Complex.exp_sum]
  rw [integral_fintype_prod_eq_prod (f := fun k (x : ℝ) => Complex.exp (c k * (x : ℂ)))]
  exact Finset.prod_congr rfl fun k _ => integral_cexp_gauss _

/-- A linear functional in coordinates. -/
lemma dual_apply (L : StrongDual ℝ (ι → ℝ)) (x : ι → ℝ) : L x = ∑ i, L (Pi.single i 1) * x i := by
  conv_lhs => rw [pi_eq_sum_univ' x]
  simp only [map_sum, map_smul, smul_eq_mul]
  exact Finset.sum_congr rfl fun i _ => by rw [mul_comm]

lemma charFunDual_map_iid (A : Matrix ι κ ℝ) (L : StrongDual ℝ (ι → ℝ)) :
    charFunDual ((Spec.iid κ).map (fun x => A *ᵥ x)) L = Complex.exp (-((∑ k, (∑ i, L (Pi.single i 1) * A i k) ^ 2 : ℝ) : ℂ) / 2) := by
  rw [charFunDual_apply, integral_map (by fun_prop) (by fun_prop)]
  have e : ∀ x : κ → ℝ, ((L (A *ᵥ x) : ℝ) : ℂ) * Complex.I = ∑ k, ((∑ i, L (Pi.single i 1) * A i k : ℝ) * Complex.I) * (x k : ℂ) := by
    intro x
    rw [dual_apply]
    simp only [mulVec, dotProduct, Finset.mul_sum]
    rw [Finset.sum_comm]
    push_cast
    rw [Finset.sum_mul]
    refine Finset.sum_congr rfl fun k _ => ?_
    rw [Finset.sum_mul, Finset.sum_mul, Finset.sum_mul]
    exact Finset.sum_congr rfl fun i _ => by ring
  simp_rw [e]
  rw [integral_cexp_iid]
  congr 1
  simp_rw [mul_pow, Complex.I_sq]
  push_cast
  rw [neg_div, Finset.sum_div, ← Finset.sum_neg_distrib]
  exact Finset.sum_congr rfl fun k _ => by ring

/-- Any factor `A` of the covariance matrix generates the law from independent normals. -/
theorem mvn_eq_map (A : Matrix ι κ ℝ) : Spec.mvn (A * Aᵀ) = (Spec.iid κ).map (fun x => A *ᵥ x) := by
  have hS : (A * Aᵀ).PosSemidef := by
    have := posSemidef_self_mul_conjTranspose A
    rwa [conjTranspose_eq_transpose_of_trivial] at this
  haveI : IsProbabilityMeasure ((Spec.iid κ).map (fun x => A *ᵥ x)) := Measure.isProbabilityMeasure_map (by fun_prop)
  apply Measure.ext_of_charFunDual
  ext L
  rw [charFunDual_map_iid]
  unfold Spec.mvn
  rw [charFunDual_apply, integral_map (by fun_prop) (by fun_prop)]
  have h := charFun_multivariateGaussian (μ := (0 : EuclideanSpace ℝ ι)) hS (toLp 2 fun i => L (Pi.single i 1))
  rw [charFun_apply] at h
  have e : ∀ z : EuclideanSpace ℝ ι, (L (fun i => z i) : ℝ) = inner ℝ z (toLp 2 fun i => L (Pi.single i 1)) := by
    intro z
    rw [dual_apply, PiLp.inner_apply]
    simp
  simp_rw [e]
  rw [h]
  congr 1
  simp only [inner_zero_right, Complex.ofReal_zero, zero_mul, zero_sub]
  rw [neg_div]
  congr 2
  norm_cast
  rw [← mulVec_mulVec, dotProduct_mulVec]
  simp only [dotProduct, vecMul, mulVec, transpose_apply]
  refine Finset.sum_congr rfl fun k _ => ?_
  have e2 : ∑ i, A i k * L (Pi.single i 1) = ∑ i, L (Pi.single i 1) * A i k := Finset.sum_congr rfl fun i _ => mul_comm _ _
  rw [pow_two, e2]

/-- Every covariance matrix has a factor. -/
lemma exists_factor {S : Matrix ι ι ℝ} (hS : S.PosSemidef) : ∃ A : Matrix ι ι ℝ, S = A * Aᵀ := by
  refine ⟨CFC.sqrt S, ?_⟩
  have h := CFC.sqrt_mul_sqrt_self S hS.nonneg
  have h2 : (CFC.sqrt S)ᵀ = CFC.sqrt S := by
    have := (CFC.sqrt_nonneg S).isSelfAdjoint.star_eq
    rwa [star_eq_conjTranspose, conjTranspose_eq_transpose_of_trivial] at this
  rw [h2, h]

lemma integrable_exp_lin_iid (a : κ → ℝ) : Integrable (fun x : κ → ℝ => Real.exp (∑ k, a k * x k)) (Spec.iid κ) := by
  simp_rw [Real.exp_sum]
  exact Integrable.fintype_prod (f := fun k (x : ℝ) => Real.exp (a k * x)) fun k => integrable_exp_mul_gaussianReal (a k)

lemma integral_exp_lin_iid (a : κ → ℝ) : ∫ x, Real.exp (∑ k, a k * x k) ∂(Spec.iid κ) = Real.exp (∑ k, a k ^ 2 / 2) := by
  have h := integral_cexp_iid (fun k => (a k : ℂ))
  have e : ∀ x : κ → ℝ, Complex.exp (∑ k, (a k : ℂ) * (x k : ℂ)) = ((Real.exp (∑ k, a k * x k) : ℝ) : ℂ) := by
    intro x; push_cast; rfl
  simp_rw [e] at h
  rw [integral_complex_ofReal] at h
  have e2 : Complex.exp (∑ k, (a k : ℂ) ^ 2 / 2) = ((Real.exp (∑ k, a k ^ 2 / 2) : ℝ) : ℂ) := by push_cast; rfl
  rw [e2] at h
  exact_mod_cast h

/-- Exponential tilting of independent normals is a shift (Cameron-Martin). -/
lemma tilt_iid (a : κ → ℝ) (f : (κ → ℝ) → ℝ) :
    ∫ x, Real.exp (∑ k, (a k * x k - a k ^ 2 / 2)) * f x ∂(Spec.iid κ) = ∫ x, f (x + a) ∂(Spec.iid κ) := by
  classical
  have hm : Measurable fun x : κ → ℝ => Real.exp (∑ k, (a k * x k - a k ^ 2 / 2)) := by fun_prop
  have hd : Measurable fun x : κ → ℝ => ENNReal.ofReal (Real.exp (∑ k, (a k * x k - a k ^ 2 / 2))) := hm.ennreal_ofReal
  have hsplit : ∀ x : κ → ℝ, Real.exp (∑ k, (a k * x k - a k ^ 2 / 2)) = Real.exp (∑ k, a k * x k) * Real.exp (-∑ k, a k ^ 2 / 2) := by
    intro x; rw [← Real.exp_add, Finset.sum_sub_distrib, sub_eq_add_neg]
  have hint : Integrable (fun x : κ → ℝ => Real.exp (∑ k, (a k * x k - a k ^ 2 / 2))) (Spec.iid κ) := by
    simp_rw [hsplit]
    exact (integrable_exp_lin_iid a).mul_const _
  haveI : IsFiniteMeasure ((Spec.iid κ).withDensity fun x => ENNReal.ofReal (Real.exp (∑ k, (a k * x k - a k ^ 2 / 2)))) :=
    isFiniteMeasure_withDensity_ofReal hint.2
  haveI : IsProbabilityMeasure ((Spec.iid κ).map (fun x => x + a)) := Measure.isProbabilityMeasure_map (by fun_prop)
  have hmeas : (Spec.iid κ).withDensity (fun x => ENNReal.ofReal (Real.exp (∑ k, (a k * x k - a k ^ 2 / 2)))) = (Spec.iid κ).map (fun x => x + a) := by
    apply Measure.ext_of_charFunDual
    ext L
    rw [charFunDual_apply, charFunDual_apply, integral_map (by fun_prop) (by fun_prop),
      integral_withDensity_eq_integral_toReal_smul hd (by filter_upwards with x using ENNReal.ofReal_lt_top)]
    have e1 : ∀ x : κ → ℝ, (ENNReal.ofReal (Real.exp (∑ k, (a k * x k - a k ^ 2 / 2)))).toReal • Complex.exp (((L x : ℝ) : ℂ) * Complex.I)
        = Complex.exp (∑ k, ((a k : ℂ) + L (Pi.single k 1) * Complex.I) * (x k : ℂ)) * Complex.exp (-∑ k, (a k : ℂ) ^ 2 / 2) := by
      intro x
      rw [ENNReal.toReal_ofReal (Real.exp_pos _).le, Complex.real_smul, Complex.ofReal_exp, ← Complex.exp_add, ← Complex.exp_add, dual_apply]
      congr 1
      push_cast
      rw [Finset.sum_mul, ← Finset.sum_add_distrib, ← Finset.sum_neg_distrib, ← Finset.sum_add_distrib]
      exact Finset.sum_congr rfl fun k _ => by ring
    have e2 : ∀ x : κ → ℝ, Complex.exp (((L (x + a) : ℝ) : ℂ) * Complex.I)
        = Complex.exp (∑ k, (L (Pi.single k 1) * Complex.I) * (x k : ℂ)) * Complex.exp (∑ k, L (Pi.single k 1) * Complex.I * (a k : ℂ)) := by
      intro x
      rw [← Complex.exp_add, dual_apply]
      congr 1
      push_cast
      rw [Finset.sum_mul, ← Finset.sum_add_distrib]
      exact Finset.sum_congr rfl fun k _ => by simp only [Pi.add_apply]; push_cast; ring
    simp_rw [e1, e2]
    rw [integral_mul_const, integral_mul_const, integral_cexp_iid, integral_cexp_iid, ← Complex.exp_add, ← Complex.exp_add]
    congr 1
    rw [← Finset.sum_neg_distrib, ← Finset.sum_add_distrib, ← Finset.sum_add_distrib]
    exact Finset.sum_congr rfl fun k _ => by ring
  have h1 : ∫ x, f x ∂((Spec.iid κ).withDensity fun x => ENNReal.ofReal (Real.exp (∑ k, (a k * x k - a k ^ 2 / 2))))
      = ∫ x, Real.exp (∑ k, (a k * x k - a k ^ 2 / 2)) * f x ∂(Spec.iid κ) := by
    rw [integral_withDensity_eq_integral_toReal_smul hd (by filter_upwards with x using ENNReal.ofReal_lt_top)]
    refine integral_congr_ae (by filter_upwards with x; rw [ENNReal.toReal_ofReal (Real.exp_pos _).le, smul_eq_mul])
  rw [← h1, hmeas]
  exact (MeasurableEquiv.addRight a).measurableEmbedding.integral_map (g := f)

lemma integral_mvn_factor (A : Matrix ι κ ℝ) (f : (ι → ℝ) → ℝ) (hf : AEStronglyMeasurable f (Spec.mvn (A * Aᵀ))) :
    ∫ z, f z ∂(Spec.mvn (A * Aᵀ)) = ∫ x, f (A *ᵥ x) ∂(Spec.iid κ) := by
  rw [mvn_eq_map] at hf ⊢
  rw [integral_map (by fun_prop) hf]

/-- **Cameron-Martin**: weighting by `exp(a·z - a'Sa/2)` shifts the vector by `S a`. -/
theorem tilt_mvn {S : Matrix ι ι ℝ} (hS : S.PosSemidef) (a : ι → ℝ) {f : (ι → ℝ) → ℝ} (hf : Measurable f) :
    ∫ z, Real.exp (a ⬝ᵥ z - a ⬝ᵥ S *ᵥ a / 2) * f z ∂(Spec.mvn S) = ∫ z, f (z + S *ᵥ a) ∂(Spec.mvn S) := by
  obtain ⟨A, rfl⟩ := exists_factor hS
  rw [integral_mvn_factor A (fun z => Real.exp (a ⬝ᵥ z - a ⬝ᵥ (A * Aᵀ) *ᵥ a / 2) * f z) (by unfold dotProduct; exact Measurable.aestronglyMeasurable (by fun_prop)),
    integral_mvn_factor A (fun z => f (z + (A * Aᵀ) *ᵥ a)) (by exact Measurable.aestronglyMeasurable (by fun_prop))]
  have h := tilt_iid (Aᵀ *ᵥ a) (fun x => f (A *ᵥ x))
  have e1 : ∀ x : ι → ℝ, a ⬝ᵥ (A *ᵥ x) - a ⬝ᵥ (A * Aᵀ) *ᵥ a / 2 = ∑ k, ((Aᵀ *ᵥ a) k * x k - (Aᵀ *ᵥ a) k ^ 2 / 2) := by
    intro x
    rw [Finset.sum_sub_distrib, ← Finset.sum_div, dotProduct_mulVec, ← mulVec_mulVec, dotProduct_mulVec, ← mulVec_transpose]
    simp only [dotProduct, pow_two]
  have e2 : ∀ x : ι → ℝ, A *ᵥ (x + Aᵀ *ᵥ a) = A *ᵥ x + (A * Aᵀ) *ᵥ a := by
    intro x; rw [mulVec_add, mulVec_mulVec]
  simp_rw [e2] at h
  simp_rw [e1]
  exact h

/-- The exponential moments. -/
theorem integral_exp_mvn {S : Matrix ι ι ℝ} (hS : S.PosSemidef) (a : ι → ℝ) :
    ∫ z, Real.exp (a ⬝ᵥ z) ∂(Spec.mvn S) = Real.exp (a ⬝ᵥ S *ᵥ a / 2) := by
  have h := tilt_mvn hS a (f := fun _ => 1) measurable_const
  simp only [mul_one, integral_const, probReal_univ, smul_eq_mul] at h
  have e : ∀ z : ι → ℝ, Real.exp (a ⬝ᵥ z - a ⬝ᵥ S *ᵥ a / 2) = Real.exp (a ⬝ᵥ z) * Real.exp (-(a ⬝ᵥ S *ᵥ a / 2)) := by
    intro z; rw [← Real.exp_add, sub_eq_add_neg]
  simp_rw [e] at h
  rw [integral_mul_const, Real.exp_neg] at h
  field_simp at h
  exact h

lemma integrable_exp_mvn {S : Matrix ι ι ℝ} (hS : S.PosSemidef) (a : ι → ℝ) : Integrable (fun z => Real.exp (a ⬝ᵥ z)) (Spec.mvn S) := by
  by_contra h
  have := integral_exp_mvn hS a
  rw [integral_undef h] at this
  exact absurd this.symm (Real.exp_pos _).ne'

lemma quad_nonneg {S : Matrix ι ι ℝ} (hS : S.PosSemidef) (a : ι → ℝ) : 0 ≤ a ⬝ᵥ S *ᵥ a := by
  have := hS.dotProduct_mulVec_nonneg a
  simpa using this

omit [DecidableEq ι] in
lemma measurable_dot (a : ι → ℝ) : Measurable fun z : ι → ℝ => a ⬝ᵥ z := by unfold dotProduct; fun_prop

/-- Linear images are normal with variance `a'Sa`. -/
theorem map_dot_mvn {S : Matrix ι ι ℝ} (hS : S.PosSemidef) (a : ι → ℝ) :
    (Spec.mvn S).map (fun z => a ⬝ᵥ z) = (gaussianReal 0 1).map (fun x => √(a ⬝ᵥ S *ᵥ a) * x) := by
  haveI : IsProbabilityMeasure ((Spec.mvn S).map (fun z => a ⬝ᵥ z)) := Measure.isProbabilityMeasure_map (measurable_dot a).aemeasurable
  haveI : IsProbabilityMeasure ((gaussianReal 0 1).map (fun x => √(a ⬝ᵥ S *ᵥ a) * x)) := Measure.isProbabilityMeasure_map (by fun_prop)
  obtain ⟨A, rfl⟩ := exists_factor hS
  apply Measure.ext_of_charFun
  ext t
  rw [mvn_eq_map, Measure.map_map (by unfold dotProduct; fun_prop) (by fun_prop), charFun_apply_real, charFun_apply_real,
    integral_map (by unfold dotProduct; fun_prop) (by fun_prop), integral_map (by fun_prop) (by fun_prop)]
  have e1 : ∀ x : ι → ℝ, (t : ℂ) * ((((fun z => a ⬝ᵥ z) ∘ fun x => A *ᵥ x) x : ℝ) : ℂ) * Complex.I = ∑ k, ((t * (Aᵀ *ᵥ a) k : ℝ) * Complex.I) * (x k : ℂ) := by
    intro x
    simp only [Function.comp]
    rw [dotProduct_mulVec, ← mulVec_transpose]
    simp only [dotProduct]
    push_cast
    rw [Finset.mul_sum, Finset.sum_mul]
    exact Finset.sum_congr rfl fun k _ => by ring
  have e2 : ∀ x : ℝ, (t : ℂ) * ((√(a ⬝ᵥ (A * Aᵀ) *ᵥ a) * x : ℝ) : ℂ) * Complex.I = ((t * √(a ⬝ᵥ (A * Aᵀ) *ᵥ a) : ℝ) * Complex.I) * (x : ℂ) := by
    intro x; push_cast; ring
  simp_rw [e1, e2]
  rw [integral_cexp_iid, integral_cexp_gauss]
  congr 1
  have hq : (√(a ⬝ᵥ (A * Aᵀ) *ᵥ a)) ^ 2 = ∑ k, ((Aᵀ *ᵥ a) k) ^ 2 := by
    rw [Real.sq_sqrt (quad_nonneg hS a), ← mulVec_mulVec, dotProduct_mulVec, ← mulVec_transpose]
    simp only [dotProduct, pow_two]
  have hq2 : ((√(a ⬝ᵥ (A * Aᵀ) *ᵥ a) : ℝ) : ℂ) ^ 2 = ∑ k, (((Aᵀ *ᵥ a) k : ℝ) : ℂ) ^ 2 := by exact_mod_cast hq
  have e3 : ((t * √(a ⬝ᵥ (A * Aᵀ) *ᵥ a) : ℝ) * Complex.I) ^ 2 / 2 = -(t : ℂ) ^ 2 / 2 * ((√(a ⬝ᵥ (A * Aᵀ) *ᵥ a) : ℝ) : ℂ) ^ 2 := by
    rw [mul_pow, Complex.I_sq]; push_cast; ring
  rw [e3, hq2, Finset.mul_sum]
  refine Finset.sum_congr rfl fun k _ => ?_
  rw [mul_pow, Complex.I_sq]; push_cast; ring

/-- Expectations of functions of a linear combination. -/
theorem integral_dot_mvn {S : Matrix ι ι ℝ} (hS : S.PosSemidef) (a : ι → ℝ) {f : ℝ → ℝ} (hf : Measurable f) :
    ∫ z, f (a ⬝ᵥ z) ∂(Spec.mvn S) = Spec.gaussE fun x => f (√(a ⬝ᵥ S *ᵥ a) * x) := by
  have h := congrArg (fun μ => ∫ y, f y ∂μ) (map_dot_mvn hS a)
  rwa [integral_map (measurable_dot a).aemeasurable (by fun_prop), integral_map (by fun_prop) (by fun_prop)] at h

end MvGauss

end PyFENG
