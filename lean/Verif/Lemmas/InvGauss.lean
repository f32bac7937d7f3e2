import Verif.Model.Dist
import Verif.Lemmas.Moments
import Mathlib.MeasureTheory.Function.JacobianOneDim
import Mathlib.Algebra.Polynomial.Eval.Degree
import Mathlib.Algebra.Polynomial.Degree.Lemmas

/-!
# The inverse Gaussian distribution and the change of variables behind its quadrature
-/

namespace PyFENG

open Real MeasureTheory ProbabilityTheory Set

/-- Specification: density of the inverse Gaussian law, as in the docstring of `DistInvGauss`. -/
noncomputable def Spec.igPDF (mu lam x : ℝ) : ℝ :=
  √(lam / (2 * π * x ^ 3)) * exp (-lam * (x - mu) ^ 2 / (2 * mu ^ 2 * x))

/-- Specification: the inverse Gaussian law on `(0, ∞)`. -/
noncomputable def Spec.igMeasure (mu lam : ℝ) : Measure ℝ :=
  (volume.restrict (Ioi 0)).withDensity (fun x => ENNReal.ofReal (Spec.igPDF mu lam x))

namespace DistInvGauss

/-- The two branches of the code are one formula. -/
lemma quadRoot_eq {fac : ℝ} (hf : 0 < fac) (z : ℝ) :
    quadRoot fac z = 1 + fac * z ^ 2 + z * √(fac * (2 + fac * z ^ 2)) := by
  unfold quadRoot
  simp only
  have hs : 0 ≤ fac * (2 + fac * z ^ 2) := by positivity
  have e : z ^ 2 * fac = fac * z ^ 2 := by ring
  rw [e]
  split_ifs with h
  · rw [abs_of_neg h]
    have hp : 0 < 1 + fac * z ^ 2 + -z * √(fac * (2 + fac * z ^ 2)) := by
      have : 0 ≤ -z * √(fac * (2 + fac * z ^ 2)) := mul_nonneg (by linarith) (sqrt_nonneg _)
      positivity
    rw [div_eq_iff hp.ne']
    have := mul_self_sqrt hs
    linear_combination z ^ 2 * this
  · rw [abs_of_nonneg (by linarith)]

lemma quadRoot_mul_neg {fac : ℝ} (hf : 0 < fac) (z : ℝ) : quadRoot fac z * quadRoot fac (-z) = 1 := by
  rw [quadRoot_eq hf, quadRoot_eq hf]
  have hs : 0 ≤ fac * (2 + fac * z ^ 2) := by positivity
  have := mul_self_sqrt hs
  rw [neg_sq]
  linear_combination -z ^ 2 * this

lemma quadRoot_add_neg {fac : ℝ} (hf : 0 < fac) (z : ℝ) :
    quadRoot fac z + quadRoot fac (-z) = 2 + 2 * fac * z ^ 2 := by
  rw [quadRoot_eq hf, quadRoot_eq hf, neg_sq]
  ring

lemma quadRoot_pos {fac : ℝ} (hf : 0 < fac) (z : ℝ) : 0 < quadRoot fac z := by
  unfold quadRoot
  simp only
  split_ifs <;> positivity

lemma quadRoot_neg {fac : ℝ} (hf : 0 < fac) (z : ℝ) : quadRoot fac (-z) = (quadRoot fac z)⁻¹ :=
  eq_inv_of_mul_eq_one_right (quadRoot_mul_neg hf z)

lemma continuous_quadRoot {fac : ℝ} (hf : 0 < fac) : Continuous (quadRoot fac) := by
  have : quadRoot fac = fun z => 1 + fac * z ^ 2 + z * √(fac * (2 + fac * z ^ 2)) := by
    ext z; exact quadRoot_eq hf z
  rw [this]; fun_prop

/-- The map from an inverse Gaussian value to a standard normal value. -/
noncomputable def toZ (mu lam x : ℝ) : ℝ := √(lam / (mu ^ 2 * x)) * (x - mu)

lemma hasDerivAt_toZ {mu lam x : ℝ} (hm : 0 < mu) (hl : 0 < lam) (hx : 0 < x) :
    HasDerivAt (toZ mu lam) (√(lam / (mu ^ 2 * x)) * ((x + mu) / (2 * x))) x := by
  have h1 : HasDerivAt (fun x => lam / (mu ^ 2 * x)) (-(lam / (mu ^ 2 * x)) / x) x := by
    have := (((hasDerivAt_id' x).const_mul (mu ^ 2)).inv (by positivity)).const_mul lam
    refine this.congr_deriv ?_
    field_simp
  have h2 := h1.sqrt (by positivity)
  have h3 := h2.mul ((hasDerivAt_id' x).sub_const mu)
  refine h3.congr_deriv ?_
  have hp : 0 < √(lam / (mu ^ 2 * x)) := sqrt_pos.2 (by positivity)
  have hq := sq_sqrt (show 0 ≤ lam / (mu ^ 2 * x) by positivity)
  rw [← hq]
  rw [sqrt_sq hp.le]
  generalize √(lam / (mu ^ 2 * x)) = r at *
  field_simp
  ring

lemma toZ_quadRoot {mu lam : ℝ} (hm : 0 < mu) (hl : 0 < lam) (z : ℝ) :
    toZ mu lam (mu * quadRoot (0.5 * mu / lam) z) = z := by
  have hf : 0 < 0.5 * mu / lam := by positivity
  have hp := quadRoot_pos hf z
  have h1 := quadRoot_mul_neg hf z
  have h2 := quadRoot_add_neg hf z
  rw [quadRoot_neg hf] at h2
  have hr := quadRoot_eq hf z
  -- sign agreement
  have hz : 0 ≤ z * (quadRoot (0.5 * mu / lam) z - 1) := by
    rw [hr]
    rcases le_total 0 z with h | h
    · have : 0 ≤ z * √(0.5 * mu / lam * (2 + 0.5 * mu / lam * z ^ 2)) := by positivity
      nlinarith [mul_nonneg h this, mul_nonneg hf.le (sq_nonneg z), mul_nonneg h (mul_nonneg hf.le (sq_nonneg z))]
    · have hle : quadRoot (0.5 * mu / lam) z ≤ 1 := by
        have h3 : 1 ≤ quadRoot (0.5 * mu / lam) (-z) := by
          rw [quadRoot_eq hf]
          have : 0 ≤ -z * √(0.5 * mu / lam * (2 + 0.5 * mu / lam * (-z) ^ 2)) :=
            mul_nonneg (by linarith) (sqrt_nonneg _)
          nlinarith [mul_nonneg hf.le (sq_nonneg (-z))]
        nlinarith
      rw [hr] at hle
      nlinarith
  unfold toZ
  generalize quadRoot (0.5 * mu / lam) z = x at *
  have hsq : (x - 1) ^ 2 = x * (mu / lam) * z ^ 2 := by
    field_simp at h2
    norm_num at h2
    field_simp
    nlinarith [h2]
  have hpos : 0 < √(lam / (mu ^ 2 * (mu * x))) := sqrt_pos.2 (by positivity)
  have h4 : (√(lam / (mu ^ 2 * (mu * x))) * (mu * x - mu)) ^ 2 = z ^ 2 := by
    rw [mul_pow, sq_sqrt (by positivity), show (mu * x - mu) ^ 2 = mu ^ 2 * (x - 1) ^ 2 by ring, hsq]
    field_simp
  have h5 : 0 ≤ z * (√(lam / (mu ^ 2 * (mu * x))) * (mu * x - mu)) := by
    rw [show z * (√(lam / (mu ^ 2 * (mu * x))) * (mu * x - mu)) = (√(lam / (mu ^ 2 * (mu * x))) * mu) * (z * (x - 1)) by ring]
    positivity
  generalize √(lam / (mu ^ 2 * (mu * x))) * (mu * x - mu) = y at *
  rcases sq_eq_sq_iff_eq_or_eq_neg.1 h4 with h | h
  · exact h
  · rw [h] at h5
    have : z = 0 := by nlinarith [sq_nonneg z]
    rw [h, this]; simp

lemma strictMonoOn_toZ {mu lam : ℝ} (hm : 0 < mu) (hl : 0 < lam) : StrictMonoOn (toZ mu lam) (Ioi 0) := by
  refine strictMonoOn_of_deriv_pos (convex_Ioi 0) (fun x hx => (hasDerivAt_toZ hm hl hx).continuousAt.continuousWithinAt)
    (fun x hx => ?_)
  rw [interior_Ioi] at hx
  rw [(hasDerivAt_toZ hm hl hx).deriv]
  have hx' : 0 < x := hx
  have : 0 < √(lam / (mu ^ 2 * x)) := sqrt_pos.2 (by positivity)
  positivity

lemma quadRoot_toZ {mu lam x : ℝ} (hm : 0 < mu) (hl : 0 < lam) (hx : 0 < x) :
    mu * quadRoot (0.5 * mu / lam) (toZ mu lam x) = x := by
  have hf : 0 < 0.5 * mu / lam := by positivity
  have hp := quadRoot_pos hf (toZ mu lam x)
  exact (strictMonoOn_toZ hm hl).injOn (show _ ∈ Ioi 0 from mul_pos hm hp) hx (toZ_quadRoot hm hl _)

/-- Change of variables: an inverse Gaussian expectation is a standard normal expectation with the weight
`2/(1+x)`. -/
lemma integral_ig {mu lam : ℝ} (hm : 0 < mu) (hl : 0 < lam) (f : ℝ → ℝ) :
    ∫ x, f x ∂(Spec.igMeasure mu lam) =
      Spec.gaussE (fun z => f (mu * quadRoot (0.5 * mu / lam) z) * (2 / (1 + quadRoot (0.5 * mu / lam) z))) := by
  have himg : toZ mu lam '' Ioi 0 = univ := by
    ext z
    simp only [mem_image, mem_univ, iff_true]
    exact ⟨_, mul_pos hm (quadRoot_pos (by positivity) z), toZ_quadRoot hm hl z⟩
  have hcv := integral_image_eq_integral_abs_deriv_smul (s := Ioi (0:ℝ)) measurableSet_Ioi
    (fun x hx => (hasDerivAt_toZ hm hl hx).hasDerivWithinAt) (strictMonoOn_toZ hm hl).injOn
    (fun z => npdf z * (f (mu * quadRoot (0.5 * mu / lam) z) * (2 / (1 + quadRoot (0.5 * mu / lam) z))))
  rw [himg, setIntegral_univ] at hcv
  unfold Spec.gaussE
  rw [integral_gauss, hcv]
  unfold Spec.igMeasure
  have hmeas : Measurable (fun x => ENNReal.ofReal (Spec.igPDF mu lam x)) := by
    unfold Spec.igPDF; fun_prop
  rw [integral_withDensity_eq_integral_toReal_smul hmeas (by simp)]
  refine setIntegral_congr_fun measurableSet_Ioi fun x hx => ?_
  have hx' : 0 < x := hx
  have h1 := quadRoot_toZ hm hl hx'
  have h2 : quadRoot (0.5 * mu / lam) (toZ mu lam x) = x / mu := by
    rw [eq_div_iff hm.ne']; linarith
  rw [h1, h2, ENNReal.toReal_ofReal (by unfold Spec.igPDF; positivity)]
  have hr : 0 < √(lam / (mu ^ 2 * x)) := sqrt_pos.2 (by positivity)
  have h3 : npdf (toZ mu lam x) = exp (-lam * (x - mu) ^ 2 / (2 * mu ^ 2 * x)) / √(2 * π) := by
    unfold npdf toZ
    congr 2
    rw [mul_pow, sq_sqrt (by positivity)]
    field_simp
  rw [h3, abs_of_pos (by positivity)]
  unfold Spec.igPDF
  have h4 : √(lam / (2 * π * x ^ 3)) = √(lam / (mu ^ 2 * x)) * (mu / x) / √(2 * π) := by
    rw [show lam / (2 * π * x ^ 3) = lam / (mu ^ 2 * x) * (mu / x) ^ 2 / (2 * π) by field_simp,
      sqrt_div (by positivity), sqrt_mul (by positivity), sqrt_sq (by positivity)]
  rw [h4]
  simp only [smul_eq_mul]
  have : √(2 * π) ≠ 0 := by positivity
  field_simp
  ring

open Polynomial in
/-- `igPoly fac k` evaluated at `z` is `(x^k + x^(1-k))/(1+x)` at the node `x = quadRoot fac z`. -/
noncomputable def igPoly (fac : ℝ) : ℕ → ℝ[X]
  | 0 => 1
  | 1 => 1
  | (k + 2) => (C 2 + C (2 * fac) * X ^ 2) * igPoly fac (k + 1) - igPoly fac k

lemma igPoly_natDegree (fac : ℝ) : ∀ k, (igPoly fac k).natDegree ≤ 2 * (k - 1) ∧
    (igPoly fac (k + 1)).natDegree ≤ 2 * k
  | 0 => by simp [igPoly]
  | (k + 1) => by
    obtain ⟨h0, h1⟩ := igPoly_natDegree fac k
    refine ⟨by simpa using h1, ?_⟩
    rw [igPoly]
    refine (Polynomial.natDegree_sub_le _ _).trans (max_le ?_ (h0.trans (by omega)))
    refine Polynomial.natDegree_mul_le.trans ?_
    have : (Polynomial.C 2 + Polynomial.C (2 * fac) * Polynomial.X ^ 2 : Polynomial ℝ).natDegree ≤ 2 := by
      compute_degree
    omega

lemma igPoly_eval {fac : ℝ} (hf : 0 < fac) (z : ℝ) : ∀ k : ℕ,
    (igPoly fac k).eval z * (1 + quadRoot fac z) = quadRoot fac z ^ k + quadRoot fac z * (quadRoot fac z)⁻¹ ^ k ∧
    (igPoly fac (k + 1)).eval z * (1 + quadRoot fac z) =
      quadRoot fac z ^ (k + 1) + quadRoot fac z * (quadRoot fac z)⁻¹ ^ (k + 1)
  | 0 => by
    have := quadRoot_pos hf z
    simp only [igPoly, Polynomial.eval_one, pow_zero, zero_add, pow_one]
    constructor
    · ring
    · field_simp
      ring
  | (k + 1) => by
    obtain ⟨h0, h1⟩ := igPoly_eval hf z k
    refine ⟨h1, ?_⟩
    have hu := quadRoot_add_neg hf z
    rw [quadRoot_neg hf] at hu
    have hp := quadRoot_pos hf z
    have e : (igPoly fac (k + 1 + 1)).eval z =
        (quadRoot fac z + (quadRoot fac z)⁻¹) * (igPoly fac (k + 1)).eval z - (igPoly fac k).eval z := by
      rw [igPoly, hu]; simp
    rw [e, sub_mul, mul_assoc, h1, h0]
    generalize quadRoot fac z = x at *
    have hi : x * x⁻¹ = 1 := mul_inv_cancel₀ hp.ne'
    generalize x⁻¹ = y at *
    linear_combination (x ^ k + y ^ k * x) * hi

/-- Standard-normal expectation of `x^k · 2/(1+x)` at the node is that of the polynomial; the integrand is
integrable. -/
lemma gaussE_node_pow {fac : ℝ} (hf : 0 < fac) (k : ℕ) :
    Integrable (fun z => quadRoot fac z ^ k * (2 / (1 + quadRoot fac z))) (gaussianReal 0 1) ∧
    Integrable (fun z => (quadRoot fac z)⁻¹ ^ k * (2 / (1 + quadRoot fac z))) (gaussianReal 0 1) ∧
    Spec.gaussE (fun z => quadRoot fac z ^ k * (2 / (1 + quadRoot fac z))) =
      Spec.gaussE (fun z => (igPoly fac k).eval z) ∧
    Spec.gaussE (fun z => (quadRoot fac z)⁻¹ ^ k * (2 / (1 + quadRoot fac z))) =
      Spec.gaussE (fun z => (igPoly fac (k + 1)).eval z) := by
  have hc := continuous_quadRoot hf
  have hpoly : ∀ p : Polynomial ℝ, Integrable (fun z => p.eval z) (gaussianReal 0 1) := by
    intro p
    simp only [Polynomial.eval_eq_sum_range]
    exact integrable_finsetSum _ fun i _ => (integrable_pow_gauss i).const_mul _
  -- value and reflected value
  have key : ∀ g : ℝ → ℝ, Continuous g → (∀ z, 0 ≤ g z) → ∀ p : Polynomial ℝ,
      (∀ z, g z + g (-z) = 2 * p.eval z) →
      Integrable g (gaussianReal 0 1) ∧ Spec.gaussE g = Spec.gaussE (fun z => p.eval z) := by
    intro g hg h0 p hp
    have hi : Integrable g (gaussianReal 0 1) := by
      refine ((hpoly p).const_mul 2).mono' hg.aestronglyMeasurable (Filter.Eventually.of_forall fun z => ?_)
      rw [Real.norm_of_nonneg (h0 z)]
      have := hp z
      have := h0 (-z)
      linarith
    refine ⟨hi, ?_⟩
    have hsym : ∀ f : ℝ → ℝ, ∫ z, f (-z) ∂(gaussianReal 0 1) = ∫ z, f z ∂(gaussianReal 0 1) := by
      intro f
      rw [integral_gauss, integral_gauss, ← integral_neg_eq_self (fun z => npdf z * f z) volume]
      simp [npdf_neg]
    have hi' : Integrable (fun z => g (-z)) (gaussianReal 0 1) := by
      refine ((hpoly p).const_mul 2).mono' (by fun_prop) (Filter.Eventually.of_forall fun z => ?_)
      rw [Real.norm_of_nonneg (h0 _)]
      have := hp z
      have := h0 z
      linarith
    unfold Spec.gaussE
    have h1 : ∫ z, (g z + g (-z)) ∂(gaussianReal 0 1) = 2 * ∫ z, p.eval z ∂(gaussianReal 0 1) := by
      simp only [hp]; rw [integral_const_mul]
    rw [integral_add hi hi', hsym] at h1
    linarith
  have hpos := quadRoot_pos hf
  have hne : ∀ z, 1 + quadRoot fac z ≠ 0 := fun z => by have := hpos z; positivity
  have hA := key (fun z => quadRoot fac z ^ k * (2 / (1 + quadRoot fac z)))
    (by exact (hc.pow k).mul (continuous_const.div (continuous_const.add hc) hne))
    (fun z => by have := hpos z; positivity) (igPoly fac k) (fun z => by
      rw [quadRoot_neg hf]
      have h := (igPoly_eval hf z k).1
      have hx := hpos z
      rw [← mul_left_inj' (hne z), mul_assoc 2, h, add_mul]
      generalize quadRoot fac z = x at *
      have h1 : 1 + x ≠ 0 := by positivity
      have h2 : 1 + x⁻¹ = (1 + x) / x := by field_simp; ring
      rw [h2]
      field_simp
      )
  have hB := key (fun z => (quadRoot fac z)⁻¹ ^ k * (2 / (1 + quadRoot fac z)))
    (by exact ((hc.inv₀ fun z => (hpos z).ne').pow k).mul (continuous_const.div (continuous_const.add hc) hne))
    (fun z => by have := hpos z; positivity) (igPoly fac (k + 1)) (fun z => by
      rw [quadRoot_neg hf]
      have h := (igPoly_eval hf z k).2
      have hx := hpos z
      rw [← mul_left_inj' (hne z), mul_assoc 2, h, add_mul]
      generalize quadRoot fac z = x at *
      have h1 : 1 + x ≠ 0 := by positivity
      have h2 : 1 + x⁻¹ = (1 + x) / x := by field_simp; ring
      rw [h2, inv_inv, pow_succ x⁻¹, show x * (x⁻¹ ^ k * x⁻¹) = x⁻¹ ^ k by field_simp]
      field_simp
      ring)
  exact ⟨hA.1, hB.1, hA.2, hB.2⟩

/-- All integer moments of the inverse Gaussian law. -/
lemma ig_moment {mu lam : ℝ} (hm : 0 < mu) (hl : 0 < lam) (k : ℕ) :
    ∫ x, x ^ k ∂(Spec.igMeasure mu lam) = mu ^ k * Spec.gaussE (fun z => (igPoly (0.5 * mu / lam) k).eval z) := by
  rw [integral_ig hm hl, ← (gaussE_node_pow (by positivity) k).2.2.1]
  unfold Spec.gaussE
  rw [← integral_const_mul]
  congr 1; ext z; ring

lemma ig_neg_moment {mu lam : ℝ} (hm : 0 < mu) (hl : 0 < lam) (k : ℕ) :
    ∫ x, x⁻¹ ^ k ∂(Spec.igMeasure mu lam) =
      mu⁻¹ ^ k * Spec.gaussE (fun z => (igPoly (0.5 * mu / lam) (k + 1)).eval z) := by
  rw [integral_ig hm hl, ← (gaussE_node_pow (by positivity) k).2.2.2]
  unfold Spec.gaussE
  rw [← integral_const_mul]
  congr 1; ext z; beta_reduce; rw [mul_inv, mul_pow]; ring

end DistInvGauss

end PyFENG
