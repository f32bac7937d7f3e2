import Verif.Spec
import Mathlib.Probability.Moments.Basic

/-!
# Central moments from raw moments, for a random variable
-/

namespace PyFENG

open MeasureTheory ProbabilityTheory Real

/-- Central moments 2-4 of `X` from its raw moments. -/
lemma centralMoment_raw {Ω : Type*} [MeasurableSpace Ω] (X : Ω → ℝ) (μ : Measure Ω) [IsProbabilityMeasure μ] {m1 m2 m3 m4 : ℝ}
    (i1 : Integrable X μ) (i2 : Integrable (fun x => X x ^ 2) μ)
    (i3 : Integrable (fun x => X x ^ 3) μ) (i4 : Integrable (fun x => X x ^ 4) μ)
    (h1 : ∫ x, X x ∂μ = m1) (h2 : ∫ x, X x ^ 2 ∂μ = m2) (h3 : ∫ x, X x ^ 3 ∂μ = m3) (h4 : ∫ x, X x ^ 4 ∂μ = m4) :
    centralMoment X 2 μ = m2 - m1 ^ 2 ∧
    centralMoment X 3 μ = m3 - 3 * m2 * m1 + 2 * m1 ^ 3 ∧
    centralMoment X 4 μ = m4 - 4 * m3 * m1 + 6 * m2 * m1 ^ 2 - 3 * m1 ^ 4 := by
  have lin : ∀ a0 a1 a2 a3 a4 : ℝ, ∫ x, (a0 + a1 * X x + a2 * X x ^ 2 + a3 * X x ^ 3 + a4 * X x ^ 4) ∂μ =
      a0 + a1 * m1 + a2 * m2 + a3 * m3 + a4 * m4 := by
    intro a0 a1 a2 a3 a4
    have k0 : Integrable (fun _ : Ω => a0) μ := integrable_const _
    have k1 : Integrable (fun x : Ω => a0 + a1 * X x) μ := k0.add (i1.const_mul _)
    have k2 : Integrable (fun x : Ω => a0 + a1 * X x + a2 * X x ^ 2) μ := k1.add (i2.const_mul _)
    have k3 : Integrable (fun x : Ω => a0 + a1 * X x + a2 * X x ^ 2 + a3 * X x ^ 3) μ := k2.add (i3.const_mul _)
    rw [integral_add k3 (i4.const_mul _), integral_add k2 (i3.const_mul _), integral_add k1 (i2.const_mul _),
      integral_add k0 (i1.const_mul _), integral_const_mul, integral_const_mul, integral_const_mul,
      integral_const_mul, h1, h2, h3, h4]
    simp
  unfold centralMoment
  rw [h1]
  simp only [Pi.pow_apply, Pi.sub_apply]
  refine ⟨?_, ?_, ?_⟩
  · rw [show m2 - m1 ^ 2 = m1 ^ 2 + (-2 * m1) * m1 + 1 * m2 + 0 * m3 + 0 * m4 by ring, ← lin]
    congr 1; ext x; ring
  · rw [show m3 - 3 * m2 * m1 + 2 * m1 ^ 3 = -m1 ^ 3 + (3 * m1 ^ 2) * m1 + (-3 * m1) * m2 + 1 * m3 + 0 * m4 by ring,
      ← lin]
    congr 1; ext x; ring
  · rw [show m4 - 4 * m3 * m1 + 6 * m2 * m1 ^ 2 - 3 * m1 ^ 4 =
      m1 ^ 4 + (-4 * m1 ^ 3) * m1 + (6 * m1 ^ 2) * m2 + (-4 * m1) * m3 + 1 * m4 by ring, ← lin]
    congr 1; ext x; ring

end PyFENG
