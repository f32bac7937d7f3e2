import Verif.Model.HestonMc
import Verif.Props.CirDraw
import Verif.Props.DistQuad

/-!
# Means and variances of composed random draws
-/

namespace PyFENG

open Real Set MeasureTheory ProbabilityTheory

/-- `rng.uniform()` on `(0, 1)`. -/
noncomputable def Ex.uniform : Ex ℝ := fun φ => ∫ u in Ioo (0 : ℝ) 1, φ u

/-- `rng.standard_gamma(a)`; numpy returns `0` for `a = 0`. -/
noncomputable def Ex.gamma0 (a : ℝ) : Ex ℝ := fun φ => if a = 0 then φ 0 else Ex.gamma a φ

/-- `rng.wald(mean, scale)`: the inverse Gaussian law. -/
noncomputable def Ex.wald (mu lam : ℝ) : Ex ℝ := fun φ => ∫ x, φ x ∂(Spec.igMeasure mu lam)

/-- numpy's generators, read as expectations. -/
noncomputable def rngEx : Rng Ex := ⟨Ex.normal, Ex.uniform, Ex.gamma0, Ex.poisson, Ex.wald, Ex.ncx2⟩

namespace Spec

/-- The random draw `D` has this mean and this variance: every polynomial of degree two has the corresponding expectation. -/
def HasMV (D : Ex ℝ) (mean var : ℝ) : Prop := ∀ A B C : ℝ, D (fun x => A + B * x + C * x ^ 2) = A + B * mean + C * (var + mean ^ 2)

end Spec

open Spec

lemma Spec.HasMV.mk_measure {μ : Measure ℝ} [IsProbabilityMeasure μ] {m v : ℝ} (i1 : Integrable (fun x : ℝ => x) μ) (i2 : Integrable (fun x : ℝ => x ^ 2) μ)
    (h1 : ∫ x, x ∂μ = m) (h2 : ∫ x, x ^ 2 ∂μ = v + m ^ 2) : HasMV (fun φ => ∫ x, φ x ∂μ) m v := by
  intro A B C
  beta_reduce
  rw [integral_add (f := fun x => A + B * x) (((integrable_const A).add (i1.const_mul B))) (i2.const_mul C), integral_add (integrable_const A) (i1.const_mul B),
    integral_const_mul, integral_const_mul, h1, h2]
  simp

lemma hasMV_normal : HasMV Ex.normal 0 1 := by
  intro A B C
  have h := (gaussE_poly A B C 0 0).2
  show Spec.gaussE _ = _
  simp only [zero_mul, add_zero, mul_zero] at h
  rw [h]; ring

lemma integrable_of_integral_ne {α : Type*} [MeasurableSpace α] {μ : Measure α} {f : α → ℝ} (h : ∫ x, f x ∂μ ≠ 0) : Integrable f μ := by
  by_contra hc
  exact h (integral_undef hc)

lemma hasMV_gamma {a : ℝ} (ha : 0 < a) : HasMV (Ex.gamma a) a a := by
  intro A B C
  obtain ⟨h1, h2⟩ := Ex.gamma_mom ha
  have h0 : Ex.gamma a (fun _ => 1) = 1 := by
    have := Ex.gamma_exp ha (s := 0) (by norm_num)
    simpa using this
  unfold Ex.gamma at *
  have i0 := integrable_of_integral_ne (h0 ▸ one_ne_zero)
  have i1 := integrable_of_integral_ne (h1 ▸ ha.ne')
  have i2 := integrable_of_integral_ne (by rw [h2]; positivity : (∫ g in Ioi 0, gammaPdf a g * g ^ 2) ≠ 0)
  have e : ∀ g : ℝ, gammaPdf a g * (A + B * g + C * g ^ 2) = (A * (gammaPdf a g * 1) + B * (gammaPdf a g * g)) + C * (gammaPdf a g * g ^ 2) := fun g => by ring
  simp only [e]
  rw [integral_add (f := fun g => A * (gammaPdf a g * 1) + B * (gammaPdf a g * g)) ((i0.const_mul A).add (i1.const_mul B)) (i2.const_mul C),
    integral_add (i0.const_mul A) (i1.const_mul B), integral_const_mul, integral_const_mul, integral_const_mul, h0, h1, h2]
  ring

lemma hasMV_gamma0 {a : ℝ} (ha : 0 ≤ a) : HasMV (Ex.gamma0 a) a a := by
  intro A B C
  unfold Ex.gamma0
  split_ifs with h
  · rw [h]; ring
  · exact hasMV_gamma (lt_of_le_of_ne ha (Ne.symm h)) A B C

lemma hasMV_wald {mu lam : ℝ} (hm : 0 < mu) (hl : 0 < lam) : HasMV (Ex.wald mu lam) mu (mu ^ 3 / lam) := by
  obtain ⟨h0, h1, h2, -⟩ := DistInvGauss.raw_moments hm hl
  simp only [pow_zero] at h0
  have i0 := integrable_of_integral_ne (h0 ▸ one_ne_zero)
  have hp : IsProbabilityMeasure (Spec.igMeasure mu lam) := by
    have hf : IsFiniteMeasure (Spec.igMeasure mu lam) := (integrable_const_iff_isFiniteMeasure one_ne_zero).1 i0
    constructor
    rw [integral_const, smul_eq_mul, mul_one] at h0
    rw [Measure.real, ENNReal.toReal_eq_one_iff] at h0
    exact h0
  exact HasMV.mk_measure (integrable_of_integral_ne (by rw [h1]; exact hm.ne')) (integrable_of_integral_ne (by rw [h2]; positivity)) h1 (by rw [h2]; field_simp; ring)

/-- Affine images. -/
lemma Spec.HasMV.affine {D : Ex ℝ} {m v : ℝ} (h : HasMV D m v) (k c : ℝ) : HasMV (do let x ← D; pure (c + k * x)) (c + k * m) (k ^ 2 * v) := by
  intro A B C
  show D (fun x => A + B * (c + k * x) + C * (c + k * x) ^ 2) = _
  have e : (fun x => A + B * (c + k * x) + C * (c + k * x) ^ 2) = fun x => (A + B * c + C * c ^ 2) + (B * k + 2 * C * c * k) * x + (C * k ^ 2) * x ^ 2 := by
    ext x; ring
  rw [e, h]
  ring

lemma Spec.HasMV.congr {D : Ex ℝ} {m v m' v' : ℝ} (h : HasMV D m v) (hm : m = m') (hv : v = v') : HasMV D m' v' := hm ▸ hv ▸ h

/-- The sum of independent draws. -/
lemma Spec.HasMV.add {D E : Ex ℝ} {m v m' v' : ℝ} (h : HasMV D m v) (h' : HasMV E m' v') : HasMV (do let x ← D; let y ← E; pure (x + y)) (m + m') (v + v') := by
  intro A B C
  show D (fun x => E (fun y => A + B * (x + y) + C * (x + y) ^ 2)) = _
  have e : ∀ x, E (fun y => A + B * (x + y) + C * (x + y) ^ 2) = (A + B * m' + C * (v' + m' ^ 2)) + (B + 2 * C * m') * x + C * x ^ 2 := by
    intro x
    have e2 : (fun y => A + B * (x + y) + C * (x + y) ^ 2) = fun y => (A + B * x + C * x ^ 2) + (B + 2 * C * x) * y + C * y ^ 2 := by ext y; ring
    rw [e2, h']; ring
  simp only [e]
  rw [h]
  ring

lemma Spec.HasMV.sumDraws : ∀ {l : List (Ex ℝ × ℝ × ℝ)} (_ : ∀ p ∈ l, HasMV p.1 p.2.1 p.2.2) (acc : ℝ),
    HasMV (Heston.sumDraws (l.map Prod.fst) acc) (acc + (l.map fun p => p.2.1).sum) ((l.map fun p => p.2.2).sum)
  | [], _, acc => by
    intro A B C
    show A + B * acc + C * acc ^ 2 = _
    simp
  | p :: l, h, acc => by
    have hp := h p (by simp)
    have ih := fun a => HasMV.sumDraws (l := l) (fun q hq => h q (by simp [hq])) a
    intro A B C
    show p.1 (fun x => Heston.sumDraws (l.map Prod.fst) (acc + x) (fun y => A + B * y + C * y ^ 2)) = _
    simp only [fun x => ih (acc + x) A B C]
    simp only [List.map_cons, List.sum_cons]
    generalize (l.map fun p => p.2.1).sum = S
    generalize (l.map fun p => p.2.2).sum = V
    have e : (fun x => A + B * (acc + x + S) + C * (V + (acc + x + S) ^ 2)) =
        fun x => (A + B * (acc + S) + C * (V + (acc + S) ^ 2)) + (B + 2 * C * (acc + S)) * x + C * x ^ 2 := by ext x; ring
    rw [e, hp]
    ring

/-- A draw whose mean and variance are affine in a Poisson variable. -/
lemma Spec.HasMV.poisson {D : ℕ → Ex ℝ} {mu m0 m1 v0 v1 : ℝ} (h : ∀ n : ℕ, HasMV (D n) (m0 + m1 * n) (v0 + v1 * n)) :
    HasMV (do let n ← Ex.poisson mu; D n) (m0 + m1 * mu) (v0 + v1 * mu + m1 ^ 2 * mu) := by
  intro A B C
  show Ex.poisson mu (fun n => D n _) = _
  simp only [fun n => h n A B C]
  have e : (fun n : ℕ => A + B * (m0 + m1 * n) + C * (v0 + v1 * n + (m0 + m1 * n) ^ 2)) =
      fun n : ℕ => (A + B * m0 + C * (v0 + m0 ^ 2)) + (B * m1 + C * (v1 + 2 * m0 * m1 + m1 ^ 2)) * n + (C * m1 ^ 2) * (n * (n - 1)) := by ext n; ring
  rw [e, Ex.poisson_quad]
  ring

end PyFENG
