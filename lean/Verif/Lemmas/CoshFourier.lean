import Verif.Lemmas.CothSeries
import Mathlib.Analysis.Fourier.AddCircle
import Mathlib.Analysis.SpecialFunctions.Integrals.Basic

/-!
# The cosine series of `cosh`
-/

namespace PyFENG

open Real Set Filter Topology MeasureTheory

namespace Coth

local notation "𝕌" => UnitAddCircle

lemma coshCoeff {x : ℝ} (hx : x ≠ 0) (n : ℤ) :
    fourierCoeff (AddCircle.liftIco (1:ℝ) 0 (fun y : ℝ => ((cosh (x * (1 - 2 * y)) : ℝ) : ℂ)) : 𝕌 → ℂ) n = ((x * sinh x / (x ^ 2 + π ^ 2 * n ^ 2) : ℝ) : ℂ) := by
  rw [fourierCoeff_liftIco_eq, fourierCoeffOn_eq_integral]
  simp only [zero_add, sub_zero, div_one, one_smul, smul_eq_mul]
  set c : ℂ := 2 * π * Complex.I * n with hc
  have hre : c.re = 0 := by simp [hc]
  have hxC : (x : ℂ) ≠ 0 := by exact_mod_cast hx
  have hp : -c - 2 * x ≠ 0 := fun h => hx (by have := congrArg Complex.re h; simp [hre] at this; exact this)
  have hm : -c + 2 * x ≠ 0 := fun h => hx (by have := congrArg Complex.re h; simp [hre] at this; exact this)
  have e : ∀ y : ℝ, fourier (-n) (y : AddCircle ((0:ℝ) + 1 - 0)) * ((cosh (x * (1 - 2 * y)) : ℝ) : ℂ) =
      Complex.exp x / 2 * Complex.exp ((-c - 2 * x) * y) + Complex.exp (-x) / 2 * Complex.exp ((-c + 2 * x) * y) := by
    intro y
    rw [fourier_coe_apply, cosh_eq]
    push_cast
    have h1 : Complex.exp (2 * π * Complex.I * -n * y / (0 + 1 - 0)) = Complex.exp (-c * y) := by congr 1; rw [hc]; ring
    rw [h1]
    have h2 : Complex.exp (x * (1 - 2 * y)) = Complex.exp x * Complex.exp (-2 * x * y) := by rw [← Complex.exp_add]; congr 1; ring
    have h3 : Complex.exp (-(x * (1 - 2 * y))) = Complex.exp (-x) * Complex.exp (2 * x * y) := by rw [← Complex.exp_add]; congr 1; ring
    have h4 : Complex.exp ((-c - 2 * x) * y) = Complex.exp (-c * y) * Complex.exp (-2 * x * y) := by rw [← Complex.exp_add]; congr 1; ring
    have h5 : Complex.exp ((-c + 2 * x) * y) = Complex.exp (-c * y) * Complex.exp (2 * x * y) := by rw [← Complex.exp_add]; congr 1; ring
    rw [h2, h3, h4, h5]
    ring
  have e' : ∫ y in (0:ℝ)..1, fourier (-n) (y : AddCircle ((0:ℝ) + 1 - 0)) * ((cosh (x * (1 - 2 * y)) : ℝ) : ℂ) =
      ∫ y in (0:ℝ)..1, (Complex.exp x / 2 * Complex.exp ((-c - 2 * x) * y) + Complex.exp (-x) / 2 * Complex.exp ((-c + 2 * x) * y)) :=
    intervalIntegral.integral_congr fun y _ => e y
  rw [show (∫ y in (0:ℝ)..1, fourier (-n) (y : AddCircle ((0:ℝ) + 1 - 0)) * ((cosh (x * (1 - 2 * y)) : ℝ) : ℂ)) = _ from e']
  rw [intervalIntegral.integral_add (Continuous.intervalIntegrable (by fun_prop) _ _) (Continuous.intervalIntegrable (by fun_prop) _ _),
    intervalIntegral.integral_const_mul, intervalIntegral.integral_const_mul, integral_exp_mul_complex hp, integral_exp_mul_complex hm]
  have hcE : Complex.exp (-c) = 1 := by
    rw [Complex.exp_eq_one_iff]
    exact ⟨-n, by rw [hc]; push_cast; ring⟩
  have hs1 : Complex.exp (-c - 2 * x) = Complex.exp (-x) ^ 2 := by
    rw [sub_eq_add_neg, Complex.exp_add, hcE, one_mul, ← Complex.exp_nat_mul]; congr 1; push_cast; ring
  have hs2 : Complex.exp (-c + 2 * x) = Complex.exp x ^ 2 := by
    rw [Complex.exp_add, hcE, one_mul, ← Complex.exp_nat_mul]; push_cast; rfl
  have hee : Complex.exp x * Complex.exp (-x) = 1 := by rw [← Complex.exp_add]; simp
  simp only [Complex.ofReal_one, mul_one, Complex.ofReal_zero, mul_zero, Complex.exp_zero]
  rw [hs1, hs2]
  have hden : ((x ^ 2 + π ^ 2 * n ^ 2 : ℝ) : ℂ) ≠ 0 := by
    have : 0 < x ^ 2 + π ^ 2 * (n:ℝ) ^ 2 := by positivity
    exact_mod_cast this.ne'
  have hprod : (-c - 2 * x) * (-c + 2 * x) = -4 * ((x ^ 2 + π ^ 2 * n ^ 2 : ℝ) : ℂ) := by
    rw [hc]; push_cast; linear_combination (4 * π ^ 2 * n ^ 2 : ℂ) * Complex.I_sq
  rw [Complex.ofReal_div, sinh_eq]
  have hsum : (-c - 2 * x) + (-c + 2 * x) = -2 * c := by ring
  have hdif : (-c + 2 * x) - (-c - 2 * x) = 4 * (x : ℂ) := by ring
  push_cast at hden hprod ⊢
  generalize -c - 2 * (x:ℂ) = p at *
  generalize -c + 2 * (x:ℂ) = q at *
  generalize Complex.exp (x : ℂ) = a at *
  generalize Complex.exp (-(x : ℂ)) = b at *
  rw [eq_div_iff hden]
  have hd : ((x:ℂ) ^ 2 + π ^ 2 * n ^ 2) = -(p * q) / 4 := by linear_combination (1/4 : ℂ) * hprod
  have hx4 : (x:ℂ) = (q - p) / 4 := by linear_combination (-1/4 : ℂ) * hdif
  rw [hd, hx4]
  field_simp
  linear_combination (-p * a - b * q) * hee

/-- The cosine series of `cosh`: `Σ_{n ≥ 1} cos(2πny)/(x² + n²π²)` on `[0, 1]`. -/
lemma hasSum_cos {x : ℝ} (hx : x ≠ 0) {y : ℝ} (hy : y ∈ Icc (0:ℝ) 1) :
    HasSum (fun n : ℕ => cos (2 * π * (n + 1) * y) / (x ^ 2 + pole n)) (cosh (x * (1 - 2 * y)) / (2 * x * sinh x) - 1 / (2 * x ^ 2)) := by
  have hsinh : sinh x ≠ 0 := by rw [Ne, ← sinh_zero, sinh_inj]; exact hx
  have hcont : Continuous (AddCircle.liftIco (1:ℝ) 0 (fun y : ℝ => ((cosh (x * (1 - 2 * y)) : ℝ) : ℂ)) : 𝕌 → ℂ) := by
    refine AddCircle.liftIco_zero_continuous ?_ (by fun_prop)
    norm_num
  let B : C(𝕌, ℂ) := ⟨_, hcont⟩
  have hco : ∀ n : ℤ, fourierCoeff B n = ((x * sinh x / (x ^ 2 + π ^ 2 * n ^ 2) : ℝ) : ℂ) := coshCoeff hx
  have hsN : Summable fun n : ℕ => x * sinh x / (x ^ 2 + π ^ 2 * (n:ℝ) ^ 2) := by
    rw [← summable_nat_add_iff 1]
    refine ((hasSum_one hx).summable.mul_left (x * sinh x)).congr fun n => ?_
    unfold pole
    push_cast
    ring
  have hsZ : Summable fun n : ℤ => x * sinh x / (x ^ 2 + π ^ 2 * (n:ℝ) ^ 2) := by
    refine Summable.of_nat_of_neg ?_ ?_ <;> simpa using hsN
  have hsum : Summable (fourierCoeff B) := by
    refine (Complex.hasSum_ofReal.2 hsZ.hasSum).summable.congr fun n => ?_
    rw [hco]
  have hBe : ⇑B = AddCircle.liftIco (1:ℝ) 0 (fun y : ℝ => ((cosh (x * (1 - 2 * y)) : ℝ) : ℂ)) := rfl
  have hv : ∀ y ∈ Icc (0:ℝ) 1, B (y : 𝕌) = ((cosh (x * (1 - 2 * y)) : ℝ) : ℂ) := by
    intro y hy
    rcases eq_or_lt_of_le hy.2 with h | h
    · rw [h]
      have : ((1:ℝ) : 𝕌) = ((0:ℝ) : 𝕌) := by rw [AddCircle.coe_period]; simp
      rw [this, hBe, AddCircle.liftIco_zero_coe_apply ⟨le_rfl, one_pos⟩]
      norm_num
    · rw [hBe, AddCircle.liftIco_zero_coe_apply ⟨hy.1, h⟩]
  have h1 := has_pointwise_sum_fourier_series_of_summable hsum (y : 𝕌)
  rw [hv y hy] at h1
  have h2 := h1.nat_add_neg
  have h3 := (hasSum_nat_add_iff' 1).2 h2
  simp only [Finset.range_one, Finset.sum_singleton] at h3
  have e : ∀ n : ℕ, fourierCoeff B ((n + 1 : ℕ) : ℤ) • fourier ((n + 1 : ℕ) : ℤ) (y : 𝕌) + fourierCoeff B (-((n + 1 : ℕ) : ℤ)) • fourier (-((n + 1 : ℕ) : ℤ)) (y : 𝕌) =
      ((2 * (x * sinh x) * (cos (2 * π * (n + 1) * y) / (x ^ 2 + pole n)) : ℝ) : ℂ) := by
    intro n
    rw [hco, hco, fourier_coe_apply, fourier_coe_apply]
    unfold pole
    push_cast
    rw [Complex.cos]
    have a1 : Complex.exp (2 * π * Complex.I * (n + 1) * y / 1) = Complex.exp (2 * π * (n + 1) * y * Complex.I) := by congr 1; ring
    have a2 : Complex.exp (2 * π * Complex.I * -(n + 1) * y / 1) = Complex.exp (-(2 * π * (n + 1) * y) * Complex.I) := by congr 1; ring
    simp only [smul_eq_mul]
    rw [a1, a2, neg_sq]
    ring
  have h4 := h3.congr_fun fun n => (e n).symm
  have e0 : ((cosh (x * (1 - 2 * y)) : ℝ) : ℂ) + fourierCoeff B 0 • fourier 0 (y : 𝕌) -
      (fourierCoeff B ((0 : ℕ) : ℤ) • fourier ((0 : ℕ) : ℤ) (y : 𝕌) + fourierCoeff B (-((0 : ℕ) : ℤ)) • fourier (-((0 : ℕ) : ℤ)) (y : 𝕌)) =
      ((cosh (x * (1 - 2 * y)) - sinh x / x : ℝ) : ℂ) := by
    simp [hco]
    field_simp
  have h5 : HasSum (fun n : ℕ => 2 * (x * sinh x) * (cos (2 * π * (n + 1) * y) / (x ^ 2 + pole n))) (cosh (x * (1 - 2 * y)) - sinh x / x) := by
    rw [← Complex.hasSum_ofReal]
    rw [← e0]
    exact h4
  have h6 := h5.mul_left (1 / (2 * (x * sinh x)))
  rw [show cosh (x * (1 - 2 * y)) / (2 * x * sinh x) - 1 / (2 * x ^ 2) = 1 / (2 * (x * sinh x)) * (cosh (x * (1 - 2 * y)) - sinh x / x) by field_simp]
  refine h6.congr_fun fun n => ?_
  field_simp

/-- The Karhunen-Loève series of the bridge: `Σ_{n ≥ 1} 2 sin(nπa) sin(nπb)/(x² + n²π²)`. -/
lemma hasSum_sin {x : ℝ} (hx : x ≠ 0) {a b : ℝ} (hb : 0 ≤ b) (hab : b ≤ a) (ha : a ≤ 1) :
    HasSum (fun n : ℕ => 2 / (x ^ 2 + pole n) * (sin (π * (n + 1) * a) * sin (π * (n + 1) * b))) (sinh (x * (1 - a)) * sinh (x * b) / (x * sinh x)) := by
  have hsinh : sinh x ≠ 0 := by rw [Ne, ← sinh_zero, sinh_inj]; exact hx
  have h := (hasSum_cos hx (y := (a - b) / 2) ⟨by linarith, by linarith⟩).sub (hasSum_cos hx (y := (a + b) / 2) ⟨by linarith, by linarith⟩)
  have e : sinh (x * (1 - a)) * sinh (x * b) / (x * sinh x) = cosh (x * (1 - 2 * ((a - b) / 2))) / (2 * x * sinh x) - 1 / (2 * x ^ 2) -
      (cosh (x * (1 - 2 * ((a + b) / 2))) / (2 * x * sinh x) - 1 / (2 * x ^ 2)) := by
    rw [show x * (1 - 2 * ((a - b) / 2)) = x * (1 - a) + x * b by ring, show x * (1 - 2 * ((a + b) / 2)) = x * (1 - a) - x * b by ring, cosh_add, cosh_sub]
    field_simp
    ring
  rw [e]
  refine h.congr_fun fun n => ?_
  rw [show 2 * π * ((n:ℝ) + 1) * ((a - b) / 2) = π * (n + 1) * a - π * (n + 1) * b by ring, show 2 * π * ((n:ℝ) + 1) * ((a + b) / 2) = π * (n + 1) * a + π * (n + 1) * b by ring, cos_add, cos_sub]
  ring

end Coth

end PyFENG
