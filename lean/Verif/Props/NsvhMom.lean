import Verif.Model.Nsvh
import Verif.Model.Sabr
import Verif.Props.Nsvh
import Verif.Props.Util
import Verif.Lemmas.RawMom
import Verif.Lemmas.BmExp
import Verif.Lemmas.Brownian

/-!
# C62: moments of the NSVh model, and calibration to moments
-/

namespace PyFENG

open MeasureTheory ProbabilityTheory Real Set
open scoped NNReal

/-- Variance, skewness and excess kurtosis of a random variable. -/
structure Spec.IsVsk {Ω : Type*} [MeasurableSpace Ω] (X : Ω → ℝ) (μ : Measure Ω) (var skew exkurt : ℝ) : Prop where
  var_eq : centralMoment X 2 μ = var
  skew_eq : centralMoment X 3 μ / (centralMoment X 2 μ * √(centralMoment X 2 μ)) = skew
  exkurt_eq : centralMoment X 4 μ / centralMoment X 2 μ ^ 2 - 3 = exkurt

namespace Nsvh

/-- Expectation of a Laurent polynomial in `e^{xz}`. -/
lemma laurent (x : ℝ) (c : ℕ → ℝ) :
    Integrable (fun z => ∑ k ∈ Finset.range 9, c k * exp (((k:ℝ) - 4) * x * z)) (gaussianReal 0 1) ∧
    ∫ z, ∑ k ∈ Finset.range 9, c k * exp (((k:ℝ) - 4) * x * z) ∂(gaussianReal 0 1) = ∑ k ∈ Finset.range 9, c k * exp ((((k:ℝ) - 4) * x) ^ 2 / 2) := by
  constructor
  · exact integrable_finsetSum _ fun k _ => (gaussE_exp _).1.const_mul _
  · rw [integral_finsetSum _ fun k _ => (gaussE_exp _).1.const_mul _]
    exact Finset.sum_congr rfl fun k _ => by rw [integral_const_mul, (gaussE_exp _).2]

lemma laurent' (x c0 c1 c2 c3 c4 c5 c6 c7 c8 : ℝ) {f : ℝ → ℝ}
    (hf : ∀ u v z : ℝ, u = exp (x * z) → v = exp (-(x * z)) → u * v = 1 → f z = c0 * v ^ 4 + c1 * v ^ 3 + c2 * v ^ 2 + c3 * v + c4 + c5 * u + c6 * u ^ 2 + c7 * u ^ 3 + c8 * u ^ 4) :
    Integrable f (gaussianReal 0 1) ∧
    ∫ z, f z ∂(gaussianReal 0 1) = (c0 + c8) * exp (x ^ 2) ^ 8 + (c1 + c7) * (exp (x ^ 2 / 2) * exp (x ^ 2) ^ 4) + (c2 + c6) * exp (x ^ 2) ^ 2
      + (c3 + c5) * exp (x ^ 2 / 2) + c4 := by
  have e : f = fun z => ∑ k ∈ Finset.range 9, (![c0, c1, c2, c3, c4, c5, c6, c7, c8] (Fin.ofNat 9 k)) * exp (((k:ℝ) - 4) * x * z) := by
    ext z
    rw [hf _ _ z rfl rfl (by rw [← exp_add]; simp)]
    simp only [Finset.sum_range_succ, Finset.sum_range_zero, ← exp_nat_mul]
    simp [Fin.ofNat]
    norm_num
    ring_nf
  have h := laurent x (fun k => ![c0, c1, c2, c3, c4, c5, c6, c7, c8] (Fin.ofNat 9 k))
  rw [e]
  refine ⟨h.1, ?_⟩
  rw [h.2]
  simp only [Finset.sum_range_succ, Finset.sum_range_zero, ← exp_nat_mul, ← exp_add]
  simp [Fin.ofNat]
  norm_num
  ring_nf

lemma johnson_uv {F sigma vov rho T z u v : ℝ} (hu : u = exp (vov * √T * z)) (hv : v = exp (-(vov * √T * z))) (hT : 0 ≤ T) :
    Spec.johnson F sigma vov rho T z - F = sigma / vov * ((1 + rho) / 2 * u - (1 - rho) / 2 * v - rho * exp ((vov * √T) ^ 2 / 2)) := by
  unfold Spec.johnson
  rw [sinh_eq, cosh_eq, ← hu, ← hv, mul_pow, sq_sqrt hT]
  ring

lemma johnson_central (F sigma vov rho : ℝ) {T : ℝ} (hT : 0 ≤ T) :
    let w := exp ((vov * √T) ^ 2)
    centralMoment (Spec.johnson F sigma vov rho T) 2 (gaussianReal 0 1) = (sigma / vov) ^ 2 * ((w - 1) / 2 * (w + 1 + rho ^ 2 * (w - 1))) ∧
    centralMoment (Spec.johnson F sigma vov rho T) 3 (gaussianReal 0 1) = (sigma / vov) ^ 3 * (rho * exp ((vov * √T) ^ 2 / 2) * ((w - 1) ^ 2 / 4)
      * (3 * (w + 1) ^ 2 + rho ^ 2 * ((w - 1) * (w + 3)))) ∧
    centralMoment (Spec.johnson F sigma vov rho T) 4 (gaussianReal 0 1) = (sigma / vov) ^ 4 * ((w - 1) ^ 2 / 8 * ((w - 1) * ((w + 1) ^ 3 * (w ^ 2 + 3) + rho ^ 2 * (2 * (3 * (w + 1) ^ 2) *
      (w * (w * (w + 1) + 3) - 1) + rho ^ 2 * ((w - 1) * (w * (w * (w * (w + 4) + 10) + 12) - 3)))) + 6 * (w + 1 + rho ^ 2 * (w - 1)) ^ 2)) := by
  intro w
  have hq : exp ((vov * √T) ^ 2 / 2) ^ 2 = w := by rw [← exp_nat_mul]; congr 1; push_cast; ring
  have hm : ∫ z, Spec.johnson F sigma vov rho T z ∂(gaussianReal 0 1) = F := integral_johnson F sigma vov rho hT
  unfold centralMoment
  rw [hm]
  simp only [Pi.pow_apply, Pi.sub_apply]
  generalize hqe : exp ((vov * √T) ^ 2 / 2) = q at hq
  have hj : ∀ u v z : ℝ, u = exp (vov * √T * z) → v = exp (-(vov * √T * z)) →
      Spec.johnson F sigma vov rho T z - F = sigma / vov * ((1 + rho) / 2 * u - (1 - rho) / 2 * v - rho * q) := by
    intro u v z h1 h2; rw [johnson_uv h1 h2 hT, hqe]
  have sub : ∀ u v : ℝ, u * v = 1 → u ≠ 0 ∧ v = 1 / u := by
    intro u v h
    have hu : u ≠ 0 := by rintro rfl; simp at h
    exact ⟨hu, by field_simp; linarith⟩
  have key : ∀ n : ℕ, ∀ R, ∫ z, ((1 + rho) / 2 * exp (vov * √T * z) + -((1 - rho) / 2) * exp (-(vov * √T * z)) + -(rho * q)) ^ n ∂(gaussianReal 0 1) = R →
      ∫ z, (Spec.johnson F sigma vov rho T z - F) ^ n ∂(gaussianReal 0 1) = (sigma / vov) ^ n * R := by
    intro n R h
    rw [← h, ← integral_const_mul]
    congr 1
    ext z
    rw [hj _ _ z rfl rfl, mul_pow]
    ring
  obtain ⟨a, ha⟩ : ∃ a, a = (1 + rho) / 2 := ⟨_, rfl⟩
  obtain ⟨b, hb⟩ : ∃ b, b = -((1 - rho) / 2) := ⟨_, rfl⟩
  obtain ⟨c, hc⟩ : ∃ c, c = -(rho * q) := ⟨_, rfl⟩
  rw [← ha, ← hb, ← hc] at key
  have hw : exp ((vov * √T) ^ 2) = w := rfl
  refine ⟨key 2 _ ?_, key 3 _ ?_, key 4 _ ?_⟩
  · rw [(laurent' (vov * √T) 0 0 (b ^ 2) (2 * b * c) (c ^ 2 + 2 * a * b) (2 * a * c) (a ^ 2) 0 0 (by
      intro u v z h1 h2 h3
      rw [← h1, ← h2]
      obtain ⟨hu, rfl⟩ := sub u v h3
      field_simp; ring)).2, hqe, hw, ha, hb, hc]
    linear_combination (-rho ^ 2) * hq
  · rw [(laurent' (vov * √T) 0 (b ^ 3) (3 * b ^ 2 * c) (3 * b * c ^ 2 + 3 * a * b ^ 2) (c ^ 3 + 6 * a * b * c) (3 * a * c ^ 2 + 3 * a ^ 2 * b)
      (3 * a ^ 2 * c) (a ^ 3) 0 (by
      intro u v z h1 h2 h3
      rw [← h1, ← h2]
      obtain ⟨hu, rfl⟩ := sub u v h3
      field_simp; ring)).2, hqe, hw, ha, hb, hc]
    linear_combination (2 * rho ^ 3 * q) * hq
  · rw [(laurent' (vov * √T) (b ^ 4) (4 * b ^ 3 * c) (6 * b ^ 2 * c ^ 2 + 4 * a * b ^ 3) (4 * b * c ^ 3 + 12 * a * b ^ 2 * c)
      (c ^ 4 + 12 * a * b * c ^ 2 + 6 * a ^ 2 * b ^ 2) (4 * a * c ^ 3 + 12 * a ^ 2 * b * c) (6 * a ^ 2 * c ^ 2 + 4 * a ^ 3 * b) (4 * a ^ 3 * c) (a ^ 4) (by
      intro u v z h1 h2 h3
      rw [← h1, ← h2]
      obtain ⟨hu, rfl⟩ := sub u v h3
      field_simp; ring)).2, hqe, hw, ha, hb, hc]
    rw [← hq]
    ring

lemma w_gt {vov T : ℝ} (hv : 0 < vov) (hT : 0 < T) : 1 < exp ((vov * √T) ^ 2) := by
  have : 0 < √T := sqrt_pos.2 hT
  exact one_lt_exp_iff.2 (by positivity)

/-- The `(variance, skewness, excess kurtosis)` of the Johnson law in terms of `w = e^{ν²T}`. -/
lemma johnson_vsk {F sigma vov rho T : ℝ} (hs : 0 < sigma) (hv : 0 < vov) (hT : 0 < T) :
    let w := exp ((vov * √T) ^ 2)
    let M := w + 1 + rho ^ 2 * (w - 1)
    Spec.IsVsk (Spec.johnson F sigma vov rho T) (gaussianReal 0 1) ((w - 1) / 2 * M * (sigma / vov) ^ 2)
      (rho * √((w - 1) * w / 2) * (3 * (w + 1) ^ 2 + rho ^ 2 * ((w - 1) * (w + 3))) / √(M ^ 3))
      ((w - 1) / 2 * ((w + 1) ^ 3 * (w ^ 2 + 3) + rho ^ 2 * (2 * (3 * (w + 1) ^ 2) * (w * (w * (w + 1) + 3) - 1)
        + rho ^ 2 * ((w - 1) * (w * (w * (w * (w + 4) + 10) + 12) - 3)))) / M ^ 2) := by
  intro w M
  have hw : 1 < w := w_gt hv hT
  have hM : 0 < M := by have := mul_nonneg (sq_nonneg rho) (sub_pos.2 hw).le; simp only [M]; linarith
  obtain ⟨h2, h3, h4⟩ := johnson_central F sigma vov rho hT.le
  have hq : exp ((vov * √T) ^ 2 / 2) = √w := by
    rw [← sqrt_sq (exp_pos ((vov * √T) ^ 2 / 2)).le, ← exp_nat_mul]; congr 2; push_cast; ring
  have hk : 0 < sigma / vov := by positivity
  have hw1 : 0 < (w - 1) / 2 := by linarith
  have e2 : centralMoment (Spec.johnson F sigma vov rho T) 2 (gaussianReal 0 1) = (sigma / vov) ^ 2 * ((w - 1) / 2 * M) := h2
  have es : √(centralMoment (Spec.johnson F sigma vov rho T) 2 (gaussianReal 0 1)) = sigma / vov * (√((w - 1) / 2) * √M) := by
    rw [e2, sqrt_mul (by positivity), sqrt_sq hk.le, sqrt_mul hw1.le]
  refine ⟨?_, ?_, ?_⟩
  · rw [e2]; ring
  · rw [es, e2, h3, hq]
    rw [show (w - 1) * w / 2 = (w - 1) / 2 * w by ring, sqrt_mul hw1.le, show M ^ 3 = M ^ 2 * M by ring, sqrt_mul (by positivity), sqrt_sq hM.le]
    have hs1 : 0 < √((w - 1) / 2) := sqrt_pos.2 hw1
    have hs2 : 0 < √M := sqrt_pos.2 hM
    have hs3 : √((w - 1) / 2) ^ 2 = (w - 1) / 2 := sq_sqrt hw1.le
    rw [div_eq_div_iff (by positivity) (by positivity)]
    change (sigma / vov) ^ 3 * (rho * √w * ((w - 1) ^ 2 / 4) * (3 * (w + 1) ^ 2 + rho ^ 2 * ((w - 1) * (w + 3)))) * (M * √M) = _
    generalize 3 * (w + 1) ^ 2 + rho ^ 2 * ((w - 1) * (w + 3)) = C
    linear_combination (-(sigma / vov) ^ 3 * rho * √w * C * M * √M * ((w - 1) / 2)) * hs3
  · rw [e2, h4, sub_eq_iff_eq_add]
    change (sigma / vov) ^ 4 * ((w - 1) ^ 2 / 8 * ((w - 1) * _ + 6 * M ^ 2)) / _ = _
    generalize (w + 1) ^ 3 * (w ^ 2 + 3) + rho ^ 2 * (2 * (3 * (w + 1) ^ 2) * (w * (w * (w + 1) + 3) - 1)
        + rho ^ 2 * ((w - 1) * (w * (w * (w * (w + 4) + 10) + 12) - 3))) = Q
    generalize sigma / vov = k at hk
    have hw2 : w - 1 ≠ 0 := by linarith
    clear_value M
    generalize w - 1 = y at hw2
    field_simp
    ring

/-- **C62.** `Nsvh1.price_vsk(texp)` returns the variance, skewness and excess kurtosis of the terminal price of the model that `Nsvh1.price` integrates. -/
theorem nsvh1_priceVsk_correct (m : Nsvh) (hs : 0 < m.sigma) (hv : 0 < m.vov) (F : ℝ) {T : ℝ} (hT : 0 < T) :
    Spec.IsVsk (Spec.johnson F m.sigma m.vov m.rho T) (gaussianReal 0 1) (m.priceVsk1 T).1 (m.priceVsk1 T).2.1 (m.priceVsk1 T).2.2 := by
  have h := johnson_vsk (rho := m.rho) (F := F) hs hv hT
  unfold priceVsk1
  simp only [add_sub_cancel]
  exact h

/-! ## General `λ` -/

end Nsvh

/-- The volatility of the NSVh model relative to its initial value: `σ_t/σ_0 = exp(ν Z_t + (λ-1)ν²t/2)`. -/
noncomputable def Spec.nsvhVol {Ω : Type*} (B : ℝ≥0 → Ω → ℝ) (vov lam t : ℝ) (ω : Ω) : ℝ := exp (vov * B t.toNNReal ω + (lam - 1) * vov ^ 2 * t / 2)

/-- The terminal price of the NSVh model centred at `F`: the part correlated with the volatility is `ρ(σ_T - E σ_T)/ν`, and, given the volatility path, the
uncorrelated part is normal with variance `(1-ρ²)∫σ_t² dt`; `p.2` is the standard normal variable driving it. -/
noncomputable def Spec.nsvhPrice {Ω : Type*} (B : ℝ≥0 → Ω → ℝ) (F sigma vov rho lam T : ℝ) (p : Ω × ℝ) : ℝ :=
  F + sigma * (rho / vov * (Spec.nsvhVol B vov lam T p.1 - exp (lam * vov ^ 2 * T / 2))
    + √(1 - rho ^ 2) * √(∫ t in (0:ℝ)..T, Spec.nsvhVol B vov lam t p.1 ^ 2) * p.2)

namespace Nsvh

lemma mono_bound {i j : ℕ} (h : i + j ≤ 4) (y s : ℝ) : |y ^ i * s ^ j| ≤ 1 + y ^ 4 + s ^ 4 := by
  set M := max 1 (max |y| |s|) with hM
  have h1 : 1 ≤ M := le_max_left _ _
  have h2 : |y| ≤ M := (le_max_left _ _).trans (le_max_right _ _)
  have h3 : |s| ≤ M := (le_max_right _ _).trans (le_max_right _ _)
  have h4 : |y ^ i * s ^ j| ≤ M ^ 4 := by
    rw [abs_mul, abs_pow, abs_pow]
    calc |y| ^ i * |s| ^ j ≤ M ^ i * M ^ j := by gcongr
      _ = M ^ (i + j) := by rw [pow_add]
      _ ≤ M ^ 4 := pow_le_pow_right₀ h1 h
  have hy : 0 ≤ y ^ 4 := by positivity
  have hs : 0 ≤ s ^ 4 := by positivity
  have h5 : M ^ 4 ≤ 1 + y ^ 4 + s ^ 4 := by
    rcases max_choice 1 (max |y| |s|) with h6 | h6
    · rw [hM, h6]; linarith
    · rcases max_choice |y| |s| with h7 | h7
      · rw [hM, h6, h7, Even.pow_abs (by decide)]; linarith
      · rw [hM, h6, h7, Even.pow_abs (by decide)]; linarith
  exact h4.trans h5

/-- Moments of `y + s n` with `n` an independent standard normal variable. -/
lemma cond_normal {Ω : Type*} [MeasurableSpace Ω] {P : Measure Ω} [IsProbabilityMeasure P] {y s : Ω → ℝ} (hy : Measurable y) (hs : Measurable s)
    (iy : Integrable (fun ω => y ω ^ 4) P) (is : Integrable (fun ω => s ω ^ 4) P) :
    Integrable (fun p : Ω × ℝ => y p.1 + s p.1 * p.2) (P.prod (gaussianReal 0 1)) ∧
    ∫ p, (y p.1 + s p.1 * p.2) ∂(P.prod (gaussianReal 0 1)) = ∫ ω, y ω ∂P ∧
    ∫ p, (y p.1 + s p.1 * p.2) ^ 2 ∂(P.prod (gaussianReal 0 1)) = ∫ ω, (y ω ^ 2 + s ω ^ 2) ∂P ∧
    ∫ p, (y p.1 + s p.1 * p.2) ^ 3 ∂(P.prod (gaussianReal 0 1)) = ∫ ω, (y ω ^ 3 + 3 * (y ω * s ω ^ 2)) ∂P ∧
    ∫ p, (y p.1 + s p.1 * p.2) ^ 4 ∂(P.prod (gaussianReal 0 1)) = ∫ ω, (y ω ^ 4 + 6 * (y ω ^ 2 * s ω ^ 2) + 3 * s ω ^ 4) ∂P := by
  have int : ∀ i j : ℕ, i + j ≤ 4 → Integrable (fun ω => y ω ^ i * s ω ^ j) P := by
    intro i j h
    refine (((integrable_const (1:ℝ)).add iy).add is).mono' ((hy.pow_const i).mul (hs.pow_const j)).aestronglyMeasurable ?_
    filter_upwards with ω
    exact mono_bound h _ _
  have intp : ∀ i j : ℕ, i + j ≤ 4 → Integrable (fun p : Ω × ℝ => y p.1 ^ i * s p.1 ^ j * p.2 ^ j) (P.prod (gaussianReal 0 1)) :=
    fun i j h => (int i j h).mul_prod (integrable_pow_gauss j)
  have val : ∀ i j : ℕ, ∫ p : Ω × ℝ, y p.1 ^ i * s p.1 ^ j * p.2 ^ j ∂(P.prod (gaussianReal 0 1))
      = (∫ ω, y ω ^ i * s ω ^ j ∂P) * ∫ z, z ^ j ∂(gaussianReal 0 1) :=
    fun i j => integral_prod_mul (fun ω => y ω ^ i * s ω ^ j) (fun z : ℝ => z ^ j)
  have g0 : ∫ z : ℝ, z ^ 0 ∂(gaussianReal 0 1) = 1 := by simp
  have g1 : ∫ z : ℝ, z ^ 1 ∂(gaussianReal 0 1) = 0 := by
    have := (gaussE_poly 0 1 0 0 0).2; unfold Spec.gaussE at this; simpa using this
  have g2 : ∫ z : ℝ, z ^ 2 ∂(gaussianReal 0 1) = 1 := by
    have := (gaussE_poly 0 0 1 0 0).2; unfold Spec.gaussE at this; simpa using this
  have g3 : ∫ z : ℝ, z ^ 3 ∂(gaussianReal 0 1) = 0 := by
    have := (gaussE_poly 0 0 0 1 0).2; unfold Spec.gaussE at this; simpa using this
  have g4 : ∫ z : ℝ, z ^ 4 ∂(gaussianReal 0 1) = 3 := by
    have := (gaussE_poly 0 0 0 0 1).2; unfold Spec.gaussE at this; simpa using this
  have expand : ∀ n : ℕ, n ≤ 4 → ∫ p, (y p.1 + s p.1 * p.2) ^ n ∂(P.prod (gaussianReal 0 1))
      = ∑ j ∈ Finset.range (n + 1), (n.choose j : ℝ) * ((∫ ω, y ω ^ (n - j) * s ω ^ j ∂P) * ∫ z, z ^ j ∂(gaussianReal 0 1)) := by
    intro n hn
    have e : ∀ p : Ω × ℝ, (y p.1 + s p.1 * p.2) ^ n
        = ∑ j ∈ Finset.range (n + 1), (n.choose j : ℝ) * (y p.1 ^ (n - j) * s p.1 ^ j * p.2 ^ j) := by
      intro p
      rw [add_comm, add_pow]
      refine Finset.sum_congr rfl fun j _ => ?_
      rw [mul_pow]; ring
    simp_rw [e]
    rw [integral_finsetSum _ fun j hj => (intp (n - j) j (by have := Finset.mem_range.1 hj; omega)).const_mul _]
    exact Finset.sum_congr rfl fun j _ => by rw [integral_const_mul, val]
  have a1 := expand 1 (by norm_num)
  have a2 := expand 2 (by norm_num)
  have a3 := expand 3 (by norm_num)
  have a4 := expand 4 (by norm_num)
  simp only [Finset.sum_range_succ, Finset.sum_range_zero, g0, g1, g2, g3, g4] at a1 a2 a3 a4
  refine ⟨?_, ?_, ?_, ?_, ?_⟩
  · have h1 := intp 1 0 (by norm_num)
    have h2 := intp 0 1 (by norm_num)
    simp only [pow_one, pow_zero, mul_one, one_mul] at h1 h2
    exact h1.add h2
  · simpa using a1
  · rw [a2, integral_add (by simpa using int 2 0 (by norm_num)) (by simpa using int 0 2 (by norm_num))]
    simp
  · rw [a3, integral_add (by simpa using int 3 0 (by norm_num)) ((by simpa using int 1 2 (by norm_num) : Integrable (fun ω => y ω * s ω ^ 2) P).const_mul _),
      integral_const_mul]
    simp [Nat.choose]
  · rw [a4, integral_add (f := fun ω => y ω ^ 4 + 6 * (y ω ^ 2 * s ω ^ 2)) (iy.add ((int 2 2 (by norm_num)).const_mul _)) (is.const_mul _),
      integral_add iy ((int 2 2 (by norm_num)).const_mul _), integral_const_mul, integral_const_mul]
    simp [Nat.choose]
    ring

section Brown

variable {Ω : Type*} [MeasurableSpace Ω] {P : Measure Ω} {B : ℝ≥0 → Ω → ℝ}

lemma var_eq_A (vov lam T : ℝ) (ω : Ω) :
    ∫ t in (0:ℝ)..T, Spec.nsvhVol B vov lam t ω ^ 2 = Spec.expFunctional B (2 * vov) ((lam - 1) * vov ^ 2) T ω := by
  unfold Spec.expFunctional Spec.nsvhVol
  refine intervalIntegral.integral_congr fun s _ => ?_
  beta_reduce
  rw [← exp_nat_mul]
  congr 1
  push_cast
  ring

/-- Mixed moments of the terminal volatility and of the integrated variance. -/
lemma mixed (hB : Spec.IsBM P B) (vov lam : ℝ) {T : ℝ} (hT : 0 < T) (n k : ℕ) :
    Integrable (fun ω => Spec.expFunctional B (2 * vov) ((lam - 1) * vov ^ 2) T ω ^ n * Spec.nsvhVol B vov lam T ω ^ k) P ∧
    ∫ ω, Spec.expFunctional B (2 * vov) ((lam - 1) * vov ^ 2) T ω ^ n * Spec.nsvhVol B vov lam T ω ^ k ∂P
      = BmExp.mom (2 * vov) ((lam - 1) * vov ^ 2) n (k * vov) T * exp (k * ((lam - 1) * vov ^ 2 * T / 2)) := by
  have h := BmExp.integral_mom hB (2 * vov) ((lam - 1) * vov ^ 2) n (k * vov) ⟨T, hT.le⟩
  have e : ∀ ω, Spec.expFunctional B (2 * vov) ((lam - 1) * vov ^ 2) T ω ^ n * Spec.nsvhVol B vov lam T ω ^ k
      = (Spec.expFunctional B (2 * vov) ((lam - 1) * vov ^ 2) T ω ^ n * exp (k * vov * B ⟨T, hT.le⟩ ω)) * exp (k * ((lam - 1) * vov ^ 2 * T / 2)) := by
    intro ω
    have hT' : T.toNNReal = ⟨T, hT.le⟩ := Real.toNNReal_of_nonneg hT.le
    unfold Spec.nsvhVol
    rw [hT', mul_assoc (Spec.expFunctional B (2 * vov) ((lam - 1) * vov ^ 2) T ω ^ n), ← exp_add, ← exp_nat_mul]
    congr 2
    ring
  simp_rw [e]
  refine ⟨h.1.mul_const _, ?_⟩
  rw [integral_mul_const]
  congr 1
  exact h.2

/-- The values of the mixed moments, in terms of `w = e^{ν²T}` and `c = e^{λν²T/2}`. -/
lemma mixed_val {vov lam T : ℝ} (hv : vov ≠ 0) (h1 : 1 + lam ≠ 0) (h3 : 3 + lam ≠ 0) (h5 : 5 + lam ≠ 0) :
    let w := exp (vov ^ 2 * T)
    let c := exp (lam * vov ^ 2 * T / 2)
    let J := fun n k : ℕ => BmExp.mom (2 * vov) ((lam - 1) * vov ^ 2) n (k * vov) T * exp (k * ((lam - 1) * vov ^ 2 * T / 2))
    J 0 0 = 1 ∧ J 0 1 = c ∧ J 0 2 = c ^ 2 * w ∧ J 0 3 = c ^ 3 * w ^ 3 ∧ J 0 4 = c ^ 4 * w ^ 6 ∧
    vov ^ 2 * J 1 0 = (c ^ 2 * w - 1) / (1 + lam) ∧ vov ^ 2 * J 1 1 = c * (c ^ 2 * w ^ 3 - 1) / (3 + lam) ∧
    vov ^ 2 * J 1 2 = c ^ 2 * w * (c ^ 2 * w ^ 5 - 1) / (5 + lam) ∧
    vov ^ 4 * J 2 0 = 1 / ((1 + lam) * (3 + lam)) - 2 * (c ^ 2 * w) / ((1 + lam) * (5 + lam)) + c ^ 4 * w ^ 6 / ((3 + lam) * (5 + lam)) := by
  intro w c J
  have hv2 : vov ^ 2 ≠ 0 := pow_ne_zero _ hv
  have z0 : ∀ k : ℕ, J 0 k = exp (k ^ 2 * vov ^ 2 * T / 2 + k * ((lam - 1) * vov ^ 2 * T / 2)) := by
    intro k
    simp only [J, BmExp.mom]
    rw [← exp_add]
    congr 1
    ring
  have hr : ∀ k : ℕ, ∀ j : ℕ, BmExp.rate (2 * vov) ((lam - 1) * vov ^ 2) (k * vov) j = vov ^ 2 * ((k + 2 * j) ^ 2 / 2 + j * (lam - 1)) := by
    intro k j; unfold BmExp.rate; ring
  have s2 : (Finset.range 2).erase 0 = {1} := by decide
  have s2' : (Finset.range 2).erase 1 = {0} := by decide
  have s3 : (Finset.range 3).erase 0 = {1, 2} := by decide
  have s3' : (Finset.range 3).erase 1 = {0, 2} := by decide
  have s3'' : (Finset.range 3).erase 2 = {0, 1} := by decide
  have z1 : ∀ k : ℕ, 2 * k + 1 + lam ≠ 0 → vov ^ 2 * J 1 k = exp (k ^ 2 * vov ^ 2 * T / 2 + k * ((lam - 1) * vov ^ 2 * T / 2)) *
      (exp (vov ^ 2 * (2 * k + 1 + lam) * T) - 1) / (2 * k + 1 + lam) := by
    intro k hk
    have inj : Set.InjOn (BmExp.rate (2 * vov) ((lam - 1) * vov ^ 2) (k * vov)) (Finset.range (1 + 1)) := by
      intro i hi j hj hij
      rw [hr, hr] at hij
      have h' := mul_left_cancel₀ hv2 hij
      simp only [Finset.coe_range, Set.mem_Iio] at hi hj
      interval_cases i <;> interval_cases j <;> simp at h' ⊢
      · exact hk (by linarith)
      · exact hk (by linarith)
    simp only [J]
    rw [BmExp.mom_closed _ _ _ _ inj]
    simp only [hr, Finset.sum_range_succ, Finset.sum_range_zero, zero_add, s2, s2', Finset.prod_singleton, Nat.factorial]
    have e1 : exp (vov ^ 2 * (((k:ℝ) + 2 * ((1:ℕ):ℝ)) ^ 2 / 2 + ((1:ℕ):ℝ) * (lam - 1)) * T)
        = exp (k ^ 2 * vov ^ 2 * T / 2) * exp (vov ^ 2 * (2 * k + 1 + lam) * T) := by rw [← exp_add]; congr 1; push_cast; ring
    have e2 : exp (vov ^ 2 * (((k:ℝ) + 2 * ((0:ℕ):ℝ)) ^ 2 / 2 + ((0:ℕ):ℝ) * (lam - 1)) * T) = exp (k ^ 2 * vov ^ 2 * T / 2) := by
      congr 1; push_cast; ring
    rw [e1, e2, exp_add]
    have d1 : vov ^ 2 * (((k:ℝ) + 2 * ((0:ℕ):ℝ)) ^ 2 / 2 + ((0:ℕ):ℝ) * (lam - 1)) - vov ^ 2 * (((k:ℝ) + 2 * ((1:ℕ):ℝ)) ^ 2 / 2 + ((1:ℕ):ℝ) * (lam - 1))
        = -(vov ^ 2 * (2 * k + 1 + lam)) := by push_cast; ring
    have d2 : vov ^ 2 * (((k:ℝ) + 2 * ((1:ℕ):ℝ)) ^ 2 / 2 + ((1:ℕ):ℝ) * (lam - 1)) - vov ^ 2 * (((k:ℝ) + 2 * ((0:ℕ):ℝ)) ^ 2 / 2 + ((0:ℕ):ℝ) * (lam - 1))
        = vov ^ 2 * (2 * k + 1 + lam) := by push_cast; ring
    rw [d1, d2]
    generalize 2 * (k:ℝ) + 1 + lam = D at hk
    push_cast
    field_simp
    ring
  have pc : ∀ i : ℕ, c ^ i = exp (i * (lam * vov ^ 2 * T / 2)) := fun i => (exp_nat_mul _ i).symm
  have pw : ∀ i : ℕ, w ^ i = exp (i * (vov ^ 2 * T)) := fun i => (exp_nat_mul _ i).symm
  have w1 : w = exp (1 * (vov ^ 2 * T)) := by rw [one_mul]
  have q0 := z1 0 (by simpa using h1)
  have q1 := z1 1 (by push_cast; intro h; apply h3; linarith)
  have q2 := z1 2 (by push_cast; intro h; apply h5; linarith)
  refine ⟨?_, ?_, ?_, ?_, ?_, ?_, ?_, ?_, ?_⟩
  · rw [z0]; simp
  · rw [z0]; simp only [c]; congr 1; push_cast; ring
  · rw [z0, pc, w1, ← exp_add]; congr 1; push_cast; ring
  · rw [z0, pc, pw, ← exp_add]; congr 1; push_cast; ring
  · rw [z0, pc, pw, ← exp_add]; congr 1; push_cast; ring
  · rw [q0, pc, w1, ← exp_add]
    simp
    ring_nf
  · rw [q1, pc, pw, ← exp_add]
    simp only [c]
    congr 1
    · congr 1
      · congr 1; push_cast; ring
      · congr 2; push_cast; ring
    · push_cast; ring
  · rw [q2, pc, pw, w1, ← exp_add, ← exp_add]
    congr 1
    · congr 1
      · congr 1; push_cast; ring
      · congr 2; push_cast; ring
    · push_cast; ring
  · have inj : Set.InjOn (BmExp.rate (2 * vov) ((lam - 1) * vov ^ 2) (((0:ℕ):ℝ) * vov)) (Finset.range (2 + 1)) := by
      intro i hi j hj hij
      rw [hr, hr] at hij
      have h' := mul_left_cancel₀ hv2 hij
      simp only [Finset.coe_range, Set.mem_Iio] at hi hj
      interval_cases i <;> interval_cases j <;> simp at h' ⊢
      · exact h1 (by linarith)
      · exact h3 (by linarith)
      · exact h1 (by linarith)
      · exact h5 (by linarith)
      · exact h3 (by linarith)
      · exact h5 (by linarith)
    simp only [J]
    rw [BmExp.mom_closed _ _ _ _ inj]
    simp only [hr, Finset.sum_range_succ, Finset.sum_range_zero, zero_add, s3, s3', s3'', Finset.prod_pair (show (1:ℕ) ≠ 2 by decide),
      Finset.prod_pair (show (0:ℕ) ≠ 2 by decide), Finset.prod_pair (show (0:ℕ) ≠ 1 by decide), Nat.factorial]
    have e1 : c ^ 2 * w = exp (vov ^ 2 * (2 + (lam - 1)) * T) := by rw [pc, w1, ← exp_add]; congr 1; push_cast; ring
    have e2 : c ^ 4 * w ^ 6 = exp (vov ^ 2 * (8 + 2 * (lam - 1)) * T) := by rw [pc, pw, ← exp_add]; congr 1; push_cast; ring
    rw [e1, e2]
    norm_num
    generalize exp (vov ^ 2 * (2 + (lam - 1)) * T) = X1
    generalize exp (vov ^ 2 * (8 + 2 * (lam - 1)) * T) = X2
    rw [show 2 + (lam - 1) = 1 + lam by ring, show 8 + 2 * (lam - 1) = 2 * (3 + lam) by ring,
      show vov ^ 2 * (2 * (3 + lam)) = 2 * (vov ^ 2 * (3 + lam)) by ring,
      show vov ^ 2 * (1 + lam) - 2 * (vov ^ 2 * (3 + lam)) = -(vov ^ 2 * (5 + lam)) by ring,
      show 2 * (vov ^ 2 * (3 + lam)) - vov ^ 2 * (1 + lam) = vov ^ 2 * (5 + lam) by ring]
    generalize 1 + lam = D1 at h1
    generalize 3 + lam = D3 at h3
    generalize 5 + lam = D5 at h5
    field_simp
    ring

/-- Expectation of a polynomial in the terminal volatility `E` and the integrated variance `A`. -/
lemma lin (hB : Spec.IsBM P B) (vov lam : ℝ) {T : ℝ} (hT : 0 < T) (a0 a1 a2 a3 a4 b0 b1 b2 d : ℝ) {f : Ω → ℝ}
    (hf : ∀ ω E A, E = Spec.nsvhVol B vov lam T ω → A = Spec.expFunctional B (2 * vov) ((lam - 1) * vov ^ 2) T ω →
      f ω = a0 + a1 * E + a2 * E ^ 2 + a3 * E ^ 3 + a4 * E ^ 4 + b0 * A + b1 * (A * E) + b2 * (A * E ^ 2) + d * A ^ 2) :
    let J := fun n k : ℕ => BmExp.mom (2 * vov) ((lam - 1) * vov ^ 2) n (k * vov) T * exp (k * ((lam - 1) * vov ^ 2 * T / 2))
    Integrable f P ∧ ∫ ω, f ω ∂P = a0 * J 0 0 + a1 * J 0 1 + a2 * J 0 2 + a3 * J 0 3 + a4 * J 0 4 + b0 * J 1 0 + b1 * J 1 1 + b2 * J 1 2 + d * J 2 0 := by
  intro J
  have hJ : ∀ n k, Integrable (fun ω => Spec.expFunctional B (2 * vov) ((lam - 1) * vov ^ 2) T ω ^ n * Spec.nsvhVol B vov lam T ω ^ k) P ∧
      ∫ ω, Spec.expFunctional B (2 * vov) ((lam - 1) * vov ^ 2) T ω ^ n * Spec.nsvhVol B vov lam T ω ^ k ∂P = J n k := fun n k => mixed hB vov lam hT n k
  let co : ℕ → ℝ := fun i => ![a0, a1, a2, a3, a4, b0, b1, b2, d] (Fin.ofNat 9 i)
  let nn : ℕ → ℕ := fun i => ![0, 0, 0, 0, 0, 1, 1, 1, 2] (Fin.ofNat 9 i)
  let kk : ℕ → ℕ := fun i => ![0, 1, 2, 3, 4, 0, 1, 2, 0] (Fin.ofNat 9 i)
  have e : f = fun ω => ∑ i ∈ Finset.range 9, co i *
      (Spec.expFunctional B (2 * vov) ((lam - 1) * vov ^ 2) T ω ^ nn i * Spec.nsvhVol B vov lam T ω ^ kk i) := by
    ext ω
    rw [hf ω _ _ rfl rfl]
    simp only [Finset.sum_range_succ, Finset.sum_range_zero, co, nn, kk]
    simp [Fin.ofNat]
  have i9 : ∀ i ∈ Finset.range 9, Integrable (fun ω => co i *
      (Spec.expFunctional B (2 * vov) ((lam - 1) * vov ^ 2) T ω ^ nn i * Spec.nsvhVol B vov lam T ω ^ kk i)) P := fun i _ => (hJ _ _).1.const_mul _
  rw [e]
  refine ⟨integrable_finsetSum _ i9, ?_⟩
  rw [integral_finsetSum _ i9]
  simp only [integral_const_mul, (hJ _ _).2]
  simp only [Finset.sum_range_succ, Finset.sum_range_zero, co, nn, kk]
  simp [Fin.ofNat]

lemma nsvh_central (hB : Spec.IsBM P B) {F sigma vov rho lam T : ℝ} (hv : 0 < vov) (hr : rho ∈ Icc (-1) 1) (hT : 0 < T)
    (h1 : 1 + lam ≠ 0) (h3 : 3 + lam ≠ 0) (h5 : 5 + lam ≠ 0) :
    let w := exp (vov ^ 2 * T)
    let c := exp (lam * vov ^ 2 * T / 2)
    let k := sigma / vov
    let f1 := (c ^ 2 * w - 1) / (1 + lam)
    let f3 := (c ^ 2 * w ^ 3 - 1) / (3 + lam)
    let f5 := (c ^ 2 * w ^ 5 - 1) / (5 + lam)
    let X := Spec.nsvhPrice B F sigma vov rho lam T
    ∫ p, X p ∂(P.prod (gaussianReal 0 1)) = F ∧
    centralMoment X 2 (P.prod (gaussianReal 0 1)) = k ^ 2 * (rho ^ 2 * c ^ 2 * (w - 1) + (1 - rho ^ 2) * f1) ∧
    centralMoment X 3 (P.prod (gaussianReal 0 1)) = k ^ 3 * rho * c * (rho ^ 2 * c ^ 2 * (w - 1) ^ 2 * (w + 2) + 3 * (1 - rho ^ 2) * (f3 - f1)) ∧
    centralMoment X 4 (P.prod (gaussianReal 0 1)) = k ^ 4 * ((rho ^ 2 * c ^ 2 * (w - 1)) ^ 2 * (w ^ 2 * (w ^ 2 + 2 * w + 3) - 3)
      + 6 * rho ^ 2 * (1 - rho ^ 2) * c ^ 2 * (w * f5 - 2 * f3 + f1)
      + 1.5 * (1 - rho ^ 2) ^ 2 * (-c ^ 2 * w * f5 + (c ^ 2 * w ^ 3 + 1) * f3 - f1)) := by
  intro w c k f1 f3 f5 X
  have hP : IsProbabilityMeasure P := BmExp.isProb hB
  obtain ⟨j00, j01, j02, j03, j04, j10, j11, j12, j20⟩ := mixed_val (T := T) hv.ne' h1 h3 h5
  have hrc : 0 ≤ 1 - rho ^ 2 := by nlinarith [hr.1, hr.2]
  have hlin := lin hB vov lam hT
  have hmE : Measurable (Spec.nsvhVol B vov lam T) := by
    unfold Spec.nsvhVol
    exact (((hB.meas _).const_mul _).add_const _).exp
  have hmA := BmExp.measurable_A hB (2 * vov) ((lam - 1) * vov ^ 2) hT.le
  have hA := BmExp.A_nonneg hB (2 * vov) ((lam - 1) * vov ^ 2) hT.le
  let y : Ω → ℝ := fun ω => k * rho * (Spec.nsvhVol B vov lam T ω - c)
  let s : Ω → ℝ := fun ω => sigma * √(1 - rho ^ 2) * √(Spec.expFunctional B (2 * vov) ((lam - 1) * vov ^ 2) T ω)
  have hs2 : ∀ ω, s ω ^ 2 = sigma ^ 2 * (1 - rho ^ 2) * Spec.expFunctional B (2 * vov) ((lam - 1) * vov ^ 2) T ω := by
    intro ω; simp only [s]; rw [mul_pow, mul_pow, sq_sqrt hrc, sq_sqrt (hA ω)]
  have hs4 : ∀ ω, s ω ^ 4 = sigma ^ 4 * (1 - rho ^ 2) ^ 2 * Spec.expFunctional B (2 * vov) ((lam - 1) * vov ^ 2) T ω ^ 2 := by
    intro ω; rw [show s ω ^ 4 = (s ω ^ 2) ^ 2 by ring, hs2]; ring
  have hX : ∀ p, X p = F + (y p.1 + s p.1 * p.2) := by
    intro p
    simp only [X, Spec.nsvhPrice, y, s, k, c]
    rw [var_eq_A]
    ring
  have iy := hlin (k ^ 4 * rho ^ 4 * c ^ 4) (-(4 * k ^ 4 * rho ^ 4 * c ^ 3)) (6 * k ^ 4 * rho ^ 4 * c ^ 2) (-(4 * k ^ 4 * rho ^ 4 * c)) (k ^ 4 * rho ^ 4) 0 0 0 0
    (f := fun ω => y ω ^ 4) (by intro ω E A hE hA; simp only [y]; rw [← hE]; ring)
  have is := hlin 0 0 0 0 0 0 0 0 (sigma ^ 4 * (1 - rho ^ 2) ^ 2) (f := fun ω => s ω ^ 4) (by intro ω E A hE hA; rw [hs4, ← hA]; ring)
  have i1 := hlin (-(k * rho * c)) (k * rho) 0 0 0 0 0 0 0 (f := y) (by intro ω E A hE hA; simp only [y]; rw [← hE]; ring)
  obtain ⟨n0, n1, n2, n3, n4⟩ := cond_normal (P := P) (y := y) (s := s) ((hmE.sub_const c).const_mul (k * rho)) (hmA.sqrt.const_mul _) iy.1 is.1
  have hsig : sigma = k * vov := by simp only [k]; field_simp
  have hw0 : 1 + lam ≠ 0 := h1
  clear_value k
  have mean : ∫ p, X p ∂(P.prod (gaussianReal 0 1)) = F := by
    simp_rw [hX]
    rw [integral_add (integrable_const _) n0, n1, i1.2, j00, j01]
    simp
    ring
  refine ⟨mean, ?_, ?_, ?_⟩
  all_goals
    unfold centralMoment
    rw [mean]
    simp only [Pi.pow_apply, Pi.sub_apply, hX, add_sub_cancel_left]
  · rw [n2]
    have h := (hlin (k ^ 2 * rho ^ 2 * c ^ 2) (-(2 * k ^ 2 * rho ^ 2 * c)) (k ^ 2 * rho ^ 2) 0 0 (sigma ^ 2 * (1 - rho ^ 2)) 0 0 0 (f := fun ω => y ω ^ 2 + s ω ^ 2)
      (by intro ω E A hE hA; simp only [hs2, ← hA]; simp only [y]; rw [← hE]; ring)).2
    rw [h, j00, j01, j02, hsig]
    linear_combination (k ^ 2 * (1 - rho ^ 2)) * j10
  · rw [n3]
    have h := (hlin (-(k ^ 3 * rho ^ 3 * c ^ 3)) (3 * k ^ 3 * rho ^ 3 * c ^ 2) (-(3 * k ^ 3 * rho ^ 3 * c)) (k ^ 3 * rho ^ 3) 0
      (-(3 * k * rho * c * (sigma ^ 2 * (1 - rho ^ 2)))) (3 * k * rho * (sigma ^ 2 * (1 - rho ^ 2))) 0 0 (f := fun ω => y ω ^ 3 + 3 * (y ω * s ω ^ 2))
      (by intro ω E A hE hA; simp only [hs2, ← hA]; simp only [y]; rw [← hE]; ring)).2
    rw [h, j00, j01, j02, j03, hsig]
    have j11' : vov ^ 2 * _ = c * f3 := j11.trans (by simp only [f3]; ring)
    have j10' : vov ^ 2 * _ = f1 := j10
    linear_combination (3 * k ^ 3 * rho * (1 - rho ^ 2)) * j11' - (3 * k ^ 3 * rho * c * (1 - rho ^ 2)) * j10'
  · rw [n4]
    have h := (hlin (k ^ 4 * rho ^ 4 * c ^ 4) (-(4 * k ^ 4 * rho ^ 4 * c ^ 3)) (6 * k ^ 4 * rho ^ 4 * c ^ 2) (-(4 * k ^ 4 * rho ^ 4 * c)) (k ^ 4 * rho ^ 4)
      (6 * k ^ 2 * rho ^ 2 * c ^ 2 * (sigma ^ 2 * (1 - rho ^ 2))) (-(12 * k ^ 2 * rho ^ 2 * c * (sigma ^ 2 * (1 - rho ^ 2)))) (6 * k ^ 2 * rho ^ 2 * (sigma ^ 2 * (1 - rho ^ 2)))
      (3 * (sigma ^ 4 * (1 - rho ^ 2) ^ 2)) (f := fun ω => y ω ^ 4 + 6 * (y ω ^ 2 * s ω ^ 2) + 3 * s ω ^ 4)
      (by intro ω E A hE hA; simp only [hs2, hs4, ← hA]; simp only [y]; rw [← hE]; ring)).2
    rw [h, j00, j01, j02, j03, j04, hsig]
    have j11' : vov ^ 2 * _ = c * f3 := j11.trans (by simp only [f3]; ring)
    have j10' : vov ^ 2 * _ = f1 := j10
    have j12' : vov ^ 2 * _ = c ^ 2 * w * f5 := j12.trans (by simp only [f5]; ring)
    have j20' : vov ^ 4 * _ = (-c ^ 2 * w * f5 + (c ^ 2 * w ^ 3 + 1) * f3 - f1) / 2 := j20.trans (by
      simp only [f1, f3, f5]
      change 1 / ((1 + lam) * (3 + lam)) - 2 * (c ^ 2 * w) / ((1 + lam) * (5 + lam)) + c ^ 4 * w ^ 6 / ((3 + lam) * (5 + lam)) = _
      obtain ⟨d1, e1⟩ : ∃ d, d = 1 + lam := ⟨_, rfl⟩
      obtain ⟨d3, e3⟩ : ∃ d, d = 3 + lam := ⟨_, rfl⟩
      obtain ⟨d5, e5⟩ : ∃ d, d = 5 + lam := ⟨_, rfl⟩
      rw [← e1] at h1
      rw [← e3] at h3
      rw [← e5] at h5
      rw [← e1, ← e3, ← e5]
      clear_value c w
      field_simp
      rw [e1, e3, e5]
      ring)
    rw [show (1.5:ℝ) = 3 / 2 by norm_num]
    linear_combination (6 * k ^ 4 * rho ^ 2 * (1 - rho ^ 2)) * j12' - (12 * k ^ 4 * rho ^ 2 * c * (1 - rho ^ 2)) * j11'
      + (6 * k ^ 4 * rho ^ 2 * c ^ 2 * (1 - rho ^ 2)) * j10' + (3 * k ^ 4 * (1 - rho ^ 2) ^ 2) * j20'

lemma powrel_exp {s a : ℝ} (hs : 0 < s) (ha : a ≠ 0) : powrel (exp s - 1) a = .ok ((exp (a * s) - 1) / (a * (exp s - 1))) := by
  have h : 1 < exp s := one_lt_exp_iff.2 hs
  unfold powrel
  have h2 : exp s - 1 ≠ 0 := by linarith
  rw [if_neg (by simp only [not_not, gt_iff_lt]; linarith)]
  simp only [h2, ha, ne_eq, not_false_eq_true, and_self, if_true, and_false, if_false]
  rw [show 1 + (exp s - 1) = exp s by ring, log_exp]

/-- **C62.** `price_vsk(texp)` of every NSVh model returns the variance, skewness and excess kurtosis of the terminal price of the model, for every drift parameter
`λ` other than `-1, -3, -5` (where two growth rates coincide), all `σ, ν, T > 0` and `-1 ≤ ρ ≤ 1`. -/
theorem nsvh_priceVsk_correct (hB : Spec.IsBM P B) (m : Nsvh) (hs : 0 < m.sigma) (hv : 0 < m.vov) (hr : m.rho ∈ Icc (-1) 1) (F : ℝ) {T : ℝ} (hT : 0 < T)
    (h1 : m.lam ≠ -1) (h3 : m.lam ≠ -3) (h5 : m.lam ≠ -5) :
    ∃ v s k, m.priceVsk T = .ok (v, s, k) ∧
      Spec.IsVsk (Spec.nsvhPrice B F m.sigma m.vov m.rho m.lam T) (P.prod (gaussianReal 0 1)) v s k := by
  have d1 : 1 + m.lam ≠ 0 := fun h => h1 (by linarith)
  have d3 : 3 + m.lam ≠ 0 := fun h => h3 (by linarith)
  have d5 : 5 + m.lam ≠ 0 := fun h => h5 (by linarith)
  have e : (m.vov * √T) ^ 2 = m.vov ^ 2 * T := by rw [mul_pow, sq_sqrt hT.le]
  have hS : 0 < m.vov ^ 2 * T := by positivity
  unfold priceVsk
  simp only [e]
  rw [powrel_exp hS d1, powrel_exp hS d3, powrel_exp hS d5]
  simp only [bind, Except.bind, pure, Except.pure]
  refine ⟨_, _, _, rfl, ?_⟩
  obtain ⟨-, c2, c3, c4⟩ := nsvh_central (F := F) (sigma := m.sigma) hB hv hr hT d1 d3 d5
  have hw : 1 < exp (m.vov ^ 2 * T) := one_lt_exp_iff.2 hS
  have ec : exp (m.lam * (m.vov ^ 2 * T)) = exp (m.lam * m.vov ^ 2 * T / 2) ^ 2 := by rw [← exp_nat_mul]; congr 1; push_cast; ring
  have ea : ∀ j : ℕ, exp ((j + m.lam) * (m.vov ^ 2 * T)) = exp (m.lam * m.vov ^ 2 * T / 2) ^ 2 * exp (m.vov ^ 2 * T) ^ j := by
    intro j; rw [← exp_nat_mul, ← exp_nat_mul, ← exp_add]; congr 1; push_cast; ring
  have e1 := ea 1
  have e3 := ea 3
  have e5 := ea 5
  push_cast at e1 e3 e5
  rw [pow_one] at e1
  have f1pos : 0 < (exp ((1 + m.lam) * (m.vov ^ 2 * T)) - 1) / (1 + m.lam) := by
    rcases lt_or_gt_of_ne d1 with h | h
    · refine div_pos_of_neg_of_neg ?_ h
      have : exp ((1 + m.lam) * (m.vov ^ 2 * T)) < 1 := exp_lt_one_iff.2 (mul_neg_of_neg_of_pos h hS)
      linarith
    · refine div_pos ?_ h
      have : 1 < exp ((1 + m.lam) * (m.vov ^ 2 * T)) := one_lt_exp_iff.2 (mul_pos h hS)
      linarith
  rw [e1, e3, e5, ec, add_sub_cancel]
  rw [e1] at f1pos
  have hc : 0 < exp (m.lam * m.vov ^ 2 * T / 2) := exp_pos _
  generalize exp (m.lam * m.vov ^ 2 * T / 2) = c at *
  generalize exp (m.vov ^ 2 * T) = w at *
  have hk : 0 < m.sigma / m.vov := by positivity
  generalize hke : m.sigma / m.vov = k at *
  have hrc : 0 ≤ 1 - m.rho ^ 2 := by nlinarith [hr.1, hr.2]
  have dw : 0 < w - 1 := by linarith
  have q1 : (c ^ 2 * w - 1) / ((1 + m.lam) * (w - 1)) = (c ^ 2 * w - 1) / (1 + m.lam) / (w - 1) := by rw [div_div]
  have q3 : (c ^ 2 * w ^ 3 - 1) / ((3 + m.lam) * (w - 1)) = (c ^ 2 * w ^ 3 - 1) / (3 + m.lam) / (w - 1) := by rw [div_div]
  have q5 : (c ^ 2 * w ^ 5 - 1) / ((5 + m.lam) * (w - 1)) = (c ^ 2 * w ^ 5 - 1) / (5 + m.lam) / (w - 1) := by rw [div_div]
  rw [q1, q3, q5]
  generalize (c ^ 2 * w - 1) / (1 + m.lam) = g1 at *
  generalize (c ^ 2 * w ^ 3 - 1) / (3 + m.lam) = g3 at *
  generalize (c ^ 2 * w ^ 5 - 1) / (5 + m.lam) = g5 at *
  obtain ⟨M, hM⟩ : ∃ M, M = m.rho ^ 2 * c ^ 2 + (1 - m.rho ^ 2) * (g1 / (w - 1)) := ⟨_, rfl⟩
  have hMp : 0 < M := by
    have hg : 0 < g1 / (w - 1) := div_pos f1pos dw
    have hc2 : 0 < c ^ 2 := by positivity
    rw [hM]
    rcases hrc.eq_or_lt with h | h
    · rw [← h, show m.rho ^ 2 = 1 by linarith]; linarith
    · have := mul_pos h hg; have := mul_nonneg (sq_nonneg m.rho) hc2.le; linarith
  rw [← hM]
  have c2' : centralMoment (Spec.nsvhPrice B F m.sigma m.vov m.rho m.lam T) 2 (P.prod (gaussianReal 0 1)) = k ^ 2 * ((w - 1) * M) := by
    rw [c2, hM]; field_simp
  have es : √(centralMoment (Spec.nsvhPrice B F m.sigma m.vov m.rho m.lam T) 2 (P.prod (gaussianReal 0 1))) = k * (√(w - 1) * √M) := by
    rw [c2', sqrt_mul (by positivity), sqrt_sq hk.le, sqrt_mul dw.le]
  have s1 : 0 < √(w - 1) := sqrt_pos.2 dw
  have s2 : 0 < √M := sqrt_pos.2 hMp
  have s3 : √(w - 1) ^ 2 = w - 1 := sq_sqrt dw.le
  have hM32 : M ^ (3 / 2 : ℝ) = M * √M := by
    rw [sqrt_eq_rpow, ← rpow_one_add' hMp.le (by norm_num)]; norm_num
  refine ⟨?_, ?_, ?_⟩
  · rw [c2']; ring
  · rw [es, c2', c3, hM32, sqrt_sq hc.le, div_eq_div_iff (by positivity) (by positivity)]
    generalize √(w - 1) = a1 at *
    generalize √M = a2 at *
    obtain ⟨y, hy⟩ : ∃ y, y = w - 1 := ⟨_, rfl⟩
    rw [← hy] at dw ⊢
    field_simp
  · rw [c2', c4]
    obtain ⟨y, hy⟩ : ∃ y, y = w - 1 := ⟨_, rfl⟩
    rw [← hy] at dw ⊢
    norm_num
    field_simp

end Brown

lemma priceVsk_val (m : Nsvh) {T : ℝ} (hv : m.vov ≠ 0) (hT : 0 < T) {l : ℕ} (hl : m.lam = l) :
    let w := exp (m.vov ^ 2 * T)
    let g := fun j : ℕ => (w ^ (j + l) - 1) / ((j + l) * (w - 1))
    let M := m.rho ^ 2 * w ^ l + (1 - m.rho ^ 2) * g 1
    m.priceVsk T = .ok ((w - 1) * M * (m.sigma / m.vov) ^ 2,
      m.rho * √(w ^ l) * (m.rho ^ 2 * w ^ l * (w - 1) * (w + 2) + 3 * (1 - m.rho ^ 2) * (g 3 - g 1)) / (√(w - 1) * M ^ (3 / 2 : ℝ)),
      ((m.rho ^ 2 * w ^ l * (w - 1)) ^ 2 * (w ^ 2 * (w ^ 2 + 2 * w + 3) - 3)
        + 6 * m.rho ^ 2 * (1 - m.rho ^ 2) * w ^ l * (w - 1) * (w * g 5 - 2 * g 3 + g 1)
        + 1.5 * (1 - m.rho ^ 2) ^ 2 * (w - 1) * (-w ^ l * w * g 5 + (w ^ l * w ^ 3 + 1) * g 3 - g 1)) / ((w - 1) * M) ^ 2 - 3) := by
  intro w g M
  have hS : 0 < m.vov ^ 2 * T := by positivity
  have e : (m.vov * √T) ^ 2 = m.vov ^ 2 * T := by rw [mul_pow, sq_sqrt hT.le]
  have hg : ∀ j : ℕ, 0 < j → powrel (exp (m.vov ^ 2 * T) - 1) (j + m.lam) = .ok (g j) := by
    intro j hj
    have h1 : (j : ℝ) + m.lam ≠ 0 := by rw [hl]; positivity
    rw [powrel_exp hS h1, hl]
    simp only [g, w]
    rw [← exp_nat_mul]
    push_cast
    rfl
  have g1 := hg 1 (by norm_num)
  have g3 := hg 3 (by norm_num)
  have g5 := hg 5 (by norm_num)
  push_cast at g1 g3 g5
  have ew : exp (m.lam * (m.vov ^ 2 * T)) = w ^ l := by rw [hl, exp_nat_mul]
  unfold priceVsk
  simp only [e]
  rw [g1, g3, g5]
  simp only [bind, Except.bind, pure, Except.pure]
  rw [ew, add_sub_cancel]

/-- **C62.** For `λ = 1` the general moment formula and the specialised one of `Nsvh1` agree. -/
theorem nsvh_priceVsk_lam1 (m : Nsvh) (hl : m.lam = 1) (hv : m.vov ≠ 0) {T : ℝ} (hT : 0 < T) : m.priceVsk T = .ok (m.priceVsk1 T) := by
  have h := priceVsk_val m hv hT (l := 1) (by simpa using hl)
  have hS : 0 < m.vov ^ 2 * T := by positivity
  have e : (m.vov * √T) ^ 2 = m.vov ^ 2 * T := by rw [mul_pow, sq_sqrt hT.le]
  have hw : 1 < exp (m.vov ^ 2 * T) := one_lt_exp_iff.2 hS
  rw [h]
  unfold priceVsk1
  simp only [e, add_sub_cancel]
  generalize exp (m.vov ^ 2 * T) = w at *
  have hw1 : 0 < w - 1 := by linarith
  have hM : 0 < w + 1 + m.rho ^ 2 * (w - 1) := by have := mul_nonneg (sq_nonneg m.rho) hw1.le; linarith
  have q1 : (w ^ (1 + 1) - 1) / ((((1:ℕ):ℝ) + ((1:ℕ):ℝ)) * (w - 1)) = (w + 1) / 2 := by push_cast; rw [div_eq_div_iff (by positivity) (by norm_num)]; ring
  have q3 : (w ^ (3 + 1) - 1) / ((((3:ℕ):ℝ) + ((1:ℕ):ℝ)) * (w - 1)) = (w + 1) * (w ^ 2 + 1) / 4 := by
    push_cast; rw [div_eq_div_iff (by positivity) (by norm_num)]; ring
  have q5 : (w ^ (5 + 1) - 1) / ((((5:ℕ):ℝ) + ((1:ℕ):ℝ)) * (w - 1)) = (w ^ 3 + 1) * (w ^ 2 + w + 1) / 6 := by
    push_cast; rw [div_eq_div_iff (by positivity) (by norm_num)]; ring
  simp only [q1, q3, q5, pow_one]
  have eM : m.rho ^ 2 * w + (1 - m.rho ^ 2) * ((w + 1) / 2) = (w + 1 + m.rho ^ 2 * (w - 1)) / 2 := by ring
  rw [eM]
  congr 2
  · ring
  congr 1
  · have hM32 : ((w + 1 + m.rho ^ 2 * (w - 1)) / 2) ^ (3 / 2 : ℝ) = (w + 1 + m.rho ^ 2 * (w - 1)) / 2 * √((w + 1 + m.rho ^ 2 * (w - 1)) / 2) := by
      rw [sqrt_eq_rpow, ← rpow_one_add' (by positivity) (by norm_num)]; norm_num
    rw [hM32, show (w - 1) * w / 2 = (w - 1) * (w * (1 / 2)) by ring, sqrt_mul hw1.le, sqrt_mul (by linarith)]
    generalize hMM : w + 1 + m.rho ^ 2 * (w - 1) = M at *
    rw [show M ^ 3 = M ^ 2 * M by ring, sqrt_mul (by positivity), sqrt_sq hM.le, show M / 2 = M * (1 / 2) by ring, sqrt_mul hM.le]
    have s1 : 0 < √(w - 1) := sqrt_pos.2 hw1
    have s2 : 0 < √M := sqrt_pos.2 hM
    have s3 : √(w - 1) ^ 2 = w - 1 := sq_sqrt hw1.le
    have s4 : 0 < √(1 / 2 : ℝ) := sqrt_pos.2 (by norm_num)
    have s5 : √(1 / 2 : ℝ) ^ 2 = 1 / 2 := sq_sqrt (by norm_num)
    rw [div_eq_div_iff (by positivity) (by positivity)]
    linear_combination (-(m.rho * √w * M * √M * (3 * (w + 1) ^ 2 + m.rho ^ 2 * ((w - 1) * (w + 3)))) / 2 * √(1 / 2 : ℝ) ^ 2) * s3
      + (-(m.rho * √w * M * √M * (3 * (w + 1) ^ 2 + m.rho ^ 2 * ((w - 1) * (w + 3)))) / 2 * (w - 1)) * s5
  · generalize hMM : w + 1 + m.rho ^ 2 * (w - 1) = M at *
    have hne : (w - 1) ≠ 0 := hw1.ne'
    rw [sub_eq_iff_eq_add, div_eq_iff (by positivity)]
    have : ((w - 1) / 2 * ((w + 1) ^ 3 * (w ^ 2 + 3) + m.rho ^ 2 * (2 * (3 * (w + 1) ^ 2) * (w * (w * (w + 1) + 3) - 1)
        + m.rho ^ 2 * ((w - 1) * (w * (w * (w * (w + 4) + 10) + 12) - 3)))) / M ^ 2 + 3) * ((w - 1) * (M / 2)) ^ 2
        = (w - 1) ^ 2 / 4 * ((w - 1) / 2 * ((w + 1) ^ 3 * (w ^ 2 + 3) + m.rho ^ 2 * (2 * (3 * (w + 1) ^ 2) * (w * (w * (w + 1) + 3) - 1)
        + m.rho ^ 2 * ((w - 1) * (w * (w * (w * (w + 4) + 10) + 12) - 3)))) + 3 * M ^ 2) := by
      field_simp
      ring
    rw [this, ← hMM]
    norm_num
    ring

/-- **C62.** For `λ = 0` the NSVh moments are those of `SabrNormVolApprox.price_vsk`. -/
theorem nsvh_priceVsk_lam0 (m : Nsvh) (hl : m.lam = 0) (hv : m.vov ≠ 0) {T : ℝ} (hT : 0 < T) (b : Sabr)
    (h1 : b.sigma = m.sigma) (h2 : b.vov = m.vov) (h3 : b.rho = m.rho) : m.priceVsk T = .ok (b.normPriceVsk T) := by
  have h := priceVsk_val m hv hT (l := 0) (by simpa using hl)
  have hS : 0 < m.vov ^ 2 * T := by positivity
  have e : (m.vov * √T) ^ 2 = m.vov ^ 2 * T := by rw [mul_pow, sq_sqrt hT.le]
  have hw : 1 < exp (m.vov ^ 2 * T) := one_lt_exp_iff.2 hS
  rw [h]
  unfold Sabr.normPriceVsk
  simp only [h1, h2, h3, e, add_sub_cancel]
  generalize exp (m.vov ^ 2 * T) = w at *
  have hw1 : 0 < w - 1 := by linarith
  have q1 : (w ^ (1 + 0) - 1) / ((((1:ℕ):ℝ) + ((0:ℕ):ℝ)) * (w - 1)) = 1 := by push_cast; rw [div_eq_one_iff_eq (by positivity)]; ring
  have q3 : (w ^ (3 + 0) - 1) / ((((3:ℕ):ℝ) + ((0:ℕ):ℝ)) * (w - 1)) = (w ^ 2 + w + 1) / 3 := by
    push_cast; rw [div_eq_div_iff (by positivity) (by norm_num)]; ring
  have q5 : (w ^ (5 + 0) - 1) / ((((5:ℕ):ℝ) + ((0:ℕ):ℝ)) * (w - 1)) = (w ^ 4 + w ^ 3 + w ^ 2 + w + 1) / 5 := by
    push_cast; rw [div_eq_div_iff (by positivity) (by norm_num)]; ring
  simp only [q1, q3, q5, pow_zero]
  have eM : m.rho ^ 2 * 1 + (1 - m.rho ^ 2) * 1 = 1 := by ring
  rw [eM]
  congr 2
  · ring
  have s1 : 0 < √(w - 1) := sqrt_pos.2 hw1
  have s3 : √(w - 1) ^ 2 = w - 1 := sq_sqrt hw1.le
  congr 1
  · rw [one_rpow, sqrt_one, mul_one, mul_one, mul_one, div_eq_iff s1.ne']
    linear_combination (-(m.rho * (w + 2))) * s3
  · rw [sub_eq_iff_eq_add, div_eq_iff (by positivity)]
    norm_num
    ring

/-- **C62.** `SabrNormVolApprox.price_vsk(texp)` returns the variance, skewness and excess kurtosis of the terminal price of the normal (`β = 0`) SABR model, i.e.
of `F + σ(ρ(σ_T/σ_0 - 1)/ν + √(1-ρ²) √(∫(σ_t/σ_0)² dt) N)`. -/
theorem sabr_norm_priceVsk_correct {Ω : Type*} [MeasurableSpace Ω] {P : Measure Ω} {B : ℝ≥0 → Ω → ℝ} (hB : Spec.IsBM P B) (m : Sabr)
    (hs : 0 < m.sigma) (hv : 0 < m.vov) (hr : m.rho ∈ Icc (-1) 1) (F : ℝ) {T : ℝ} (hT : 0 < T) :
    Spec.IsVsk (Spec.nsvhPrice B F m.sigma m.vov m.rho 0 T) (P.prod (gaussianReal 0 1)) (m.normPriceVsk T).1 (m.normPriceVsk T).2.1 (m.normPriceVsk T).2.2 := by
  have h := nsvh_priceVsk_lam0 ⟨m.sigma, m.vov, m.rho, 0, m.intr, m.divr, m.isFwd, false⟩ rfl hv.ne' hT m rfl rfl rfl
  obtain ⟨v, s, k, h1, h2⟩ := nsvh_priceVsk_correct hB ⟨m.sigma, m.vov, m.rho, 0, m.intr, m.divr, m.isFwd, false⟩ hs hv hr F hT
    (by norm_num) (by norm_num) (by norm_num)
  rw [h] at h1
  injection h1 with h1
  rw [h1]
  exact h2

end Nsvh
end PyFENG
