import Verif.Props.Dist
import Verif.Lemmas.InvGauss
import Mathlib.Probability.Distributions.Gamma

/-!
# Properties of the distribution helpers (C44, C45, C46)
-/

namespace PyFENG

open Real MeasureTheory ProbabilityTheory Finset

/-! ## Central moments from raw moments -/

/-- Central moments 2-4 from raw moments, for any law with four moments. -/
lemma centralMoment_of_raw (μ : Measure ℝ) [IsProbabilityMeasure μ] {m1 m2 m3 m4 : ℝ}
    (i1 : Integrable (fun x => x) μ) (i2 : Integrable (fun x => x ^ 2) μ)
    (i3 : Integrable (fun x => x ^ 3) μ) (i4 : Integrable (fun x => x ^ 4) μ)
    (h1 : ∫ x, x ∂μ = m1) (h2 : ∫ x, x ^ 2 ∂μ = m2) (h3 : ∫ x, x ^ 3 ∂μ = m3) (h4 : ∫ x, x ^ 4 ∂μ = m4) :
    centralMoment (fun x => x) 2 μ = m2 - m1 ^ 2 ∧
    centralMoment (fun x => x) 3 μ = m3 - 3 * m2 * m1 + 2 * m1 ^ 3 ∧
    centralMoment (fun x => x) 4 μ = m4 - 4 * m3 * m1 + 6 * m2 * m1 ^ 2 - 3 * m1 ^ 4 := by
  have lin : ∀ a0 a1 a2 a3 a4 : ℝ, ∫ x, (a0 + a1 * x + a2 * x ^ 2 + a3 * x ^ 3 + a4 * x ^ 4) ∂μ =
      a0 + a1 * m1 + a2 * m2 + a3 * m3 + a4 * m4 := by
    intro a0 a1 a2 a3 a4
    have k0 : Integrable (fun _ : ℝ => a0) μ := integrable_const _
    have k1 : Integrable (fun x : ℝ => a0 + a1 * x) μ := k0.add (i1.const_mul _)
    have k2 : Integrable (fun x : ℝ => a0 + a1 * x + a2 * x ^ 2) μ := k1.add (i2.const_mul _)
    have k3 : Integrable (fun x : ℝ => a0 + a1 * x + a2 * x ^ 2 + a3 * x ^ 3) μ := k2.add (i3.const_mul _)
    rw [integral_add k3 (i4.const_mul _), integral_add k2 (i3.const_mul _), integral_add k1 (i2.const_mul _),
      integral_add k0 (i1.const_mul _), integral_const_mul, integral_const_mul, integral_const_mul,
      integral_const_mul, h1, h2, h3, h4]
    simp
  unfold centralMoment
  rw [h1]
  simp only [Pi.pow_apply, Pi.sub_apply]
  refine ⟨?_, ?_, ?_⟩
  · rw [show m2 - m1 ^ 2 = m1 ^ 2 + (-2 * m1) * m1 + 1 * m2 + 0 * m3 + 0 * m4 by ring, ← lin]
    congr 1; ext x; ring
  · rw [show m3 - 3 * m2 * m1 + 2 * m1 ^ 3 = -m1 ^ 3 + (3 * m1 ^ 2) * m1 + (-3 * m1) * m2 + 1 * m3 + 0 * m4 by ring,
      ← lin]
    congr 1; ext x; ring
  · rw [show m4 - 4 * m3 * m1 + 6 * m2 * m1 ^ 2 - 3 * m1 ^ 4 =
      m1 ^ 4 + (-4 * m1 ^ 3) * m1 + (6 * m1 ^ 2) * m2 + (-4 * m1) * m3 + 1 * m4 by ring, ← lin]
    congr 1; ext x; ring

/-! ## Gamma -/

namespace DistGamma

lemma integral_gamma {a r : ℝ} (ha : 0 < a) (hr : 0 < r) (f : ℝ → ℝ) :
    ∫ x, f x ∂(gammaMeasure a r) = r ^ a / Gamma a * ∫ x in Set.Ioi 0, x ^ (a - 1) * exp (-(r * x)) * f x := by
  unfold gammaMeasure
  rw [integral_withDensity_eq_integral_toReal_smul (by unfold gammaPDF; fun_prop)
    (by simp [gammaPDF])]
  have h : ∀ x, (gammaPDF a r x).toReal = gammaPDFReal a r x := fun x => by
    unfold gammaPDF
    exact ENNReal.toReal_ofReal (gammaPDFReal_nonneg ha hr x)
  simp only [h, smul_eq_mul]
  rw [← integral_const_mul, ← integral_Ici_eq_integral_Ioi,
    ← setIntegral_eq_integral_of_forall_compl_eq_zero (s := Set.Ici 0)]
  · refine setIntegral_congr_fun measurableSet_Ici fun x hx => ?_
    have hx' : 0 ≤ x := hx
    simp only [gammaPDFReal, if_pos hx']
    ring
  · intro x hx
    have hx' : ¬ 0 ≤ x := hx
    simp [gammaPDFReal, if_neg hx']

lemma gamma_moment {a r : ℝ} (ha : 0 < a) (hr : 0 < r) (k : ℕ) :
    ∫ x, x ^ k ∂(gammaMeasure a r) = Gamma (a + k) / (Gamma a * r ^ k) := by
  rw [integral_gamma ha hr]
  have h : ∫ x in Set.Ioi 0, x ^ (a - 1) * exp (-(r * x)) * x ^ k =
      ∫ x in Set.Ioi 0, x ^ ((a + k) - 1) * exp (-(r * x)) := by
    refine setIntegral_congr_fun measurableSet_Ioi fun x hx => ?_
    have hx' : 0 < x := hx
    rw [show a + k - 1 = (a - 1) + k by ring, rpow_add_natCast hx'.ne']
    ring
  rw [h, integral_rpow_mul_exp_neg_mul_Ioi (by positivity) hr, rpow_add_natCast (by positivity),
    div_rpow zero_le_one hr.le, one_rpow]
  have := Gamma_pos_of_pos ha
  have h2 := rpow_pos_of_pos hr a
  field_simp
  rw [← mul_pow, one_div, inv_mul_cancel₀ hr.ne', one_pow]

lemma integrable_gamma_pow {a r : ℝ} (ha : 0 < a) (hr : 0 < r) (k : ℕ) :
    Integrable (fun x => x ^ k) (gammaMeasure a r) := by
  by_contra h
  have h0 := integral_undef h
  rw [gamma_moment ha hr] at h0
  have h1 := Gamma_pos_of_pos ha
  have h2 := Gamma_pos_of_pos (show 0 < a + k by positivity)
  have : Gamma (a + k) / (Gamma a * r ^ k) ≠ 0 := by positivity
  exact this h0

lemma raw_moments {a r : ℝ} (ha : 0 < a) (hr : 0 < r) :
    ∫ x, x ∂(gammaMeasure a r) = a / r ∧ ∫ x, x ^ 2 ∂(gammaMeasure a r) = a * (a + 1) / r ^ 2 ∧
    ∫ x, x ^ 3 ∂(gammaMeasure a r) = a * (a + 1) * (a + 2) / r ^ 3 ∧
    ∫ x, x ^ 4 ∂(gammaMeasure a r) = a * (a + 1) * (a + 2) * (a + 3) / r ^ 4 := by
  have h0 := Gamma_pos_of_pos ha
  have g1 : Gamma (a + 1) = a * Gamma a := Gamma_add_one ha.ne'
  have g2 : Gamma (a + 2) = (a + 1) * (a * Gamma a) := by
    rw [← g1, ← Gamma_add_one (by positivity)]; congr 1; ring
  have g3 : Gamma (a + 3) = (a + 2) * ((a + 1) * (a * Gamma a)) := by
    rw [← g2, ← Gamma_add_one (by positivity)]; congr 1; ring
  have g4 : Gamma (a + 4) = (a + 3) * ((a + 2) * ((a + 1) * (a * Gamma a))) := by
    rw [← g3, ← Gamma_add_one (by positivity)]; congr 1; ring
  have m1 := gamma_moment ha hr 1
  have m2 := gamma_moment ha hr 2
  have m3 := gamma_moment ha hr 3
  have m4 := gamma_moment ha hr 4
  push_cast at m1 m2 m3 m4
  rw [g1] at m1; rw [g2] at m2; rw [g3] at m3; rw [g4] at m4
  simp only [pow_one] at m1
  refine ⟨m1.trans ?_, m2.trans ?_, m3.trans ?_, m4.trans ?_⟩ <;> field_simp

lemma central {a r : ℝ} (ha : 0 < a) (hr : 0 < r) :
    centralMoment (fun x => x) 2 (gammaMeasure a r) = a / r ^ 2 ∧
    centralMoment (fun x => x) 3 (gammaMeasure a r) = 2 * a / r ^ 3 ∧
    centralMoment (fun x => x) 4 (gammaMeasure a r) = (3 * a ^ 2 + 6 * a) / r ^ 4 := by
  obtain ⟨m1, m2, m3, m4⟩ := raw_moments ha hr
  have := isProbabilityMeasure_gammaMeasure ha hr
  obtain ⟨c2, c3, c4⟩ := centralMoment_of_raw (gammaMeasure a r)
    (by simpa using integrable_gamma_pow ha hr 1) (integrable_gamma_pow ha hr 2) (integrable_gamma_pow ha hr 3)
    (integrable_gamma_pow ha hr 4) m1 m2 m3 m4
  refine ⟨c2.trans ?_, c3.trans ?_, c4.trans ?_⟩ <;> · field_simp; ring

/-- **C45.** `DistGamma.mvsk()` returns the mean, scaled variance, skewness and excess kurtosis of the gamma law with
density `rate^shape/Γ(shape) x^(shape-1) exp(-rate x)`. -/
theorem mvsk_correct (d : DistGamma) (ha : 0 < d.shape) (hr : 0 < d.rate) :
    Spec.IsScaledMvsk (fun x => x) (gammaMeasure d.shape d.rate) d.mvsk.mean d.mvsk.var d.mvsk.skew d.mvsk.exkurt := by
  obtain ⟨m1, -, -, -⟩ := raw_moments ha hr
  obtain ⟨c2, c3, c4⟩ := central ha hr
  constructor
  · exact m1
  · rw [c2, m1]; unfold mvsk; field_simp
  · rw [c2, c3]; unfold mvsk
    simp only
    rw [sqrt_div ha.le, sqrt_sq hr.le]
    have hs := sqrt_pos.2 ha
    have h := mul_self_sqrt ha.le
    field_simp
  · rw [c2, c4]; unfold mvsk; field_simp; ring

/-- **C45.** `DistGamma.mc4()` returns the mean and central moments of the gamma law. -/
theorem mc4_correct (d : DistGamma) (ha : 0 < d.shape) (hr : 0 < d.rate) :
    Spec.IsMc4 (fun x => x) (gammaMeasure d.shape d.rate) d.mc4.m1 d.mc4.mc2 d.mc4.mc3 d.mc4.mc4 := by
  obtain ⟨m1, -, -, -⟩ := raw_moments ha hr
  obtain ⟨c2, c3, c4⟩ := central ha hr
  constructor
  · exact m1
  · rw [c2]; unfold mc4 mc4OfMvsk mvsk; simp only; field_simp
  · rw [c3]; unfold mc4 mc4OfMvsk mvsk; simp only
    rw [show 1 / d.shape * (d.shape / d.rate) ^ 2 = d.shape / d.rate ^ 2 by field_simp,
      sqrt_div ha.le, sqrt_sq hr.le]
    have hs := sqrt_pos.2 ha
    field_simp
  · rw [c4]; unfold mc4 mc4OfMvsk mvsk; simp only; field_simp; ring

/-- **C45.** `DistGamma.from_mv(mean, var_scaled)` gives the requested mean and scaled variance, as read back by
`mvsk()` and as moments of the law; and re-fitting the moments of any object returns that object. -/
theorem fromMv_roundtrip (mean vs : ℝ) (hm : 0 < mean) (hv : 0 < vs) :
    (fromMv mean vs).mvsk.mean = mean ∧ (fromMv mean vs).mvsk.var = vs ∧
    ∫ x, x ∂(gammaMeasure (fromMv mean vs).shape (fromMv mean vs).rate) = mean ∧
    centralMoment (fun x => x) 2 (gammaMeasure (fromMv mean vs).shape (fromMv mean vs).rate) = vs * mean ^ 2 := by
  have ha : 0 < (fromMv mean vs).shape := by unfold fromMv; simp only; positivity
  have hr : 0 < (fromMv mean vs).rate := by unfold fromMv; simp only; positivity
  rw [(raw_moments ha hr).1, (central ha hr).1]
  unfold fromMv mvsk
  simp only
  refine ⟨?_, ?_, ?_, ?_⟩ <;> field_simp

theorem fromMv_mvsk (d : DistGamma) (ha : 0 < d.shape) (hr : 0 < d.rate) : fromMv d.mvsk.mean d.mvsk.var = d := by
  cases d
  unfold fromMv mvsk
  simp only [mk.injEq] at *
  constructor <;> field_simp

/-- Specification of `spsp.roots_genlaguerre(n, alpha, mu=True)`: positive total weight `Γ(alpha+1)`, exact for
polynomials of degree below `2n` against `x^alpha e^{-x}`. -/
structure _root_.PyFENG.Spec.IsLaguerreRule {ι : Type*} [Fintype ι] (n : ℕ) (alpha : ℝ) (x w : ι → ℝ) (wSum : ℝ) : Prop where
  wSum_eq : wSum = Gamma (alpha + 1)
  exact_pow : ∀ k < 2 * n, ∑ i, w i * x i ^ k = ∫ t in Set.Ioi 0, t ^ alpha * exp (-t) * t ^ k

/-- **C44.** The gamma quadrature with `n` nodes reproduces every raw moment of the gamma law of order below `2n`; in
particular (`k = 0, 1`) its weights sum to one and it is mean-exact. -/
theorem quad_moments {ι : Type*} [Fintype ι] (d : DistGamma) (ha : 0 < d.shape) (hr : 0 < d.rate) (n : ℕ)
    (x w : ι → ℝ) (wSum : ℝ) (h : Spec.IsLaguerreRule n (d.shape - 1) x w wSum) (k : ℕ) (hk : k < 2 * n) :
    ∑ i, (d.quad x w wSum).2 i * (d.quad x w wSum).1 i ^ k = ∫ y, y ^ k ∂(gammaMeasure d.shape d.rate) := by
  rw [gamma_moment ha hr]
  unfold quad
  simp only
  have e : ∑ i, w i / wSum * (x i / d.rate) ^ k = (∑ i, w i * x i ^ k) / (wSum * d.rate ^ k) := by
    rw [Finset.sum_div]
    refine Finset.sum_congr rfl fun i _ => ?_
    rw [div_pow]; field_simp
  rw [e, h.exact_pow k hk, h.wSum_eq, sub_add_cancel]
  congr 1
  have h1 := integral_rpow_mul_exp_neg_mul_Ioi (show 0 < d.shape + k by positivity) one_pos
  simp only [one_mul, div_one, one_rpow] at h1
  rw [← h1]
  refine setIntegral_congr_fun measurableSet_Ioi fun y hy => ?_
  have hy' : 0 < y := hy
  rw [show d.shape + k - 1 = (d.shape - 1) + k by ring, rpow_add_natCast hy'.ne']
  ring

theorem quad_normalised {ι : Type*} [Fintype ι] (d : DistGamma) (ha : 0 < d.shape) (hr : 0 < d.rate) (n : ℕ)
    (hn : 0 < n) (x w : ι → ℝ) (wSum : ℝ) (h : Spec.IsLaguerreRule n (d.shape - 1) x w wSum) :
    ∑ i, (d.quad x w wSum).2 i = 1 ∧ ∑ i, (d.quad x w wSum).2 i * (d.quad x w wSum).1 i = d.mvsk.mean := by
  have h0 := quad_moments d ha hr n x w wSum h 0 (by omega)
  have h1 := quad_moments d ha hr n x w wSum h 1 (by omega)
  have := isProbabilityMeasure_gammaMeasure ha hr
  simp only [pow_zero, mul_one, integral_const, smul_eq_mul] at h0
  simp only [pow_one] at h1
  refine ⟨by simpa using h0, ?_⟩
  rw [h1, (raw_moments ha hr).1]; rfl

/-- Non-vacuity: the one-point rule for `shape = 1` (node 1, weight 1). -/
example : Spec.IsLaguerreRule (ι := Unit) 1 ((1:ℝ) - 1) (fun _ => 1) (fun _ => 1) 1 := by
  constructor
  · simp
  · intro k hk
    have hk' : k = 0 ∨ k = 1 := by omega
    have h1 := integral_rpow_mul_exp_neg_mul_Ioi (show (0:ℝ) < 1 by norm_num) one_pos
    have h2 := integral_rpow_mul_exp_neg_mul_Ioi (show (0:ℝ) < 2 by norm_num) one_pos
    rcases hk' with rfl | rfl
    · simp only [pow_zero, mul_one, Finset.univ_unique, Finset.sum_const, Finset.card_singleton, one_smul]
      norm_num at h1 ⊢
      exact h1.symm
    · simp only [pow_one, mul_one, Finset.univ_unique, Finset.sum_const, Finset.card_singleton, one_smul]
      norm_num at h2 ⊢
      rw [← h2]
      refine setIntegral_congr_fun measurableSet_Ioi fun y hy => ?_
      ring

end DistGamma

/-! ## Hermite rule, lognormal and inverse Gaussian quadratures -/

/-- Specification of `spsp.roots_hermitenorm(n, mu=True)`: positive weights with sum `wSum`, exact for polynomials of
degree below `2n` against the standard normal density, symmetric about zero. -/
structure Spec.IsHermiteRule {ι : Type*} [Fintype ι] (n : ℕ) (z w : ι → ℝ) (wSum : ℝ) : Prop where
  pos : ∀ i, 0 < w i
  wSum_pos : 0 < wSum
  exact_pow : ∀ k < 2 * n, ∑ i, w i * z i ^ k = wSum * Spec.gaussE (fun t => t ^ k)
  symm : ∃ τ : Equiv.Perm ι, ∀ i, z (τ i) = -z i ∧ w (τ i) = w i

/-- Non-vacuity: the two-point rule `z = ±1`, `w = √(2π)/2` meets the specification with `n = 2`. -/
theorem Spec.hermite_two : Spec.IsHermiteRule (ι := Bool) 2 (fun b => if b then 1 else -1)
    (fun _ => √(2 * π) / 2) √(2 * π) where
  pos := fun _ => by positivity
  wSum_pos := by positivity
  exact_pow := by
    intro k hk
    have m0 := gaussE_pow_zero
    have m1 := gaussE_pow_one
    have m2 := gaussE_pow_succ_succ 0
    have m3 := gaussE_pow_succ_succ 1
    rw [m0] at m2
    rw [m1] at m3
    norm_num at m2 m3
    have hk' : k = 0 ∨ k = 1 ∨ k = 2 ∨ k = 3 := by omega
    rcases hk' with rfl | rfl | rfl | rfl
    · rw [m0]; simp; ring
    · rw [m1]; simp
    · rw [m2]; simp; ring
    · rw [m3]; simp; ring
  symm := ⟨⟨Bool.not, Bool.not, by decide, by decide⟩, by
    intro i; cases i <;> simp⟩

lemma Spec.IsHermiteRule.poly {ι : Type*} [Fintype ι] {n : ℕ} {z w : ι → ℝ} {wSum : ℝ}
    (h : Spec.IsHermiteRule n z w wSum) (p : Polynomial ℝ) (hp : p.natDegree < 2 * n) :
    ∑ i, w i * p.eval (z i) = wSum * Spec.gaussE (fun t => p.eval t) := by
  simp only [Polynomial.eval_eq_sum_range]
  unfold Spec.gaussE
  rw [integral_finsetSum _ fun i _ => (integrable_pow_gauss i).const_mul _]
  simp only [integral_const_mul]
  rw [Finset.mul_sum]
  simp only [Finset.mul_sum]
  rw [Finset.sum_comm]
  refine Finset.sum_congr rfl fun k hk => ?_
  have := h.exact_pow k (by simp at hk; omega)
  unfold Spec.gaussE at this
  rw [show wSum * (p.coeff k * ∫ z, z ^ k ∂(gaussianReal 0 1)) =
    p.coeff k * (wSum * ∫ z, z ^ k ∂(gaussianReal 0 1)) by ring, ← this, Finset.mul_sum]
  refine Finset.sum_congr rfl fun i _ => ?_
  ring

lemma Spec.IsHermiteRule.sum_neg {ι : Type*} [Fintype ι] {n : ℕ} {z w : ι → ℝ} {wSum : ℝ}
    (h : Spec.IsHermiteRule n z w wSum) (f : ℝ → ℝ) :
    ∑ i, w i * f (-z i) = ∑ i, w i * f (z i) := by
  obtain ⟨τ, hτ⟩ := h.symm
  rw [← Equiv.sum_comp τ (fun i => w i * f (z i))]
  refine Finset.sum_congr rfl fun i _ => ?_
  rw [(hτ i).1, (hτ i).2]

/-- **C44.** The lognormal quadrature has weights summing to one and reproduces the mean exactly, for every number of
nodes `n ≥ 1` and every `sig`, `lam`, `mu`. -/
theorem DistLognormal.quad_normalised {ι : Type*} [Fintype ι] [Nonempty ι] (d : DistLognormal) (n : ℕ)
    (z w : ι → ℝ) (wSum : ℝ) (h : Spec.IsHermiteRule n z w wSum) :
    (∀ i, 0 < (d.quad z w).2 i) ∧ ∑ i, (d.quad z w).2 i = 1 ∧ ∑ i, (d.quad z w).2 i * (d.quad z w).1 i = d.mu := by
  unfold quad
  simp only
  have hpos : ∀ i, 0 < w i * (exp (-d.sig ^ 2 / 8) / exp (0.5 * d.sig * z i)) := fun i => by
    have := h.pos i; positivity
  have hS : 0 < ∑ j, w j * (exp (-d.sig ^ 2 / 8) / exp (0.5 * d.sig * z j)) :=
    Finset.sum_pos (fun i _ => hpos i) Finset.univ_nonempty
  have key : ∑ j, w j * (exp (-d.sig ^ 2 / 8) / exp (0.5 * d.sig * z j)) * exp (0.5 * d.sig * z j) ^ 2 =
      ∑ j, w j * (exp (-d.sig ^ 2 / 8) / exp (0.5 * d.sig * z j)) := by
    rw [← h.sum_neg (fun t => exp (-d.sig ^ 2 / 8) / exp (0.5 * d.sig * t))]
    refine Finset.sum_congr rfl fun i _ => ?_
    rw [show 0.5 * d.sig * -z i = -(0.5 * d.sig * z i) by ring, exp_neg (0.5 * d.sig * z i)]
    have := exp_pos (0.5 * d.sig * z i)
    field_simp
  refine ⟨fun i => div_pos (hpos i) hS, ?_, ?_⟩
  · rw [← Finset.sum_div, div_self hS.ne']
  · generalize hSd : ∑ j, w j * (exp (-d.sig ^ 2 / 8) / exp (0.5 * d.sig * z j)) = S at *
    have : ∀ i, w i * (exp (-d.sig ^ 2 / 8) / exp (0.5 * d.sig * z i)) / S *
        (d.mu * (1 - d.lam + d.lam * exp (0.5 * d.sig * z i) ^ 2)) =
        d.mu / S * ((1 - d.lam) * (w i * (exp (-d.sig ^ 2 / 8) / exp (0.5 * d.sig * z i))) +
          d.lam * (w i * (exp (-d.sig ^ 2 / 8) / exp (0.5 * d.sig * z i)) * exp (0.5 * d.sig * z i) ^ 2)) := fun i => by
      ring
    simp only [this]
    rw [← Finset.mul_sum, Finset.sum_add_distrib, ← Finset.mul_sum, ← Finset.mul_sum, key, hSd]
    field_simp
    ring

namespace DistInvGauss

lemma igPoly_eval_small (fac z : ℝ) :
    (igPoly fac 2).eval z = 1 + 2 * fac * z ^ 2 ∧
    (igPoly fac 3).eval z = 1 + 3 * (2 * fac) * z ^ 2 + (2 * fac) ^ 2 * z ^ 4 ∧
    (igPoly fac 4).eval z = 1 + 6 * (2 * fac) * z ^ 2 + 5 * (2 * fac) ^ 2 * z ^ 4 + (2 * fac) ^ 3 * z ^ 6 := by
  refine ⟨?_, ?_, ?_⟩ <;> · simp [igPoly]; ring

lemma raw_moments {mu lam : ℝ} (hm : 0 < mu) (hl : 0 < lam) :
    ∫ x, x ^ 0 ∂(Spec.igMeasure mu lam) = 1 ∧ ∫ x, x ∂(Spec.igMeasure mu lam) = mu ∧
    ∫ x, x ^ 2 ∂(Spec.igMeasure mu lam) = mu ^ 2 * (1 + mu / lam) ∧
    ∫ x, x ^ 3 ∂(Spec.igMeasure mu lam) = mu ^ 3 * (1 + 3 * (mu / lam) + 3 * (mu / lam) ^ 2) ∧
    ∫ x, x ^ 4 ∂(Spec.igMeasure mu lam) =
      mu ^ 4 * (1 + 6 * (mu / lam) + 15 * (mu / lam) ^ 2 + 15 * (mu / lam) ^ 3) := by
  have m0 := ig_moment hm hl 0
  have m1 := ig_moment hm hl 1
  have m2 := ig_moment hm hl 2
  have m3 := ig_moment hm hl 3
  have m4 := ig_moment hm hl 4
  have e := igPoly_eval_small (0.5 * mu / lam)
  have g0 : Spec.gaussE (fun _ => (1:ℝ)) = 1 := by simp [Spec.gaussE]
  have g2 := gaussE_even6 1 (2 * (0.5 * mu / lam)) 0 0
  have g3 := gaussE_even6 1 (3 * (2 * (0.5 * mu / lam))) ((2 * (0.5 * mu / lam)) ^ 2) 0
  have g4 := gaussE_even6 1 (6 * (2 * (0.5 * mu / lam))) (5 * (2 * (0.5 * mu / lam)) ^ 2) ((2 * (0.5 * mu / lam)) ^ 3)
  simp only [zero_mul, add_zero, mul_zero] at g2 g3
  simp only [igPoly, Polynomial.eval_one, g0, pow_one] at m0 m1
  simp only [(e _).1, g2] at m2
  simp only [(e _).2.1, g3] at m3
  simp only [(e _).2.2, g4] at m4
  have ec : 2 * (0.5 * mu / lam) = mu / lam := by norm_num; ring
  rw [ec] at m2 m3 m4
  refine ⟨by simpa using m0, by simpa using m1, m2, m3.trans ?_, m4.trans ?_⟩ <;> ring

lemma isProbabilityMeasure {mu lam : ℝ} (hm : 0 < mu) (hl : 0 < lam) :
    IsProbabilityMeasure (Spec.igMeasure mu lam) := by
  have h := (raw_moments hm hl).1
  simp only [pow_zero, integral_const, smul_eq_mul, mul_one] at h
  constructor
  have : (Spec.igMeasure mu lam).real Set.univ = 1 := h
  rw [Measure.real, ENNReal.toReal_eq_one_iff] at this
  exact this

lemma integrable_pow {mu lam : ℝ} (hm : 0 < mu) (hl : 0 < lam) (k : ℕ) (hk : k ≤ 4) :
    Integrable (fun x => x ^ k) (Spec.igMeasure mu lam) := by
  by_contra h
  have h0 := integral_undef h
  obtain ⟨a, b, c, d, e⟩ := raw_moments hm hl
  have hk' : k = 0 ∨ k = 1 ∨ k = 2 ∨ k = 3 ∨ k = 4 := by omega
  rcases hk' with rfl | rfl | rfl | rfl | rfl
  · rw [a] at h0; norm_num at h0
  · simp only [pow_one] at h0; rw [b] at h0; exact hm.ne' h0
  · rw [c] at h0
    have : mu ^ 2 * (1 + mu / lam) ≠ 0 := by positivity
    exact this h0
  · rw [d] at h0
    have : mu ^ 3 * (1 + 3 * (mu / lam) + 3 * (mu / lam) ^ 2) ≠ 0 := by positivity
    exact this h0
  · rw [e] at h0
    have : mu ^ 4 * (1 + 6 * (mu / lam) + 15 * (mu / lam) ^ 2 + 15 * (mu / lam) ^ 3) ≠ 0 := by positivity
    exact this h0

lemma central {mu lam : ℝ} (hm : 0 < mu) (hl : 0 < lam) :
    centralMoment (fun x => x) 2 (Spec.igMeasure mu lam) = mu ^ 3 / lam ∧
    centralMoment (fun x => x) 3 (Spec.igMeasure mu lam) = 3 * mu ^ 5 / lam ^ 2 ∧
    centralMoment (fun x => x) 4 (Spec.igMeasure mu lam) = 3 * mu ^ 6 / lam ^ 2 + 15 * mu ^ 7 / lam ^ 3 := by
  obtain ⟨-, m1, m2, m3, m4⟩ := raw_moments hm hl
  have := isProbabilityMeasure hm hl
  obtain ⟨c2, c3, c4⟩ := centralMoment_of_raw (Spec.igMeasure mu lam)
    (by simpa using integrable_pow hm hl 1 (by norm_num)) (integrable_pow hm hl 2 (by norm_num))
    (integrable_pow hm hl 3 (by norm_num)) (integrable_pow hm hl 4 (by norm_num)) m1 m2 m3 m4
  refine ⟨c2.trans ?_, c3.trans ?_, c4.trans ?_⟩ <;> · field_simp; ring

/-- **C45.** `DistInvGauss.mvsk()` returns the mean, scaled variance, skewness and excess kurtosis of the law with the
density stated in the class docstring. -/
theorem mvsk_correct (d : DistInvGauss) (hm : 0 < d.mu) (hl : 0 < d.lam) :
    Spec.IsScaledMvsk (fun x => x) (Spec.igMeasure d.mu d.lam) d.mvsk.mean d.mvsk.var d.mvsk.skew d.mvsk.exkurt := by
  obtain ⟨-, m1, -⟩ := raw_moments hm hl
  obtain ⟨c2, c3, c4⟩ := central hm hl
  constructor
  · exact m1
  · rw [c2, m1]; unfold mvsk; field_simp
  · rw [c2, c3]; unfold mvsk
    simp only
    rw [show d.mu ^ 3 / d.lam = d.mu ^ 2 * (d.mu / d.lam) by ring, sqrt_mul (by positivity), sqrt_sq hm.le]
    have h := sq_sqrt (show 0 ≤ d.mu / d.lam by positivity)
    have hs := sqrt_pos.2 (show 0 < d.mu / d.lam by positivity)
    generalize √(d.mu / d.lam) = r at *
    rw [div_eq_iff (by positivity)]
    have : r ^ 2 * d.lam = d.mu := by rw [h]; field_simp
    rw [← h]
    rw [← this]
    field_simp
  · rw [c2, c4]; unfold mvsk; field_simp; ring

/-- **C45.** `DistInvGauss.mc4()`. -/
theorem mc4_correct (d : DistInvGauss) (hm : 0 < d.mu) (hl : 0 < d.lam) :
    Spec.IsMc4 (fun x => x) (Spec.igMeasure d.mu d.lam) d.mc4.m1 d.mc4.mc2 d.mc4.mc3 d.mc4.mc4 := by
  have h := mvsk_correct d hm hl
  obtain ⟨-, m1, -⟩ := raw_moments hm hl
  obtain ⟨c2, c3, c4⟩ := central hm hl
  have hp : 0 < centralMoment (fun x => x) 2 (Spec.igMeasure d.mu d.lam) := by rw [c2]; positivity
  have e2 : d.mvsk.var * d.mvsk.mean ^ 2 = centralMoment (fun x => x) 2 (Spec.igMeasure d.mu d.lam) := by
    rw [← h.var_eq, ← h.mean_eq, m1]; field_simp
  unfold mc4 mc4OfMvsk
  simp only
  rw [e2]
  have hs := sqrt_pos.2 hp
  refine ⟨h.mean_eq, rfl, ?_, ?_⟩
  · rw [← h.skew_eq]; field_simp
  · rw [← h.exkurt_eq]; field_simp; ring

/-- **C45.** `DistInvGauss.from_mv` gives the requested mean and scaled variance; re-fitting the moments of any object
returns that object. -/
theorem fromMv_roundtrip (mean vs : ℝ) (hm : 0 < mean) (hv : 0 < vs) :
    (fromMv mean vs).mvsk.mean = mean ∧ (fromMv mean vs).mvsk.var = vs ∧
    ∫ x, x ∂(Spec.igMeasure (fromMv mean vs).mu (fromMv mean vs).lam) = mean ∧
    centralMoment (fun x => x) 2 (Spec.igMeasure (fromMv mean vs).mu (fromMv mean vs).lam) = vs * mean ^ 2 := by
  have ha : 0 < (fromMv mean vs).mu := hm
  have hr : 0 < (fromMv mean vs).lam := by unfold fromMv; simp only; positivity
  rw [(raw_moments ha hr).2.1, (central ha hr).1]
  unfold fromMv mvsk
  simp only
  refine ⟨trivial, ?_, trivial, ?_⟩ <;> field_simp

theorem fromMv_mvsk (d : DistInvGauss) (hm : 0 < d.mu) (hl : 0 < d.lam) : fromMv d.mvsk.mean d.mvsk.var = d := by
  cases d
  unfold fromMv mvsk
  simp only [mk.injEq] at *
  exact ⟨trivial, by field_simp⟩

/-- **C44.** The inverse Gaussian quadrature with an `n`-point Hermite rule reproduces the moment `E[X^k]` of the
inverse Gaussian law exactly for every `k ≤ n`. -/
theorem quad_moments {ι : Type*} [Fintype ι] (d : DistInvGauss) (hm : 0 < d.mu) (hl : 0 < d.lam) (n : ℕ)
    (z w : ι → ℝ) (wSum : ℝ) (h : Spec.IsHermiteRule n z w wSum) (hn : 0 < n) (k : ℕ) (hk : k ≤ n) :
    ∑ i, (d.quad z w wSum).2 i * (d.quad z w wSum).1 i ^ k = ∫ x, x ^ k ∂(Spec.igMeasure d.mu d.lam) := by
  have hf : 0 < 0.5 * d.mu / d.lam := by positivity
  rw [ig_moment hm hl]
  have hdeg := (igPoly_natDegree (0.5 * d.mu / d.lam) k).1
  have hp := h.poly (igPoly (0.5 * d.mu / d.lam) k) (by omega)
  unfold quad
  simp only
  have hw := h.wSum_pos
  generalize 0.5 * d.mu / d.lam = fac at *
  have hS := h.sum_neg (fun t => quadRoot fac t ^ k * (2 / (1 + quadRoot fac t)))
  have hadd : ∑ i, w i * (quadRoot fac (z i) ^ k * (2 / (1 + quadRoot fac (z i)))) +
      ∑ i, w i * (quadRoot fac (-z i) ^ k * (2 / (1 + quadRoot fac (-z i)))) =
      2 * ∑ i, w i * (igPoly fac k).eval (z i) := by
    rw [← Finset.sum_add_distrib, Finset.mul_sum]
    refine Finset.sum_congr rfl fun i _ => ?_
    have hx := quadRoot_pos hf (z i)
    have he := (igPoly_eval hf (z i) k).1
    rw [quadRoot_neg hf]
    generalize quadRoot fac (z i) = x at *
    have h1 : 1 + x ≠ 0 := by positivity
    have h2 : 1 + x⁻¹ = (1 + x) / x := by field_simp; ring
    rw [h2, ← mul_left_inj' h1, show 2 * (w i * (igPoly fac k).eval (z i)) * (1 + x) =
      2 * w i * ((igPoly fac k).eval (z i) * (1 + x)) by ring, he]
    field_simp
  rw [hS, hp] at hadd
  have e : ∀ i, w i * (2 / (wSum * (1 + quadRoot fac (z i)))) * (quadRoot fac (z i) * d.mu) ^ k =
      d.mu ^ k / wSum * (w i * (quadRoot fac (z i) ^ k * (2 / (1 + quadRoot fac (z i))))) := fun i => by
    have hx := quadRoot_pos hf (z i)
    rw [mul_pow]
    field_simp
  simp only [e]
  rw [← Finset.mul_sum, show ∑ i, w i * (quadRoot fac (z i) ^ k * (2 / (1 + quadRoot fac (z i)))) =
    wSum * Spec.gaussE (fun t => (igPoly fac k).eval t) by linarith]
  field_simp

/-- **C44.** The same for negative moments: `E[X^{-k}]` is reproduced for `k < n`. -/
theorem quad_neg_moments {ι : Type*} [Fintype ι] (d : DistInvGauss) (hm : 0 < d.mu) (hl : 0 < d.lam) (n : ℕ)
    (z w : ι → ℝ) (wSum : ℝ) (h : Spec.IsHermiteRule n z w wSum) (k : ℕ) (hk : k < n) :
    ∑ i, (d.quad z w wSum).2 i * ((d.quad z w wSum).1 i)⁻¹ ^ k = ∫ x, x⁻¹ ^ k ∂(Spec.igMeasure d.mu d.lam) := by
  have hf : 0 < 0.5 * d.mu / d.lam := by positivity
  rw [ig_neg_moment hm hl]
  have hdeg := (igPoly_natDegree (0.5 * d.mu / d.lam) k).2
  have hp := h.poly (igPoly (0.5 * d.mu / d.lam) (k + 1)) (by omega)
  unfold quad
  simp only
  have hw := h.wSum_pos
  generalize 0.5 * d.mu / d.lam = fac at *
  have hS := h.sum_neg (fun t => (quadRoot fac t)⁻¹ ^ k * (2 / (1 + quadRoot fac t)))
  have hadd : ∑ i, w i * ((quadRoot fac (z i))⁻¹ ^ k * (2 / (1 + quadRoot fac (z i)))) +
      ∑ i, w i * ((quadRoot fac (-z i))⁻¹ ^ k * (2 / (1 + quadRoot fac (-z i)))) =
      2 * ∑ i, w i * (igPoly fac (k + 1)).eval (z i) := by
    rw [← Finset.sum_add_distrib, Finset.mul_sum]
    refine Finset.sum_congr rfl fun i _ => ?_
    have hx := quadRoot_pos hf (z i)
    have he := (igPoly_eval hf (z i) k).2
    rw [quadRoot_neg hf]
    generalize quadRoot fac (z i) = x at *
    have h1 : 1 + x ≠ 0 := by positivity
    have h2 : 1 + x⁻¹ = (1 + x) / x := by field_simp; ring
    rw [h2, ← mul_left_inj' h1, show 2 * (w i * (igPoly fac (k + 1)).eval (z i)) * (1 + x) =
      2 * w i * ((igPoly fac (k + 1)).eval (z i) * (1 + x)) by ring, he, inv_inv, pow_succ x⁻¹,
      show x * (x⁻¹ ^ k * x⁻¹) = x⁻¹ ^ k by field_simp]
    field_simp
    ring
  rw [hS, hp] at hadd
  have e : ∀ i, w i * (2 / (wSum * (1 + quadRoot fac (z i)))) * (quadRoot fac (z i) * d.mu)⁻¹ ^ k =
      d.mu⁻¹ ^ k / wSum * (w i * ((quadRoot fac (z i))⁻¹ ^ k * (2 / (1 + quadRoot fac (z i))))) := fun i => by
    have hx := quadRoot_pos hf (z i)
    rw [mul_inv, mul_pow]
    field_simp
  simp only [e]
  rw [← Finset.mul_sum, show ∑ i, w i * ((quadRoot fac (z i))⁻¹ ^ k * (2 / (1 + quadRoot fac (z i)))) =
    wSum * Spec.gaussE (fun t => (igPoly fac (k + 1)).eval t) by linarith]
  field_simp

/-- **C44.** Weights sum to one, the mean is exact (any number of nodes), and `Σ w/x = 1/mu + 1/lam` for at least two
nodes (the docstring example). -/
theorem quad_normalised {ι : Type*} [Fintype ι] (d : DistInvGauss) (hm : 0 < d.mu) (hl : 0 < d.lam) (n : ℕ)
    (hn : 0 < n) (z w : ι → ℝ) (wSum : ℝ) (h : Spec.IsHermiteRule n z w wSum) :
    ∑ i, (d.quad z w wSum).2 i = 1 ∧ ∑ i, (d.quad z w wSum).2 i * (d.quad z w wSum).1 i = d.mu ∧
    (2 ≤ n → ∑ i, (d.quad z w wSum).2 i / (d.quad z w wSum).1 i = 1 / d.mu + 1 / d.lam) := by
  have h0 := quad_moments d hm hl n z w wSum h hn 0 (by omega)
  have h1 := quad_moments d hm hl n z w wSum h hn 1 (by omega)
  rw [(raw_moments hm hl).1] at h0
  simp only [pow_one] at h1
  rw [(raw_moments hm hl).2.1] at h1
  refine ⟨by simpa using h0, h1, fun h2 => ?_⟩
  have h3 := quad_neg_moments d hm hl n z w wSum h 1 (by omega)
  rw [ig_neg_moment hm hl] at h3
  simp only [pow_one, one_add_one_eq_two, (igPoly_eval_small _ _).1] at h3
  have g2 := gaussE_even6 1 (2 * (0.5 * d.mu / d.lam)) 0 0
  simp only [zero_mul, add_zero, mul_zero] at g2
  rw [g2] at h3
  simp only [div_eq_mul_inv] at h3 ⊢
  rw [h3]
  norm_num
  field_simp

/-- Non-vacuity of the quadrature theorems, with the two-point Hermite rule. -/
example : ∑ i, ((⟨2, 3 / 2⟩ : DistInvGauss).quad (fun b : Bool => if b then 1 else -1) (fun _ => √(2 * π) / 2)
    √(2 * π)).2 i = 1 :=
  (quad_normalised ⟨2, 3 / 2⟩ (by norm_num) (by norm_num) 2 (by norm_num) _ _ _ Spec.hermite_two).1

end DistInvGauss

end PyFENG
