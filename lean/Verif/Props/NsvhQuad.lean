import Verif.Props.Nsvh
import Mathlib.Analysis.SpecialFunctions.Trigonometric.Inverse

/-!
# C62: `NsvhGaussQuad` and `NsvhMc`
-/

namespace PyFENG

open MeasureTheory ProbabilityTheory Real Set

/-- Gauss-Hermite nodes come in pairs `±z` with equal weights. -/
def Spec.SymmetricRule (zs : List (ℝ × ℝ)) : Prop := (zs.map fun q => (-q.1, q.2)).Perm zs

namespace Nsvh

lemma sym_sum {zs : List (ℝ × ℝ)} (h : Spec.SymmetricRule zs) (f : ℝ → ℝ → ℝ) :
    (zs.map fun q => f (-q.1) q.2).sum = (zs.map fun q => f q.1 q.2).sum := by
  have := (List.Perm.map (fun q : ℝ × ℝ => f q.1 q.2) h).sum_eq
  rw [List.map_map] at this
  exact this

lemma sum_sub' (zs : List (ℝ × ℝ)) (f g : ℝ × ℝ → ℝ) : (zs.map f).sum - (zs.map g).sum = (zs.map fun q => f q - g q).sum := by
  induction zs with
  | nil => simp
  | cons a l ih => simp only [List.map_cons, List.sum_cons]; rw [← ih]; ring

lemma sum_add' (zs : List (ℝ × ℝ)) (f g : ℝ × ℝ → ℝ) : (zs.map f).sum + (zs.map g).sum = (zs.map fun q => f q + g q).sum := by
  induction zs with
  | nil => simp
  | cons a l ih => simp only [List.map_cons, List.sum_cons]; rw [← ih]; ring

lemma sum_mul' (zs : List (ℝ × ℝ)) (c : ℝ) (f : ℝ × ℝ → ℝ) : (zs.map fun q => c * f q).sum = c * (zs.map f).sum := by
  induction zs with
  | nil => simp
  | cons a l ih => simp only [List.map_cons, List.sum_cons]; rw [ih]; ring

lemma weight_sum {zs : List (ℝ × ℝ)} (h : Spec.SymmetricRule zs) (vovn : ℝ) (hW : (zs.map fun q => exp (vovn / 2 * q.1) * q.2).sum ≠ 0) :
    (zs.map fun q => exp (vovn / 2 * q.1) * gqWeight vovn zs q.2).sum = exp (vovn ^ 2 / 8) ∧
    (zs.map fun q => exp (-(vovn / 2 * q.1)) * gqWeight vovn zs q.2).sum = exp (vovn ^ 2 / 8) := by
  have h1 : (zs.map fun q => exp (vovn / 2 * q.1) * gqWeight vovn zs q.2).sum = exp (vovn ^ 2 / 8) := by
    unfold gqWeight
    have e : ∀ q : ℝ × ℝ, exp (vovn / 2 * q.1) * (q.2 / ((zs.map fun q => exp (vovn / 2 * q.1) * q.2).sum / exp (vovn ^ 2 / 8)))
        = (exp (vovn ^ 2 / 8) / (zs.map fun q => exp (vovn / 2 * q.1) * q.2).sum) * (exp (vovn / 2 * q.1) * q.2) := by
      intro q
      generalize (zs.map fun q => exp (vovn / 2 * q.1) * q.2).sum = W at hW
      field_simp
    simp only [e]
    rw [sum_mul', div_mul_cancel₀ _ hW]
  refine ⟨h1, ?_⟩
  rw [← h1, ← sym_sum h (fun z w => exp (vovn / 2 * z) * gqWeight vovn zs w)]
  simp only [mul_neg]

/-- **C62.** Put-call parity of `NsvhGaussQuad.price` is exact, at every quadrature order: it does not depend on the accuracy of the quadrature, only on the symmetry of
the Gauss-Hermite nodes. -/
theorem gq_parity (m : Nsvh) (hs : m.sigma ≠ 0) (hv : m.vov ≠ 0) {zs vs : List (ℝ × ℝ)} (h : Spec.SymmetricRule zs) (K S T : ℝ)
    (hW : (zs.map fun q => exp (m.vov * √(max T eps) / 2 * q.1) * q.2).sum ≠ 0) :
    Spec.Parity (m.gqPrice zs vs K S T 1) (m.gqPrice zs vs K S T (-1)) (m.mp.df T) (m.mp.fwd S T) K := by
  unfold Spec.Parity gqPrice
  simp only
  obtain ⟨w1, w2⟩ := weight_sum h _ hW
  generalize m.vov * √(max T eps) = vovn at *
  rw [← sub_mul, sum_sub']
  have e : ∀ q : ℝ × ℝ, ∀ A k : ℝ, (A + max (1 * m.gqG vovn k q.1) 0) * gqWeight vovn zs q.2 - (A + max (-1 * m.gqG vovn k q.1) 0) * gqWeight vovn zs q.2
      = m.rho * exp (m.lam * vovn ^ 2 / 4) * (exp (vovn / 2 * q.1) * gqWeight vovn zs q.2)
        - (m.rho * exp (m.lam * vovn ^ 2 / 2) + k) * exp (-(m.lam * vovn ^ 2 / 4)) * (exp (-(vovn / 2 * q.1)) * gqWeight vovn zs q.2) := by
    intro q A k
    have h1 : max (1 * m.gqG vovn k q.1) 0 - max (-1 * m.gqG vovn k q.1) 0 = m.gqG vovn k q.1 := by
      rw [one_mul, neg_one_mul]
      exact max_zero_sub_max_neg_zero_eq_self _
    have h2 : m.gqG vovn k q.1 = m.rho * exp (m.lam * vovn ^ 2 / 4) * exp (vovn / 2 * q.1)
        - (m.rho * exp (m.lam * vovn ^ 2 / 2) + k) * exp (-(m.lam * vovn ^ 2 / 4)) * exp (-(vovn / 2 * q.1)) := by
      unfold gqG
      have a1 : exp (m.lam * vovn ^ 2 / 4) * exp (vovn / 2 * q.1) = exp (vovn * (q.1 + 0.5 * m.lam * vovn) / 2) := by
        rw [← exp_add]; congr 1; norm_num; ring
      have a2 : exp (-(m.lam * vovn ^ 2 / 4)) * exp (-(vovn / 2 * q.1)) = (exp (vovn * (q.1 + 0.5 * m.lam * vovn) / 2))⁻¹ := by
        rw [← a1, mul_inv, exp_neg, exp_neg]
      have a3 : exp (0.5 * m.lam * vovn ^ 2) = exp (m.lam * vovn ^ 2 / 2) := by congr 1; norm_num; ring
      rw [mul_assoc m.rho (exp (m.lam * vovn ^ 2 / 4)), mul_assoc (m.rho * exp (m.lam * vovn ^ 2 / 2) + k), a1, a2]
      simp only [a3, div_eq_mul_inv]
    calc _ = (max (1 * m.gqG vovn k q.1) 0 - max (-1 * m.gqG vovn k q.1) 0) * gqWeight vovn zs q.2 := by ring
      _ = _ := by rw [h1, h2]; ring
  simp only [e]
  rw [← sum_sub', sum_mul', sum_mul', w1, w2]
  have e1 : exp (m.lam * vovn ^ 2 / 2) * exp (-(m.lam * vovn ^ 2 / 4)) = exp (m.lam * vovn ^ 2 / 4) := by rw [← exp_add]; congr 1; ring
  have e2 : exp (-(m.lam * vovn ^ 2 / 4)) * exp (vovn ^ 2 / 8) * exp ((2 * m.lam - 1) / 8 * vovn ^ 2) = 1 := by
    rw [← exp_add, ← exp_add, exp_eq_one_iff]; ring
  rw [add_mul, mul_assoc m.rho (exp (m.lam * vovn ^ 2 / 2)), e1]
  have e3 : m.vov / m.sigma * (K - m.mp.fwd S T) * (m.sigma / m.vov) = K - m.mp.fwd S T := by field_simp
  calc _ = -(m.vov / m.sigma * (K - m.mp.fwd S T) * (m.sigma / m.vov)) * m.mp.df T * (exp (-(m.lam * vovn ^ 2 / 4)) * exp (vovn ^ 2 / 8) * exp ((2 * m.lam - 1) / 8 * vovn ^ 2)) := by ring
    _ = _ := by rw [e2, e3]; ring

/-- **C62.** `NsvhGaussQuad.cdf`: the probabilities returned for `cp = 1` and `cp = -1` add up to one, exactly and at every order, provided the Gauss-Laguerre weights
add up to one. -/
theorem gq_cdf_complement (m : Nsvh) (hv : m.vov ≠ 0) {zs vs : List (ℝ × ℝ)} (h : Spec.SymmetricRule zs) (hL : (vs.map fun q => q.2).sum = 1) (K S T : ℝ)
    (hW : (zs.map fun q => exp (m.vov * √(max T 1e-64) / 2 * q.1) * q.2).sum ≠ 0) :
    m.gqCdf zs vs K S T 1 + m.gqCdf zs vs K S T (-1) = 1 := by
  unfold gqCdf
  simp only
  obtain ⟨w1, w2⟩ := weight_sum h _ hW
  have hvn : m.vov * √(max T 1e-64) ≠ 0 := mul_ne_zero hv (sqrt_pos.2 (lt_max_of_lt_right (by norm_num))).ne'
  generalize m.vov * √(max T 1e-64) = vovn at *
  generalize m.vov / m.sigma * (K - m.mp.forward S T) = k
  rw [sum_add']
  have e : ∀ q : ℝ × ℝ, ∀ s : ℝ, (m.gqG vovn k q.1 = 0 → s = 1 / 2) → (if 1 * m.gqG vovn k q.1 > 0 then 1 - s else s) + (if -1 * m.gqG vovn k q.1 > 0 then 1 - s else s) = 1 := by
    intro q s hs
    rcases lt_trichotomy (m.gqG vovn k q.1) 0 with h1 | h1 | h1
    · rw [if_neg (by linarith), if_pos (by linarith)]; ring
    · rw [if_neg (by linarith), if_neg (by linarith), hs h1]; norm_num
    · rw [if_pos (by linarith), if_neg (by linarith)]; ring
  have e0 : ∀ z : ℝ, m.gqG vovn k z = 0 →
      (vs.map fun q => arccos (|m.gqG vovn k z| / m.gqH vovn k (2 * q.1) z) * exp (-m.gqV0 vovn k z / 2) * (q.2 / π)).sum = 1 / 2 := by
    intro z hz
    have hv0 : m.gqV0 vovn k z = 0 := by
      unfold gqV0
      rw [hz]
      simp only
      have e2 : exp (vovn * (z + 0.5 * m.lam * vovn) / 2) ^ 2 = exp (vovn * (z + 0.5 * m.lam * vovn)) := by
        rw [← exp_nat_mul]; congr 1; push_cast; ring
      rw [e2]
      generalize z + 0.5 * m.lam * vovn = u
      have e3 : (exp (vovn * u) + 1 / exp (vovn * u)) / 2 + 0.5 * 0 ^ 2 / (1 - m.rho ^ 2) = cosh |vovn * u| := by
        rw [cosh_abs, cosh_eq, one_div, ← exp_neg]; simp
      rw [e3, arcosh_cosh (abs_nonneg _), div_pow, sq_abs]
      field_simp
      ring
    have e4 : ∀ q : ℝ × ℝ, arccos (|m.gqG vovn k z| / m.gqH vovn k (2 * q.1) z) * exp (-m.gqV0 vovn k z / 2) * (q.2 / π) = 1 / 2 * q.2 := by
      intro q
      rw [hv0, hz]
      simp
      field_simp
    simp only [e4]
    rw [sum_mul', hL, mul_one]
  have e1 : ∀ q : ℝ × ℝ, ∀ a b : ℝ, a + b = 1 → a * exp (-q.1 * vovn / 2 - vovn ^ 2 / 8) * gqWeight vovn zs q.2 + b * exp (-q.1 * vovn / 2 - vovn ^ 2 / 8) * gqWeight vovn zs q.2
      = exp (-(vovn ^ 2 / 8)) * (exp (-(vovn / 2 * q.1)) * gqWeight vovn zs q.2) := by
    intro q a b hab
    rw [← mul_assoc, ← exp_add, show -(vovn ^ 2 / 8) + -(vovn / 2 * q.1) = -q.1 * vovn / 2 - vovn ^ 2 / 8 by ring, ← add_mul, ← add_mul, hab, one_mul]
  have e2 : ∀ q : ℝ × ℝ, _ := fun q => e1 q _ _ (e q _ (e0 q.1))
  simp only [e2]
  rw [sum_mul', w2, ← exp_add]
  simp

/-- The Gauss-Hermite rule of order two (nodes `±1`, weights `√(2π)/2`) is symmetric. -/
example : Spec.SymmetricRule [(1, √(2 * π) / 2), (-1, √(2 * π) / 2)] := by
  unfold Spec.SymmetricRule
  simp only [List.map_cons, List.map_nil, neg_neg]
  exact List.Perm.swap _ _ _

/-! ## Monte Carlo -/

/-- Three independent standard normal variables. -/
noncomputable def Spec.normal3 : Measure (ℝ × ℝ × ℝ) := (gaussianReal 0 1).prod ((gaussianReal 0 1).prod (gaussianReal 0 1))

lemma integrable_exp_abs (a : ℝ) : Integrable (fun z : ℝ => exp (a * |z|)) (gaussianReal 0 1) := by
  refine ((gaussE_exp a).1.add (gaussE_exp (-a)).1).mono' (by fun_prop) ?_
  filter_upwards with z
  rw [norm_of_nonneg (exp_pos _).le, Pi.add_apply]
  rcases abs_cases z with ⟨h, -⟩ | ⟨h, -⟩
  · rw [h]; have := exp_pos (-a * z); linarith
  · rw [h, show a * -z = -a * z by ring]; have := exp_pos (a * z); linarith

/-- The second term of the simulated price. -/
noncomputable def mcW (s lam z0 z1 z2 : ℝ) : ℝ :=
  exp (0.5 * s * (z2 + 0.5 * (lam - 1) * s)) * z0 * (√(2 / (z0 ^ 2 + z1 ^ 2)) * √(cosh (√(z0 ^ 2 + z1 ^ 2 + (z2 + 0.5 * (lam - 1) * s) ^ 2) * s)
    - cosh ((z2 + 0.5 * (lam - 1) * s) * s)))

lemma mcW_odd (s lam z0 z1 z2 : ℝ) : mcW s lam (-z0) z1 z2 = -mcW s lam z0 z1 z2 := by
  unfold mcW; rw [neg_sq]; ring

lemma mcW_bound {s : ℝ} (hs : 0 ≤ s) (lam z0 z1 z2 : ℝ) :
    |mcW s lam z0 z1 z2| ≤ √2 * exp (s * |0.5 * (lam - 1) * s|) * (exp (s * |z0|) * (exp (s * |z1|) * exp (s * |z2|))) := by
  unfold mcW
  obtain ⟨u, hu⟩ : ∃ u, u = z2 + 0.5 * (lam - 1) * s := ⟨_, rfl⟩
  rw [← hu]
  have hu2 : |u| ≤ |z2| + |0.5 * (lam - 1) * s| := by rw [hu]; exact abs_add_le _ _
  generalize |0.5 * (lam - 1) * s| = c at *
  have h1 : |z0| * √(2 / (z0 ^ 2 + z1 ^ 2)) ≤ √2 := by
    rw [← sqrt_sq_eq_abs, ← sqrt_mul (by positivity)]
    apply sqrt_le_sqrt
    rcases eq_or_ne (z0 ^ 2 + z1 ^ 2) 0 with h | h
    · rw [h]; simp
    · have : 0 < z0 ^ 2 + z1 ^ 2 := lt_of_le_of_ne (by positivity) h.symm
      rw [mul_div_assoc', div_le_iff₀ this]
      nlinarith [sq_nonneg z1]
  have h2 : √(cosh (√(z0 ^ 2 + z1 ^ 2 + u ^ 2) * s) - cosh (u * s)) ≤ exp (s * (|z0| + |z1| + |u|) / 2) := by
    rw [sqrt_le_left (exp_pos _).le, ← exp_nat_mul]
    have h3 : √(z0 ^ 2 + z1 ^ 2 + u ^ 2) ≤ |z0| + |z1| + |u| := by
      rw [sqrt_le_left (by positivity)]
      nlinarith [sq_abs z0, sq_abs z1, sq_abs u, mul_nonneg (abs_nonneg z0) (abs_nonneg z1), mul_nonneg (abs_nonneg z0) (abs_nonneg u), mul_nonneg (abs_nonneg z1) (abs_nonneg u)]
    have h4 : cosh (√(z0 ^ 2 + z1 ^ 2 + u ^ 2) * s) ≤ exp (√(z0 ^ 2 + z1 ^ 2 + u ^ 2) * s) := by
      rw [cosh_eq]
      have : exp (-(√(z0 ^ 2 + z1 ^ 2 + u ^ 2) * s)) ≤ exp (√(z0 ^ 2 + z1 ^ 2 + u ^ 2) * s) := by
        apply exp_le_exp.2; have : 0 ≤ √(z0 ^ 2 + z1 ^ 2 + u ^ 2) * s := by positivity
        linarith
      linarith
    have h5 : exp (√(z0 ^ 2 + z1 ^ 2 + u ^ 2) * s) ≤ exp (((2:ℕ):ℝ) * (s * (|z0| + |z1| + |u|) / 2)) := by
      apply exp_le_exp.2; push_cast; nlinarith [mul_le_mul_of_nonneg_right h3 hs]
    have h6 := cosh_pos (u * s)
    linarith
  have h7 : exp (0.5 * s * u) ≤ exp (s * |u| / 2) := by
    apply exp_le_exp.2; norm_num; nlinarith [mul_le_mul_of_nonneg_left (le_abs_self u) hs]
  rw [abs_mul, abs_mul, abs_mul, abs_of_pos (exp_pos _), abs_of_nonneg (sqrt_nonneg _), abs_of_nonneg (sqrt_nonneg _)]
  calc exp (0.5 * s * u) * |z0| * (√(2 / (z0 ^ 2 + z1 ^ 2)) * √(cosh (√(z0 ^ 2 + z1 ^ 2 + u ^ 2) * s) - cosh (u * s)))
      = exp (0.5 * s * u) * (|z0| * √(2 / (z0 ^ 2 + z1 ^ 2))) * √(cosh (√(z0 ^ 2 + z1 ^ 2 + u ^ 2) * s) - cosh (u * s)) := by ring
    _ ≤ exp (s * |u| / 2) * √2 * exp (s * (|z0| + |z1| + |u|) / 2) := by gcongr
    _ = √2 * exp (s * |u| / 2 + s * (|z0| + |z1| + |u|) / 2) := by rw [exp_add]; ring
    _ ≤ √2 * exp (s * c + (s * |z0| + (s * |z1| + s * |z2|))) := by
      refine mul_le_mul_of_nonneg_left (exp_le_exp.2 ?_) (sqrt_nonneg _)
      nlinarith [mul_le_mul_of_nonneg_left hu2 hs, mul_nonneg hs (abs_nonneg z0), mul_nonneg hs (abs_nonneg z1)]
    _ = _ := by rw [exp_add, exp_add, exp_add]; ring

lemma mcVolPrice_eq (m : Nsvh) (T z0 z1 z2 : ℝ) : (m.mcVolPrice T z0 z1 z2).2.1 = m.sigma / m.vov * (m.rho * (exp (0.5 * √(m.vov ^ 2 * T) * (z2 + 0.5 * (m.lam - 1) * √(m.vov ^ 2 * T))) ^ 2
      - exp (0.5 * m.lam * (m.vov ^ 2 * T))) + √(1 - m.rho ^ 2) * mcW (√(m.vov ^ 2 * T)) m.lam z0 z1 z2) ∧
    (m.mcVolPrice T z0 z1 z2).2.2 = (m.mcVolPrice T z1 z0 z2).2.1 := by
  unfold mcVolPrice mcW
  constructor
  · rfl
  · simp only [add_comm (z0 ^ 2)]

lemma mcW_integral {s : ℝ} (hs : 0 ≤ s) (lam : ℝ) :
    Integrable (fun p : ℝ × ℝ × ℝ => mcW s lam p.1 p.2.1 p.2.2) Spec.normal3 ∧ ∫ p : ℝ × ℝ × ℝ, mcW s lam p.1 p.2.1 p.2.2 ∂Spec.normal3 = 0 := by
  have hmeas : Measurable fun p : ℝ × ℝ × ℝ => mcW s lam p.1 p.2.1 p.2.2 := by unfold mcW; fun_prop
  constructor
  · have hi : Integrable (fun p : ℝ × ℝ × ℝ => exp (s * |p.1|) * (exp (s * |p.2.1|) * exp (s * |p.2.2|))) Spec.normal3 :=
      (integrable_exp_abs s).mul_prod ((integrable_exp_abs s).mul_prod (integrable_exp_abs s))
    refine (hi.const_mul (√2 * exp (s * |0.5 * (lam - 1) * s|))).mono' hmeas.aestronglyMeasurable ?_
    filter_upwards with p
    exact mcW_bound hs lam _ _ _
  · have hp : MeasurePreserving (fun p : ℝ × ℝ × ℝ => (-p.1, p.2)) Spec.normal3 Spec.normal3 := by
      have h1 : MeasurePreserving (fun z : ℝ => -z) (gaussianReal 0 1) (gaussianReal 0 1) := by
        refine ⟨measurable_neg, ?_⟩
        have := gaussianReal_map_neg (μ := 0) (v := 1)
        simpa using this
      exact h1.prod (MeasurePreserving.id _)
    have h2 := hp.integral_comp' (f := (MeasurableEquiv.neg ℝ).prodCongr (MeasurableEquiv.refl _)) (fun p : ℝ × ℝ × ℝ => mcW s lam p.1 p.2.1 p.2.2)
    have h3 : ∫ p : ℝ × ℝ × ℝ, mcW s lam p.1 p.2.1 p.2.2 ∂Spec.normal3 = -∫ p : ℝ × ℝ × ℝ, mcW s lam p.1 p.2.1 p.2.2 ∂Spec.normal3 := by
      conv_lhs => rw [← h2]
      rw [← integral_neg]
      congr 1
      ext p
      exact mcW_odd s lam p.1 p.2.1 p.2.2
    linarith

instance : IsProbabilityMeasure Spec.normal3 := by unfold Spec.normal3; infer_instance

/-- **C62.** `NsvhMc.mc_vol_price` simulates a martingale: each simulated (centred) price, as a function of the three normal draws, has mean exactly zero, for every `λ`,
`ρ`, `σ`, `ν` and expiry. -/
theorem nsvhMc_mean_zero (m : Nsvh) {T : ℝ} (hT : 0 ≤ T) :
    Integrable (fun p : ℝ × ℝ × ℝ => (m.mcVolPrice T p.1 p.2.1 p.2.2).2.1) Spec.normal3 ∧
    ∫ p : ℝ × ℝ × ℝ, (m.mcVolPrice T p.1 p.2.1 p.2.2).2.1 ∂Spec.normal3 = 0 ∧
    Integrable (fun p : ℝ × ℝ × ℝ => (m.mcVolPrice T p.1 p.2.1 p.2.2).2.2) Spec.normal3 ∧
    ∫ p : ℝ × ℝ × ℝ, (m.mcVolPrice T p.1 p.2.1 p.2.2).2.2 ∂Spec.normal3 = 0 := by
  have key : Integrable (fun p : ℝ × ℝ × ℝ => (m.mcVolPrice T p.1 p.2.1 p.2.2).2.1) Spec.normal3 ∧
      ∫ p : ℝ × ℝ × ℝ, (m.mcVolPrice T p.1 p.2.1 p.2.2).2.1 ∂Spec.normal3 = 0 := by
    simp only [(mcVolPrice_eq m T _ _ _).1]
    have hs2 : √(m.vov ^ 2 * T) ^ 2 = m.vov ^ 2 * T := sq_sqrt (by positivity)
    have hs := sqrt_nonneg (m.vov ^ 2 * T)
    rw [← hs2]
    rw [sqrt_sq hs]
    generalize √(m.vov ^ 2 * T) = s at *
    obtain ⟨w1, w2⟩ := mcW_integral hs m.lam
    have e : ∀ z : ℝ, exp (0.5 * s * (z + 0.5 * (m.lam - 1) * s)) ^ 2 = exp (0.5 * (m.lam - 1) * s ^ 2) * exp (s * z) := by
      intro z; rw [← exp_nat_mul, ← exp_add]; congr 1; push_cast; ring
    obtain ⟨g1, g2⟩ := gaussE_exp s
    have i1 : Integrable (fun p : ℝ × ℝ × ℝ => exp (s * p.2.2)) Spec.normal3 := by
      have := (integrable_const (μ := gaussianReal 0 1) (1:ℝ)).mul_prod ((integrable_const (μ := gaussianReal 0 1) (1:ℝ)).mul_prod g1)
      simpa [Spec.normal3] using this
    have v1 : ∫ p : ℝ × ℝ × ℝ, exp (s * p.2.2) ∂Spec.normal3 = exp (s ^ 2 / 2) := by
      have h1 := integral_prod_mul (μ := gaussianReal 0 1) (ν := (gaussianReal 0 1).prod (gaussianReal 0 1)) (fun _ => (1:ℝ)) (fun q : ℝ × ℝ => exp (s * q.2))
      have h2 := integral_prod_mul (μ := gaussianReal 0 1) (ν := gaussianReal 0 1) (fun _ => (1:ℝ)) (fun q : ℝ => exp (s * q))
      simp only [one_mul, integral_const, probReal_univ, smul_eq_mul] at h1 h2
      rw [Spec.normal3, h1, h2, g2]
    simp only [e]
    have i2 : Integrable (fun p : ℝ × ℝ × ℝ => m.rho * (exp (0.5 * (m.lam - 1) * s ^ 2) * exp (s * p.2.2) - exp (0.5 * m.lam * s ^ 2))) Spec.normal3 :=
      ((i1.const_mul _).sub (integrable_const _)).const_mul _
    refine ⟨(i2.add (w1.const_mul _)).const_mul _, ?_⟩
    rw [integral_const_mul, integral_add i2 (w1.const_mul _), integral_const_mul, integral_const_mul, w2, integral_sub (i1.const_mul _) (integrable_const _),
      integral_const_mul, v1, integral_const, probReal_univ, ← exp_add, show 0.5 * (m.lam - 1) * s ^ 2 + s ^ 2 / 2 = 0.5 * m.lam * s ^ 2 by ring]
    simp
  refine ⟨key.1, key.2, ?_⟩
  have hp : MeasurePreserving (fun p : ℝ × ℝ × ℝ => (p.2.1, p.1, p.2.2)) Spec.normal3 Spec.normal3 := by
    have a1 := measurePreserving_prodAssoc (gaussianReal 0 1) (gaussianReal 0 1) (gaussianReal 0 1)
    have a2 := (Measure.measurePreserving_swap (μ := gaussianReal 0 1) (ν := gaussianReal 0 1)).prod (MeasurePreserving.id (gaussianReal 0 1))
    exact (a1.comp a2).comp (a1.symm MeasurableEquiv.prodAssoc)
  have e : ∀ p : ℝ × ℝ × ℝ, (m.mcVolPrice T p.1 p.2.1 p.2.2).2.2 = (fun p : ℝ × ℝ × ℝ => (m.mcVolPrice T p.1 p.2.1 p.2.2).2.1) (p.2.1, p.1, p.2.2) :=
    fun p => (mcVolPrice_eq m T _ _ _).2
  simp only [e]
  constructor
  · exact hp.integrable_comp_of_integrable key.1
  · have hm : Measurable (fun p : ℝ × ℝ × ℝ => (p.2.1, p.1, p.2.2)) := hp.measurable
    have h3 := integral_map (μ := Spec.normal3) hm.aemeasurable (f := fun p : ℝ × ℝ × ℝ => (m.mcVolPrice T p.1 p.2.1 p.2.2).2.1) (by rw [hp.map_eq]; exact key.1.aestronglyMeasurable)
    rw [hp.map_eq] at h3
    rw [← h3]; exact key.2

/-- **C62.** Put-call parity of `NsvhMc.price` holds in expectation: the mean over the draws of (call payoff − put payoff) of a simulated price equals forward minus strike. -/
theorem nsvhMc_parity_mean (m : Nsvh) {T : ℝ} (hT : 0 ≤ T) (S k : ℝ) :
    ∫ p : ℝ × ℝ × ℝ, m.mp.df T * (max (1 * ((m.mcVolPrice T p.1 p.2.1 p.2.2).2.1 - (k - m.mp.fwd S T))) 0
        - max (-1 * ((m.mcVolPrice T p.1 p.2.1 p.2.2).2.1 - (k - m.mp.fwd S T))) 0) ∂Spec.normal3 = m.mp.df T * (m.mp.fwd S T - k) := by
  obtain ⟨h1, h2, -⟩ := nsvhMc_mean_zero m hT
  have e : ∀ x : ℝ, max (1 * x) 0 - max (-1 * x) 0 = x := by
    intro x; rw [one_mul, neg_one_mul]; rw [max_comm, max_comm (-x)]
    rcases le_total 0 x with h | h
    · rw [max_eq_right h, max_eq_left (by linarith)]; ring
    · rw [max_eq_left h, max_eq_right (by linarith)]; ring
  simp only [e]
  rw [integral_const_mul, integral_sub h1 (integrable_const _), h2, integral_const]
  simp

/-! ## Scalar strikes -/

/-- A strike argument given as a scalar and the one-element array holding it. -/
def Spec.asArray (k : ℝ) : Strike := .array [k]

/-- **C101 (disagreement).** `NsvhMc.price` accepts an array of strikes (one price per strike is returned) but raises for every scalar strike, although the code has a branch
for scalar output. -/
theorem nsvhMc_scalar_fails (m : Nsvh) (paths : List ℝ) (k : ℝ) (ks : List ℝ) (S T cp : ℝ) :
    (∃ e, m.mcPrice paths (.scalar k) S T cp = .error e) ∧
    m.mcPrice paths (.array ks) S T cp
      = .ok (ks.map fun k => m.mp.df T * ((paths.map fun x => max (cp * (x - (k - m.mp.fwd S T))) 0).sum / paths.length)) := by
  constructor
  · exact ⟨_, rfl⟩
  · unfold mcPrice
    simp only [Strike.len, bind, Except.bind]
    have key : ∀ l : List ℕ, (∀ i ∈ l, i < ks.length) → l.mapM (m := Except String) (fun i => do
        let k ← (Strike.array ks).get i
        pure (m.mp.df T * ((paths.map fun x => max (cp * (x - (k - m.mp.fwd S T))) 0).sum / paths.length)))
        = .ok (l.map fun i => m.mp.df T * ((paths.map fun x => max (cp * (x - (ks.getD i 0 - m.mp.fwd S T))) 0).sum / paths.length)) := by
      intro l
      induction l with
      | nil => intro _; rfl
      | cons i l ih =>
        intro h
        have hi : i < ks.length := h i (by simp)
        have e : (Strike.array ks).get i = .ok (ks.getD i 0) := by simp [Strike.get, hi]
        rw [List.mapM_cons, ih fun j hj => h j (by simp [hj]), e]
        rfl
    have := key (List.range ks.length) (by simp)
    simp only [bind, Except.bind] at this
    rw [this]
    congr 1
    apply List.ext_getElem
    · simp
    · intro i h1 h2
      have : i < ks.length := by simpa using h2
      simp [this]

lemma gqLoop_array (m : Nsvh) (zs vs : List (ℝ × ℝ)) (S T cp : ℝ) : ∀ (ks done rest : List ℝ), rest.length = ks.length →
    m.gqLoop zs vs S T cp ks done.length (.array (done ++ rest)) = .ok (.array (done ++ ks.map fun k => m.gqPrice zs vs k S T cp)) := by
  intro ks
  induction ks with
  | nil =>
    intro done rest h
    have : rest = [] := by simpa using h
    subst this
    simp [gqLoop]
  | cons k ks ih =>
    intro done rest h
    obtain ⟨r, rest, rfl⟩ : ∃ r l, rest = r :: l := by
      cases rest with
      | nil => simp at h
      | cons a l => exact ⟨a, l, rfl⟩
    have := ih (done ++ [m.gqPrice zs vs k S T cp]) rest (by simpa using h)
    simp only [gqLoop, Strike.set, List.length_append, List.length_cons, bind, Except.bind]
    rw [if_pos (by omega)]
    simp only [List.set_append_right _ _ (le_refl done.length), Nat.sub_self, List.set_cons_zero]
    simp only [List.append_assoc, List.length_append, List.singleton_append] at this
    simpa using this

/-- **C101 (disagreement).** `NsvhGaussQuad.price` returns one price per strike for every array of strikes but raises for every scalar strike. -/
theorem nsvhGq_scalar_fails (m : Nsvh) (zs vs : List (ℝ × ℝ)) (k : ℝ) (ks : List ℝ) (S T cp : ℝ) :
    (∃ e, m.gqPriceShape zs vs (.scalar k) S T cp = .error e) ∧
    m.gqPriceShape zs vs (.array ks) S T cp = .ok (.array (ks.map fun k => m.gqPrice zs vs k S T cp)) := by
  constructor
  · exact ⟨_, rfl⟩
  · have := gqLoop_array m zs vs S T cp ks [] (ks.map fun _ => 0) (by simp)
    simpa [gqPriceShape, Strike.atleast1d, Strike.zerosLike] using this

end Nsvh
end PyFENG
