import Verif.Model.Sv32
import Verif.Lemmas.Kummer
import Verif.Props.HestonMgf

/-!
# C118: the moment generating function of the log price in the 3/2 model
-/

namespace PyFENG

open Real Filter Topology

/-- Specification (Kolmogorov backward equation): `f t v = E[(S_t/F)^u | V_0 = v]` for the 3/2 model `dX = -V/2 dt + √V dZ`,
`dV = mr V (theta - V) dt + vov V^{3/2} dW`, `dZ dW = rho dt`, solves this equation for positive times and variances, and tends to 1 as the time tends to 0. -/
def Spec.Sv32Backward (mr theta vov rho : ℝ) (u : ℂ) (f : ℝ → ℝ → ℂ) : Prop :=
  (∀ v, 0 < v → Tendsto (fun t => f t v) (𝓝[>] 0) (𝓝 1)) ∧ ∀ t v, 0 < t → 0 < v → ∃ ft fv fvv : ℂ, HasDerivAt (fun t => f t v) ft t ∧ HasDerivAt (f t) fv v ∧
    HasDerivAt (deriv (f t)) fvv v ∧
    ft = mr * v * (theta - v) * fv + vov ^ 2 * v ^ 3 / 2 * fvv + rho * vov * u * v ^ 2 * fv + v / 2 * (u * (u - 1)) * f t v

namespace Sv32

/-! ### The reciprocal process -/

/-- **C118.** The reciprocal of the variance is the process `cir`: on functions of `1/v` the generator of the 3/2 variance is the generator of that square-root process. -/
theorem cir_reciprocal (m : Sv32) (hmr : m.mr * m.theta ≠ 0) {f f' : ℝ → ℝ} {f'' v : ℝ} (hv : 0 < v) (hf : ∀ x, 0 < x → HasDerivAt f (f' x) x)
    (hf' : HasDerivAt f' f'' (1 / v)) :
    ∃ gv gvv : ℝ, HasDerivAt (fun w => f (1 / w)) gv v ∧ HasDerivAt (deriv fun w => f (1 / w)) gvv v ∧
      m.mr * v * (m.theta - v) * gv + m.vov ^ 2 * v ^ 3 / 2 * gvv =
        m.cir.mr * (m.cir.theta - 1 / v) * f' (1 / v) + m.cir.sigma ^ 2 * (1 / v) / 2 * f'' := by
  have hinv : ∀ w : ℝ, 0 < w → HasDerivAt (fun w : ℝ => 1 / w) (-(1 / w ^ 2)) w := fun w hw => by
    have := (hasDerivAt_inv hw.ne')
    simp only [one_div]
    exact this
  have h1 : ∀ w : ℝ, 0 < w → HasDerivAt (fun w => f (1 / w)) (f' (1 / w) * -(1 / w ^ 2)) w := fun w hw => (hf (1 / w) (by positivity)).comp w (hinv w hw)
  have h2 : deriv (fun w => f (1 / w)) =ᶠ[𝓝 v] fun w => f' (1 / w) * -(1 / w ^ 2) := by
    filter_upwards [lt_mem_nhds hv] with w hw
    exact (h1 w hw).deriv
  have h3 : HasDerivAt (fun w : ℝ => -(1 / w ^ 2)) (2 / v ^ 3) v := by
    have h := ((hasDerivAt_inv hv.ne').fun_pow 2).fun_neg
    have e : (fun w : ℝ => -(1 / w ^ 2)) = fun w : ℝ => -(w⁻¹) ^ 2 := by ext w; rw [one_div, inv_pow]
    rw [e]
    refine h.congr_deriv ?_
    norm_num
    field_simp
  have h4 : HasDerivAt (fun w : ℝ => f' (1 / w)) (f'' * -(1 / v ^ 2)) v := hf'.comp v (hinv v hv)
  refine ⟨_, _, h1 v hv, (h4.fun_mul h3).congr_of_eventuallyEq h2, ?_⟩
  unfold cir
  simp only
  have n1 := left_ne_zero_of_mul hmr
  have n2 := right_ne_zero_of_mul hmr
  field_simp
  ring

/-! ### The hypergeometric loop -/

/-- The first `N` terms of Kummer's series. -/
lemma loop_eq (a b x : ℂ) (n : ℕ) :
    hyp1f1Loop a b x n = (x ^ (n + 1) / (n + 1).factorial * Kummer.co a b (n + 1), ∑ k ∈ Finset.range (n + 2), x ^ k / k.factorial * Kummer.co a b k) := by
  induction n with
  | zero =>
    rw [Finset.sum_range_succ, Finset.sum_range_one]
    simp [hyp1f1Loop, Kummer.co]
    ring
  | succ n ih =>
    have h1 : Kummer.co a b (n + 1 + 1) = Kummer.co a b (n + 1) * ((a + (n + 1 : ℕ)) / (b + (n + 1 : ℕ))) := by unfold Kummer.co; rw [Finset.prod_range_succ]
    have h2 : (((n + 1).factorial : ℕ) : ℂ) ≠ 0 := by exact_mod_cast (Nat.factorial_pos _).ne'
    have h3 : (((n + 1 : ℕ) : ℂ) + 1) ≠ 0 := by exact_mod_cast Nat.succ_ne_zero (n + 1)
    have e : x ^ (n + 1) / (n + 1).factorial * Kummer.co a b (n + 1) * ((a + ((n + 1 : ℕ) : ℂ)) / (b + ((n + 1 : ℕ) : ℂ)) / (((n + 1 : ℕ) : ℂ) + 1) * x)
        = x ^ (n + 1 + 1) / (n + 1 + 1).factorial * Kummer.co a b (n + 1 + 1) := by
      rw [h1, Nat.factorial_succ (n + 1)]
      generalize (a + ((n + 1 : ℕ) : ℂ)) / (b + ((n + 1 : ℕ) : ℂ)) = q
      push_cast at h3 h2 ⊢
      field_simp
      ring
    rw [hyp1f1Loop, ih, Finset.sum_range_succ _ (n + 2)]
    simp only [e]

/-- **C118.** `hyp1f1_complex` with `n` passes is the sum of the first `n + 2` terms of Kummer's series. -/
theorem hyp1f1_partial_sum (a b x : ℂ) (n : ℕ) :
    hyp1f1Complex n a b x = ∑ k ∈ Finset.range (n + 2), x ^ k / k.factorial * ∏ j ∈ Finset.range k, (a + j) / (b + j) := by
  rw [hyp1f1Complex, loop_eq]
  rfl

/-- **C118.** Error of `hyp1f1_complex` after `n` passes when the ratios of the parameters stay below `D` (with `0 <= a <= b`, as for every real argument of the generating function in `[0, 1]`, `D = 1`). -/
theorem hyp1f1_error {a b x : ℂ} {D : ℝ} (hD : ∀ j : ℕ, ‖(a + j) / (b + j)‖ ≤ D) (n : ℕ) :
    ‖Spec.kummer a b x - hyp1f1Complex n a b x‖ ≤ (‖x‖ * D) ^ (n + 2) / (n + 2).factorial * exp (‖x‖ * D) := by
  have hD0 : 0 ≤ D := (norm_nonneg _).trans (hD 0)
  have hs := Kummer.summable_E (Kummer.co_bound hD) x
  have h1 := hs.sum_add_tsum_nat_add (n + 2)
  have e : Spec.kummer a b x - hyp1f1Complex n a b x = ∑' k : ℕ, x ^ (k + (n + 2)) / (k + (n + 2)).factorial * Kummer.co a b (k + (n + 2)) := by
    rw [hyp1f1Complex, loop_eq, Kummer.kummer_eq]
    unfold Kummer.E
    rw [← h1]
    ring
  rw [e]
  have hE := NormedSpace.expSeries_div_hasSum_exp (‖x‖ * D)
  rw [← Real.exp_eq_exp_ℝ] at hE
  refine tsum_of_norm_bounded (hE.mul_left ((‖x‖ * D) ^ (n + 2) / (n + 2).factorial)) fun k => ?_
  rw [norm_mul, norm_div, norm_pow, Complex.norm_natCast]
  have h2 : ((n + 2).factorial : ℝ) * k.factorial ≤ (k + (n + 2)).factorial := by
    rw [mul_comm]; exact_mod_cast Nat.le_of_dvd (Nat.factorial_pos _) (Nat.factorial_mul_factorial_dvd_factorial_add k (n + 2))
  have h3 := Kummer.co_bound hD (k + (n + 2))
  have p1 : (0:ℝ) < (n + 2).factorial := by exact_mod_cast Nat.factorial_pos _
  have p2 : (0:ℝ) < k.factorial := by exact_mod_cast Nat.factorial_pos _
  calc ‖x‖ ^ (k + (n + 2)) / (k + (n + 2)).factorial * ‖Kummer.co a b (k + (n + 2))‖
      ≤ ‖x‖ ^ (k + (n + 2)) / ((n + 2).factorial * k.factorial) * (1 * D ^ (k + (n + 2))) := by gcongr
    _ = _ := by rw [mul_pow, mul_pow]; field_simp; ring

/-- **C118.** The bound tends to zero: `hyp1f1_complex` converges to `1F1` as the number of passes grows, for all complex parameters and arguments. -/
theorem hyp1f1_converges (a b x : ℂ) : Tendsto (fun n => hyp1f1Complex n a b x) atTop (𝓝 (Spec.kummer a b x)) := by
  obtain ⟨D, _, hD⟩ := Kummer.exists_bound a b
  have h := (Kummer.summable_E (Kummer.co_bound hD) x).hasSum.tendsto_sum_nat
  have h2 := h.comp (tendsto_add_atTop_nat 2)
  refine h2.congr fun n => ?_
  rw [hyp1f1Complex, loop_eq]
  rfl

/-! ### The generating function -/

lemma delta_sq (m : Sv32) (u : ℂ) : m.deltaU u ^ 2 = m.muU u ^ 2 + u * (1 - u) / (m.vov : ℂ) ^ 2 := Heston.csqrt_sq _

lemma alpha_quad (m : Sv32) (u : ℂ) : m.alphaU u ^ 2 + 2 * m.muU u * m.alphaU u = u * (1 - u) / (m.vov : ℂ) ^ 2 := by
  have h := m.delta_sq u
  unfold alphaU
  linear_combination h

/-- In the strip `0 <= Re u <= 1` the root dominates: `Re delta > |Re mu|`. -/
lemma delta_re (m : Sv32) {u : ℂ} (hv : m.vov ≠ 0) (hA : 0 < (1 - m.rho ^ 2) * u.im ^ 2 + u.re * (1 - u.re)) : |(m.muU u).re| < (m.deltaU u).re := by
  have hv2 : 0 < m.vov ^ 2 := by positivity
  have hr : (m.muU u).im = -(m.rho * u.im / m.vov) := by
    unfold muU
    rw [show (m.vov : ℂ) ^ 2 = ((m.vov ^ 2 : ℝ) : ℂ) by push_cast; rfl, Complex.add_im, Complex.div_ofReal_im]
    simp
    field_simp
  have hw : (m.muU u ^ 2 + u * (1 - u) / (m.vov : ℂ) ^ 2).re = (m.muU u).re ^ 2 + ((1 - m.rho ^ 2) * u.im ^ 2 + u.re * (1 - u.re)) / m.vov ^ 2 := by
    rw [show (m.vov : ℂ) ^ 2 = ((m.vov ^ 2 : ℝ) : ℂ) by push_cast; rfl, Complex.add_re, Complex.div_ofReal_re]
    have e : (m.muU u ^ 2).re = (m.muU u).re ^ 2 - (m.muU u).im ^ 2 := by rw [pow_two, Complex.mul_re]; ring
    rw [e, hr]
    simp
    field_simp
    ring
  have hpos : 0 < ((1 - m.rho ^ 2) * u.im ^ 2 + u.re * (1 - u.re)) / m.vov ^ 2 := by positivity
  have hd : 0 < (m.deltaU u).re := Heston.csqrt_re_pos (by rw [hw]; positivity)
  have h2 : ((m.deltaU u) ^ 2).re = (m.deltaU u).re ^ 2 - (m.deltaU u).im ^ 2 := by rw [pow_two, Complex.mul_re]; ring
  rw [m.delta_sq u, hw] at h2
  refine abs_lt_of_sq_lt_sq ?_ hd.le
  nlinarith [sq_nonneg (m.deltaU u).im]

/-- Derivatives of `X^a 1F1(a; b; -X)`, and the equation it satisfies. -/
lemma kummer_power (a : ℂ) {b : ℂ} (hb : ∀ k : ℕ, b + k ≠ 0) {X : ℝ} (hX : 0 < X) : ∃ G1 : ℝ → ℂ, ∃ G2 : ℂ,
    (∀ y : ℝ, 0 < y → HasDerivAt (fun y : ℝ => Complex.exp (a * (log y : ℝ)) * Spec.kummer a b (-(y : ℂ))) (G1 y) y) ∧ HasDerivAt G1 G2 X ∧
    (X : ℂ) ^ 2 * G2 + X ^ 2 * G1 X + (b - 2 * a) * X * G1 X - a * (b - a - 1) * (Complex.exp (a * (log X : ℝ)) * Spec.kummer a b (-(X : ℂ))) = 0 := by
  obtain ⟨M1, M2, h1, h2, h3⟩ := Kummer.ode a hb (-(X : ℂ))
  have hexp : ∀ y : ℝ, 0 < y → HasDerivAt (fun y : ℝ => Complex.exp (a * (log y : ℝ))) (Complex.exp (a * (log y : ℝ)) * (a * (y : ℂ)⁻¹)) y := fun y hy => by
    have h := (((Real.hasDerivAt_log hy.ne').ofReal_comp).const_mul a).cexp
    refine h.congr_deriv ?_
    push_cast
    rfl
  have hneg : ∀ y : ℝ, HasDerivAt (fun y : ℝ => -(y : ℂ)) (-1) y := fun y => by
    have h := ((hasDerivAt_id' y).ofReal_comp).fun_neg
    refine h.congr_deriv ?_
    simp
  have hK : ∀ y : ℝ, HasDerivAt (fun y : ℝ => Spec.kummer a b (-(y : ℂ))) (M1 (-(y : ℂ)) * -1) y := fun y =>
    HasDerivAt.comp (h₂ := Spec.kummer a b) (h := fun y : ℝ => -(y : ℂ)) y (h1 _) (hneg y)
  have hM : HasDerivAt (fun y : ℝ => M1 (-(y : ℂ)) * -1) (M2 * -1 * -1) X := (HasDerivAt.comp (h₂ := M1) (h := fun y : ℝ => -(y : ℂ)) X h2 (hneg X)).mul_const (-1)
  have hinv : HasDerivAt (fun y : ℝ => a * (y : ℂ)⁻¹) (a * -((X : ℂ) ^ 2)⁻¹) X := by
    have h := ((hasDerivAt_inv hX.ne').ofReal_comp).const_mul a
    push_cast at h
    exact h
  refine ⟨fun y => Complex.exp (a * (log y : ℝ)) * (a * (y : ℂ)⁻¹) * Spec.kummer a b (-(y : ℂ)) + Complex.exp (a * (log y : ℝ)) * (M1 (-(y : ℂ)) * -1), _, fun y hy => (hexp y hy).fun_mul (hK y),
    (((hexp X hX).fun_mul hinv).fun_mul (hK X)).fun_add ((hexp X hX).fun_mul hM), ?_⟩
  have hX' : (X : ℂ) ≠ 0 := by exact_mod_cast hX.ne'
  simp only
  generalize Complex.exp (a * (log X : ℝ)) = E at *
  generalize Spec.kummer a b (-(X : ℂ)) = K at *
  generalize M1 (-(X : ℂ)) = K1 at *
  field_simp
  linear_combination (-(E * X)) * h3

/-- The generating function with the full hypergeometric series and no clipping of the exponent. -/
noncomputable def mgfFull (loggamma : ℂ → ℂ) (m : Sv32) (u : ℂ) (t : ℝ) : ℂ :=
  Complex.exp (m.logpExpo loggamma u t) * Spec.kummer (m.alphaU u) (m.betaU u) (-(m.xx t : ℂ))

/-- **C118.** While the exponent is inside the clipping range, `logp_mgf` is the formula without clipping. -/
theorem logp_mgf_unclipped (loggamma : ℂ → ℂ) (hyp : ℂ → ℂ → ℂ → ℂ) (m : Sv32) {M : ℝ} {u : ℂ} {t : ℝ} (h : |(m.logpExpo loggamma u t).re| < M) :
    m.logpMgf loggamma M hyp u t = Complex.exp (m.logpExpo loggamma u t) * hyp (m.alphaU u) (m.betaU u) (-(m.xx t : ℂ)) := by
  obtain ⟨h1, h2⟩ := abs_lt.1 h
  unfold logpMgf clipC
  rw [if_neg, if_neg]
  · push Not
    exact ⟨h2.le, fun h => absurd h h2.ne⟩
  · push Not
    exact ⟨h1.le, fun h => absurd h h1.ne'⟩

/-- **C118.** The value of `logp_mgf` converges to the full formula as the number of passes in `hyp1f1_complex` grows. -/
theorem logp_mgf_converges (loggamma : ℂ → ℂ) (m : Sv32) {M : ℝ} {u : ℂ} {t : ℝ} (h : |(m.logpExpo loggamma u t).re| < M) :
    Tendsto (fun n => m.logpMgf loggamma M (hyp1f1Complex n) u t) atTop (𝓝 (m.mgfFull loggamma u t)) := by
  refine ((hyp1f1_converges (m.alphaU u) (m.betaU u) (-(m.xx t : ℂ))).const_mul (Complex.exp (m.logpExpo loggamma u t))).congr fun n => ?_
  exact (m.logp_mgf_unclipped loggamma _ h).symm

lemma xx_eq (m : Sv32) (t : ℝ) : m.xx t = 2 * (m.mr * m.theta) / m.vov ^ 2 / (exp (m.mr * m.theta * t) - 1) / m.sigma := by
  unfold xx
  simp only
  rw [← div_div, div_right_comm _ m.sigma]

lemma expm1_ratio {κ t : ℝ} (hκ : κ ≠ 0) (ht : 0 < t) : 0 < κ / (exp (κ * t) - 1) := by
  rcases lt_or_gt_of_ne hκ with h | h
  · refine div_pos_of_neg_of_neg h ?_
    rw [sub_neg, Real.exp_lt_one_iff]
    exact mul_neg_of_neg_of_pos h ht
  · refine div_pos h ?_
    rw [sub_pos, Real.one_lt_exp_iff]
    positivity

lemma xx_pos (m : Sv32) {t : ℝ} (hv : m.vov ≠ 0) (hκ : m.mr * m.theta ≠ 0) (hs : 0 < m.sigma) (ht : 0 < t) : 0 < m.xx t := by
  rw [xx_eq]
  have h := expm1_ratio hκ ht
  have e : 2 * (m.mr * m.theta) / m.vov ^ 2 / (exp (m.mr * m.theta * t) - 1) / m.sigma = 2 / (m.vov ^ 2 * m.sigma) * (m.mr * m.theta / (exp (m.mr * m.theta * t) - 1)) := by
    field_simp
  rw [e]
  positivity

lemma mgfFull_eq (loggamma : ℂ → ℂ) (hlg : ∀ z : ℂ, 0 < z.re → Complex.exp (loggamma z) = Complex.Gamma z) (m : Sv32) {u : ℂ} {t : ℝ} (hx : 0 < m.xx t)
    (h1 : 0 < (m.betaU u - m.alphaU u).re) (h2 : 0 < (m.betaU u).re) : m.mgfFull loggamma u t = Kummer.R (m.alphaU u) (m.betaU u) (m.xx t) := by
  have hx' : (m.xx t : ℂ) ≠ 0 := by exact_mod_cast hx.ne'
  unfold mgfFull logpExpo Kummer.R
  rw [Complex.exp_add, Complex.exp_sub, hlg _ h1, hlg _ h2, Complex.cpow_def_of_ne_zero hx', Complex.ofReal_log hx.le, mul_comm (Complex.log _)]
  ring

/-- **C118.** `logp_mgf` (full series, exponent not clipped), as a function of expiry and initial variance, solves the backward equation of the 3/2 model with initial value 1, for every complex argument
with `0 <= Re u <= 1` other than the two end points `u = 0, 1` (and, when `|rho| = 1`, than the lines `Re u = 0, 1`). -/
theorem logp_mgf_backward (loggamma : ℂ → ℂ) (hlg : ∀ z : ℂ, 0 < z.re → Complex.exp (loggamma z) = Complex.Gamma z) (m : Sv32) {u : ℂ} (hv : m.vov ≠ 0) (hκ : m.mr * m.theta ≠ 0)
    (hA : 0 < (1 - m.rho ^ 2) * u.im ^ 2 + u.re * (1 - u.re)) :
    Spec.Sv32Backward m.mr m.theta m.vov m.rho u (fun t v => mgfFull loggamma { m with sigma := v } u t) := by
  have hd := m.delta_re hv hA
  obtain ⟨d1, d2⟩ := abs_lt.1 hd
  have hdpos : 0 < (m.deltaU u).re := (abs_nonneg _).trans_lt hd
  have ha : 0 < (m.alphaU u).re := by unfold alphaU; simp; linarith
  have hba : 1 ≤ (m.betaU u - m.alphaU u).re := by unfold alphaU betaU; simp; linarith
  have hb : 0 < (m.betaU u).re := by unfold betaU; simp; linarith
  have hbk : ∀ k : ℕ, m.betaU u + k ≠ 0 := fun k h => by
    have h2 : (m.betaU u + k).re = 0 := by rw [h]; simp
    simp at h2
    have := Nat.cast_nonneg (α := ℝ) k
    linarith
  have hv' : (m.vov : ℂ) ≠ 0 := by exact_mod_cast hv
  obtain ⟨κ, hκe⟩ : ∃ κ, κ = m.mr * m.theta := ⟨_, rfl⟩
  have hx : ∀ {t v : ℝ}, 0 < t → 0 < v → 0 < Sv32.xx { m with sigma := v } t := fun {t v} ht h => Sv32.xx_pos { m with sigma := v } hv hκ h ht
  refine ⟨fun v h => ?_, fun t v ht h => ?_⟩
  · have hX : Tendsto (fun t => Sv32.xx { m with sigma := v } t) (𝓝[>] 0) atTop := by
      have e : ∀ t, Sv32.xx { m with sigma := v } t = 2 / (m.vov ^ 2 * v) * (κ / (exp (κ * t) - 1)) := fun t => by
        rw [xx_eq, hκe]
        simp only
        field_simp
      simp only [e]
      refine Tendsto.const_mul_atTop (by positivity) ?_
      have h0 : Tendsto (fun t => (exp (κ * t) - 1) / κ) (𝓝[>] 0) (𝓝[>] 0) := by
        refine tendsto_nhdsWithin_iff.2 ⟨?_, ?_⟩
        · have : ContinuousAt (fun t => (exp (κ * t) - 1) / κ) 0 := by fun_prop
          have h2 := this.tendsto
          simp only [mul_zero, exp_zero, sub_self, zero_div] at h2
          exact h2.mono_left nhdsWithin_le_nhds
        · filter_upwards [self_mem_nhdsWithin] with t ht
          have := expm1_ratio (hκe ▸ hκ) ht
          rw [← inv_div] at this
          exact inv_pos.1 this
      refine (tendsto_inv_nhdsGT_zero.comp h0).congr fun t => ?_
      simp only [Function.comp_apply, inv_div]
    refine ((Kummer.tendsto_R ha hba).comp hX).congr' ?_
    filter_upwards [self_mem_nhdsWithin] with t ht
    exact (mgfFull_eq loggamma hlg { m with sigma := v } (hx ht h) (lt_of_lt_of_le one_pos hba) hb).symm
  · obtain ⟨C, hC⟩ : ∃ C, C = Complex.exp (loggamma (m.betaU u - m.alphaU u) - loggamma (m.betaU u)) := ⟨_, rfl⟩
    obtain ⟨G1, G2, g1, g2, g3⟩ := kummer_power (m.alphaU u) hbk (hx ht h)
    obtain ⟨c, hc⟩ : ∃ c : ℝ → ℝ, c = fun t => 2 * κ / m.vov ^ 2 / (exp (κ * t) - 1) := ⟨_, rfl⟩
    have hxc : ∀ t v, Sv32.xx { m with sigma := v } t = c t / v := fun t v => by rw [xx_eq, hc, hκe]
    have hf : ∀ t v, mgfFull loggamma { m with sigma := v } u t = C * (Complex.exp (m.alphaU u * (log (c t / v) : ℝ)) * Spec.kummer (m.alphaU u) (m.betaU u) (-((c t / v : ℝ) : ℂ))) := fun t v => by
      unfold mgfFull logpExpo
      rw [hxc, hC, Complex.exp_add, mul_assoc]
      rfl
    have hne : exp (κ * t) - 1 ≠ 0 := by
      rw [sub_ne_zero]
      intro hh
      rw [Real.exp_eq_one_iff] at hh
      rcases mul_eq_zero.1 hh with hh | hh
      · exact hκ (hκe ▸ hh)
      · exact ht.ne' hh
    have hct : HasDerivAt c (-(κ + m.vov ^ 2 / 2 * c t) * c t) t := by
      have h0 : HasDerivAt (fun t => exp (κ * t) - 1) (exp (κ * t) * κ) t := by
        have := (((hasDerivAt_id' t).const_mul κ).exp).sub_const 1
        simpa using this
      have h1 := (hasDerivAt_const t (2 * κ / m.vov ^ 2)).fun_div h0 hne
      rw [hc]
      refine h1.congr_deriv ?_
      simp only
      field_simp
      ring
    rw [hxc] at g2 g3
    have hX : 0 < c t / v := by rw [← hxc]; exact hx ht h
    have hft : HasDerivAt (fun t => mgfFull loggamma { m with sigma := v } u t) (C * (((-(κ + m.vov ^ 2 / 2 * c t) * c t / v : ℝ) : ℂ) * G1 (c t / v))) t := by
      simp only [hf]
      refine HasDerivAt.const_mul C ?_
      have := (g1 (c t / v) hX).scomp t (hct.div_const v)
      rw [Complex.real_smul] at this
      exact this
    have hvd : ∀ w : ℝ, 0 < w → HasDerivAt (fun w : ℝ => c t / w) (-(c t) / w ^ 2) w := fun w hw => by
      have := (hasDerivAt_inv hw.ne').const_mul (c t)
      simp only [div_eq_mul_inv]
      refine this.congr_deriv ?_
      ring
    have hcx : ∀ w : ℝ, 0 < w → 0 < c t / w := fun w hw => by rw [← hxc]; exact hx ht hw
    have hfv : ∀ w : ℝ, 0 < w → HasDerivAt (fun v => mgfFull loggamma { m with sigma := v } u t) (C * (((-(c t) / w ^ 2 : ℝ) : ℂ) * G1 (c t / w))) w := fun w hw => by
      simp only [hf]
      refine HasDerivAt.const_mul C ?_
      have := (g1 (c t / w) (hcx w hw)).scomp w (hvd w hw)
      rw [Complex.real_smul] at this
      exact this
    have hev : deriv (fun v => mgfFull loggamma { m with sigma := v } u t) =ᶠ[𝓝 v] fun w => C * (((-(c t) / w ^ 2 : ℝ) : ℂ) * G1 (c t / w)) := by
      filter_upwards [lt_mem_nhds h] with w hw
      exact (hfv w hw).deriv
    have h3 : HasDerivAt (fun w : ℝ => -(c t) / w ^ 2) (2 * c t / v ^ 3) v := by
      have h := (((hasDerivAt_inv h.ne').fun_pow 2).const_mul (-(c t)))
      have e : (fun w : ℝ => -(c t) / w ^ 2) = fun w : ℝ => -(c t) * (w⁻¹) ^ 2 := by ext w; rw [div_eq_mul_inv, inv_pow]
      rw [e]
      refine h.congr_deriv ?_
      norm_num
      field_simp
    have h4 := g2.scomp v (hvd v h)
    rw [Complex.real_smul] at h4
    refine ⟨_, _, _, hft, hfv v h, ((h3.ofReal_comp.fun_mul h4).const_mul C).congr_of_eventuallyEq hev, ?_⟩
    have hq := m.alpha_quad u
    have hbe : m.betaU u - m.alphaU u - 1 = m.alphaU u + 2 * m.muU u := by unfold alphaU betaU; ring
    have hb2 : m.betaU u - 2 * m.alphaU u = 1 + 2 * m.muU u := by unfold alphaU betaU; ring
    have hmu : m.muU u = 1 / 2 + (m.mr - u * m.rho * m.vov) / (m.vov : ℂ) ^ 2 := by unfold muU; norm_num
    simp only [hf]
    rw [hbe, hb2, show m.alphaU u * (m.alphaU u + 2 * m.muU u) = m.alphaU u ^ 2 + 2 * m.muU u * m.alphaU u by ring, hq, hmu] at g3
    have hv0 : (v : ℂ) ≠ 0 := by exact_mod_cast h.ne'
    simp only [Function.comp_apply]
    generalize Complex.exp (m.alphaU u * (log (c t / v) : ℝ)) * Spec.kummer (m.alphaU u) (m.betaU u) (-((c t / v : ℝ) : ℂ)) = F at *
    generalize G1 (c t / v) = g at *
    have hκc : (κ : ℂ) = m.mr * m.theta := by rw [hκe]; push_cast; ring
    push_cast
    rw [hκc]
    push_cast at g3
    generalize (c t : ℂ) = cc at *
    field_simp at g3
    field_simp
    linear_combination (-C) * g3

/-- `mu` at a real argument. -/
noncomputable def muR (m : Sv32) (u : ℝ) : ℝ := 1 / 2 + (m.mr - u * m.rho * m.vov) / m.vov ^ 2

lemma muU_real (m : Sv32) (u : ℝ) : m.muU u = (m.muR u : ℂ) := by
  unfold muU muR
  push_cast
  norm_num

lemma kummer_zero (b x : ℂ) : Spec.kummer 0 b x = 1 := by
  unfold Spec.kummer
  rw [tsum_eq_single 0 fun k hk => ?_]
  · simp
  · rw [Finset.prod_eq_zero (i := 0) (Finset.mem_range.2 (Nat.pos_of_ne_zero hk)) (by simp), mul_zero]

lemma hyp_zero (b x : ℂ) (n : ℕ) : hyp1f1Complex n 0 b x = 1 := by
  rw [hyp1f1_partial_sum, Finset.sum_eq_single 0]
  · simp
  · intro k _ hk
    rw [Finset.prod_eq_zero (i := 0) (Finset.mem_range.2 (Nat.pos_of_ne_zero hk)) (by simp), mul_zero]
  · simp

lemma delta_edge (m : Sv32) {u : ℝ} (hu : u = 0 ∨ u = 1) : m.deltaU u = (|m.muR u| : ℝ) := by
  unfold deltaU
  have h0 : (u : ℂ) * (1 - u) = 0 := by rcases hu with h | h <;> rw [h] <;> simp
  rw [h0, zero_div, add_zero, muU_real]
  rw [show ((m.muR u : ℝ) : ℂ) ^ 2 = ((|m.muR u| : ℝ) : ℂ) ^ 2 by rw [← Complex.ofReal_pow, ← Complex.ofReal_pow, sq_abs]]
  exact Heston.csqrt_ofReal_sq (abs_nonneg _)

lemma mgf_edge_one (loggamma : ℂ → ℂ) (m : Sv32) {M : ℝ} (hM : 0 ≤ M) {u : ℝ} (hu : u = 0 ∨ u = 1) (hmu : 0 ≤ m.muR u) (n : ℕ) (t : ℝ) :
    m.logpMgf loggamma M (hyp1f1Complex n) u t = 1 := by
  have ha : m.alphaU u = 0 := by
    unfold alphaU
    rw [m.delta_edge hu, muU_real, abs_of_nonneg hmu]
    ring
  unfold logpMgf logpExpo
  rw [ha, hyp_zero, sub_zero, sub_self, zero_mul, add_zero]
  unfold clipC
  rw [if_neg (by simp; exact hM), if_neg (by simp; exact hM)]
  simp

/-- **C118.** Total mass: `logp_mgf(0, texp) = 1` for every number of passes, when `mr >= -vov²/2`. -/
theorem logp_mgf_zero (loggamma : ℂ → ℂ) (m : Sv32) {M : ℝ} (hM : 0 ≤ M) (hv : m.vov ≠ 0) (h : -(m.vov ^ 2 / 2) ≤ m.mr) (n : ℕ) (t : ℝ) :
    m.logpMgf loggamma M (hyp1f1Complex n) 0 t = 1 := by
  have h1 : 0 ≤ m.muR 0 := by
    unfold muR
    have : 0 < m.vov ^ 2 := by positivity
    rw [div_add_div _ _ (by norm_num) this.ne']
    exact div_nonneg (by linarith) (by positivity)
  have := mgf_edge_one loggamma m hM (Or.inl rfl) h1 n t
  rwa [Complex.ofReal_zero] at this

/-- **C118.** The martingale property `logp_mgf(1, texp) = 1` holds, for every number of passes, when `rho*vov <= mr + vov²/2`. -/
theorem logp_mgf_one (loggamma : ℂ → ℂ) (m : Sv32) {M : ℝ} (hM : 0 ≤ M) (hv : m.vov ≠ 0) (h : m.rho * m.vov ≤ m.mr + m.vov ^ 2 / 2) (n : ℕ) (t : ℝ) :
    m.logpMgf loggamma M (hyp1f1Complex n) 1 t = 1 := by
  have h1 : 0 ≤ m.muR 1 := by
    unfold muR
    have : 0 < m.vov ^ 2 := by positivity
    rw [div_add_div _ _ (by norm_num) this.ne']
    exact div_nonneg (by linarith) (by positivity)
  have := mgf_edge_one loggamma m hM (Or.inr rfl) h1 n t
  rwa [Complex.ofReal_one] at this

/-- **C118.** Otherwise the discounted price is a strict local martingale and the formula shows it: for `rho*vov > mr + vov²/2` the value at `u = 1` is strictly between 0 and 1. -/
theorem logp_mgf_one_strict (loggamma : ℂ → ℂ) (hlg : ∀ z : ℂ, 0 < z.re → Complex.exp (loggamma z) = Complex.Gamma z) (m : Sv32) (hv : m.vov ≠ 0) (hκ : m.mr * m.theta ≠ 0)
    (hs : 0 < m.sigma) (h : m.mr + m.vov ^ 2 / 2 < m.rho * m.vov) {t : ℝ} (ht : 0 < t) : ∃ r : ℝ, m.mgfFull loggamma 1 t = r ∧ 0 < r ∧ r < 1 := by
  have h1 : m.muR 1 < 0 := by
    unfold muR
    have : 0 < m.vov ^ 2 := by positivity
    rw [div_add_div _ _ (by norm_num) this.ne']
    exact div_neg_of_neg_of_pos (by linarith) (by positivity)
  have hd := m.delta_edge (u := 1) (Or.inr rfl)
  have hm := m.muU_real 1
  rw [Complex.ofReal_one] at hd hm
  rw [abs_of_neg h1] at hd
  have ha : m.alphaU 1 = ((-2 * m.muR 1 : ℝ) : ℂ) := by unfold alphaU; rw [hd, hm]; push_cast; ring
  have hb : m.betaU 1 = ((1 + -2 * m.muR 1 : ℝ) : ℂ) := by unfold betaU; rw [hd]; push_cast; ring
  rw [mgfFull_eq loggamma hlg m (m.xx_pos hv hκ hs ht) (by rw [ha, hb, ← Complex.ofReal_sub, Complex.ofReal_re]; linarith) (by rw [hb, Complex.ofReal_re]; linarith), ha, hb]
  exact Kummer.real_R (by linarith) (by linarith) (m.xx_pos hv hκ hs ht)

/-- **C118.** At a real argument between 0 and 1 the value is real and strictly between 0 and 1, as it must be for `E[(S/F)^u]` (Jensen's inequality). -/
theorem logp_mgf_real_bounds (loggamma : ℂ → ℂ) (hlg : ∀ z : ℂ, 0 < z.re → Complex.exp (loggamma z) = Complex.Gamma z) (m : Sv32) (hv : m.vov ≠ 0) (hκ : m.mr * m.theta ≠ 0)
    (hs : 0 < m.sigma) {u t : ℝ} (hu0 : 0 < u) (hu1 : u < 1) (ht : 0 < t) : ∃ r : ℝ, m.mgfFull loggamma u t = r ∧ 0 < r ∧ r < 1 := by
  have hA : 0 < (1 - m.rho ^ 2) * (u : ℂ).im ^ 2 + (u : ℂ).re * (1 - (u : ℂ).re) := by
    simp only [Complex.ofReal_im, Complex.ofReal_re]
    have : 0 < u * (1 - u) := mul_pos hu0 (by linarith)
    simpa using this
  have hd := m.delta_re hv hA
  rw [muU_real, Complex.ofReal_re] at hd
  obtain ⟨d, hde⟩ : ∃ d : ℝ, m.deltaU u = d := by
    refine ⟨(m.muR u ^ 2 + u * (1 - u) / m.vov ^ 2) ^ (1 / 2 : ℝ), ?_⟩
    unfold deltaU
    rw [muU_real, Complex.ofReal_cpow (by have : 0 ≤ u * (1 - u) := mul_nonneg hu0.le (by linarith); positivity)]
    push_cast
    rfl
  rw [hde, Complex.ofReal_re] at hd
  obtain ⟨d1, d2⟩ := abs_lt.1 hd
  have ha : m.alphaU u = ((-m.muR u + d : ℝ) : ℂ) := by unfold alphaU; rw [hde, muU_real]; push_cast; ring
  have hb : m.betaU u = ((1 + 2 * d : ℝ) : ℂ) := by unfold betaU; rw [hde]; push_cast; ring
  rw [mgfFull_eq loggamma hlg m (m.xx_pos hv hκ hs ht) (by rw [ha, hb, ← Complex.ofReal_sub, Complex.ofReal_re]; linarith) (by rw [hb, Complex.ofReal_re]; linarith), ha, hb]
  exact Kummer.real_R (by linarith) (by linarith) (m.xx_pos hv hκ hs ht)

/-- A branch of the logarithm of the gamma function exists on the right half plane (`scipy.special.loggamma` is one). -/
example : ∃ loggamma : ℂ → ℂ, ∀ z : ℂ, 0 < z.re → Complex.exp (loggamma z) = Complex.Gamma z :=
  ⟨fun z => Complex.log (Complex.Gamma z), fun _ hz => Complex.exp_log (Complex.Gamma_ne_zero_of_re_pos hz)⟩

example : Spec.Sv32Backward 22.84 0.218 8.56 (-0.99) (1 / 2 + 3 * Complex.I)
    (fun t v => mgfFull (fun z => Complex.log (Complex.Gamma z)) ⟨v, 8.56, -0.99, 22.84, 0.218, 0, 0, false⟩ (1 / 2 + 3 * Complex.I) t) :=
  logp_mgf_backward _ (fun _ hz => Complex.exp_log (Complex.Gamma_ne_zero_of_re_pos hz)) ⟨0.06, 8.56, -0.99, 22.84, 0.218, 0, 0, false⟩ (by norm_num) (by norm_num) (by norm_num)

example (loggamma : ℂ → ℂ) : logpMgf loggamma 88 (hyp1f1Complex 1023) ⟨0.06, 8.56, -0.99, 22.84, 0.218, 0, 0, false⟩ 1 1 = 1 :=
  logp_mgf_one _ _ (by norm_num) (by norm_num) (by norm_num) _ _

example : ∃ r : ℝ, mgfFull (fun z => Complex.log (Complex.Gamma z)) ⟨0.06, 0.8, 0.9, 0.1, 0.218, 0, 0, false⟩ 1 1 = r ∧ 0 < r ∧ r < 1 :=
  logp_mgf_one_strict _ (fun _ hz => Complex.exp_log (Complex.Gamma_ne_zero_of_re_pos hz)) _ (by norm_num) (by norm_num) (by norm_num) (by norm_num) one_pos

/-- The bound of `hyp1f1_error` with `D = 1` applies to real `0 <= a <= b`, `b > 0`. -/
example {a b : ℝ} (ha : 0 ≤ a) (hab : a ≤ b) (hb : 0 < b) (j : ℕ) : ‖((a : ℂ) + j) / ((b : ℂ) + j)‖ ≤ 1 := by
  rw [← Complex.ofReal_natCast, ← Complex.ofReal_add, ← Complex.ofReal_add, ← Complex.ofReal_div, Complex.norm_real, Real.norm_eq_abs, abs_of_nonneg (by positivity)]
  exact div_le_one_of_le₀ (by linarith) (by positivity)

end Sv32

end PyFENG
