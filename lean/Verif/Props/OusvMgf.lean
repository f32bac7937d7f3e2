import Verif.Props.OusvSwap
import Verif.Props.HestonMgf

/-!
# C116: the moment generating function of the log price in the OUSV model
-/

namespace PyFENG

open Real MeasureTheory ProbabilityTheory Filter Topology

/-- Specification (Kolmogorov backward equation): `f t v = E[(S_t/F)^u | σ_0 = v]` for the Schöbel-Zhu pair `dX = -σ²/2 dt + σ dZ`,
`dσ = mr (theta - σ) dt + vov dW`, `dZ dW = rho dt`, solves this equation with `f 0 v = 1`. -/
def Spec.OusvBackward (mr theta vov rho : ℝ) (u : ℂ) (f : ℝ → ℝ → ℂ) : Prop :=
  (∀ v, f 0 v = 1) ∧ ∀ t v, 0 ≤ t → ∃ ft fv fvv : ℂ, HasDerivAt (fun t => f t v) ft t ∧ HasDerivAt (f t) fv v ∧
    HasDerivAt (deriv (f t)) fvv v ∧
    ft = mr * (theta - v) * fv + vov ^ 2 / 2 * fvv + rho * vov * u * v * fv + v ^ 2 / 2 * (u * (u - 1)) * f t v

namespace Ousv

/-- Exponential-quadratic solutions: the backward equation follows from the Riccati system. -/
lemma backward_of_riccati {mr theta vov rho : ℝ} {u : ℂ} {f : ℝ → ℝ → ℂ} {A B C A' B' C' : ℝ → ℂ}
    (hf : ∀ t v, f t v = Complex.exp (A t + B t * v + C t * v ^ 2))
    (hA0 : A 0 = 0) (hB0 : B 0 = 0) (hC0 : C 0 = 0)
    (hA : ∀ t, 0 ≤ t → HasDerivAt A (A' t) t) (hB : ∀ t, 0 ≤ t → HasDerivAt B (B' t) t) (hC : ∀ t, 0 ≤ t → HasDerivAt C (C' t) t)
    (eA : ∀ t, 0 ≤ t → A' t = mr * theta * B t + vov ^ 2 * C t + vov ^ 2 / 2 * B t ^ 2)
    (eB : ∀ t, 0 ≤ t → B' t = 2 * mr * theta * C t - (mr - rho * vov * u) * B t + 2 * vov ^ 2 * B t * C t)
    (eC : ∀ t, 0 ≤ t → C' t = 2 * vov ^ 2 * C t ^ 2 - 2 * (mr - rho * vov * u) * C t + u * (u - 1) / 2) :
    Spec.OusvBackward mr theta vov rho u f := by
  refine ⟨fun v => by rw [hf, hA0, hB0, hC0]; simp, fun t v ht => ?_⟩
  have hft : HasDerivAt (fun t => f t v) (f t v * (A' t + B' t * v + C' t * v ^ 2)) t := by
    have h := (((hA t ht).fun_add ((hB t ht).mul_const (v : ℂ))).fun_add ((hC t ht).mul_const ((v : ℂ) ^ 2))).cexp
    simp only [hf]
    exact h
  have hdv : ∀ w : ℝ, HasDerivAt (f t) (f t w * (B t + 2 * C t * w)) w := fun w => by
    have h := ((((hasDerivAt_id' w).ofReal_comp.const_mul (B t)).const_add (A t)).fun_add (((hasDerivAt_id' w).ofReal_comp.fun_pow 2).const_mul (C t))).cexp
    have e : f t = fun w : ℝ => Complex.exp (A t + B t * w + C t * (w : ℂ) ^ 2) := funext fun w => hf t w
    rw [e]
    refine h.congr_deriv ?_
    push_cast
    ring
  have hdd : deriv (f t) = fun w => f t w * (B t + 2 * C t * w) := funext fun w => (hdv w).deriv
  have h2 : HasDerivAt (fun w : ℝ => (B t + 2 * C t * w : ℂ)) (2 * C t) v := by
    refine (((hasDerivAt_id' v).ofReal_comp.const_mul (2 * C t)).const_add (B t)).congr_deriv ?_
    push_cast
    ring
  refine ⟨_, _, _, hft, hdv v, by rw [hdd]; exact (hdv v).fun_mul h2, ?_⟩
  rw [eA t ht, eB t ht, eC t ht]
  ring

/-- **C116.** `logp_mgf`, as a function of expiry and initial volatility, solves the Schöbel-Zhu backward equation for every complex argument in the strip `0 <= Re u <= 1`
(with the conditions under which the square root keeps its branch). -/
theorem logp_mgf_backward (m : Ousv) {u : ℂ} (hm : m.mr ≠ 0) (hv : m.vov ≠ 0) (h0 : 0 ≤ u.re) (h1 : u.re ≤ 1) (hr : m.rho ^ 2 ≤ 1)
    (ha : 0 < m.mr - m.rho * m.vov * u.re) (hk : m.rho * m.vov / 2 ≤ m.mr) :
    Spec.OusvBackward m.mr m.theta m.vov m.rho u (fun t v => Ousv.logpMgf { m with sigma := v } u t) := by
  obtain ⟨hd, hb⟩ := Heston.beta_dd ⟨0, 2 * m.vov, m.rho, 2 * m.mr, 0, 0, 0, false⟩ h0 h1 hr (by simp only; linarith) (by simp only; linarith)
  simp only at hd hb
  have e1 : ((2 * m.mr : ℝ) : ℂ) - (2 * m.vov : ℝ) * m.rho * u = 2 * m.mr - m.rho * (2 * m.vov) * u := by push_cast; ring
  have e2 : ((2 * m.vov : ℝ) : ℂ) ^ 2 = 4 * (m.vov : ℂ) ^ 2 := by push_cast; ring
  rw [e1, e2] at hd hb
  have hsq := Heston.csqrt_sq ((2 * m.mr - m.rho * (2 * m.vov) * u) ^ 2 + 4 * (m.vov : ℂ) ^ 2 * u * (1 - u))
  unfold logpMgf logpMgfExpo
  simp only
  set d := ((2 * m.mr - m.rho * (2 * m.vov) * u) ^ 2 + 4 * (m.vov : ℂ) ^ 2 * u * (1 - u)) ^ (1 / 2 : ℂ) with hddef
  obtain ⟨hbd, hg⟩ := Heston.gg_lt hb
  have hv' : (m.vov : ℂ) ≠ 0 := by exact_mod_cast hv
  have hm' : (m.mr : ℂ) ≠ 0 := by exact_mod_cast hm
  have hd0 : d ≠ 0 := fun h => by rw [h] at hd; simp at hd
  set b := (2 * m.mr - m.rho * (2 * m.vov) * u : ℂ) with hbdef
  set g := (b - d) / (b + d) with hgdef
  have hg1 : 0 < (1 - g).re := Heston.one_sub_re hg
  have hg1' : 1 - g ≠ 0 := fun h => by rw [h] at hg1; simp at hg1
  have hT : ∀ {t : ℝ}, 0 ≤ t → 0 < (1 - g * Complex.exp (-0.5 * d * t) ^ 2).re := fun {t} ht => by
    refine Heston.one_sub_re ?_
    rw [norm_mul, norm_pow, Complex.norm_exp]
    have : (-0.5 * d * (t : ℂ)).re ≤ 0 := by
      rw [Complex.re_mul_ofReal]
      have : ((-0.5 : ℂ) * d).re = -0.5 * d.re := by
        rw [show (-0.5 : ℂ) = ((-0.5 : ℝ) : ℂ) by push_cast; norm_num, Complex.re_ofReal_mul]
      rw [this]
      nlinarith
    refine lt_of_le_of_lt (mul_le_of_le_one_right (norm_nonneg _) ?_) hg
    exact pow_le_one₀ (exp_pos _).le (Real.exp_le_one_iff.2 this)
  have hN : ∀ {t : ℝ}, 0 ≤ t → 1 - g * Complex.exp (-0.5 * d * t) ^ 2 ≠ 0 := fun {t} ht h => by
    have := hT ht
    rw [h] at this
    simp at this
  set E : ℝ → ℂ := fun t => Complex.exp (-0.5 * d * t) with hE
  have hEd : ∀ t, HasDerivAt E (-0.5 * d * E t) t := fun t => by
    have := (((hasDerivAt_id' t).ofReal_comp).const_mul (-0.5 * d)).cexp
    refine this.congr_deriv ?_
    rw [hE]
    push_cast
    ring
  have hEd2 : ∀ t, HasDerivAt (fun t => E t ^ 2) (-(d * E t ^ 2)) t := fun t => by
    refine ((hEd t).fun_pow 2).congr_deriv ?_
    norm_num
    ring
  have hTd : ∀ t, HasDerivAt (fun t => 1 - g * E t ^ 2) (g * d * E t ^ 2) t := fun t => by
    refine (((hEd2 t).const_mul g).const_sub 1).congr_deriv ?_
    ring
  set N : ℝ → ℂ := fun t => 1 - g * E t ^ 2 with hNdef
  have hE0 : E 0 = 1 := by simp [hE]
  have hgT : ∀ t, N t = (b + d - (b - d) * E t ^ 2) / (b + d) := fun t => by
    simp only [hNdef]
    rw [hgdef]; field_simp
  have hg1e : 1 - g = 2 * d / (b + d) := by
    rw [hgdef]; field_simp; ring
  have hN' : ∀ t : ℝ, 0 ≤ t → b + d - (b - d) * E t ^ 2 ≠ 0 := fun t ht h => by
    have := hN ht
    have h3 := hgT t
    simp only [hNdef] at h3
    rw [h3, h] at this
    simp at this
  have hC : ∀ t, 0 ≤ t → HasDerivAt (fun t => (b - d) * (1 - E t ^ 2) / N t / (4 * (m.vov : ℂ) ^ 2))
      (((b - d) * (d * E t ^ 2) * N t - (b - d) * (1 - E t ^ 2) * (g * d * E t ^ 2)) / N t ^ 2 / (4 * (m.vov : ℂ) ^ 2)) t := fun t ht => by
    refine ((((hEd2 t).const_sub 1).const_mul (b - d)).fun_div (hTd t) (hN ht)).div_const _ |>.congr_deriv ?_
    ring
  have hB : ∀ t, 0 ≤ t → HasDerivAt (fun t => (m.theta : ℂ) * m.mr / (m.vov : ℂ) ^ 2 * ((b - d) / d) * ((1 - E t) ^ 2 / N t))
      ((m.theta : ℂ) * m.mr / (m.vov : ℂ) ^ 2 * ((b - d) / d) * ((2 * (1 - E t) * (0.5 * d * E t) * N t - (1 - E t) ^ 2 * (g * d * E t ^ 2)) / N t ^ 2)) t := fun t ht => by
    refine (((((hEd t).const_sub 1).fun_pow 2).fun_div (hTd t) (hN ht)).const_mul _).congr_deriv ?_
    norm_num
  have hL : ∀ t, 0 ≤ t → HasDerivAt (fun t => Complex.log (N t / (1 - g))) (g * d * E t ^ 2 / (1 - g) / (N t / (1 - g))) t := fun t ht =>
    ((hTd t).div_const (1 - g)).clog_real (Heston.slit_div (hT ht) hg1)
  have hLs : ∀ t, g * d * E t ^ 2 / (1 - g) / (N t / (1 - g)) = g * d * E t ^ 2 / N t := fun t => div_div_div_cancel_right₀ hg1' _ _
  have hlin : ∀ (c : ℂ) t, HasDerivAt (fun s : ℝ => c * (s : ℂ)) c t := fun c t => by
    refine (((hasDerivAt_id' t).ofReal_comp).const_mul c).congr_deriv ?_
    push_cast; ring
  have hQ : ∀ t, 0 ≤ t → HasDerivAt (fun t => ((d ^ 2 - 2 * b ^ 2) / (b + d) * E t ^ 2 + 2 * b * E t) / N t)
      ((((d ^ 2 - 2 * b ^ 2) / (b + d) * (-(d * E t ^ 2)) + 2 * b * (-0.5 * d * E t)) * N t - ((d ^ 2 - 2 * b ^ 2) / (b + d) * E t ^ 2 + 2 * b * E t) * (g * d * E t ^ 2)) / N t ^ 2) t := fun t ht => by
    exact ((((hEd2 t).const_mul _).fun_add ((hEd t).const_mul (2 * b))).fun_div (hTd t) (hN ht))
  have hA : ∀ t, 0 ≤ t → HasDerivAt (fun t : ℝ => 1 / 4 * ((b - d) * t - 2 * Complex.log (N t / (1 - g))) + (m.theta : ℂ) * m.mr / (m.vov : ℂ) ^ 2 * ((b - d) / d) *
        (m.mr * m.theta / (2 * d ^ 2) * (b * d * t - 4 * b + (d * d * t - 2 * d) + 4 * (((d ^ 2 - 2 * b ^ 2) / (b + d) * E t ^ 2 + 2 * b * E t) / N t))))
      (1 / 4 * ((b - d) - 2 * (g * d * E t ^ 2 / (1 - g) / (N t / (1 - g)))) + (m.theta : ℂ) * m.mr / (m.vov : ℂ) ^ 2 * ((b - d) / d) *
        (m.mr * m.theta / (2 * d ^ 2) * (b * d + d * d + 4 * ((((d ^ 2 - 2 * b ^ 2) / (b + d) * (-(d * E t ^ 2)) + 2 * b * (-0.5 * d * E t)) * N t -
          ((d ^ 2 - 2 * b ^ 2) / (b + d) * E t ^ 2 + 2 * b * E t) * (g * d * E t ^ 2)) / N t ^ 2)))) t := fun t ht => by
    exact (((hlin (b - d) t).fun_sub ((hL t ht).const_mul 2)).const_mul (1 / 4)).fun_add
      (((((((hlin (b * d) t).sub_const (4 * b)).fun_add ((hlin (d * d) t).sub_const (2 * d))).fun_add ((hQ t ht).const_mul 4)).const_mul (m.mr * m.theta / (2 * d ^ 2)))).const_mul
        ((m.theta : ℂ) * m.mr / (m.vov : ℂ) ^ 2 * ((b - d) / d)))
  have huu : u * (u - 1) / 2 = (b ^ 2 - d ^ 2) / (8 * (m.vov : ℂ) ^ 2) := by
    rw [hsq]
    field_simp
    ring
  have hrv : (m.mr : ℂ) - m.rho * m.vov * u = b / 2 := by rw [hbdef]; ring
  refine backward_of_riccati (fun t v => ?_) ?_ ?_ ?_ hA hB hC (fun t ht => ?_) (fun t ht => ?_) (fun t ht => ?_)
  · congr 1
    have hNt : (1 - g * Complex.exp (-0.5 * d * t) ^ 2) = N t := rfl
    have hEt : Complex.exp (-0.5 * d * t) = E t := rfl
    rw [hNt, hEt]
    generalize (1 - g) = G
    generalize Complex.log (N t / G) = L
    field_simp
    norm_num
    ring
  · simp only [hE0]
    have : N 0 = 1 - g := by simp [hNdef, hE0]
    rw [this, div_self hg1', Complex.log_one, hg1e]
    have key : b * d * ((0:ℝ):ℂ) - 4 * b + (d * d * ((0:ℝ):ℂ) - 2 * d) + 4 * (((d ^ 2 - 2 * b ^ 2) / (b + d) * 1 ^ 2 + 2 * b * 1) / (2 * d / (b + d))) = 0 := by
      push_cast
      field_simp
      ring
    rw [key]
    simp
  · simp [hE0]
  · simp [hE0]
  · have n := hN' t ht
    rw [hLs]
    simp only [hgT, hgdef]
    generalize E t = e at *
    obtain ⟨q, hq⟩ : ∃ q, q = b + d - (b - d) * e ^ 2 := ⟨_, rfl⟩
    rw [← hq] at n ⊢
    generalize (m.mr : ℂ) = k at *
    generalize (m.vov : ℂ) = x at *
    generalize (m.theta : ℂ) = th at *
    clear_value b d
    field_simp
    rw [hq]
    norm_num
    ring
  · have n := hN' t ht
    simp only [hgT, hgdef]
    rw [hrv]
    generalize E t = e at *
    obtain ⟨q, hq⟩ : ∃ q, q = b + d - (b - d) * e ^ 2 := ⟨_, rfl⟩
    rw [← hq] at n ⊢
    generalize (m.mr : ℂ) = k at *
    generalize (m.vov : ℂ) = x at *
    generalize (m.theta : ℂ) = th at *
    clear_value b d
    field_simp
    rw [hq]
    norm_num
    ring
  · have n := hN' t ht
    simp only [hgT, hgdef]
    rw [hrv, huu]
    generalize E t = e at *
    obtain ⟨q, hq⟩ : ∃ q, q = b + d - (b - d) * e ^ 2 := ⟨_, rfl⟩
    rw [← hq] at n ⊢
    generalize (m.vov : ℂ) = x at *
    clear_value b d
    field_simp
    rw [hq]
    ring

/-- **C116**: total probability: `logp_mgf(0) = 1`. -/
theorem logp_mgf_zero (m : Ousv) (hk : 0 < m.mr) (t : ℝ) : m.logpMgf 0 t = 1 := by
  unfold logpMgf logpMgfExpo
  have h := Heston.csqrt_ofReal_sq (x := 2 * m.mr) (by linarith)
  push_cast at h
  rw [one_div] at h
  simp [h]

/-- **C116**: martingale: `logp_mgf(1) = E[S_T/F] = 1`, as long as `rho vov < mr`. -/
theorem logp_mgf_one (m : Ousv) (hk : m.rho * m.vov < m.mr) (t : ℝ) : m.logpMgf 1 t = 1 := by
  unfold logpMgf logpMgfExpo
  have e : (2 : ℂ) * m.mr - m.rho * (2 * m.vov) * 1 = ((2 * m.mr - 2 * (m.rho * m.vov) : ℝ) : ℂ) := by push_cast; ring
  simp only [e]
  have h := Heston.csqrt_ofReal_sq (x := 2 * m.mr - 2 * (m.rho * m.vov)) (by linarith)
  rw [one_div] at h
  simp [-Complex.ofReal_sub, h]

lemma csqrt_scale {r : ℝ} (hr : 0 < r) (w : ℂ) : ((r : ℂ) ^ 2 * w) ^ (1 / 2 : ℂ) = r * w ^ (1 / 2 : ℂ) := by
  rcases eq_or_ne w 0 with rfl | hw
  · simp
  have hr' : ((r ^ 2 : ℝ) : ℂ) ≠ 0 := by exact_mod_cast (pow_pos hr 2).ne'
  have e : (r : ℂ) ^ 2 = ((r ^ 2 : ℝ) : ℂ) := by push_cast; rfl
  rw [e, Complex.cpow_def_of_ne_zero (mul_ne_zero hr' hw), Complex.log_ofReal_mul (pow_pos hr 2) hw, Complex.cpow_def_of_ne_zero hw, add_mul, Complex.exp_add, Real.log_pow]
  congr 1
  rw [show ((((2 : ℕ) : ℝ) * Real.log r : ℝ) : ℂ) * (1 / 2 : ℂ) = ((Real.log r : ℝ) : ℂ) by push_cast; ring, ← Complex.ofReal_exp, Real.exp_log hr]

/-- The exponent of `logp_mgf_schobelzhu1998` is that of `logp_mgf` up to the argument of the logarithm. -/
lemma sz_expo (m : Ousv) {u : ℂ} (hm : m.mr ≠ 0) (hv : m.vov ≠ 0) (h0 : 0 ≤ u.re) (h1 : u.re ≤ 1) (hr : m.rho ^ 2 ≤ 1)
    (ha : 0 < m.mr - m.rho * m.vov * u.re) (hk : m.rho * m.vov / 2 ≤ m.mr) {t : ℝ} (ht : 0 ≤ t) :
    ∃ L R d : ℂ, 0 < d.re ∧ d ^ 2 = (2 * m.mr - m.rho * (2 * m.vov) * u) ^ 2 + 4 * (m.vov : ℂ) ^ 2 * u * (1 - u) ∧ L ≠ 0 ∧
      L = ((2 * m.mr - m.rho * (2 * m.vov) * u + d) - (2 * m.mr - m.rho * (2 * m.vov) * u - d) * Complex.exp (-0.5 * d * t) ^ 2) / (2 * d) ∧
      m.logpMgfExpo u t = R - Complex.log L / 2 ∧ m.logpMgfSz u t = Complex.exp (R + d * t / 4 - Complex.log (L / Complex.exp (-0.5 * d * t)) / 2) := by
  obtain ⟨hd, hb⟩ := Heston.beta_dd ⟨0, 2 * m.vov, m.rho, 2 * m.mr, 0, 0, 0, false⟩ h0 h1 hr (by simp only; linarith) (by simp only; linarith)
  simp only at hd hb
  have e1 : ((2 * m.mr : ℝ) : ℂ) - (2 * m.vov : ℝ) * m.rho * u = 2 * m.mr - m.rho * (2 * m.vov) * u := by push_cast; ring
  have e2 : ((2 * m.vov : ℝ) : ℂ) ^ 2 = 4 * (m.vov : ℂ) ^ 2 := by push_cast; ring
  rw [e1, e2] at hd hb
  have hv' : (m.vov : ℂ) ≠ 0 := by exact_mod_cast hv
  have hm' : (m.mr : ℂ) ≠ 0 := by exact_mod_cast hm
  have half : (0.5 : ℂ) = 1 / 2 := by norm_num
  have half' : (-0.5 : ℂ) = -1 / 2 := by norm_num
  have hsq := Heston.csqrt_sq ((2 * m.mr - m.rho * (2 * m.vov) * u) ^ 2 + 4 * (m.vov : ℂ) ^ 2 * u * (1 - u))
  have hgam : (2 * (m.vov : ℂ) ^ 2 * (0.5 * u * ((1 - 2 * m.mr * m.rho / m.vov) - (1 - (m.rho : ℂ) ^ 2) * u)) + (m.mr : ℂ) ^ 2) ^ (1 / 2 : ℂ) =
      ((2 * m.mr - m.rho * (2 * m.vov) * u) ^ 2 + 4 * (m.vov : ℂ) ^ 2 * u * (1 - u)) ^ (1 / 2 : ℂ) / 2 := by
    have e : 2 * (m.vov : ℂ) ^ 2 * (0.5 * u * ((1 - 2 * m.mr * m.rho / m.vov) - (1 - (m.rho : ℂ) ^ 2) * u)) + (m.mr : ℂ) ^ 2 =
        (((1 / 2 : ℝ) : ℂ) ^ 2) * ((2 * m.mr - m.rho * (2 * m.vov) * u) ^ 2 + 4 * (m.vov : ℂ) ^ 2 * u * (1 - u)) := by
      push_cast
      field_simp
      norm_num
      ring
    rw [e, csqrt_scale (by norm_num)]
    push_cast
    ring
  unfold logpMgfSz logpMgfExpo dbc
  simp only
  rw [hgam]
  set d := ((2 * m.mr - m.rho * (2 * m.vov) * u) ^ 2 + 4 * (m.vov : ℂ) ^ 2 * u * (1 - u)) ^ (1 / 2 : ℂ) with hddef
  obtain ⟨hbd, hg⟩ := Heston.gg_lt hb
  have hd0 : d ≠ 0 := fun h => by rw [h] at hd; simp at hd
  set b := (2 * m.mr - m.rho * (2 * m.vov) * u : ℂ) with hbdef
  have hrv : (m.mr : ℂ) - 2 * (m.vov : ℂ) ^ 2 * (0.5 * u * m.rho / m.vov) = b / 2 := by
    rw [hbdef, half]; field_simp
  have hg3 : (m.mr : ℂ) ^ 2 * m.theta - u * m.mr * m.theta * m.rho / m.vov * (m.vov : ℂ) ^ 2 = m.mr * m.theta * (b / 2) := by
    rw [hbdef]; field_simp
  rw [hrv, hg3]
  have hTd : 0 < (1 - (b - d) / (b + d) * Complex.exp (-0.5 * d * t) ^ 2).re := by
    refine Heston.one_sub_re ?_
    rw [norm_mul, norm_pow, Complex.norm_exp]
    have : (-0.5 * d * (t : ℂ)).re ≤ 0 := by
      rw [Complex.re_mul_ofReal]
      have : ((-0.5 : ℂ) * d).re = -0.5 * d.re := by
        rw [show (-0.5 : ℂ) = ((-0.5 : ℝ) : ℂ) by push_cast; norm_num, Complex.re_ofReal_mul]
      rw [this]
      nlinarith
    refine lt_of_le_of_lt (mul_le_of_le_one_right (norm_nonneg _) ?_) hg
    exact pow_le_one₀ (exp_pos _).le (Real.exp_le_one_iff.2 this)
  have hEn : Complex.exp (-0.5 * d * t) ≠ 0 := Complex.exp_ne_zero _
  have hpos : Complex.exp (d / 2 * t) = (Complex.exp (-0.5 * d * t))⁻¹ := by
    rw [← Complex.exp_neg, half']; congr 1; ring
  have hneg : Complex.exp (-(d / 2 * t)) = Complex.exp (-0.5 * d * t) := by
    rw [half']; congr 1; ring
  have hsinh : Complex.sinh (d / 2 * t) = ((Complex.exp (-0.5 * d * t))⁻¹ - Complex.exp (-0.5 * d * t)) / 2 := by
    rw [Complex.sinh, hpos, hneg]
  have hcosh : Complex.cosh (d / 2 * t) = ((Complex.exp (-0.5 * d * t))⁻¹ + Complex.exp (-0.5 * d * t)) / 2 := by
    rw [Complex.cosh, hpos, hneg]
  rw [hsinh, hcosh]
  obtain ⟨E, hEdef⟩ : ∃ E, E = Complex.exp (-0.5 * d * t) := ⟨_, rfl⟩
  simp only [← hEdef] at hEn hTd ⊢
  have hN : b + d - (b - d) * E ^ 2 ≠ 0 := fun h => by
    have e : 1 - (b - d) / (b + d) * E ^ 2 = (b + d - (b - d) * E ^ 2) / (b + d) := by field_simp
    rw [e, h] at hTd
    simp at hTd
  have hL1 : (1 - (b - d) / (b + d) * E ^ 2) / (1 - (b - d) / (b + d)) = (b + d - (b - d) * E ^ 2) / (2 * d) := by
    have e : 1 - (b - d) / (b + d) * E ^ 2 = (b + d - (b - d) * E ^ 2) / (b + d) := by field_simp
    have e' : 1 - (b - d) / (b + d) = (2 * d) / (b + d) := by field_simp; ring
    rw [e, e', div_div_div_cancel_right₀ hbd]
  have hcs : (E⁻¹ + E) / 2 + b / 2 / (d / 2) * ((E⁻¹ - E) / 2) = (b + d - (b - d) * E ^ 2) / (2 * d) / E := by
    field_simp
    ring
  have hLn : (b + d - (b - d) * E ^ 2) / (2 * d) ≠ 0 := div_ne_zero hN (by simpa using hd0)
  refine ⟨(b + d - (b - d) * E ^ 2) / (2 * d), 1 / 4 * (b - d) * t + (m.sigma : ℂ) ^ 2 * ((b - d) * (1 - E ^ 2) / ((b + d - (b - d) * E ^ 2) / (b + d))) / (4 * (m.vov : ℂ) ^ 2) +
    0.5 * m.theta / ((m.vov : ℂ) ^ 2 / (2 * m.mr)) * (b - d) / d * (0.5 * m.mr * m.theta / d ^ 2 * (b * (d * t - 4) + d * (d * t - 2) + 4 * ((d ^ 2 - 2 * b ^ 2) / (b + d) * E ^ 2 + 2 * b * E) /
      ((b + d - (b - d) * E ^ 2) / (b + d))) + (1 - E) ^ 2 / ((b + d - (b - d) * E ^ 2) / (b + d)) * m.sigma), d, hd, hsq, hLn, by rw [hEdef], ?_, ?_⟩
  · rw [hL1]
    have e : 1 - (b - d) / (b + d) * E ^ 2 = (b + d - (b - d) * E ^ 2) / (b + d) := by field_simp
    rw [e]
    generalize Complex.log ((b + d - (b - d) * E ^ 2) / (2 * d)) = L
    field_simp
    ring
  · rw [hcs, ← hEdef]
    congr 1
    have hbm : u * m.rho * m.vov = m.mr - b / 2 := by rw [hbdef]; ring
    have hu : u * m.rho = (m.mr - b / 2) / m.vov := by rw [← hbm]; field_simp
    have hu2 : -0.5 * u * m.rho * ((m.sigma : ℂ) ^ 2 / m.vov + m.vov * t) = -0.5 * ((m.mr - b / 2) / m.vov) * ((m.sigma : ℂ) ^ 2 / m.vov + m.vov * t) := by
      rw [← hu]; ring
    rw [hu2]
    generalize Complex.log ((b + d - (b - d) * E ^ 2) / (2 * d) / E) = L
    obtain ⟨q, hq⟩ : ∃ q, q = b + d - (b - d) * E ^ 2 := ⟨_, rfl⟩
    rw [← hq] at hN ⊢
    generalize (m.mr : ℂ) = k at *
    generalize (m.vov : ℂ) = x at *
    generalize (m.theta : ℂ) = th at *
    generalize (m.sigma : ℂ) = s at *
    generalize (t : ℂ) = T at *
    clear_value b d
    clear hL1 hcs hLn hsinh hcosh hTd hrv hg3 hEdef
    field_simp
    rw [hq]
    norm_num
    ring

/-- **C116**: the two implementations of the moment generating function agree up to the branch of the square root: their squares are equal for every argument in the strip. -/
theorem sz_sq (m : Ousv) {u : ℂ} (hm : m.mr ≠ 0) (hv : m.vov ≠ 0) (h0 : 0 ≤ u.re) (h1 : u.re ≤ 1) (hr : m.rho ^ 2 ≤ 1)
    (ha : 0 < m.mr - m.rho * m.vov * u.re) (hk : m.rho * m.vov / 2 ≤ m.mr) {t : ℝ} (ht : 0 ≤ t) :
    m.logpMgfSz u t ^ 2 = m.logpMgf u t ^ 2 := by
  obtain ⟨L, R, d, -, -, hL, -, e1, e2⟩ := m.sz_expo hm hv h0 h1 hr ha hk ht
  have hE := Complex.exp_ne_zero (-0.5 * d * t)
  rw [e2, logpMgf, e1, ← Complex.exp_nat_mul, ← Complex.exp_nat_mul]
  have a1 : ((2 : ℕ) : ℂ) * (R + d * t / 4 - Complex.log (L / Complex.exp (-0.5 * d * t)) / 2) = 2 * R - -0.5 * d * t - Complex.log (L / Complex.exp (-0.5 * d * t)) := by
    push_cast
    rw [show (-0.5 : ℂ) = -1 / 2 by norm_num]
    ring
  have a2 : ((2 : ℕ) : ℂ) * (R - Complex.log L / 2) = 2 * R - Complex.log L := by push_cast; ring
  rw [a1, a2, Complex.exp_sub, Complex.exp_sub, Complex.exp_sub, Complex.exp_log hL, Complex.exp_log (div_ne_zero hL hE)]
  field_simp

/-- **C116**: and they are equal for real arguments between 0 and 1. -/
theorem sz_real (m : Ousv) {u : ℝ} (hm : m.mr ≠ 0) (hv : m.vov ≠ 0) (h0 : 0 ≤ u) (h1 : u ≤ 1) (hr : m.rho ^ 2 ≤ 1)
    (ha : 0 < m.mr - m.rho * m.vov * u) (hk : m.rho * m.vov / 2 ≤ m.mr) {t : ℝ} (ht : 0 ≤ t) :
    m.logpMgfSz u t = m.logpMgf u t := by
  obtain ⟨L, R, d, hd, hsq, -, hLe, e1, e2⟩ := m.sz_expo (u := u) hm hv (by simpa using h0) (by simpa using h1) hr (by simpa using ha) hk ht
  have eb : (2 * m.mr - m.rho * (2 * m.vov) * u : ℂ) = ((2 * (m.mr - m.rho * m.vov * u) : ℝ) : ℂ) := by push_cast; ring
  set b := 2 * (m.mr - m.rho * m.vov * u) with hb
  have hb0 : 0 < b := by rw [hb]; linarith
  rw [eb] at hsq hLe
  have him : d.im = 0 := by
    have h := congrArg Complex.im hsq
    have e : ((b : ℂ) ^ 2 + 4 * (m.vov : ℂ) ^ 2 * u * (1 - u)) = ((b ^ 2 + 4 * m.vov ^ 2 * u * (1 - u) : ℝ) : ℂ) := by push_cast; ring
    rw [e, Complex.ofReal_im, sq, Complex.mul_im] at h
    have : d.re * d.im = 0 := by linarith
    exact (mul_eq_zero.1 this).resolve_left hd.ne'
  obtain ⟨x, rfl⟩ : ∃ x : ℝ, d = x := ⟨d.re, Complex.ext rfl (by simpa using him)⟩
  rw [Complex.ofReal_re] at hd
  have eE : Complex.exp (-0.5 * (x : ℂ) * t) = ((exp (-(1 / 2) * x * t) : ℝ) : ℂ) := by
    rw [Complex.ofReal_exp]
    congr 1
    push_cast
    norm_num
  rw [eE] at hLe e2
  set e := exp (-(1 / 2) * x * t) with he
  have he0 : 0 < e := exp_pos _
  have he1 : e ≤ 1 := Real.exp_le_one_iff.2 (by nlinarith)
  have eL : L = (((b + x - (b - x) * e ^ 2) / (2 * x) : ℝ) : ℂ) := by rw [hLe]; push_cast; ring
  set l := (b + x - (b - x) * e ^ 2) / (2 * x) with hl
  have hl0 : 0 < l := by
    refine div_pos ?_ (by linarith)
    have : e ^ 2 ≤ 1 := pow_le_one₀ he0.le he1
    have h3 : 0 < e ^ 2 := by positivity
    nlinarith
  rw [e2, logpMgf, e1, eL]
  congr 1
  rw [← Complex.ofReal_div, ← Complex.ofReal_log hl0.le, ← Complex.ofReal_log (div_pos hl0 he0).le, Real.log_div hl0.ne' he0.ne', he, Real.log_exp]
  push_cast
  ring

/-- **C116**: the two integrands of the Schöbel-Zhu price are the moment generating function at `1 + i phi` (share measure) and `i phi`. -/
theorem sz_integrands (m : Ousv) (phi : ℂ) (t : ℝ) : m.f1 phi t = m.logpMgfSz (1 + Complex.I * phi) t ∧ m.f2 phi t = m.logpMgfSz (Complex.I * phi) t := by
  constructor
  · unfold f1 logpMgfSz
    simp only
    have e1 : 0.5 * (1 + Complex.I * phi) * (-(1 + Complex.I * phi) * (1 - (m.rho : ℂ) ^ 2) + (1 - 2 * m.mr * m.rho / m.vov)) =
        0.5 * (1 + Complex.I * phi) * ((1 - 2 * m.mr * m.rho / m.vov) - (1 - (m.rho : ℂ) ^ 2) * (1 + Complex.I * phi)) := by ring
    have e2 : -0.5 * (m.rho : ℂ) * (1 + Complex.I * phi) = -0.5 * (1 + Complex.I * phi) * m.rho := by ring
    rw [e1, e2]
  · unfold f2 logpMgfSz
    simp only
    have e1 : 0.5 * phi * (phi * (1 - (m.rho : ℂ) ^ 2) + Complex.I * (1 - 2 * m.mr * m.rho / m.vov)) =
        0.5 * (Complex.I * phi) * ((1 - 2 * m.mr * m.rho / m.vov) - (1 - (m.rho : ℂ) ^ 2) * (Complex.I * phi)) := by
      have hI : (Complex.I : ℂ) ^ 2 = -1 := Complex.I_sq
      linear_combination (-0.5 * phi ^ 2 * ((m.rho : ℂ) ^ 2 - 1)) * hI
    have e2 : -0.5 * Complex.I * phi * (m.rho : ℂ) = -0.5 * (Complex.I * phi) * m.rho := by ring
    have e3 : 0.5 * Complex.I * phi * (m.rho : ℂ) / m.vov = 0.5 * (Complex.I * phi) * m.rho / m.vov := by ring
    rw [e1, e2, e3]

/-- **C116**: put-call parity of the Schöbel-Zhu price, exactly. -/
theorem sz_parity (m : Ousv) (strike texp : ℝ) {spot : ℝ} (hS : spot ≠ 0) :
    Spec.Parity (m.priceSz strike spot texp 1) (m.priceSz strike spot texp (-1)) (m.mp.df texp) (m.mp.fwd spot texp) strike := by
  have hf : m.mp.fwd spot texp ≠ 0 := by
    unfold MParams.fwd MParams.divf MParams.df
    cases m.mp.isFwd <;> simp [hS, Real.exp_ne_zero]
  unfold Spec.Parity priceSz
  simp only
  generalize Fft.simpson _ _ _ = I
  have : ¬ ((-1 : ℝ) > 0) := by norm_num
  rw [if_pos one_pos, if_neg this]
  field_simp
  ring

/-- The hypotheses of the backward equation are met by ordinary parameters and a complex argument. -/
example : Spec.OusvBackward 4 0.2 0.1 (-0.7) (1 / 2 + 3 * Complex.I)
    (fun t v => Ousv.logpMgf ⟨v, 0.1, -0.7, 4, 0.2, 0, 0, false⟩ (1 / 2 + 3 * Complex.I) t) := by
  have := logp_mgf_backward ⟨0.2, 0.1, -0.7, 4, 0.2, 0, 0, false⟩ (u := 1 / 2 + 3 * Complex.I) (by norm_num) (by norm_num) (by norm_num)
    (by norm_num) (by norm_num) (by norm_num) (by norm_num)
  exact_mod_cast this

example : (Ousv.logpMgfSz ⟨0.2, 0.1, -0.7, 4, 0.2, 0, 0, false⟩ ((0.5 : ℝ) : ℂ) 1) = Ousv.logpMgf ⟨0.2, 0.1, -0.7, 4, 0.2, 0, 0, false⟩ ((0.5 : ℝ) : ℂ) 1 :=
  sz_real _ (by norm_num) (by norm_num) (by norm_num) (by norm_num) (by norm_num) (by norm_num) (by norm_num) (by norm_num)

end Ousv

end PyFENG
