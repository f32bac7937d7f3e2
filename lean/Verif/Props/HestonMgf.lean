import Verif.Model.Heston
import Mathlib.Analysis.SpecialFunctions.Complex.LogDeriv
import Mathlib.Analysis.Calculus.Deriv.Inv
import Mathlib.Tactic.LinearCombination

/-!
# C41: moment generating functions of the CIR and Heston models solve the Kolmogorov equations
-/

namespace PyFENG

open Real Set

/-- Specification (Feynman-Kac): `f t v = E[exp(u ∫_0^t V ds) | V_0 = v]` for the CIR process solves this equation, with `f 0 v = 1`. -/
def Spec.CirFeynmanKac (mr theta sigma u : ℝ) (f : ℝ → ℝ → ℝ) : Prop :=
  (∀ v, f 0 v = 1) ∧ ∀ t v, 0 ≤ t → ∃ ft fv fvv : ℝ, HasDerivAt (fun t => f t v) ft t ∧ HasDerivAt (f t) fv v ∧
    HasDerivAt (deriv (f t)) fvv v ∧ ft = mr * (theta - v) * fv + sigma ^ 2 * v / 2 * fvv + u * v * f t v

namespace Cir

/-- **C41**: `CirModel.mgf` solves the Feynman-Kac equation of the integrated variance, for every admissible argument. -/
theorem mgf_feynman_kac (c : Cir) {u : ℝ} (hk : 0 < c.mr) (hs : c.sigma ≠ 0) (hu : u < c.mr ^ 2 / (2 * c.sigma ^ 2)) :
    Spec.CirFeynmanKac c.mr c.theta c.sigma u (fun t v => c.mgf u t v) := by
  have hrad : 0 < c.mr ^ 2 - 2 * u * c.sigma ^ 2 := by
    rw [lt_div_iff₀ (by positivity)] at hu
    linarith
  have hg := sqrt_pos.2 hrad
  have hg2 := sq_sqrt hrad.le
  refine ⟨fun v => ?_, fun t v ht => ?_⟩
  · unfold mgf logMgf
    simp
  unfold mgf logMgf
  simp only
  generalize √(c.mr ^ 2 - 2 * u * c.sigma ^ 2) = g at *
  have hE1 : ∀ {s : ℝ}, 0 ≤ s → 1 ≤ exp (g * s) := fun hs => one_le_exp (mul_nonneg hg.le hs)
  have hD : 0 < 2 * g + (c.mr + g) * (exp (g * t) - 1) := by
    have := mul_nonneg (add_pos hk hg).le (sub_nonneg.2 (hE1 ht))
    linarith
  have hL : 0 < 1 + (c.mr + g) / (2 * g) * (exp (g * t) - 1) := by
    have := mul_nonneg (div_pos (add_pos hk hg) (mul_pos two_pos hg)).le (sub_nonneg.2 (hE1 ht))
    linarith
  have he : HasDerivAt (fun s => exp (g * s) - 1) (exp (g * t) * (g * 1)) t := (((hasDerivAt_id' t).const_mul g).exp).sub_const 1
  have hDd : HasDerivAt (fun s => 2 * g + (c.mr + g) * (exp (g * s) - 1)) ((c.mr + g) * (exp (g * t) * (g * 1))) t :=
    (he.const_mul (c.mr + g)).const_add (2 * g)
  have hB : HasDerivAt (fun s => 2 * u * (exp (g * s) - 1) / (2 * g + (c.mr + g) * (exp (g * s) - 1))) _ t := (he.const_mul (2 * u)).div hDd hD.ne'
  have hA : HasDerivAt (fun s => c.mr * c.theta / c.sigma ^ 2 * ((c.mr + g) * s - 2 * log (1 + (c.mr + g) / (2 * g) * (exp (g * s) - 1)))) _ t :=
    (((hasDerivAt_id' t).const_mul (c.mr + g)).sub ((((he.const_mul ((c.mr + g) / (2 * g))).const_add 1).log hL.ne').const_mul 2)).const_mul
      (c.mr * c.theta / c.sigma ^ 2)
  set A := c.mr * c.theta / c.sigma ^ 2 * ((c.mr + g) * t - 2 * log (1 + (c.mr + g) / (2 * g) * (exp (g * t) - 1))) with hAdef
  set B := 2 * u * (exp (g * t) - 1) / (2 * g + (c.mr + g) * (exp (g * t) - 1)) with hBdef
  have hdv : ∀ w, HasDerivAt (fun w => exp (A + B * w)) (B * exp (A + B * w)) w := fun w => by
    have := (((hasDerivAt_id' w).const_mul B).const_add A).exp
    refine this.congr_deriv ?_
    ring
  have hdd : (deriv fun w => exp (A + B * w)) = fun w => B * exp (A + B * w) := funext fun w => (hdv w).deriv
  refine ⟨_, _, _, (hA.add (hB.mul_const v)).exp, hdv v, by rw [hdd]; exact (hdv v).const_mul B, ?_⟩
  simp only [Pi.add_apply]
  rw [← hAdef, ← hBdef]
  have hLD : 1 + (c.mr + g) / (2 * g) * (exp (g * t) - 1) = (2 * g + (c.mr + g) * (exp (g * t) - 1)) / (2 * g) := by
    field_simp
  rw [hLD]
  generalize exp (A + B * v) = M
  rw [hBdef]
  have hss : c.sigma ^ 2 ≠ 0 := by positivity
  have hu2 : u = (c.mr ^ 2 - g ^ 2) / (2 * c.sigma ^ 2) := by
    rw [eq_div_iff (by positivity), hg2]; ring
  have hD' := hD.ne'
  rw [hu2]
  generalize exp (g * t) = E at *
  generalize c.sigma ^ 2 = s2 at *
  generalize hDD : 2 * g + (c.mr + g) * (E - 1) = D at *
  have hE : E = (D - 2 * g) / (c.mr + g) + 1 := by
    have : c.mr + g ≠ 0 := (add_pos hk hg).ne'
    field_simp
    linarith
  have hkg : c.mr + g ≠ 0 := (add_pos hk hg).ne'
  rw [hE]
  field_simp
  ring

end Cir

/-- Specification (Kolmogorov backward equation): `f t v = E[(S_t/F)^u | V_0 = v]` for the Heston pair `dX = -V/2 dt + sqrt(V) dZ`,
`dV = mr (theta - V) dt + vov sqrt(V) dW`, `dZ dW = rho dt`, solves this equation with `f 0 v = 1`. -/
def Spec.HestonBackward (mr theta vov rho : ℝ) (u : ℂ) (f : ℝ → ℝ → ℂ) : Prop :=
  (∀ v, f 0 v = 1) ∧ ∀ t v, 0 ≤ t → ∃ ft fv fvv : ℂ, HasDerivAt (fun t => f t v) ft t ∧ HasDerivAt (f t) fv v ∧
    HasDerivAt (deriv (f t)) fvv v ∧
    ft = mr * (theta - v) * fv + vov ^ 2 * v / 2 * fvv + rho * vov * u * v * fv + v / 2 * (u * (u - 1)) * f t v

namespace Heston

/-- Principal square root. -/
lemma csqrt_sq (w : ℂ) : (w ^ (1 / 2 : ℂ)) ^ 2 = w := by
  have := Complex.cpow_ofNat_inv_pow w 2
  rw [one_div]
  exact this

lemma csqrt_re_pos {w : ℂ} (hw : 0 < w.re) : 0 < (w ^ (1 / 2 : ℂ)).re := by
  have hw0 : w ≠ 0 := fun h => by simp [h] at hw
  rw [Complex.cpow_def_of_ne_zero hw0, Complex.exp_re]
  refine mul_pos (exp_pos _) ?_
  have him : (Complex.log w * (1 / 2)).im = Complex.arg w / 2 := by
    rw [show (1 / 2 : ℂ) = ((1 / 2 : ℝ) : ℂ) by push_cast; rfl, Complex.im_mul_ofReal, Complex.log_im]; ring
  rw [him]
  have h := Complex.abs_arg_lt_pi_div_two_iff.2 (Or.inl hw)
  have h2 := abs_lt.1 h
  exact cos_pos_of_mem_Ioo ⟨by linarith [pi_pos], by linarith [pi_pos]⟩

/-- Position of `dd` relative to `beta` in the strip `0 <= Re u <= 1`. -/
lemma beta_dd (m : Heston) {u : ℂ} (h0 : 0 ≤ u.re) (h1 : u.re ≤ 1) (hr : m.rho ^ 2 ≤ 1) (ha : 0 < m.mr - m.rho * m.vov * u.re)
    (hk : m.rho * m.vov / 2 ≤ m.mr) :
    let beta := (m.mr : ℂ) - m.vov * m.rho * u
    let dd := (beta ^ 2 + (m.vov : ℂ) ^ 2 * u * (1 - u)) ^ (1 / 2 : ℂ)
    0 < dd.re ∧ 0 < beta.re * dd.re + beta.im * dd.im := by
  intro beta dd
  have hbr : beta.re = m.mr - m.rho * m.vov * u.re := by
    have e : beta = (m.mr : ℂ) - ((m.vov * m.rho : ℝ) : ℂ) * u := by simp [beta]
    rw [e, Complex.sub_re, Complex.re_ofReal_mul, Complex.ofReal_re]; ring
  have hbi : beta.im = -(m.rho * m.vov * u.im) := by
    have e : beta = (m.mr : ℂ) - ((m.vov * m.rho : ℝ) : ℂ) * u := by simp [beta]
    rw [e, Complex.sub_im, Complex.im_ofReal_mul, Complex.ofReal_im]; ring
  have hwr : (beta ^ 2 + (m.vov : ℂ) ^ 2 * u * (1 - u)).re = beta.re ^ 2 - beta.im ^ 2 + m.vov ^ 2 * (u.re * (1 - u.re) + u.im ^ 2) := by
    simp [pow_two, Complex.mul_re, Complex.mul_im]; ring
  have hwi : (beta ^ 2 + (m.vov : ℂ) ^ 2 * u * (1 - u)).im = 2 * beta.re * beta.im + m.vov ^ 2 * (u.im * (1 - 2 * u.re)) := by
    simp [pow_two, Complex.mul_re, Complex.mul_im]; ring
  have hsq := csqrt_sq (beta ^ 2 + (m.vov : ℂ) ^ 2 * u * (1 - u))
  change dd ^ 2 = _ at hsq
  have hre : dd.re ^ 2 - dd.im ^ 2 = (beta ^ 2 + (m.vov : ℂ) ^ 2 * u * (1 - u)).re := by
    rw [← hsq]; simp [pow_two, Complex.mul_re]
  have him : 2 * (dd.re * dd.im) = (beta ^ 2 + (m.vov : ℂ) ^ 2 * u * (1 - u)).im := by
    rw [← hsq]; simp [pow_two, Complex.mul_im]; ring
  rw [hwr] at hre
  rw [hwi] at him
  have hpp : 0 ≤ u.re * (1 - u.re) := mul_nonneg h0 (by linarith)
  have hv2 := sq_nonneg m.vov
  have hbim : beta.im ^ 2 = m.rho ^ 2 * (m.vov ^ 2 * u.im ^ 2) := by rw [hbi]; ring
  have hvu : 0 ≤ m.vov ^ 2 * u.im ^ 2 := by positivity
  have hbp : 0 < beta.re := by rw [hbr]; exact ha
  have hw : beta.re ^ 2 ≤ beta.re ^ 2 - beta.im ^ 2 + m.vov ^ 2 * (u.re * (1 - u.re) + u.im ^ 2) := by
    have := mul_le_mul_of_nonneg_right hr hvu
    nlinarith [mul_nonneg hv2 hpp]
  have hd : 0 < dd.re := by
    refine csqrt_re_pos ?_
    rw [hwr]
    nlinarith
  refine ⟨hd, ?_⟩
  have hx : 0 < dd.re * (beta.re * dd.re + beta.im * dd.im) := by
    have e : dd.re * (beta.re * dd.re + beta.im * dd.im) = beta.re * dd.re ^ 2
        + beta.im * (beta.re * beta.im + m.vov ^ 2 * (u.im * (1 - 2 * u.re)) / 2) := by
      linear_combination beta.im / 2 * him
    have hx2 : beta.re ^ 2 - beta.im ^ 2 + m.vov ^ 2 * (u.re * (1 - u.re) + u.im ^ 2) ≤ dd.re ^ 2 := by
      rw [← hre]; nlinarith [sq_nonneg dd.im]
    have h3 := mul_le_mul_of_nonneg_left hx2 hbp.le
    have e2 : beta.re * (beta.re ^ 2 - beta.im ^ 2 + m.vov ^ 2 * (u.re * (1 - u.re) + u.im ^ 2))
        + beta.im * (beta.re * beta.im + m.vov ^ 2 * (u.im * (1 - 2 * u.re)) / 2)
        = beta.re ^ 3 + beta.re * (m.vov ^ 2 * (u.re * (1 - u.re))) + m.vov ^ 2 * u.im ^ 2 * (m.mr - m.rho * m.vov / 2) := by
      rw [hbr, hbi]; ring
    have h4 : 0 < beta.re ^ 3 := by positivity
    have h5 : 0 ≤ beta.re * (m.vov ^ 2 * (u.re * (1 - u.re))) := by positivity
    have h6 : 0 ≤ m.vov ^ 2 * u.im ^ 2 * (m.mr - m.rho * m.vov / 2) := mul_nonneg hvu (by linarith)
    rw [e]
    linarith
  exact (pos_iff_pos_of_mul_pos hx).1 hd

/-- Consequences: `|gg| < 1`. -/
lemma gg_lt {beta dd : ℂ} (hb : 0 < beta.re * dd.re + beta.im * dd.im) :
    beta + dd ≠ 0 ∧ ‖(beta - dd) / (beta + dd)‖ < 1 := by
  have hlt : Complex.normSq (beta - dd) < Complex.normSq (beta + dd) := by
    rw [Complex.normSq_apply, Complex.normSq_apply]
    simp only [Complex.sub_re, Complex.sub_im, Complex.add_re, Complex.add_im]
    nlinarith
  have hne : beta + dd ≠ 0 := by
    intro h
    rw [h, map_zero] at hlt
    exact absurd hlt (not_lt.2 (Complex.normSq_nonneg _))
  refine ⟨hne, ?_⟩
  rw [norm_div, div_lt_one (norm_pos_iff.2 hne)]
  rw [Complex.normSq_eq_norm_sq, Complex.normSq_eq_norm_sq] at hlt
  exact lt_of_pow_lt_pow_left₀ 2 (norm_nonneg _) hlt

lemma one_sub_re {z : ℂ} (h : ‖z‖ < 1) : 0 < (1 - z).re := by
  have := (abs_le.1 (Complex.abs_re_le_norm z)).2
  simp only [Complex.sub_re, Complex.one_re]
  linarith

lemma slit_div {a b : ℂ} (ha : 0 < a.re) (hb : 0 < b.re) : a / b ∈ Complex.slitPlane := by
  by_contra h
  rw [Complex.mem_slitPlane_iff, not_or, not_lt, not_not] at h
  have hb0 : b ≠ 0 := fun h => by simp [h] at hb
  have e : a = a / b * b := by field_simp
  have e2 : a.re = (a / b).re * b.re - (a / b).im * b.im := by
    conv_lhs => rw [e]
    exact Complex.mul_re _ _
  rw [h.2] at e2
  have := mul_nonpos_of_nonpos_of_nonneg h.1 hb.le
  linarith

/-- **C41**: as a function of maturity and initial variance, the code's log-price moment generating function solves the Heston backward
equation for every complex argument in the strip `0 <= Re u <= 1`. -/
theorem logp_mgf_backward (m : Heston) {u : ℂ} (hv : m.vov ≠ 0) (h0 : 0 ≤ u.re) (h1 : u.re ≤ 1) (hr : m.rho ^ 2 ≤ 1)
    (ha : 0 < m.mr - m.rho * m.vov * u.re) (hk : m.rho * m.vov / 2 ≤ m.mr) :
    Spec.HestonBackward m.mr m.theta m.vov m.rho u (fun t v => Heston.logpMgf { m with sigma := v } u t) := by
  obtain ⟨hd, hb⟩ := m.beta_dd h0 h1 hr ha hk
  unfold logpMgf logpMgfExpo
  simp only
  have hsq := csqrt_sq (((m.mr : ℂ) - m.vov * m.rho * u) ^ 2 + (m.vov : ℂ) ^ 2 * u * (1 - u))
  set d := (((m.mr : ℂ) - m.vov * m.rho * u) ^ 2 + (m.vov : ℂ) ^ 2 * u * (1 - u)) ^ (1 / 2 : ℂ) with hddef
  obtain ⟨hbd, hg⟩ := gg_lt hb
  have hv' : (m.vov : ℂ) ≠ 0 := by exact_mod_cast hv
  have hd0 : d ≠ 0 := fun h => by rw [h] at hd; simp at hd
  set b := (m.mr : ℂ) - m.vov * m.rho * u with hbdef
  set g := (b - d) / (b + d) with hgdef
  have hg1 : 0 < (1 - g).re := one_sub_re hg
  have hg1' : 1 - g ≠ 0 := fun h => by rw [h] at hg1; simp at hg1
  have hT : ∀ {t : ℝ}, 0 ≤ t → 0 < (1 - g * Complex.exp (-d * t)).re := fun {t} ht => by
    refine one_sub_re ?_
    rw [norm_mul, Complex.norm_exp]
    have : (-d * (t : ℂ)).re ≤ 0 := by
      rw [Complex.re_mul_ofReal, Complex.neg_re]
      nlinarith
    exact lt_of_le_of_lt (mul_le_of_le_one_right (norm_nonneg _) (Real.exp_le_one_iff.2 this)) hg
  refine ⟨fun v => ?_, fun t v ht => ?_⟩
  · simp [div_self hg1']
  have hTt := hT ht
  have hT0 : 1 - g * Complex.exp (-d * t) ≠ 0 := fun h => by rw [h] at hTt; simp at hTt
  have he : HasDerivAt (fun s : ℝ => Complex.exp (-d * s)) (Complex.exp (-d * t) * (-d * 1)) t :=
    (((hasDerivAt_id' t).ofReal_comp).const_mul (-d)).cexp
  have hTd : HasDerivAt (fun s : ℝ => 1 - g * Complex.exp (-d * s)) (-(g * (Complex.exp (-d * t) * (-d * 1)))) t :=
    (he.const_mul g).const_sub 1
  have hL : HasDerivAt (fun s : ℝ => Complex.log ((1 - g * Complex.exp (-d * s)) / (1 - g))) _ t :=
    (hTd.div_const (1 - g)).clog_real (slit_div hTt hg1)
  have hlin : HasDerivAt (fun s : ℝ => (b - d) * (s : ℂ)) ((b - d) * 1) t := ((hasDerivAt_id' t).ofReal_comp).const_mul (b - d)
  have hA := (hlin.sub (hL.const_mul 2)).const_mul ((m.mr : ℂ) * m.theta)
  have hB := ((he.const_sub 1).const_mul ((v : ℂ) * (b - d))).fun_div hTd hT0
  have hft := ((hA.add hB).div_const ((m.vov : ℂ) ^ 2)).cexp
  set A := (m.mr : ℂ) * m.theta * ((b - d) * t - 2 * Complex.log ((1 - g * Complex.exp (-d * t)) / (1 - g))) with hAdef
  set B := (b - d) * (1 - Complex.exp (-d * t)) / (1 - g * Complex.exp (-d * t)) / (m.vov : ℂ) ^ 2 with hBdef
  have hdv : ∀ w : ℝ, HasDerivAt (fun w : ℝ => Complex.exp ((A + (w : ℂ) * (b - d) * (1 - Complex.exp (-d * t)) /
      (1 - g * Complex.exp (-d * t))) / (m.vov : ℂ) ^ 2)) (B * Complex.exp ((A + (w : ℂ) * (b - d) * (1 - Complex.exp (-d * t)) /
      (1 - g * Complex.exp (-d * t))) / (m.vov : ℂ) ^ 2)) w := fun w => by
    have := ((((((hasDerivAt_id' w).ofReal_comp.mul_const (b - d)).mul_const (1 - Complex.exp (-d * t))).div_const
      (1 - g * Complex.exp (-d * t))).const_add A).div_const ((m.vov : ℂ) ^ 2)).cexp
    refine this.congr_deriv ?_
    rw [hBdef]
    push_cast
    ring
  have hdd : (deriv fun w : ℝ => Complex.exp ((A + (w : ℂ) * (b - d) * (1 - Complex.exp (-d * t)) /
      (1 - g * Complex.exp (-d * t))) / (m.vov : ℂ) ^ 2)) = fun w : ℝ => (B * Complex.exp ((A + (w : ℂ) * (b - d) *
      (1 - Complex.exp (-d * t)) / (1 - g * Complex.exp (-d * t))) / (m.vov : ℂ) ^ 2)) := funext fun w => (hdv w).deriv
  refine ⟨_, _, _, hft, hdv v, by rw [hdd]; exact (hdv v).const_mul B, ?_⟩
  simp only [Pi.add_apply, Pi.sub_apply]
  rw [← hAdef]
  have hT0' := hT0
  rw [hBdef]
  generalize Complex.exp ((A + (v : ℂ) * (b - d) * (1 - Complex.exp (-d * t)) / (1 - g * Complex.exp (-d * t))) / (m.vov : ℂ) ^ 2) = M
  generalize Complex.exp (-d * t) = E at *
  have huu : (v : ℂ) / 2 * (u * (u - 1)) = v / 2 * ((b ^ 2 - d ^ 2) / (m.vov : ℂ) ^ 2) := by
    rw [hsq]
    field_simp
    ring
  have hfv : (m.mr : ℂ) * ((m.theta : ℂ) - v) = m.mr * m.theta - (b + m.vov * m.rho * u) * v := by
    rw [hbdef]; ring
  rw [huu, hfv]
  have hgT : 1 - g * E = (b + d - (b - d) * E) / (b + d) := by
    rw [hgdef]; field_simp
  have hg1e : 1 - g = 2 * d / (b + d) := by
    rw [hgdef]; field_simp; ring
  have hN : b + d - (b - d) * E ≠ 0 := fun h => by rw [hgT, h] at hT0; simp at hT0
  rw [hgT, hg1e, hgdef]
  generalize hm1 : (m.mr : ℂ) = k at *
  generalize (m.vov : ℂ) = x at *
  generalize (m.theta : ℂ) = th at *
  generalize (m.rho : ℂ) = rh at *
  generalize (v : ℂ) = w at *
  clear hsq hm1
  clear_value b d
  generalize hND : b + d - (b - d) * E = N at *
  field_simp
  subst hND
  ring

lemma csqrt_ofReal_sq {x : ℝ} (hx : 0 ≤ x) : ((x : ℂ) ^ 2) ^ (1 / 2 : ℂ) = x := by
  have h : ((x : ℂ) ^ 2) = ((x ^ 2 : ℝ) : ℂ) := by push_cast; rfl
  rw [h, show (1 / 2 : ℂ) = ((1 / 2 : ℝ) : ℂ) by push_cast; rfl, ← Complex.ofReal_cpow (sq_nonneg x), ← sqrt_eq_rpow, sqrt_sq hx]

/-- **C41/C33**: the code's moment generating function is normalised: it is 1 at `u = 0` (total probability). -/
theorem logp_mgf_zero (m : Heston) (hk : 0 < m.mr) (t : ℝ) : m.logpMgf 0 t = 1 := by
  unfold logpMgf logpMgfExpo
  have h := csqrt_ofReal_sq hk.le
  rw [one_div] at h
  simp [h]

/-- **C41/C33**: and it is 1 at `u = 1`: the discounted price is a martingale (`E[S_T/F] = 1`), as long as `rho vov < mr`. -/
theorem logp_mgf_one (m : Heston) (hk : m.rho * m.vov < m.mr) (t : ℝ) : m.logpMgf 1 t = 1 := by
  unfold logpMgf logpMgfExpo
  have e : (m.mr : ℂ) - m.vov * m.rho * 1 = ((m.mr - m.rho * m.vov : ℝ) : ℂ) := by push_cast; ring
  simp only [e]
  have h := csqrt_ofReal_sq (x := m.mr - m.rho * m.vov) (by linarith)
  rw [one_div] at h
  simp [-Complex.ofReal_sub, h]

/-- **C41** (disagreement): for `mr <= rho vov` the denominator `beta + dd` of `logp_mgf` vanishes at `u = 1`, so numpy returns NaN although
the true value is 1. -/
theorem logp_mgf_one_singular (m : Heston) (hk : m.mr ≤ m.rho * m.vov) :
    let beta := (m.mr : ℂ) - m.vov * m.rho * 1
    beta + (beta ^ 2 + (m.vov : ℂ) ^ 2 * 1 * (1 - 1)) ^ (1 / 2 : ℂ) = 0 := by
  have e : (m.mr : ℂ) - m.vov * m.rho * 1 = -((m.rho * m.vov - m.mr : ℝ) : ℂ) := by push_cast; ring
  simp only [e]
  have h := csqrt_ofReal_sq (x := m.rho * m.vov - m.mr) (by linarith)
  simp only [even_two, Even.neg_pow, sub_self, mul_zero, add_zero, h]
  ring

example : Spec.HestonBackward 0.5 0.04 1 (-0.9) (1 / 2 + 3 * Complex.I)
    (fun t v => Heston.logpMgf ⟨v, 1, -0.9, 0.5, 0.04, 0, 0, false⟩ (1 / 2 + 3 * Complex.I) t) := by
  have := logp_mgf_backward ⟨0.04, 1, -0.9, 0.5, 0.04, 0, 0, false⟩ (u := 1 / 2 + 3 * Complex.I) (by norm_num) (by norm_num)
    (by norm_num) (by norm_num) (by norm_num) (by norm_num)
  exact_mod_cast this

example : Spec.CirFeynmanKac 0.5 0.04 1 (-3) (fun t v => Cir.mgf ⟨1, 0.5, 0.04⟩ (-3) t v) :=
  Cir.mgf_feynman_kac ⟨1, 0.5, 0.04⟩ (by norm_num) (by norm_num) (by norm_num)

end Heston

end PyFENG
