import Verif.Model.SabrNormApprox
import Verif.Props.SabrInt
import Verif.Props.NsvhGq
import Verif.Lemmas.Follmer
import Verif.Lemmas.Mills

/-!
# The two integrals behind the normal SABR prices

`SabrNormEllipeInt.price` integrates `H_xi` (an elliptic integral) numerically; `SabrNormAnalytic.price` replaces it by its second-order expansion, which is integrated
in closed form, and optionally adds the remainder by a Gauss-Laguerre rule.
-/

namespace PyFENG

open MeasureTheory Real Set Filter Topology Asymptotics

namespace Sabr

/-! ### The elliptic integral -/

/-- The fourth-order Taylor polynomial of the square root, with its error. -/
lemma sqrt_taylor4 {w : ℝ} (hw : |w| ≤ 1 / 2) : |√(1 + w) - (1 + w / 2 - w ^ 2 / 8 + w ^ 3 / 16 - 5 * w ^ 4 / 128)| ≤ |w| ^ 5 := by
  set P := 1 + w / 2 - w ^ 2 / 8 + w ^ 3 / 16 - 5 * w ^ 4 / 128 with hP
  have h := abs_le.1 hw
  have h2 : w ^ 2 ≤ 1 / 4 := by nlinarith
  have h20 := sq_nonneg w
  have h3 : |w ^ 3| ≤ 1 / 8 := by
    rw [abs_pow]
    calc |w| ^ 3 ≤ (1 / 2) ^ 3 := pow_le_pow_left₀ (abs_nonneg _) hw 3
      _ = 1 / 8 := by norm_num
  have h3' := abs_le.1 h3
  have h4 : w ^ 4 ≤ 1 / 16 := by nlinarith
  have h40 : 0 ≤ w ^ 4 := by positivity
  have hPp : 1 / 2 ≤ P := by rw [hP]; linarith [h.1, h3'.1]
  have hs : 0 ≤ √(1 + w) := sqrt_nonneg _
  have hsq : √(1 + w) ^ 2 = 1 + w := sq_sqrt (by linarith [h.1])
  have e : (√(1 + w) - P) * (√(1 + w) + P) = w ^ 5 * (7 / 128 - 7 / 512 * w + 5 / 1024 * w ^ 2 - 25 / 16384 * w ^ 3) := by
    have : (√(1 + w) - P) * (√(1 + w) + P) = (1 + w) - P ^ 2 := by linear_combination hsq
    rw [this, hP]
    ring
  have hR : |7 / 128 - 7 / 512 * w + 5 / 1024 * w ^ 2 - 25 / 16384 * w ^ 3| ≤ 1 / 2 := by
    rw [abs_le]
    constructor <;> linarith [h.1, h.2, h3'.1, h3'.2]
  have hsum : 1 / 2 ≤ √(1 + w) + P := by linarith
  have h5 : |√(1 + w) - P| * (√(1 + w) + P) ≤ |w| ^ 5 * (1 / 2) := by
    rw [← abs_of_pos (by linarith : 0 < √(1 + w) + P), ← abs_mul, e, abs_mul, abs_pow]
    exact mul_le_mul_of_nonneg_left hR (by positivity)
  have h6 : |√(1 + w) - P| * (1 / 2) ≤ |√(1 + w) - P| * (√(1 + w) + P) := mul_le_mul_of_nonneg_left hsum (abs_nonneg _)
  linarith

/-- `∫_0^{π/2} √(1 + y cos 2θ) dθ` to the fourth order. -/
lemma ell_taylor {y : ℝ} (hy0 : 0 ≤ y) (hy : y ≤ 1 / 2) :
    |(∫ t in (0:ℝ)..(π / 2), √(1 + y * cos (2 * t))) - π / 2 * (1 - y ^ 2 / 16 - 15 / 1024 * y ^ 4)| ≤ π / 2 * y ^ 5 := by
  have hint : ∫ t in (0:ℝ)..(π / 2), (1 + (y * cos (2 * t)) / 2 - (y * cos (2 * t)) ^ 2 / 8 + (y * cos (2 * t)) ^ 3 / 16 - 5 * (y * cos (2 * t)) ^ 4 / 128)
      = π / 2 * (1 - y ^ 2 / 16 - 15 / 1024 * y ^ 4) := by
    have hd : ∀ t : ℝ, HasDerivAt (fun t => t + y / 2 * (sin (2 * t) / 2) - y ^ 2 / 8 * (t / 2 + sin (2 * t) * cos (2 * t) / 4)
        + y ^ 3 / 16 * (sin (2 * t) / 2 - sin (2 * t) ^ 3 / 6) - 5 * y ^ 4 / 128 * (3 / 8 * t + 3 / 16 * (sin (2 * t) * cos (2 * t)) + sin (2 * t) * cos (2 * t) ^ 3 / 8))
        (1 + (y * cos (2 * t)) / 2 - (y * cos (2 * t)) ^ 2 / 8 + (y * cos (2 * t)) ^ 3 / 16 - 5 * (y * cos (2 * t)) ^ 4 / 128) t := fun t => by
      have h2 : HasDerivAt (fun t : ℝ => 2 * t) 2 t := by simpa using (hasDerivAt_id' t).const_mul 2
      have hs : HasDerivAt (fun t => sin (2 * t)) (cos (2 * t) * 2) t := h2.sin
      have hc : HasDerivAt (fun t => cos (2 * t)) (-sin (2 * t) * 2) t := h2.cos
      refine (((((hasDerivAt_id' t).fun_add ((hs.div_const 2).const_mul (y / 2))).fun_sub ((((hasDerivAt_id' t).div_const 2).fun_add ((hs.fun_mul hc).div_const 4)).const_mul (y ^ 2 / 8))).fun_add
        (((hs.div_const 2).fun_sub ((hs.fun_pow 3).div_const 6)).const_mul (y ^ 3 / 16))).fun_sub
        (((((hasDerivAt_id' t).const_mul (3 / 8 : ℝ)).fun_add ((hs.fun_mul hc).const_mul (3 / 16 : ℝ))).fun_add ((hs.fun_mul (hc.fun_pow 3)).div_const 8)).const_mul (5 * y ^ 4 / 128))).congr_deriv ?_
      have e1 : sin (2 * t) ^ 2 = 1 - cos (2 * t) ^ 2 := by rw [sin_sq]
      push_cast
      generalize cos (2 * t) = c at *
      generalize sin (2 * t) = s at *
      linear_combination (y ^ 2 / 16 - y ^ 3 / 16 * c + 5 * y ^ 4 / 128 * (3 / 8 + 3 / 4 * c ^ 2)) * e1
    rw [intervalIntegral.integral_eq_sub_of_hasDerivAt (fun t _ => hd t) (Continuous.intervalIntegrable (by fun_prop) _ _)]
    have : 2 * (π / 2) = π := by ring
    simp [this]
    ring
  rw [← hint, ← intervalIntegral.integral_sub (Continuous.intervalIntegrable (by fun_prop) _ _) (Continuous.intervalIntegrable (by fun_prop) _ _)]
  have := intervalIntegral.norm_integral_le_of_norm_le_const (a := 0) (b := π / 2) (C := y ^ 5)
    (f := fun t => √(1 + y * cos (2 * t)) - (1 + (y * cos (2 * t)) / 2 - (y * cos (2 * t)) ^ 2 / 8 + (y * cos (2 * t)) ^ 3 / 16 - 5 * (y * cos (2 * t)) ^ 4 / 128)) fun t _ => ?_
  · rw [Real.norm_eq_abs, sub_zero, abs_of_pos (by positivity : 0 < π / 2)] at this
    linarith
  · have hc : |y * cos (2 * t)| ≤ y := by
      rw [abs_mul, abs_of_nonneg hy0]
      exact mul_le_of_le_one_right hy0 (abs_cos_le_one _)
    exact (sqrt_taylor4 (hc.trans hy)).trans (pow_le_pow_left₀ (abs_nonneg _) hc 5)

section Geometry

variable {k xi rho : ℝ}

/-- `a(u) = ρk + (1-ρ²) cosh(2ξu)`. -/
noncomputable def aFun (rho k xi u : ℝ) : ℝ := rho * k + (1 - rho ^ 2) * cosh (2 * xi * u)

/-- The lower limit `u0`. -/
noncomputable def uZero (rho k xi : ℝ) : ℝ := arsinh |(rho * √(k ^ 2 + (1 - rho ^ 2)) - k) / (1 - rho ^ 2)| / (2 * xi)

lemma V_pos (hr : 0 < 1 - rho ^ 2) : 0 < √(k ^ 2 + (1 - rho ^ 2)) := sqrt_pos.2 (by positivity)

lemma V_sq (hr : 0 < 1 - rho ^ 2) : √(k ^ 2 + (1 - rho ^ 2)) ^ 2 = k ^ 2 + (1 - rho ^ 2) := sq_sqrt (by positivity)

lemma sinh_u0 (hxi : 0 < xi) : sinh (2 * xi * uZero rho k xi) = |(rho * √(k ^ 2 + (1 - rho ^ 2)) - k) / (1 - rho ^ 2)| := by
  unfold uZero
  rw [mul_div_cancel₀ _ (by positivity), sinh_arsinh]

lemma u0_nonneg (hxi : 0 < xi) : 0 ≤ uZero rho k xi := by
  unfold uZero
  exact div_nonneg (arsinh_nonneg_iff.2 (abs_nonneg _)) (by positivity)

lemma V_gt (hr : 0 < 1 - rho ^ 2) : 0 < √(k ^ 2 + (1 - rho ^ 2)) - rho * k := by
  have h1 := V_sq (k := k) hr
  have h2 := V_pos (k := k) hr
  generalize √(k ^ 2 + (1 - rho ^ 2)) = V at *
  by_contra hc
  push Not at hc
  have h3 : V ^ 2 ≤ (rho * k) ^ 2 := by nlinarith
  have : 0 ≤ (1 - rho ^ 2) * k ^ 2 := by positivity
  nlinarith

lemma cosh_u0 (hr : 0 < 1 - rho ^ 2) (hxi : 0 < xi) : cosh (2 * xi * uZero rho k xi) = (√(k ^ 2 + (1 - rho ^ 2)) - rho * k) / (1 - rho ^ 2) := by
  have hs := sinh_u0 (rho := rho) (k := k) hxi
  have h1 := V_sq (k := k) hr
  have h2 := V_gt (k := k) hr
  have hc := cosh_sq (2 * xi * uZero rho k xi)
  rw [hs, sq_abs] at hc
  have hp := cosh_pos (2 * xi * uZero rho k xi)
  generalize cosh (2 * xi * uZero rho k xi) = c at *
  generalize √(k ^ 2 + (1 - rho ^ 2)) = V at *
  have : c ^ 2 = ((V - rho * k) / (1 - rho ^ 2)) ^ 2 := by
    rw [hc, div_pow, div_pow, div_add_one (by positivity)]
    congr 1
    linear_combination (-(1 - rho ^ 2)) * h1
  rw [← sq_eq_sq₀ hp.le (by positivity)]
  exact this

lemma aFun_u0 (hr : 0 < 1 - rho ^ 2) (hxi : 0 < xi) : aFun rho k xi (uZero rho k xi) = √(k ^ 2 + (1 - rho ^ 2)) := by
  unfold aFun
  rw [cosh_u0 hr hxi, mul_div_cancel₀ _ hr.ne']
  ring

lemma aFun_ge (hr : 0 < 1 - rho ^ 2) (hxi : 0 < xi) {u : ℝ} (hu : uZero rho k xi ≤ u) : √(k ^ 2 + (1 - rho ^ 2)) ≤ aFun rho k xi u := by
  rw [← aFun_u0 hr hxi]
  unfold aFun
  have : cosh (2 * xi * uZero rho k xi) ≤ cosh (2 * xi * u) := by
    rw [cosh_le_cosh, abs_of_nonneg (mul_nonneg (by positivity) (u0_nonneg hxi)), abs_of_nonneg (mul_nonneg (by positivity) ((u0_nonneg hxi).trans hu))]
    exact mul_le_mul_of_nonneg_left hu (by positivity)
  have := mul_le_mul_of_nonneg_left this hr.le
  linarith

/-- `H_xi` in terms of `a(u)`: `H = √a ∫_0^{π/2} √(1 + y cos 2θ) dθ`, `y² = 1 - (V/a)²`. -/
lemma hhXi_eq (hr : 0 < 1 - rho ^ 2) (hxi : 0 < xi) {u : ℝ} (hu : uZero rho k xi ≤ u) :
    hhXi u k xi rho = √(aFun rho k xi u) * ∫ t in (0:ℝ)..(π / 2), √(1 + √(1 - (√(k ^ 2 + (1 - rho ^ 2)) / aFun rho k xi u) ^ 2) * cos (2 * t)) := by
  have hge := aFun_ge hr hxi hu
  have hV := V_pos (k := k) hr
  have hV2 := V_sq (k := k) hr
  unfold hhXi ellipe
  simp only
  have hD : (1 - rho ^ 2) * (cosh (2 * xi * u) ^ 2 - 1 - (k - rho * cosh (2 * xi * u)) ^ 2) = aFun rho k xi u ^ 2 - √(k ^ 2 + (1 - rho ^ 2)) ^ 2 := by
    rw [hV2]
    unfold aFun
    ring
  have ha : rho * k + (1 - rho ^ 2) * cosh (2 * xi * u) = aFun rho k xi u := rfl
  rw [hD, ha]
  generalize aFun rho k xi u = a at *
  generalize √(k ^ 2 + (1 - rho ^ 2)) = V at *
  have ha0 : 0 < a := hV.trans_le hge
  have hD0 : 0 ≤ a ^ 2 - V ^ 2 := by nlinarith
  rw [max_eq_left hD0]
  have hd : √(a ^ 2 - V ^ 2) = a * √(1 - (V / a) ^ 2) := by
    rw [show a ^ 2 - V ^ 2 = a ^ 2 * (1 - (V / a) ^ 2) by field_simp, sqrt_mul (by positivity), sqrt_sq ha0.le]
  have hy1 : √(1 - (V / a) ^ 2) ≤ 1 := by
    rw [sqrt_le_one]
    have : 0 ≤ (V / a) ^ 2 := by positivity
    linarith
  have hy0 := sqrt_nonneg (1 - (V / a) ^ 2)
  rw [hd]
  generalize √(1 - (V / a) ^ 2) = y at *
  have hvp : 0 < a + a * y := by positivity
  rw [max_eq_left hvp.le, min_eq_left (by rw [div_le_one hvp]; nlinarith), ← intervalIntegral.integral_const_mul, ← intervalIntegral.integral_const_mul]
  refine intervalIntegral.integral_congr fun t _ => ?_
  show √(a + a * y) * √(1 - 2 * (a * y) / (a + a * y) * sin t ^ 2) = √a * √(1 + y * cos (2 * t))
  rw [← sqrt_mul hvp.le, ← sqrt_mul ha0.le]
  congr 1
  rw [cos_two_mul, cos_sq']
  field_simp
  ring

/-- Second-order expansion with a continuous second derivative, from the right. -/
lemma taylor2_littleO {f f' f'' : ℝ → ℝ} {x : ℝ} (h1 : ∀ z, x ≤ z → HasDerivAt f (f' z) z) (h2 : ∀ z, x ≤ z → HasDerivAt f' (f'' z) z) (hc : ContinuousAt f'' x) :
    (fun y => f y - f x - f' x * (y - x) - f'' x / 2 * (y - x) ^ 2) =o[𝓝[≥] x] fun y => (y - x) ^ 2 := by
  rw [isLittleO_iff]
  intro ε hε
  obtain ⟨δ, hδ, h⟩ := Metric.continuousAt_iff.1 hc ε hε
  filter_upwards [self_mem_nhdsWithin, mem_nhdsWithin_of_mem_nhds (Metric.ball_mem_nhds x hδ)] with y hy hyb
  have hy : x ≤ y := hy
  have hyb : |y - x| < δ := hyb
  have := Follmer.taylor2 (f := f) (f' := f') (f'' := f'') (x := x) (y := y) (ε := ε) (fun z hz => h1 z (by rw [uIcc_of_le hy] at hz; exact hz.1))
    (fun z hz => h2 z (by rw [uIcc_of_le hy] at hz; exact hz.1)) (fun z hz => by
      rw [uIcc_of_le hy] at hz
      have : dist z x < δ := by
        rw [Real.dist_eq, abs_of_nonneg (by linarith [hz.1])]
        rw [abs_of_nonneg (by linarith)] at hyb
        linarith [hz.2]
      have := h this
      rw [Real.dist_eq] at this
      exact this.le)
  rw [Real.norm_eq_abs, Real.norm_eq_abs, abs_of_nonneg (sq_nonneg (y - x))]
  exact this

/-- The fourth-order form of `H_xi`, as a function of `z = a/V`. -/
noncomputable def phi (z : ℝ) : ℝ := (945 * z ^ (1 / 2 : ℝ) + 94 * z ^ (-3 / 2 : ℝ) - 15 * z ^ (-7 / 2 : ℝ)) / 1024

lemma phi_eq {z : ℝ} (hz : 0 < z) : phi z = √z * (1 - (1 - (1 / z) ^ 2) / 16 - 15 / 1024 * (1 - (1 / z) ^ 2) ^ 2) := by
  unfold phi
  have e1 : z ^ (1 / 2 : ℝ) = √z := (sqrt_eq_rpow z).symm
  have e2 : z ^ (-3 / 2 : ℝ) = √z * (1 / z) ^ 2 := by
    rw [show (-3 / 2 : ℝ) = 1 / 2 - (2:ℕ) by norm_num, rpow_sub_natCast hz.ne', e1]
    field_simp
  have e3 : z ^ (-7 / 2 : ℝ) = √z * (1 / z) ^ 4 := by
    rw [show (-7 / 2 : ℝ) = 1 / 2 - (4:ℕ) by norm_num, rpow_sub_natCast hz.ne', e1]
    field_simp
  rw [e1, e2, e3]
  ring

/-- `z(u) = a(u)/V`. -/
noncomputable def zFun (rho k xi u : ℝ) : ℝ := aFun rho k xi u / √(k ^ 2 + (1 - rho ^ 2))

lemma phi_expansion (hr : 0 < 1 - rho ^ 2) (hxi : 0 < xi) :
    (fun u => phi (zFun rho k xi u) - 1 - 3 / 4 * xi * |rho - k / √(k ^ 2 + (1 - rho ^ 2))| * (u - uZero rho k xi)
      - (3 / 4 * xi ^ 2 * (1 - rho * k / √(k ^ 2 + (1 - rho ^ 2))) - 15 / 64 * xi ^ 2 * |rho - k / √(k ^ 2 + (1 - rho ^ 2))| ^ 2) * (u - uZero rho k xi) ^ 2)
      =o[𝓝[≥] uZero rho k xi] fun u => (u - uZero rho k xi) ^ 2 := by
  have hV := V_pos (k := k) hr
  have hge := fun u (hu : uZero rho k xi ≤ u) => aFun_ge hr hxi hu
  have hz1 : zFun rho k xi (uZero rho k xi) = 1 := by unfold zFun; rw [aFun_u0 hr hxi, div_self hV.ne']
  have hs0 := sinh_u0 (rho := rho) (k := k) hxi
  have hc0 := cosh_u0 (k := k) hr hxi
  have hzge : ∀ u, uZero rho k xi ≤ u → 1 ≤ zFun rho k xi u := fun u hu => by unfold zFun; rw [le_div_iff₀ hV, one_mul]; exact hge u hu
  set V := √(k ^ 2 + (1 - rho ^ 2)) with hVdef
  set z := zFun rho k xi with hzdef
  set z' : ℝ → ℝ := fun u => (1 - rho ^ 2) * (2 * xi * sinh (2 * xi * u)) / V with hz'
  set z'' : ℝ → ℝ := fun u => (1 - rho ^ 2) * (2 * xi * (2 * xi * cosh (2 * xi * u))) / V with hz''
  have dl : ∀ u : ℝ, HasDerivAt (fun u : ℝ => 2 * xi * u) (2 * xi) u := fun u => by simpa using (hasDerivAt_id' u).const_mul (2 * xi)
  have dz : ∀ u, HasDerivAt z (z' u) u := fun u => by
    have := ((((dl u).cosh.const_mul (1 - rho ^ 2)).const_add (rho * k)).div_const V)
    refine HasDerivAt.congr_deriv this ?_
    simp only [hz']
    ring
  have dz' : ∀ u, HasDerivAt z' (z'' u) u := fun u => by
    have := (((((dl u).sinh.const_mul (2 * xi)).const_mul (1 - rho ^ 2))).div_const V)
    refine HasDerivAt.congr_deriv this ?_
    simp only [hz'']
    ring
  have dp : ∀ (p u : ℝ), uZero rho k xi ≤ u → HasDerivAt (fun u => z u ^ p) (z' u * p * z u ^ (p - 1)) u := fun p u hu =>
    (dz u).rpow_const (Or.inl (by linarith [hzge u hu]))
  have dp2 : ∀ (p u : ℝ), uZero rho k xi ≤ u → HasDerivAt (fun u => z' u * p * z u ^ (p - 1)) (z'' u * p * z u ^ (p - 1) + z' u * p * (z' u * (p - 1) * z u ^ (p - 1 - 1))) u := fun p u hu =>
    ((dz' u).mul_const p).fun_mul (dp (p - 1) u hu)
  have hzc : Continuous z := continuous_iff_continuousAt.2 fun u => (dz u).continuousAt
  have hz'c : Continuous z' := by rw [hz']; fun_prop
  have hz''c : Continuous z'' := by rw [hz'']; fun_prop
  have cp : ∀ p : ℝ, ContinuousAt (fun u => z'' u * p * z u ^ (p - 1) + z' u * p * (z' u * (p - 1) * z u ^ (p - 1 - 1))) (uZero rho k xi) := fun p => by
    have c1 : ∀ q : ℝ, ContinuousAt (fun u => z u ^ q) (uZero rho k xi) := fun q => hzc.continuousAt.rpow_const (Or.inl (by rw [hz1]; exact one_ne_zero))
    exact ((hz''c.continuousAt.mul continuousAt_const).mul (c1 _)).add ((hz'c.continuousAt.mul continuousAt_const).mul ((hz'c.continuousAt.mul continuousAt_const).mul (c1 _)))
  have T := taylor2_littleO (x := uZero rho k xi) (f := fun u => phi (z u))
    (f' := fun u => (945 * (z' u * (1 / 2) * z u ^ ((1 / 2 : ℝ) - 1)) + 94 * (z' u * (-3 / 2) * z u ^ ((-3 / 2 : ℝ) - 1)) - 15 * (z' u * (-7 / 2) * z u ^ ((-7 / 2 : ℝ) - 1))) / 1024)
    (f'' := fun u => (945 * (z'' u * (1 / 2) * z u ^ ((1 / 2 : ℝ) - 1) + z' u * (1 / 2) * (z' u * ((1 / 2) - 1) * z u ^ ((1 / 2 : ℝ) - 1 - 1)))
      + 94 * (z'' u * (-3 / 2) * z u ^ ((-3 / 2 : ℝ) - 1) + z' u * (-3 / 2) * (z' u * ((-3 / 2) - 1) * z u ^ ((-3 / 2 : ℝ) - 1 - 1)))
      - 15 * (z'' u * (-7 / 2) * z u ^ ((-7 / 2 : ℝ) - 1) + z' u * (-7 / 2) * (z' u * ((-7 / 2) - 1) * z u ^ ((-7 / 2 : ℝ) - 1 - 1)))) / 1024)
    (fun u hu => ((((dp _ u hu).const_mul 945).fun_add ((dp _ u hu).const_mul 94)).fun_sub ((dp _ u hu).const_mul 15)).div_const 1024)
    (fun u hu => ((((dp2 _ u hu).const_mul 945).fun_add ((dp2 _ u hu).const_mul 94)).fun_sub ((dp2 _ u hu).const_mul 15)).div_const 1024)
    ((((continuousAt_const.mul (cp _)).add (continuousAt_const.mul (cp _))).sub (continuousAt_const.mul (cp _))).div_const 1024)
  have ez' : z' (uZero rho k xi) = 2 * xi * |rho - k / V| := by
    simp only [hz', hs0]
    rw [abs_div, abs_of_pos hr, show rho - k / V = (rho * V - k) / V by field_simp, abs_div, abs_of_pos hV]
    field_simp
  have ez'' : z'' (uZero rho k xi) = 4 * xi ^ 2 * (1 - rho * k / V) := by
    simp only [hz'', hc0]
    field_simp
    ring
  refine T.congr_left fun u => ?_
  simp only [hz1, one_rpow, ez', ez'', show phi 1 = 1 by unfold phi; simp only [one_rpow]; norm_num]
  ring

/-- **C145.** `hh_xi_approx` is the second-order expansion of `H_xi` at the lower limit of integration: for every strike, correlation inside `(-1, 1)` and `xi > 0` the difference is `o((u - u0)²)` as `u ↓ u0`. -/
theorem hhXiApprox_second_order (hr : |rho| < 1) (hxi : 0 < xi) :
    (fun u => hhXi u k xi rho - hhXiApprox u k xi rho) =o[𝓝[≥] (arsinh |(rho * √(k ^ 2 + (1 - rho ^ 2)) - k) / (1 - rho ^ 2)| / (2 * xi))]
      fun u => (u - arsinh |(rho * √(k ^ 2 + (1 - rho ^ 2)) - k) / (1 - rho ^ 2)| / (2 * xi)) ^ 2 := by
  have hr : 0 < 1 - rho ^ 2 := by have := (sq_lt_one_iff_abs_lt_one rho).2 hr; linarith
  change (fun u => hhXi u k xi rho - hhXiApprox u k xi rho) =o[𝓝[≥] (uZero rho k xi)] fun u => (u - uZero rho k xi) ^ 2
  have hV := V_pos (k := k) hr
  have hE := phi_expansion (k := k) hr hxi
  have hge := fun u (hu : uZero rho k xi ≤ u) => aFun_ge hr hxi hu
  have hHeq := fun u (hu : uZero rho k xi ≤ u) => hhXi_eq hr hxi hu
  have ha0 := aFun_u0 (k := k) hr hxi
  set u0 := uZero rho k xi with hu0
  have hac : Continuous (aFun rho k xi) := by unfold aFun; fun_prop
  have had : ∃ D, HasDerivAt (aFun rho k xi) D u0 := by
    have : Differentiable ℝ (aFun rho k xi) := by unfold aFun; fun_prop
    exact ⟨_, (this u0).hasDerivAt⟩
  -- `y² = 1 - (V/a)²` is `O(u - u0)`
  set w : ℝ → ℝ := fun u => 1 - (√(k ^ 2 + (1 - rho ^ 2)) / aFun rho k xi u) ^ 2 with hw
  have hw0 : w u0 = 0 := by simp only [hw]; rw [ha0, div_self hV.ne']; norm_num
  have hwO : w =O[𝓝 u0] fun u => u - u0 := by
    obtain ⟨D, hD⟩ := had
    have hd : HasDerivAt w _ u0 := (((hasDerivAt_const u0 (√(k ^ 2 + (1 - rho ^ 2)))).fun_div hD (by rw [ha0]; exact hV.ne')).fun_pow 2).const_sub 1
    have := hd.isBigO_sub
    rw [hw0] at this
    simpa using this
  have hwc : Tendsto w (𝓝 u0) (𝓝 0) := by
    have : ContinuousAt w u0 := by
      refine continuousAt_const.sub (ContinuousAt.pow (continuousAt_const.div hac.continuousAt (by rw [ha0]; exact hV.ne')) 2)
    rw [← hw0]
    exact this
  have hsmall : (fun u => √(aFun rho k xi u) * (π / 2) * √(w u) ^ 5) =o[𝓝[≥] u0] fun u => (u - u0) ^ 2 := by
    have h1 : (fun u => (√(aFun rho k xi u) * (π / 2) * √(w u)) * (w u) ^ 2) =o[𝓝[≥] u0] fun u => 1 * (u - u0) ^ 2 := by
      refine IsLittleO.mul_isBigO ?_ ((hwO.pow 2).mono nhdsWithin_le_nhds)
      rw [isLittleO_one_iff]
      have : Tendsto (fun u => √(aFun rho k xi u) * (π / 2) * √(w u)) (𝓝 u0) (𝓝 (√(aFun rho k xi u0) * (π / 2) * √0)) :=
        (((hac.sqrt.tendsto u0)).mul_const _).mul hwc.sqrt
      rw [sqrt_zero, mul_zero] at this
      exact this.mono_left nhdsWithin_le_nhds
    refine (h1.congr' ?_ (Eventually.of_forall fun u => one_mul _))
    filter_upwards [self_mem_nhdsWithin] with u hu
    have hw0' : 0 ≤ w u := by
      simp only [hw]
      have h1 := hge u hu
      have : √(k ^ 2 + (1 - rho ^ 2)) / aFun rho k xi u ≤ 1 := (div_le_one (hV.trans_le h1)).2 h1
      have h0 : 0 ≤ √(k ^ 2 + (1 - rho ^ 2)) / aFun rho k xi u := div_nonneg hV.le (hV.le.trans h1)
      nlinarith
    have := sq_sqrt hw0'
    generalize √(w u) = s at *
    rw [← this]
    ring
  have hA : (fun u => hhXi u k xi rho - √(√(k ^ 2 + (1 - rho ^ 2))) * (π / 2) * phi (zFun rho k xi u)) =o[𝓝[≥] u0] fun u => (u - u0) ^ 2 := by
    refine IsBigO.trans_isLittleO ?_ hsmall
    refine IsBigO.of_bound 1 ?_
    have hev : ∀ᶠ u in 𝓝 u0, w u ≤ 1 / 4 := hwc.eventually (ge_mem_nhds (by norm_num))
    filter_upwards [self_mem_nhdsWithin, nhdsWithin_le_nhds hev] with u hu hwu
    have hu : u0 ≤ u := hu
    have h1 := hge u hu
    have ha : 0 < aFun rho k xi u := hV.trans_le h1
    have hw0' : 0 ≤ w u := by
      simp only [hw]
      have : √(k ^ 2 + (1 - rho ^ 2)) / aFun rho k xi u ≤ 1 := (div_le_one ha).2 h1
      have h0 : 0 ≤ √(k ^ 2 + (1 - rho ^ 2)) / aFun rho k xi u := div_nonneg hV.le ha.le
      nlinarith
    have hy : √(w u) ≤ 1 / 2 := by rw [sqrt_le_left (by norm_num)]; linarith
    have hell := ell_taylor (sqrt_nonneg (w u)) hy
    have hz : 0 < zFun rho k xi u := div_pos ha hV
    have hzw : (1 / zFun rho k xi u) ^ 2 = 1 - w u := by
      simp only [hw, zFun]
      rw [one_div_div]
      ring
    have hp : √(√(k ^ 2 + (1 - rho ^ 2))) * (π / 2) * phi (zFun rho k xi u) = √(aFun rho k xi u) * (π / 2 * (1 - √(w u) ^ 2 / 16 - 15 / 1024 * √(w u) ^ 4)) := by
      rw [phi_eq hz, hzw, show √(w u) ^ 4 = (√(w u) ^ 2) ^ 2 by ring, sq_sqrt hw0']
      have : √(aFun rho k xi u) = √(√(k ^ 2 + (1 - rho ^ 2))) * √(zFun rho k xi u) := by
        rw [← sqrt_mul hV.le]
        congr 1
        unfold zFun
        field_simp
      rw [this]
      ring
    rw [hHeq u hu, hp, ← mul_sub, one_mul, Real.norm_eq_abs, Real.norm_eq_abs, abs_mul, abs_of_nonneg (sqrt_nonneg _),
      abs_of_nonneg (by positivity : 0 ≤ √(aFun rho k xi u) * (π / 2) * √(w u) ^ 5), mul_assoc]
    exact mul_le_mul_of_nonneg_left hell (sqrt_nonneg _)
  have hB := hE.const_mul_left (√(√(k ^ 2 + (1 - rho ^ 2))) * (π / 2))
  refine (hA.add hB).congr_left fun u => ?_
  unfold hhXiApprox
  simp only
  rw [show (0.75:ℝ) = 3 / 4 by norm_num]
  change _ = hhXi u k xi rho - _ * (1 + xi * (u - u0) * (_ + _ * xi * (u - u0)))
  ring

/-! ### The integrals -/

/-- The weight `n(u) (R(u+ξ) + R(u-ξ))`. -/
noncomputable def wgt (xi u : ℝ) : ℝ := npdf u * (millsRatio (u + xi) + millsRatio (u - xi))

lemma continuous_mR : Continuous mR := continuous_iff_continuousAt.2 fun x => (hasDerivAt_mR x).continuousAt

lemma tendsto_mR : Tendsto mR atTop (𝓝 0) := by
  refine tendsto_of_tendsto_of_tendsto_of_le_of_le' tendsto_const_nhds tendsto_inv_atTop_zero (Eventually.of_forall fun x => (mR_pos x).le) ?_
  filter_upwards [eventually_gt_atTop 0] with x hx
  have := mR_deriv_neg x
  rw [← one_div, le_div_iff₀ hx]
  linarith

lemma wgt_eq (xi u : ℝ) : wgt xi u = npdf u * (mR (u + xi) + mR (u - xi)) := by unfold wgt; rw [millsRatio_eq, millsRatio_eq]

lemma continuous_wgt (xi : ℝ) : Continuous (wgt xi) := by
  have := continuous_mR
  have := continuous_npdf
  rw [show wgt xi = fun u => npdf u * (mR (u + xi) + mR (u - xi)) from funext (wgt_eq xi)]
  fun_prop

lemma wgt_nonneg (xi u : ℝ) : 0 ≤ wgt xi u := by
  rw [wgt_eq]
  exact mul_nonneg (npdf_pos u).le (add_nonneg (mR_pos _).le (mR_pos _).le)

lemma wgt_le (xi : ℝ) {u0 u : ℝ} (hu : u0 ≤ u) : wgt xi u ≤ npdf u * (mR (u0 + xi) + mR (u0 - xi)) := by
  rw [wgt_eq]
  refine mul_le_mul_of_nonneg_left (add_le_add ?_ ?_) (npdf_pos u).le
  · exact strictAnti_mR.antitone (by linarith)
  · exact strictAnti_mR.antitone (by linarith)

lemma integrable_wgt (xi : ℝ) {u0 : ℝ} {f : ℝ → ℝ} (hf : ContinuousOn f (Ioi u0)) {C c : ℝ} (hb : ∀ u, u0 < u → |f u| ≤ C * exp (c * u)) :
    IntegrableOn (fun u => f u * wgt xi u) (Ioi u0) := by
  have hi : Integrable fun u => (C * (mR (u0 + xi) + mR (u0 - xi))) * (npdf u * exp (c * u)) := (integrable_npdf_mul_exp c).const_mul _
  refine Integrable.mono' hi.integrableOn ((hf.mul (continuous_wgt xi).continuousOn).aestronglyMeasurable measurableSet_Ioi) ?_
  refine (ae_restrict_iff' measurableSet_Ioi).2 (ae_of_all _ fun u hu => ?_)
  have hu : u0 < u := hu
  rw [Real.norm_eq_abs, abs_mul, abs_of_nonneg (wgt_nonneg xi u)]
  have h1 := hb u hu
  have h2 := wgt_le xi hu.le
  calc |f u| * wgt xi u ≤ (C * exp (c * u)) * (npdf u * (mR (u0 + xi) + mR (u0 - xi))) := mul_le_mul h1 h2 (wgt_nonneg xi u) ((abs_nonneg _).trans h1)
    _ = _ := by ring

lemma tendsto_npdf_pow (c0 c1 c2 : ℝ) : Tendsto (fun u => (c0 + c1 * u + c2 * u ^ 2) * npdf u) atTop (𝓝 0) := by
  have key : ∀ j : ℕ, Tendsto (fun u : ℝ => u ^ j * npdf u) atTop (𝓝 0) := fun j => by
    have h := (tendsto_pow_mul_exp_neg_atTop_nhds_zero j).mul_const (exp (1 / 2) / √(2 * π))
    rw [zero_mul] at h
    refine tendsto_of_tendsto_of_tendsto_of_le_of_le' tendsto_const_nhds h ?_ ?_
    · filter_upwards [eventually_ge_atTop 0] with x hx
      exact mul_nonneg (pow_nonneg hx j) (npdf_pos x).le
    · filter_upwards [eventually_ge_atTop 0] with x hx
      unfold npdf
      rw [mul_assoc, mul_div_assoc' (exp (-x)), ← exp_add]
      refine mul_le_mul_of_nonneg_left ?_ (pow_nonneg hx j)
      gcongr
      nlinarith [sq_nonneg (x - 1)]
  have := (((key 0).const_mul c0).add ((key 1).const_mul c1)).add ((key 2).const_mul c2)
  simp only [mul_zero, add_zero] at this
  refine this.congr fun u => ?_
  ring

/-- The closed form of the integral of a quadratic polynomial against the weight. -/
lemma integral_poly_wgt (hxi : 0 < xi) (u0 A B : ℝ) : IntegrableOn (fun u => (1 + xi * (u - u0) * (A + B * xi * (u - u0))) * wgt xi u) (Ioi u0) ∧
    ∫ u in Ioi u0, (1 + xi * (u - u0) * (A + B * xi * (u - u0))) * wgt xi u =
      npdf u0 * (((mR (u0 - xi) - mR (u0 + xi)) + A * (mR (u0 - xi) + mR (u0 + xi) - 2 * mR u0) + 2 * B * (mR (u0 - xi) - mR (u0 + xi) - 2 * xi * (1 - u0 * mR u0))) / xi) := by
  have hI : IntegrableOn (fun u => (1 + xi * (u - u0) * (A + B * xi * (u - u0))) * wgt xi u) (Ioi u0) := by
    refine integrable_wgt xi (by fun_prop) (C := (1 + |A * xi| + 2 * |B * xi ^ 2|) * exp (-u0)) (c := 1) fun u hu => ?_
    have hy : 0 ≤ u - u0 := by linarith
    have he : exp (-u0) * exp (1 * u) = exp (u - u0) := by rw [← exp_add]; ring_nf
    rw [mul_assoc (1 + |A * xi| + 2 * |B * xi ^ 2|), he]
    have e1 : 1 ≤ exp (u - u0) := one_le_exp hy
    have e2 : u - u0 ≤ exp (u - u0) := by linarith [add_one_le_exp (u - u0)]
    have e3 : (u - u0) ^ 2 ≤ 2 * exp (u - u0) := by
      have := quadratic_le_exp_of_nonneg hy
      linarith
    have h1 : |A * xi * (u - u0)| ≤ |A * xi| * exp (u - u0) := by rw [abs_mul, abs_of_nonneg hy]; exact mul_le_mul_of_nonneg_left e2 (abs_nonneg _)
    have h2 : |B * xi ^ 2 * (u - u0) ^ 2| ≤ |B * xi ^ 2| * (2 * exp (u - u0)) := by rw [abs_mul, abs_of_nonneg (sq_nonneg (u - u0))]; exact mul_le_mul_of_nonneg_left e3 (abs_nonneg _)
    have h1' := abs_le.1 h1
    have h2' := abs_le.1 h2
    rw [abs_le]
    constructor <;> nlinarith [h1'.1, h1'.2, h2'.1, h2'.2]
  refine ⟨hI, ?_⟩
  set F : ℝ → ℝ := fun u => -(npdf u * ((1 + xi * (u - u0) * (A + B * xi * (u - u0))) * ((mR (u - xi) - mR (u + xi)) / xi)
    + (A * xi + 2 * B * xi ^ 2 * (u - u0)) * ((mR (u - xi) + mR (u + xi) - 2 * mR u) / xi ^ 2)
    + 2 * B * xi ^ 2 * ((mR (u - xi) - mR (u + xi)) / xi ^ 3 - 2 / xi ^ 2 * (1 - u * mR u)))) with hF
  have hd : ∀ u, HasDerivAt F ((1 + xi * (u - u0) * (A + B * xi * (u - u0))) * wgt xi u) u := fun u => by
    have d0 : HasDerivAt (fun u => mR (u - xi)) ((u - xi) * mR (u - xi) - 1) u := HasDerivAt.comp_sub_const u xi (hasDerivAt_mR (u - xi))
    have d2 : HasDerivAt (fun u => mR (u + xi)) ((u + xi) * mR (u + xi) - 1) u := HasDerivAt.comp_add_const u xi (hasDerivAt_mR (u + xi))
    have d1 := hasDerivAt_mR u
    have dy : HasDerivAt (fun u : ℝ => u - u0) 1 u := (hasDerivAt_id' u).sub_const u0
    have dp := ((dy.const_mul xi).fun_mul ((dy.const_mul (B * xi)).const_add A)).const_add 1
    have dp' := (dy.const_mul (2 * B * xi ^ 2)).const_add (A * xi)
    have t1 := dp.fun_mul ((d0.fun_sub d2).div_const xi)
    have t2 := dp'.fun_mul (((d0.fun_add d2).fun_sub (d1.const_mul 2)).div_const (xi ^ 2))
    have t3 := (((d0.fun_sub d2).div_const (xi ^ 3)).fun_sub ((((hasDerivAt_id' u).fun_mul d1).const_sub 1).const_mul (2 / xi ^ 2))).const_mul (2 * B * xi ^ 2)
    refine (((hasDerivAt_npdf u).fun_mul ((t1.fun_add t2).fun_add t3)).fun_neg).congr_deriv ?_
    rw [wgt_eq]
    generalize mR (u - xi) = r0
    generalize mR (u + xi) = r2
    generalize mR u = r1
    generalize npdf u = nn
    have hxi' := hxi.ne'
    field_simp
    ring
  have hlim : Tendsto F atTop (𝓝 0) := by
    have l0 : Tendsto (fun u => mR (u - xi)) atTop (𝓝 0) := tendsto_mR.comp (tendsto_atTop_add_const_right _ _ tendsto_id)
    have l2 : Tendsto (fun u => mR (u + xi)) atTop (𝓝 0) := tendsto_mR.comp (tendsto_atTop_add_const_right _ _ tendsto_id)
    have l1 := tendsto_mR
    have q1 := tendsto_npdf_pow (1 - A * xi * u0 + B * xi ^ 2 * u0 ^ 2) (A * xi - 2 * B * xi ^ 2 * u0) (B * xi ^ 2)
    have q2 := tendsto_npdf_pow (A * xi - 2 * B * xi ^ 2 * u0) (2 * B * xi ^ 2) 0
    have q3 := tendsto_npdf_pow (2 * B * xi ^ 2) 0 0
    have q4 := tendsto_npdf_pow 0 (2 * B * xi ^ 2) 0
    have := ((((q1.mul ((l0.sub l2).div_const xi))).add (q2.mul (((l0.add l2).sub (l1.const_mul 2)).div_const (xi ^ 2)))).add ((q3.mul ((l0.sub l2).div_const (xi ^ 3))).sub
      ((q3.const_mul (2 / xi ^ 2)).sub ((q4.mul l1).const_mul (2 / xi ^ 2))))).neg
    simp only [mul_zero, sub_zero, zero_div, add_zero, neg_zero] at this
    refine this.congr fun u => ?_
    simp only [hF]
    ring
  rw [integral_Ioi_of_hasDerivAt_of_tendsto (hd u0).continuousAt.continuousWithinAt (fun u _ => hd u) hI hlim]
  simp only [hF, sub_self, mul_zero, zero_mul, add_zero, one_mul]
  have hxi' := hxi.ne'
  field_simp
  ring

lemma continuousOn_hhXi (hr : 0 < 1 - rho ^ 2) (hxi : 0 < xi) : ContinuousOn (fun u => hhXi u k xi rho) (Ici (uZero rho k xi)) := by
  have hV := V_pos (k := k) hr
  have hac : Continuous (aFun rho k xi) := by unfold aFun; fun_prop
  refine ContinuousOn.congr (f := fun u => √(aFun rho k xi u) * ∫ t in (0:ℝ)..(π / 2), √(1 + √(1 - (√(k ^ 2 + (1 - rho ^ 2)) / aFun rho k xi u) ^ 2) * cos (2 * t))) ?_ fun u hu => hhXi_eq hr hxi hu
  have hc : Continuous fun y : ℝ => ∫ t in (0:ℝ)..(π / 2), √(1 + y * cos (2 * t)) :=
    intervalIntegral.continuous_parametric_intervalIntegral_of_continuous' (by fun_prop) _ _
  refine hac.sqrt.continuousOn.mul (hc.comp_continuousOn (continuous_sqrt.comp_continuousOn (continuousOn_const.sub (ContinuousOn.pow (continuousOn_const.div hac.continuousOn fun u hu => ?_) 2))))
  exact (hV.trans_le (aFun_ge hr hxi hu)).ne'

lemma hhXi_bound (hr : 0 < 1 - rho ^ 2) (hxi : 0 < xi) {u : ℝ} (hu : uZero rho k xi ≤ u) : |hhXi u k xi rho| ≤ (√(|k| + 1) * (√2 * (π / 2))) * exp (xi * u) := by
  have hV := V_pos (k := k) hr
  have hge := aFun_ge hr hxi hu
  have ha : 0 < aFun rho k xi u := hV.trans_le hge
  have hu0 : 0 ≤ u := (u0_nonneg hxi).trans hu
  rw [hhXi_eq hr hxi hu, abs_mul, abs_of_nonneg (sqrt_nonneg _)]
  have hrho : |rho| ≤ 1 := by rw [← sq_le_one_iff_abs_le_one]; linarith
  have h1 : √(aFun rho k xi u) ≤ √(|k| + 1) * exp (xi * u) := by
    have e : exp (xi * u) = √(exp (2 * xi * u)) := by rw [← exp_half]; ring_nf
    rw [e, ← sqrt_mul (by positivity)]
    refine sqrt_le_sqrt ?_
    unfold aFun
    have c1 : 1 ≤ exp (2 * xi * u) := one_le_exp (by positivity)
    have c2 : cosh (2 * xi * u) ≤ exp (2 * xi * u) := by
      rw [cosh_eq]
      have : exp (-(2 * xi * u)) ≤ exp (2 * xi * u) := exp_le_exp.2 (by have : 0 ≤ 2 * xi * u := by positivity
                                                                        linarith)
      linarith
    have c3 : rho * k ≤ |k| := (le_abs_self _).trans (by rw [abs_mul]; exact mul_le_of_le_one_left (abs_nonneg _) hrho)
    have c4 : (1 - rho ^ 2) * cosh (2 * xi * u) ≤ exp (2 * xi * u) := by
      have : (1 - rho ^ 2) * cosh (2 * xi * u) ≤ 1 * cosh (2 * xi * u) := mul_le_mul_of_nonneg_right (by nlinarith [sq_nonneg rho]) (cosh_pos _).le
      linarith
    have c5 := mul_le_mul_of_nonneg_left c1 (abs_nonneg k)
    linarith
  have hy1 : √(1 - (√(k ^ 2 + (1 - rho ^ 2)) / aFun rho k xi u) ^ 2) ≤ 1 := by
    rw [sqrt_le_one]
    have : 0 ≤ (√(k ^ 2 + (1 - rho ^ 2)) / aFun rho k xi u) ^ 2 := by positivity
    linarith
  have hy0 := sqrt_nonneg (1 - (√(k ^ 2 + (1 - rho ^ 2)) / aFun rho k xi u) ^ 2)
  generalize √(1 - (√(k ^ 2 + (1 - rho ^ 2)) / aFun rho k xi u) ^ 2) = y at *
  have h2 : |∫ t in (0:ℝ)..(π / 2), √(1 + y * cos (2 * t))| ≤ √2 * (π / 2) := by
    have := intervalIntegral.norm_integral_le_of_norm_le_const (a := 0) (b := π / 2) (C := √2) (f := fun t => √(1 + y * cos (2 * t))) fun t _ => by
      rw [Real.norm_eq_abs, abs_of_nonneg (sqrt_nonneg _)]
      refine sqrt_le_sqrt ?_
      nlinarith [cos_le_one (2 * t), neg_one_le_cos (2 * t)]
    rwa [Real.norm_eq_abs, sub_zero, abs_of_pos (by positivity : 0 < π / 2)] at this
  calc _ ≤ (√(|k| + 1) * exp (xi * u)) * (√2 * (π / 2)) := mul_le_mul h1 h2 (abs_nonneg _) (by positivity)
    _ = _ := by ring

lemma integrable_hhXi (hr : 0 < 1 - rho ^ 2) (hxi : 0 < xi) : IntegrableOn (fun u => hhXi u k xi rho * wgt xi u) (Ioi (uZero rho k xi)) :=
  integrable_wgt xi ((continuousOn_hhXi hr hxi).mono Ioi_subset_Ici_self) fun _ hu => hhXi_bound hr hxi (le_of_lt hu)

/-- Change of variables `v = (u² - u0²)/2`. -/
lemma integral_laguerre {u0 : ℝ} (hu0 : 0 ≤ u0) (f : ℝ → ℝ) (xi : ℝ) :
    npdf u0 * ∫ v in Ioi (0:ℝ), v ^ (3 / 2 : ℝ) * exp (-v) * (f √(u0 ^ 2 + 2 * v) * (millsRatio (√(u0 ^ 2 + 2 * v) + xi) + millsRatio (√(u0 ^ 2 + 2 * v) - xi)) / (v * √v) / √(u0 ^ 2 + 2 * v)) =
      ∫ u in Ioi u0, f u * wgt xi u := by
  have himg : (fun u : ℝ => (u ^ 2 - u0 ^ 2) / 2) '' Ioi u0 = Ioi 0 := by
    ext v
    constructor
    · rintro ⟨u, hu, rfl⟩
      have hu : u0 < u := hu
      show 0 < (u ^ 2 - u0 ^ 2) / 2
      nlinarith
    · intro hv
      have hv : 0 < v := hv
      refine ⟨√(u0 ^ 2 + 2 * v), ?_, ?_⟩
      · show u0 < √(u0 ^ 2 + 2 * v)
        exact lt_sqrt_of_sq_lt (by linarith)
      · show (√(u0 ^ 2 + 2 * v) ^ 2 - u0 ^ 2) / 2 = v
        rw [sq_sqrt (by positivity)]
        ring
  rw [← himg, integral_image_eq_integral_abs_deriv_smul measurableSet_Ioi (f' := fun u => u) (fun u _ => ?_) ?_, ← integral_const_mul]
  · refine setIntegral_congr_fun measurableSet_Ioi fun u hu => ?_
    have hu : u0 < u := hu
    have hup : 0 < u := hu0.trans_lt hu
    have e1 : √(u0 ^ 2 + 2 * ((u ^ 2 - u0 ^ 2) / 2)) = u := by rw [show u0 ^ 2 + 2 * ((u ^ 2 - u0 ^ 2) / 2) = u ^ 2 by ring, sqrt_sq hup.le]
    have hv : 0 < (u ^ 2 - u0 ^ 2) / 2 := by nlinarith
    have e2 : npdf u0 * exp (-((u ^ 2 - u0 ^ 2) / 2)) = npdf u := by
      unfold npdf
      rw [div_mul_eq_mul_div, ← exp_add]
      ring_nf
    simp only [e1, abs_of_pos hup, smul_eq_mul]
    unfold wgt
    rw [← e2]
    generalize (u ^ 2 - u0 ^ 2) / 2 = v at *
    have e3 : v ^ (3 / 2 : ℝ) = v * √v := by
      rw [show (3 / 2 : ℝ) = 1 + 1 / 2 by norm_num, rpow_add hv, rpow_one, sqrt_eq_rpow]
    rw [e3]
    have : v * √v ≠ 0 := (mul_pos hv (sqrt_pos.2 hv)).ne'
    generalize v * √v = w at *
    field_simp
  · intro x hx y hy h
    have hx : u0 < x := hx
    have hy : u0 < y := hy
    have h : (x ^ 2 - u0 ^ 2) / 2 = (y ^ 2 - u0 ^ 2) / 2 := h
    have : x ^ 2 = y ^ 2 := by linarith
    exact (sq_eq_sq₀ (by linarith) (by linarith)).1 this
  · have := (((hasDerivAt_id' u).fun_pow 2).sub_const (u0 ^ 2)).div_const 2
    refine (this.congr_deriv ?_).hasDerivWithinAt
    push_cast
    ring

end Geometry

/-! ### The prices -/

/-- The integral formula for the price of a European option in the normal SABR model: discounted intrinsic value of the forward `F` plus
`σ√T/π e^{-ξ²/2} ∫_{u0}^∞ h(u) n(u) (R(u+ξ) + R(u-ξ)) du`, `ξ = ν√T/2`, `k = ν(K-F)/σ + ρ`, with the function `h` of `(u, k, ξ, ρ)`; `R` is the Mills ratio `N(-x)/n(x)`. -/
noncomputable def _root_.PyFENG.Spec.normSabrIntegral (h : ℝ → ℝ → ℝ → ℝ → ℝ) (df F sigma vov rho K T cp : ℝ) : ℝ :=
  let xi := vov * √T / 2
  let k := vov / sigma * (K - F) + rho
  let u0 := arsinh |(rho * √(k ^ 2 + (1 - rho ^ 2)) - k) / (1 - rho ^ 2)| / (2 * xi)
  df * (sigma * √T / π * exp (-xi ^ 2 / 2) * (∫ u in Ioi u0, h u k xi rho * (npdf u * (ncdf (-(u + xi)) / npdf (u + xi) + ncdf (-(u - xi)) / npdf (u - xi)))) + max (cp * (F - K)) 0)

lemma wgt_spec (xi u : ℝ) : npdf u * (ncdf (-(u + xi)) / npdf (u + xi) + ncdf (-(u - xi)) / npdf (u - xi)) = wgt xi u := by rw [wgt_eq]; rfl

/-- **C145.** Without the quadrature correction, `SabrNormAnalytic.price` is exactly the integral formula of `SabrNormEllipeInt` with `H_xi` replaced by its second-order expansion `hh_xi_approx`, over the whole half-line. -/
theorem niPrice_closed (m : Sabr) (hr : |m.rho| < 1) (hv : 0 < m.vov) (vs : List (ℝ × ℝ)) (K S : ℝ) {T : ℝ} (hT : 0 < T) (cp : ℝ) :
    m.niPrice false vs K S T cp = Spec.normSabrIntegral hhXiApprox (m.mp.df T) (m.mp.fwd S T) m.sigma m.vov m.rho K T cp := by
  have hxi : 0 < m.vov * √T / 2 := by have := sqrt_pos.2 hT; positivity
  have hr' : 0 < 1 - m.rho ^ 2 := by have := (sq_lt_one_iff_abs_lt_one m.rho).2 hr; linarith
  unfold niPrice Spec.normSabrIntegral niVars
  simp only [Bool.false_eq_true, if_false, wgt_spec, millsRatio_eq]
  generalize m.vov * √T / 2 = xi at *
  generalize m.vov / m.sigma * (K - m.mp.fwd S T) + m.rho = k
  have hV := V_pos (k := k) hr'
  have hI := (integral_poly_wgt hxi (arsinh |(m.rho * √(k ^ 2 + (1 - m.rho ^ 2)) - k) / (1 - m.rho ^ 2)| / (2 * xi)) (0.75 * |m.rho - k / √(k ^ 2 + (1 - m.rho ^ 2))|)
    (0.75 * (1 - m.rho * k / √(k ^ 2 + (1 - m.rho ^ 2)) - 5 / 16 * |m.rho - k / √(k ^ 2 + (1 - m.rho ^ 2))| ^ 2))).2
  unfold hhXiApprox
  simp only [mul_assoc (√(√(k ^ 2 + (1 - m.rho ^ 2))) * π / 2)]
  rw [integral_const_mul, hI, sqrt_mul hT.le, show -0.5 * xi ^ 2 = -xi ^ 2 / 2 by ring]
  generalize √(√(k ^ 2 + (1 - m.rho ^ 2))) = w
  generalize exp (-xi ^ 2 / 2) = e
  generalize npdf (arsinh |(m.rho * √(k ^ 2 + (1 - m.rho ^ 2)) - k) / (1 - m.rho ^ 2)| / (2 * xi)) = nn
  rw [show (0.5:ℝ) = 1 / 2 by norm_num]
  congr 2
  field_simp

/-- The function integrated by the Gauss-Laguerre rule of the correction: the remainder `H_xi - hh_xi_approx` at `u = √(u0² + 2v)`, in units of `√V π/2`, times the Mills ratios, over `v^{3/2} u`. -/
noncomputable def _root_.PyFENG.Spec.normSabrRemainder (rho k xi v : ℝ) : ℝ :=
  let V := √(k ^ 2 + (1 - rho ^ 2))
  let u := √((arsinh |(rho * V - k) / (1 - rho ^ 2)| / (2 * xi)) ^ 2 + 2 * v)
  (hhXi u k xi rho - hhXiApprox u k xi rho) / (√V * (π / 2)) * (millsRatio (u + xi) + millsRatio (u - xi)) / (v * √v) / u

lemma niCorr_eq {rho k xi : ℝ} (hr : 0 < 1 - rho ^ 2) (hxi : 0 < xi) (vs : List (ℝ × ℝ)) (hvs : ∀ q ∈ vs, 0 ≤ q.1) :
    niCorr rho xi k (√(k ^ 2 + (1 - rho ^ 2))) (uZero rho k xi) (0.75 * |rho - k / √(k ^ 2 + (1 - rho ^ 2))|)
      (0.75 * (1 - rho * k / √(k ^ 2 + (1 - rho ^ 2)) - 5 / 16 * |rho - k / √(k ^ 2 + (1 - rho ^ 2))| ^ 2)) vs = (vs.map fun q => Spec.normSabrRemainder rho k xi q.1 * q.2).sum := by
  unfold niCorr
  simp only
  congr 1
  refine List.map_congr_left fun q hq => ?_
  have hq0 := hvs q hq
  have hV := V_pos (k := k) hr
  have hu : uZero rho k xi ≤ √(uZero rho k xi ^ 2 + 2 * q.1) := le_sqrt_of_sq_le (by linarith)
  have ha := aFun_ge hr hxi hu
  unfold Spec.normSabrRemainder
  simp only
  rw [show arsinh |(rho * √(k ^ 2 + (1 - rho ^ 2)) - k) / (1 - rho ^ 2)| / (2 * xi) = uZero rho k xi from rfl]
  unfold hhXi hhXiApprox
  simp only
  rw [show arsinh |(rho * √(k ^ 2 + (1 - rho ^ 2)) - k) / (1 - rho ^ 2)| / (2 * xi) = uZero rho k xi from rfl]
  generalize √(uZero rho k xi ^ 2 + 2 * q.1) = u at *
  have hvp : 0 < rho * k + (1 - rho ^ 2) * cosh (2 * xi * u) + √(max ((1 - rho ^ 2) * (cosh (2 * xi * u) ^ 2 - 1 - (k - rho * cosh (2 * xi * u)) ^ 2)) 0) := by
    have : 0 < rho * k + (1 - rho ^ 2) * cosh (2 * xi * u) := hV.trans_le ha
    have := sqrt_nonneg (max ((1 - rho ^ 2) * (cosh (2 * xi * u) ^ 2 - 1 - (k - rho * cosh (2 * xi * u)) ^ 2)) 0)
    linarith
  rw [max_eq_left hvp.le, sqrt_div hvp.le]
  generalize ellipe _ = E
  generalize √(rho * k + (1 - rho ^ 2) * cosh (2 * xi * u) + √(max ((1 - rho ^ 2) * (cosh (2 * xi * u) ^ 2 - 1 - (k - rho * cosh (2 * xi * u)) ^ 2)) 0)) = vp
  have hw : √(√(k ^ 2 + (1 - rho ^ 2))) ≠ 0 := (sqrt_pos.2 hV).ne'
  generalize √(√(k ^ 2 + (1 - rho ^ 2))) = w at *
  generalize √(k ^ 2 + (1 - rho ^ 2)) = V at *
  generalize millsRatio (u + xi) + millsRatio (u - xi) = R
  generalize q.1 * √q.1 = d
  have hpi := pi_pos.ne'
  have e : 2 / π * (vp / w) * E - 1 - xi * (u - uZero rho k xi) * (0.75 * |rho - k / V| + 0.75 * (1 - rho * k / V - 5 / 16 * |rho - k / V| ^ 2) * xi * (u - uZero rho k xi)) =
      (vp * E - w * π / 2 * (1 + xi * (u - uZero rho k xi) * (0.75 * |rho - k / V| + 0.75 * (1 - rho * k / V - 5 / 16 * |rho - k / V| ^ 2) * xi * (u - uZero rho k xi)))) / (w * (π / 2)) := by
    generalize xi * (u - uZero rho k xi) * _ = p
    field_simp
    ring
  rw [e]
  generalize (vp * E - _) / (w * (π / 2)) = f
  ring

/-- **C145.** With the quadrature correction, `SabrNormAnalytic.price` equals the exact integral formula with `H_xi` itself (the limit of `SabrNormEllipeInt.price`), up to the error of the generalised Gauss-Laguerre rule of index `3/2` on the remainder. -/
theorem niPrice_corrected (m : Sabr) (hr : |m.rho| < 1) (hv : 0 < m.vov) (vs : List (ℝ × ℝ)) (hvs : ∀ q ∈ vs, 0 ≤ q.1) (K S : ℝ) {T : ℝ} (hT : 0 < T) (cp : ℝ) :
    m.niPrice true vs K S T cp = Spec.normSabrIntegral hhXi (m.mp.df T) (m.mp.fwd S T) m.sigma m.vov m.rho K T cp +
      m.mp.df T * (m.sigma * √(T * (m.niVars K (m.mp.fwd S T) T).2.2.1) / 2 * exp (-(m.niVars K (m.mp.fwd S T) T).1 ^ 2 / 2) * npdf (m.niVars K (m.mp.fwd S T) T).2.2.2) *
        Spec.laguerreErr (3 / 2) vs (Spec.normSabrRemainder m.rho (m.niVars K (m.mp.fwd S T) T).2.1 (m.niVars K (m.mp.fwd S T) T).1) := by
  have hxi : 0 < m.vov * √T / 2 := by have := sqrt_pos.2 hT; positivity
  have hr' : 0 < 1 - m.rho ^ 2 := by have := (sq_lt_one_iff_abs_lt_one m.rho).2 hr; linarith
  have h0 := niPrice_closed m hr hv vs K S hT cp
  unfold niPrice at h0 ⊢
  unfold Spec.normSabrIntegral at h0 ⊢
  unfold niVars at h0 ⊢
  simp only [Bool.false_eq_true, if_false, if_true, wgt_spec] at h0 ⊢
  generalize m.vov * √T / 2 = xi at *
  generalize m.vov / m.sigma * (K - m.mp.fwd S T) + m.rho = k at *
  have hV := V_pos (k := k) hr'
  have hu : arsinh |(m.rho * √(k ^ 2 + (1 - m.rho ^ 2)) - k) / (1 - m.rho ^ 2)| / (2 * xi) = uZero m.rho k xi := rfl
  simp only [hu] at h0 ⊢
  rw [niCorr_eq hr' hxi vs hvs]
  have hint : npdf (uZero m.rho k xi) * ∫ v in Ioi (0:ℝ), v ^ (3 / 2 : ℝ) * exp (-v) * Spec.normSabrRemainder m.rho k xi v =
      ((∫ u in Ioi (uZero m.rho k xi), hhXi u k xi m.rho * wgt xi u) - ∫ u in Ioi (uZero m.rho k xi), hhXiApprox u k xi m.rho * wgt xi u) / (√(√(k ^ 2 + (1 - m.rho ^ 2))) * (π / 2)) := by
    have h1 := integral_laguerre (u0_nonneg (rho := m.rho) (k := k) hxi) (fun u => (hhXi u k xi m.rho - hhXiApprox u k xi m.rho) / (√(√(k ^ 2 + (1 - m.rho ^ 2))) * (π / 2))) xi
    have h2 : IntegrableOn (fun u => hhXiApprox u k xi m.rho * wgt xi u) (Ioi (uZero m.rho k xi)) := by
      unfold hhXiApprox
      simp only [mul_assoc (√(√(k ^ 2 + (1 - m.rho ^ 2))) * π / 2)]
      exact Integrable.const_mul (integral_poly_wgt hxi _ _ _).1 _
    rw [← integral_sub (integrable_hhXi hr' hxi) h2, ← integral_div]
    refine Eq.trans h1 (integral_congr_ae (ae_of_all _ fun u => ?_))
    simp only
    ring
  unfold Spec.laguerreErr
  have hw : √(√(k ^ 2 + (1 - m.rho ^ 2))) ≠ 0 := (sqrt_pos.2 hV).ne'
  rw [sqrt_mul hT.le] at h0 ⊢
  rw [show -0.5 * xi ^ 2 = -xi ^ 2 / 2 by ring, show (0.5:ℝ) = 1 / 2 by norm_num] at h0 ⊢
  generalize (List.map (fun q => Spec.normSabrRemainder m.rho k xi q.1 * q.2) vs).sum = σ₁ at *
  generalize (∫ u in Ioi (uZero m.rho k xi), hhXi u k xi m.rho * wgt xi u) = I₁ at *
  generalize (∫ u in Ioi (uZero m.rho k xi), hhXiApprox u k xi m.rho * wgt xi u) = I₂ at *
  generalize (∫ v in Ioi (0:ℝ), v ^ (3 / 2 : ℝ) * exp (-v) * Spec.normSabrRemainder m.rho k xi v) = J at *
  generalize √(√(k ^ 2 + (1 - m.rho ^ 2))) = w at *
  generalize npdf (uZero m.rho k xi) = nn at *
  generalize exp (-xi ^ 2 / 2) = e at *
  have hpi := pi_pos.ne'
  rw [mul_add] at h0 ⊢
  rw [add_mul, mul_add, add_right_comm]
  rw [h0]
  rw [eq_div_iff (mul_ne_zero hw (by positivity))] at hint
  have e1 : I₁ = I₂ + nn * J * (w * (π / 2)) := by linarith
  rw [e1]
  field_simp
  ring

/-- **C145.** With an exact integrator, `SabrNormEllipeInt.price` differs from the integral formula only by cutting the half-line at `√(u0² + 73)`, which lowers the price. -/
theorem eiPrice_cut (m : Sabr) (hs : 0 ≤ m.sigma) (hr : |m.rho| < 1) (hv : 0 < m.vov) (K S : ℝ) {T : ℝ} (hT : 0 < T) (cp : ℝ) :
    m.eiPrice (fun f a b => ∫ x in a..b, f x) K S T cp ≤ Spec.normSabrIntegral hhXi (m.mp.df T) (m.mp.fwd S T) m.sigma m.vov m.rho K T cp ∧
    Spec.normSabrIntegral hhXi (m.mp.df T) (m.mp.fwd S T) m.sigma m.vov m.rho K T cp - m.eiPrice (fun f a b => ∫ x in a..b, f x) K S T cp =
      m.mp.df T * (m.sigma * √T / π * exp (-(m.niVars K (m.mp.fwd S T) T).1 ^ 2 / 2)) *
        ∫ u in Ioi √((m.niVars K (m.mp.fwd S T) T).2.2.2 ^ 2 + 73), eiIntegrand m.rho (m.niVars K (m.mp.fwd S T) T).2.1 (m.niVars K (m.mp.fwd S T) T).1 u := by
  have hxi : 0 < m.vov * √T / 2 := by have := sqrt_pos.2 hT; positivity
  have hr' : 0 < 1 - m.rho ^ 2 := by have := (sq_lt_one_iff_abs_lt_one m.rho).2 hr; linarith
  have key : Spec.normSabrIntegral hhXi (m.mp.df T) (m.mp.fwd S T) m.sigma m.vov m.rho K T cp - m.eiPrice (fun f a b => ∫ x in a..b, f x) K S T cp =
      m.mp.df T * (m.sigma * √T / π * exp (-(m.niVars K (m.mp.fwd S T) T).1 ^ 2 / 2)) *
        ∫ u in Ioi √((m.niVars K (m.mp.fwd S T) T).2.2.2 ^ 2 + 73), eiIntegrand m.rho (m.niVars K (m.mp.fwd S T) T).2.1 (m.niVars K (m.mp.fwd S T) T).1 u := by
    unfold eiPrice Spec.normSabrIntegral niVars
    simp only [wgt_spec]
    generalize m.vov * √T / 2 = xi at *
    generalize m.vov / m.sigma * (K - m.mp.fwd S T) + m.rho = k at *
    have hu : arsinh |(m.rho * √(k ^ 2 + (1 - m.rho ^ 2)) - k) / (1 - m.rho ^ 2)| / (2 * xi) = uZero m.rho k xi := rfl
    simp only [hu]
    have hle : uZero m.rho k xi ≤ √(uZero m.rho k xi ^ 2 + 73) := le_sqrt_of_sq_le (by linarith)
    have hi := integrable_hhXi (k := k) hr' hxi
    have hsplit := intervalIntegral.integral_interval_add_Ioi (hi) (hi.mono_set (Ioi_subset_Ioi hle))
    have he : ∀ u, eiIntegrand m.rho k xi u = hhXi u k xi m.rho * wgt xi u := fun u => rfl
    simp only [he]
    rw [← hsplit, show -0.5 * xi ^ 2 = -xi ^ 2 / 2 by ring]
    ring
  refine ⟨?_, key⟩
  rw [← sub_nonneg, key]
  refine mul_nonneg (mul_nonneg (m.mp.df_pos T).le (by positivity)) (integral_nonneg fun u => ?_)
  have hH : 0 ≤ hhXi u (m.niVars K (m.mp.fwd S T) T).2.1 (m.niVars K (m.mp.fwd S T) T).1 m.rho := by
    unfold hhXi ellipe
    simp only
    exact mul_nonneg (sqrt_nonneg _) (intervalIntegral.integral_nonneg (by positivity) fun t _ => sqrt_nonneg _)
  exact mul_nonneg hH (wgt_nonneg _ _)

/-- A concrete model and a one-node rule meet the hypotheses. -/
example : ∃ (m : Sabr) (vs : List (ℝ × ℝ)), |m.rho| < 1 ∧ 0 < m.vov ∧ 0 ≤ m.sigma ∧ vs ≠ [] ∧ (∀ q ∈ vs, 0 ≤ q.1) ∧ m.beta = 0 :=
  ⟨⟨20, 0.8, -0.3, 0, 0.05, 0, false, 0, false⟩, [(2.5, 1)], by norm_num [abs_lt], by norm_num, by norm_num, by simp, by simp; norm_num, rfl⟩

end Sabr

end PyFENG
