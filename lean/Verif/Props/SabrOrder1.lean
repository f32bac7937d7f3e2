import Verif.Props.SabrShort
import Mathlib.Analysis.SpecialFunctions.Integrals.Basic
import Mathlib.Analysis.SpecialFunctions.Complex.Arg
import Mathlib.Analysis.SpecialFunctions.Trigonometric.ArctanDeriv

/-!
# Choi and Wu (2021): the first-order term of the second SABR formula

`SabrChoiWu2021P` adds to the leading volatility a term with an integral along the geodesic from the forward to the strike.  The code evaluates the integral
in closed form in three branches, and by a separate formula near `beta = 1`.
-/

namespace PyFENG

open Real Filter Topology

namespace Sabr

/-- Numerator of the integrand: with `t` the tangent of half the angle on the semicircle, `(1-t²)/(1+t²)` and `2t/(1+t²)` are its cosine and sine. -/
noncomputable def Spec.arcN (ρ t : ℝ) : ℝ := √(1 - ρ ^ 2) * (1 - t ^ 2) + 2 * ρ * t

/-- The distance from zero (in units of the radius times `1+t²`) at the point `t` of the geodesic. -/
noncomputable def Spec.arcD (ρ η t : ℝ) : ℝ := η * (1 + t ^ 2) + Spec.arcN ρ t

/-- Specification: the integral along the geodesic between the half-angle tangents `t1` and `t2`. -/
noncomputable def Spec.arcInt (ρ η t1 t2 : ℝ) : ℝ := ∫ t in t1..t2, Spec.arcN ρ t / ((1 + t ^ 2) * Spec.arcD ρ η t)

lemma arctan2_eq {s : ℝ} (hs : 0 < s) (u : ℝ) : arctan2 s u = π / 2 - arctan (u / s) := by
  unfold arctan2
  rw [Complex.arg_of_im_pos (by exact hs), arccos_eq_pi_div_two_sub_arcsin, arctan_eq_arcsin]
  congr 2
  have h1 : ‖(⟨u, s⟩ : ℂ)‖ = s * √(1 + (u / s) ^ 2) := by
    rw [Complex.norm_def, Complex.normSq_mk, show u * u + s * s = s ^ 2 * (1 + (u / s) ^ 2) by field_simp; ring, sqrt_mul (by positivity), sqrt_sq hs.le]
  rw [h1]
  show u / _ = _
  have : √(1 + (u / s) ^ 2) ≠ 0 := by positivity
  field_simp

lemma hasDerivAt_arg {s : ℝ} (hs : 0 < s) (u : ℝ) : HasDerivAt (fun u => arctan2 s u) (-s / (s ^ 2 + u ^ 2)) u := by
  have h : (fun u : ℝ => arctan2 s u) = fun u => π / 2 - arctan (u / s) := funext (arctan2_eq hs)
  rw [h]
  have h1 := (((hasDerivAt_id' u).div_const s).arctan).const_sub (π / 2)
  refine h1.congr_deriv ?_
  field_simp

lemma arc_sq {ρ : ℝ} (hρ : |ρ| < 1) (η t : ℝ) :
    (ρ + (η - √(1 - ρ ^ 2)) * t) ^ 2 + (η * η - 1) = (η - √(1 - ρ ^ 2)) * Spec.arcD ρ η t := by
  have h := abs_lt.1 hρ
  have hs : √(1 - ρ ^ 2) ^ 2 = 1 - ρ ^ 2 := sq_sqrt (by nlinarith)
  unfold Spec.arcD Spec.arcN
  generalize √(1 - ρ ^ 2) = c at *
  linear_combination hs

lemma arc_integrand {ρ η t : ℝ} (hD : Spec.arcD ρ η t ≠ 0) : 1 / (1 + t ^ 2) - η / Spec.arcD ρ η t = Spec.arcN ρ t / ((1 + t ^ 2) * Spec.arcD ρ η t) := by
  have h1 : (1 + t ^ 2) ≠ 0 := by positivity
  have e : Spec.arcN ρ t = Spec.arcD ρ η t - η * (1 + t ^ 2) := by unfold Spec.arcD; ring
  rw [e]
  field_simp

/-- The antiderivative evaluated by the code. -/
noncomputable def arcG (ρ η t : ℝ) : ℝ :=
  let e2 := η * η - 1
  let sq := √|e2|
  let num := ρ + (η - √(1 - ρ ^ 2)) * t
  arctan t + (if e2 > 1e-6 then η / sq * arctan2 sq num
    else if e2 < -1e-6 then η / sq * 0.5 * log |(num + sq) / (num - sq)|
    else η / num * (1 - e2 / num ^ 2 / 3))

lemma hasDerivAt_arcG {ρ η t : ℝ} (hρ : |ρ| < 1) (hη : η ≠ √(1 - ρ ^ 2)) (h1 : η * η = 1 ∨ 1e-6 < |η * η - 1|) (hD : 0 < Spec.arcD ρ η t) :
    HasDerivAt (arcG ρ η) (Spec.arcN ρ t / ((1 + t ^ 2) * Spec.arcD ρ η t)) t := by
  rw [← arc_integrand hD.ne']
  have hsq := arc_sq hρ η t
  set c := η - √(1 - ρ ^ 2) with hc
  have hc0 : c ≠ 0 := sub_ne_zero.2 hη
  have hu : HasDerivAt (fun t => ρ + c * t) c t := (((hasDerivAt_id' t).const_mul c).const_add ρ).congr_deriv (by ring)
  have ha := hasDerivAt_arctan t
  set D := Spec.arcD ρ η t with hDd
  have hcD : c * D ≠ 0 := mul_ne_zero hc0 hD.ne'
  by_cases p1 : η * η - 1 > 1e-6
  · have hs0 : 0 < √|η * η - 1| := sqrt_pos.2 (abs_pos.2 (by norm_num at p1 ⊢; intro h; rw [h] at p1; norm_num at p1))
    have hs2 : √|η * η - 1| ^ 2 = η * η - 1 := by
      rw [sq_sqrt (abs_nonneg _), abs_of_pos (lt_trans (by norm_num) p1)]
    have hG : arcG ρ η = fun t => arctan t + η / √|η * η - 1| * arctan2 (√|η * η - 1|) (ρ + c * t) := by
      funext t
      unfold arcG
      simp only [if_pos p1]
      rfl
    rw [hG]
    generalize √|η * η - 1| = s at *
    have hA : HasDerivAt (fun t => arctan2 s (ρ + c * t)) (-s / (s ^ 2 + (ρ + c * t) ^ 2) * c) t := HasDerivAt.comp (h₂ := fun u => arctan2 s u) (h := fun t => ρ + c * t) t (hasDerivAt_arg hs0 (ρ + c * t)) hu
    refine (ha.fun_add (hA.const_mul (η / s))).congr_deriv ?_
    rw [hs2, show η * η - 1 + (ρ + c * t) ^ 2 = c * D by rw [← hsq]; ring]
    field_simp
    ring
  · by_cases p2 : η * η - 1 < -1e-6
    · have hn : η * η - 1 < 0 := lt_trans p2 (by norm_num)
      have hs0 : 0 < √|η * η - 1| := sqrt_pos.2 (abs_pos.2 hn.ne)
      have hs2 : √|η * η - 1| ^ 2 = -(η * η - 1) := by rw [sq_sqrt (abs_nonneg _), abs_of_neg hn]
      have hG : arcG ρ η = fun t => arctan t + η / √|η * η - 1| * 0.5 * log ((ρ + c * t + √|η * η - 1|) / (ρ + c * t - √|η * η - 1|)) := by
        funext t
        unfold arcG
        simp only [if_neg p1, if_pos p2, log_abs]
        rfl
      rw [hG]
      generalize √|η * η - 1| = s at *
      have hprod : (ρ + c * t + s) * (ρ + c * t - s) = c * D := by rw [← hsq]; linear_combination -hs2
      have q1 : ρ + c * t + s ≠ 0 := fun h => hcD (by rw [← hprod, h, zero_mul])
      have q2 : ρ + c * t - s ≠ 0 := fun h => hcD (by rw [← hprod, h, mul_zero])
      have hA := ((hu.add_const s).fun_div (hu.sub_const s) q2).log (div_ne_zero q1 q2)
      refine (ha.fun_add (hA.const_mul (η / s * 0.5))).congr_deriv ?_
      have e : (c * (ρ + c * t - s) - (ρ + c * t + s) * c) / (ρ + c * t - s) ^ 2 / ((ρ + c * t + s) / (ρ + c * t - s)) = -(2 * s * c) / (c * D) := by
        rw [← hprod]
        field_simp
        ring
      rw [e]
      norm_num
      field_simp
      ring
    · have h0 : η * η = 1 := by
        rcases h1 with h1 | h1
        · exact h1
        · exfalso
          rcases lt_abs.1 h1 with h | h
          · exact p1 h
          · exact p2 (by linarith)
      have hG : arcG ρ η = fun t => arctan t + η / (ρ + c * t) := by
        funext t
        unfold arcG
        simp only [if_neg p1, if_neg p2]
        rw [h0]
        simp
        rfl
      rw [hG]
      have hsq' : (ρ + c * t) ^ 2 = c * D := by rw [← hsq, h0]; ring
      have hu0 : ρ + c * t ≠ 0 := fun h => hcD (by rw [← hsq', h]; ring)
      have hA := (hasDerivAt_const t η).fun_div hu hu0
      refine (ha.fun_add hA).congr_deriv ?_
      rw [hsq']
      field_simp
      ring

lemma arcG_integral {ρ η t1 t2 : ℝ} (hρ : |ρ| < 1) (hη : η ≠ √(1 - ρ ^ 2)) (h1 : η * η = 1 ∨ 1e-6 < |η * η - 1|)
    (hD : ∀ t ∈ Set.uIcc t1 t2, 0 < Spec.arcD ρ η t) : arcG ρ η t2 - arcG ρ η t1 = Spec.arcInt ρ η t1 t2 := by
  unfold Spec.arcInt
  rw [intervalIntegral.integral_eq_sub_of_hasDerivAt (fun t ht => hasDerivAt_arcG hρ hη h1 (hD t ht))]
  refine ContinuousOn.intervalIntegrable ?_
  refine ContinuousOn.div (by unfold Spec.arcN; fun_prop) (by unfold Spec.arcD Spec.arcN; fun_prop) fun t ht => ?_
  have := hD t ht
  positivity

/-- **C134.**  The correlation term of `SabrChoiWu2021P` away from `beta = 1` is the integral along the geodesic from the forward to the strike, in each of the closed-form branches:
for every `eta` above `1e-6` that is one, or whose square is at least `1e-6` away from one, when the geodesic does not reach zero. -/
theorem choiWuP_geodesic (m : Sabr) (v : Vars) (kk zz vm : ℝ) (hρ : |m.rho| < 1) (hv : v.rhoc = √(1 - m.rho ^ 2)) (hb : 0.001 ≤ |v.betac|)
    (hη0 : 1e-6 < m.vov / (v.betac * v.alpha) * kk ^ v.betac * (v.rhoc / vm)) (hη : m.vov / (v.betac * v.alpha) * kk ^ v.betac * (v.rhoc / vm) ≠ v.rhoc)
    (h1 : let η := m.vov / (v.betac * v.alpha) * kk ^ v.betac * (v.rhoc / vm); η * η = 1 ∨ 1e-6 < |η * η - 1|)
    (hD : ∀ t ∈ Set.uIcc ((vm + m.rho + zz) / v.rhoc) ((1 + m.rho) / v.rhoc), 0 < Spec.arcD m.rho (m.vov / (v.betac * v.alpha) * kk ^ v.betac * (v.rhoc / vm)) t) :
    m.choiWuPGg v kk zz vm = m.rho * m.beta / (v.rhoc * v.betac) *
      Spec.arcInt m.rho (m.vov / (v.betac * v.alpha) * kk ^ v.betac * (v.rhoc / vm)) ((vm + m.rho + zz) / v.rhoc) ((1 + m.rho) / v.rhoc) := by
  unfold choiWuPGg
  rw [if_neg (not_lt.2 hb)]
  simp only
  generalize hη' : m.vov / (v.betac * v.alpha) * kk ^ v.betac * (v.rhoc / vm) = η at *
  rw [hv] at hη
  rw [← arcG_integral hρ hη h1 hD]
  unfold arcG
  simp only [if_pos hη0, ← hv, gt_iff_lt]

/-! ## Near `beta = 1` -/

lemma arcN_abs {ρ : ℝ} (hρ : |ρ| < 1) (t : ℝ) : |Spec.arcN ρ t| ≤ 1 + t ^ 2 := by
  have h := abs_lt.1 hρ
  have hs : √(1 - ρ ^ 2) ^ 2 = 1 - ρ ^ 2 := sq_sqrt (by nlinarith)
  unfold Spec.arcN
  generalize √(1 - ρ ^ 2) = c at *
  refine abs_le_of_sq_le_sq ?_ (by positivity)
  have e : (1 + t ^ 2) ^ 2 - (c * (1 - t ^ 2) + 2 * ρ * t) ^ 2 = (2 * t * c - ρ * (1 - t ^ 2)) ^ 2 := by linear_combination (-(1 + t ^ 2) ^ 2) * hs
  nlinarith [sq_nonneg (2 * t * c - ρ * (1 - t ^ 2))]

lemma vm_identity {ρ z vm : ℝ} (hρ : |ρ| < 1) (hvm : 0 < vm) (hg : 0 < vm + ρ + z) (hsq : vm ^ 2 = 1 + 2 * ρ * z + z ^ 2) :
    vm / (1 + ρ) - (vm + z) / (vm + ρ + z) = (vm - 1 - ρ * z) / (1 - ρ ^ 2) := by
  have h := abs_lt.1 hρ
  have h1 : 1 + ρ ≠ 0 := by linarith
  have h2 : 1 - ρ ≠ 0 := by linarith
  rw [show 1 - ρ ^ 2 = (1 + ρ) * (1 - ρ) by ring]
  field_simp
  linear_combination (-ρ) * hsq

/-- **C134** (limit).  As the geodesic moves away from zero (`eta → ∞`, which is what `beta → 1` does), `eta` times the integral converges to an elementary expression. -/
theorem arcInt_limit {ρ z : ℝ} (hρ : |ρ| < 1) :
    let vm := √(1 + 2 * ρ * z + z ^ 2)
    let r := √(1 - ρ ^ 2)
    Tendsto (fun η => η * Spec.arcInt ρ η ((vm + ρ + z) / r) ((1 + ρ) / r)) atTop (𝓝 ((vm - 1 - ρ * z) / (2 * vm))) := by
  intro vm r
  have h := abs_lt.1 hρ
  have hr2 : r ^ 2 = 1 - ρ ^ 2 := sq_sqrt (by nlinarith)
  have hr : 0 < r := sqrt_pos.2 (by nlinarith)
  have hvv : vm = vv z ρ := by show √_ = √_; congr 1; ring
  have hvm : 0 < vm := by rw [hvv]; exact vv_pos hρ z
  have hsq : vm ^ 2 = 1 + 2 * ρ * z + z ^ 2 := by rw [hvv, vv_sq hρ]; ring
  have hg : 0 < vm + ρ + z := by rw [hvv]; have := (abs_lt.1 (vv_gt hρ z)).1; linarith
  set t1 := (vm + ρ + z) / r with ht1
  set t2 := (1 + ρ) / r with ht2
  have hint : ∫ t in t1..t2, Spec.arcN ρ t / (1 + t ^ 2) ^ 2 = (vm - 1 - ρ * z) / (2 * vm) := by
    have hd : ∀ t ∈ Set.uIcc t1 t2, HasDerivAt (fun t => (r * t - ρ) / (1 + t ^ 2)) (Spec.arcN ρ t / (1 + t ^ 2) ^ 2) t := fun t _ => by
      have h0 : (1 + t ^ 2) ≠ 0 := by positivity
      have hA : HasDerivAt (fun t => r * t - ρ) r t := (((hasDerivAt_id' t).const_mul r).sub_const ρ).congr_deriv (by ring)
      have hB : HasDerivAt (fun t : ℝ => 1 + t ^ 2) (2 * t) t := ((hasDerivAt_pow 2 t).const_add 1).congr_deriv (by norm_num)
      refine (hA.fun_div hB h0).congr_deriv ?_
      congr 1
      show _ = r * (1 - t ^ 2) + 2 * ρ * t
      ring
    rw [intervalIntegral.integral_eq_sub_of_hasDerivAt hd (by
      refine Continuous.intervalIntegrable ?_ _ _
      exact Continuous.div (by unfold Spec.arcN; fun_prop) (by fun_prop) fun t => by positivity)]
    have e1 : 1 + t1 ^ 2 = 2 * vm * (vm + ρ + z) / r ^ 2 := by
      rw [ht1, hr2, div_pow, hr2]
      have : 1 - ρ ^ 2 ≠ 0 := by nlinarith
      field_simp
      linear_combination (-1) * hsq
    have e2 : 1 + t2 ^ 2 = 2 * (1 + ρ) / r ^ 2 := by
      rw [ht2, hr2, div_pow, hr2]
      have : 1 - ρ ^ 2 ≠ 0 := by nlinarith
      field_simp
      ring
    have e3 : r * t1 - ρ = vm + z := by rw [ht1]; field_simp; ring
    have e4 : r * t2 - ρ = 1 := by rw [ht2]; field_simp; ring
    rw [e1, e2, e3, e4]
    have hid := vm_identity hρ hvm hg hsq
    have h1 : 1 + ρ ≠ 0 := by linarith
    have e5 : (1:ℝ) / (2 * (1 + ρ) / r ^ 2) - (vm + z) / (2 * vm * (vm + ρ + z) / r ^ 2) = r ^ 2 / (2 * vm) * (vm / (1 + ρ) - (vm + z) / (vm + ρ + z)) := by
      field_simp
    rw [e5, hid, hr2]
    have : 1 - ρ ^ 2 ≠ 0 := by nlinarith
    field_simp
  rw [← hint]
  have hcong : ∀ η : ℝ, η * Spec.arcInt ρ η t1 t2 = ∫ t in t1..t2, η * (Spec.arcN ρ t / ((1 + t ^ 2) * Spec.arcD ρ η t)) := fun η => by
    rw [intervalIntegral.integral_const_mul]; rfl
  simp only [hcong]
  refine intervalIntegral.tendsto_integral_filter_of_dominated_convergence (fun _ => (2:ℝ)) ?_ ?_ (by simp) ?_
  · refine Eventually.of_forall fun η => Measurable.aestronglyMeasurable ?_
    unfold Spec.arcD Spec.arcN
    fun_prop
  · filter_upwards [eventually_ge_atTop 2] with η hη
    refine Eventually.of_forall fun t _ => ?_
    have hN := abs_le.1 (arcN_abs hρ t)
    have hD : (η - 1) * (1 + t ^ 2) ≤ Spec.arcD ρ η t := by unfold Spec.arcD; nlinarith
    have hp : 0 < (η - 1) * (1 + t ^ 2) := mul_pos (by linarith) (by positivity)
    have hD0 := hp.trans_le hD
    have hpp : 0 < (1 + t ^ 2) * Spec.arcD ρ η t := mul_pos (by positivity) hD0
    rw [norm_eq_abs, abs_mul, abs_div, abs_of_pos (by linarith : 0 < η), abs_of_pos hpp, ← mul_div_assoc, div_le_iff₀ hpp]
    have h3 : η * |Spec.arcN ρ t| ≤ η * (1 + t ^ 2) := mul_le_mul_of_nonneg_left (arcN_abs hρ t) (by linarith)
    have h4 : 2 * ((1 + t ^ 2) * ((η - 1) * (1 + t ^ 2))) ≤ 2 * ((1 + t ^ 2) * Spec.arcD ρ η t) := by gcongr
    have h5 : η * (1 + t ^ 2) ≤ 2 * ((1 + t ^ 2) * ((η - 1) * (1 + t ^ 2))) := by
      have ht : 0 ≤ t ^ 2 := by positivity
      nlinarith [mul_nonneg ht (by linarith : 0 ≤ η - 1), mul_nonneg ht ht, mul_nonneg (mul_nonneg ht ht) (by linarith : 0 ≤ η - 1)]
    linarith
  · refine Eventually.of_forall fun t _ => ?_
    have h1 : Tendsto (fun η : ℝ => (1 + t ^ 2) * ((1 + t ^ 2) + Spec.arcN ρ t * η⁻¹)) atTop (𝓝 ((1 + t ^ 2) * ((1 + t ^ 2) + Spec.arcN ρ t * 0))) :=
      ((tendsto_inv_atTop_zero.const_mul _).const_add _).const_mul _
    have h2 : Tendsto (fun η : ℝ => Spec.arcN ρ t / ((1 + t ^ 2) * ((1 + t ^ 2) + Spec.arcN ρ t * η⁻¹))) atTop (𝓝 (Spec.arcN ρ t / (1 + t ^ 2) ^ 2)) := by
      have := (tendsto_const_nhds (x := Spec.arcN ρ t) (f := (atTop : Filter ℝ))).div h1 (by rw [mul_zero, add_zero]; positivity)
      rw [mul_zero, add_zero, ← sq] at this
      exact this
    refine h2.congr' ?_
    filter_upwards [eventually_ge_atTop 2] with η hη
    have hN := abs_le.1 (arcN_abs hρ t)
    have hη0 : η ≠ 0 := by linarith
    have hp : 0 < (η - 1) * (1 + t ^ 2) := mul_pos (by linarith) (by positivity)
    have hD0 : 0 < Spec.arcD ρ η t := by unfold Spec.arcD; nlinarith
    have h3 : (1 + t ^ 2) + Spec.arcN ρ t * η⁻¹ = Spec.arcD ρ η t / η := by unfold Spec.arcD; field_simp
    rw [h3]
    have : (1 + t ^ 2) ≠ 0 := by positivity
    field_simp

/-- **C134** (the lognormal branch is not the limit of the others).  With the strike ratio and `z` fixed, the correlation term of the general branches converges as `beta → 1` to
`0.5 rho / (1 - rho²) (v - 1 - rho z)` times `alpha / vov`; the branch that the code takes when `|1 - beta| < 0.001` omits the factor `alpha / vov`.  So the two agree only when
`alpha = vov` (or the term vanishes). -/
theorem choiWuP_lognormal_branch (m : Sabr) {α kk z : ℝ} (hρ : |m.rho| < 1) (hα : 0 < α) (hν : 0 < m.vov) (hk : 0 < kk) :
    let vm := √(1 + 2 * m.rho * z + z ^ 2)
    let r := √(1 - m.rho ^ 2)
    let L := 0.5 * m.rho / (1 - m.rho ^ 2) * (vm - 1 - m.rho * z)
    Tendsto (fun β => m.rho * β / (r * (1 - β)) * Spec.arcInt m.rho (m.vov / ((1 - β) * α) * kk ^ (1 - β) * (r / vm)) ((vm + m.rho + z) / r) ((1 + m.rho) / r))
      (𝓝[<] 1) (𝓝 (α / m.vov * L)) ∧
    ∀ v : Vars, m.beta = 1 → v.betac = 0 → v.rho2 = m.rho ^ 2 → m.choiWuPGg v kk z vm = L := by
  intro vm r L
  have h := abs_lt.1 hρ
  have hr2 : r ^ 2 = 1 - m.rho ^ 2 := sq_sqrt (by nlinarith)
  have hr : 0 < r := sqrt_pos.2 (by nlinarith)
  have hvv : vm = vv z m.rho := by show √_ = √_; congr 1; ring
  have hvm : 0 < vm := by rw [hvv]; exact vv_pos hρ z
  refine ⟨?_, ?_⟩
  · have hlim := arcInt_limit (z := z) hρ
    simp only at hlim
    have hb : Tendsto (fun β : ℝ => 1 - β) (𝓝[<] 1) (𝓝[>] 0) := by
      refine tendsto_nhdsWithin_iff.2 ⟨?_, ?_⟩
      · have : Tendsto (fun β : ℝ => 1 - β) (𝓝 1) (𝓝 (1 - 1)) := (by fun_prop : Continuous fun β : ℝ => 1 - β).tendsto 1
        rw [sub_self] at this
        exact this.mono_left nhdsWithin_le_nhds
      · filter_upwards [self_mem_nhdsWithin] with β hβ
        have : β < 1 := hβ
        show (0:ℝ) < 1 - β
        linarith
    have hkp : Tendsto (fun β : ℝ => kk ^ (1 - β)) (𝓝[<] 1) (𝓝 1) := by
      have : Tendsto (fun β : ℝ => kk ^ (1 - β)) (𝓝 1) (𝓝 (kk ^ ((1:ℝ) - 1))) :=
        (Continuous.rpow continuous_const (by fun_prop) (fun _ => Or.inl hk.ne')).tendsto 1
      rw [sub_self, rpow_zero] at this
      exact this.mono_left nhdsWithin_le_nhds
    have hη : Tendsto (fun β : ℝ => m.vov / ((1 - β) * α) * kk ^ (1 - β) * (r / vm)) (𝓝[<] 1) atTop := by
      have h1 : Tendsto (fun β : ℝ => (1 - β)⁻¹) (𝓝[<] 1) atTop := tendsto_inv_nhdsGT_zero.comp hb
      have h2 : Tendsto (fun β : ℝ => m.vov / α * kk ^ (1 - β) * (r / vm)) (𝓝[<] 1) (𝓝 (m.vov / α * 1 * (r / vm))) := (hkp.const_mul _).mul_const _
      refine (h1.atTop_mul_pos (by positivity) h2).congr' ?_
      filter_upwards [self_mem_nhdsWithin] with β hβ
      have : (1 - β) ≠ 0 := (sub_pos.2 hβ).ne'
      field_simp
    have hc := hlim.comp hη
    have hβ1 : Tendsto (fun β : ℝ => m.rho * β / r * (α * vm / (m.vov * r)) / kk ^ (1 - β)) (𝓝[<] 1) (𝓝 (m.rho * 1 / r * (α * vm / (m.vov * r)) / 1)) := by
      refine Tendsto.div ?_ hkp one_ne_zero
      have : Tendsto (fun β : ℝ => m.rho * β / r * (α * vm / (m.vov * r))) (𝓝 1) (𝓝 (m.rho * 1 / r * (α * vm / (m.vov * r)))) :=
        (by fun_prop : Continuous fun β : ℝ => m.rho * β / r * (α * vm / (m.vov * r))).tendsto 1
      exact this.mono_left nhdsWithin_le_nhds
    have hall := hβ1.mul hc
    have e : m.rho * 1 / r * (α * vm / (m.vov * r)) / 1 * ((vm - 1 - m.rho * z) / (2 * vm)) = α / m.vov * L := by
      show _ = α / m.vov * (0.5 * m.rho / (1 - m.rho ^ 2) * (vm - 1 - m.rho * z))
      rw [← hr2, show (0.5:ℝ) = 1 / 2 by norm_num]
      field_simp
    rw [show √(1 + 2 * m.rho * z + z ^ 2) = vm from rfl] at hall
    rw [e] at hall
    refine hall.congr' ?_
    filter_upwards [self_mem_nhdsWithin] with β hβ
    have h1 : (1 - β) ≠ 0 := (sub_pos.2 hβ).ne'
    have h2 := (rpow_pos_of_pos hk (1 - β)).ne'
    simp only [Function.comp]
    rw [show √(1 - m.rho ^ 2) = r from rfl]
    generalize Spec.arcInt m.rho _ _ _ = I
    generalize kk ^ (1 - β) = q at *
    field_simp
  · intro v hb1 hb0 hr'
    unfold choiWuPGg
    rw [if_pos (by rw [hb0, abs_zero]; norm_num), hb1, hr', mul_one]

lemma log_two {x : ℝ} (hx : |x| ≤ 1 / 2) : |log (1 + x) - (x - x ^ 2 / 2)| ≤ 2 * |x| ^ 3 := by
  have h := abs_log_sub_add_sum_range_le (x := -x) (by rw [abs_neg]; linarith) 2
  rw [Finset.sum_range_succ, Finset.sum_range_one, abs_neg, sub_neg_eq_add] at h
  norm_num at h
  have e : -x + x ^ 2 / 2 + log (1 + x) = log (1 + x) - (x - x ^ 2 / 2) := by ring
  rw [e] at h
  refine h.trans ?_
  rw [div_le_iff₀ (by linarith)]
  have := pow_nonneg (abs_nonneg x) 3
  nlinarith

lemma near_one {v x a : ℝ} (hv : 0 < v) (h : v ^ 2 = 1 + x) (hx : |x| ≤ 2.001 * a) (ha : a < 1 / 1000) : |v - 1| ≤ 1.1 * a := by
  norm_num at hx ⊢
  have hx' := abs_le.1 hx
  have h9 : (0.9:ℝ) ≤ v := by
    norm_num
    by_contra hc
    push Not at hc
    nlinarith
  have e : |v - 1| * (v + 1) = |x| := by
    rw [← abs_of_pos (by linarith : 0 < v + 1), ← abs_mul, show (v - 1) * (v + 1) = v ^ 2 - 1 by ring, h]
    ring_nf
  norm_num at h9
  nlinarith [abs_nonneg (v - 1), abs_nonneg x]

lemma bracket_combine {ρ z a L G H : ℝ} (hρ : |ρ| < 1) (ha0 : 0 < a) (ha : a < 1 / 1000) (hz2 : z ^ 2 = a ^ 2) (hlog : |L - z ^ 2 * (1 / 6 - ρ ^ 2 / 4)| ≤ 11 * a ^ 3)
    (hg : |G - ρ * z ^ 2 / 4| ≤ a ^ 3) (hH : |H - 1| ≤ 1.1 * a) : |H / z ^ 2 * (0.5 * L + G) - (ρ / 4 + (2 - 3 * ρ ^ 2) / 24)| ≤ 8 * a := by
  have h := abs_lt.1 hρ
  obtain ⟨B, hB⟩ : ∃ B, B = 0.5 * L + G := ⟨_, rfl⟩
  have hBb : |B - z ^ 2 * (ρ / 4 + (2 - 3 * ρ ^ 2) / 24)| ≤ 6.5 * a ^ 3 := by
    rw [hB]
    have hlog' := abs_le.1 hlog
    have hg' := abs_le.1 hg
    norm_num
    rw [abs_le]
    constructor <;> linarith
  rw [← hB]
  obtain ⟨c, hc⟩ : ∃ c, c = ρ / 4 + (2 - 3 * ρ ^ 2) / 24 := ⟨_, rfl⟩
  have hcb : |c| ≤ 1 := by rw [hc, abs_le]; constructor <;> nlinarith
  rw [← hc] at hBb ⊢
  have hz2' : (0:ℝ) < a ^ 2 := by positivity
  have e : H / z ^ 2 * B - c = (H - 1) * c + H * ((B - z ^ 2 * c) / a ^ 2) := by
    rw [hz2]; field_simp; ring
  have e1 : |(B - z ^ 2 * c) / a ^ 2| ≤ 6.5 * a := by
    rw [abs_div, abs_of_pos hz2', div_le_iff₀ hz2']
    refine hBb.trans (le_of_eq ?_)
    ring
  have e2 : |H| ≤ 1.01 := by
    have := abs_le.1 hH
    rw [abs_le]; norm_num at this ⊢; constructor <;> linarith
  rw [e]
  refine (abs_add_le _ _).trans ?_
  rw [abs_mul, abs_mul]
  have f1 := mul_le_mul hH hcb (abs_nonneg _) (by positivity)
  have f2 := mul_le_mul e2 e1 (abs_nonneg _) (by norm_num)
  norm_num at f1 f2 ⊢
  linarith

set_option maxHeartbeats 1000000 in
/-- The small-`z` value of the bracket of the first-order term near `beta = 1`. -/
lemma bracket_parts {ρ z : ℝ} (hρ : |ρ| < 1) (hz : |z| < 1e-3) (hz0 : z ≠ 0) :
    |log (vv z ρ / hh z ρ ^ 2) - z ^ 2 * (1 / 6 - ρ ^ 2 / 4)| ≤ 11 * |z| ^ 3 ∧ |hh z ρ ^ 2 - 1| ≤ 1.1 * |z| ∧ |vv z ρ - 1| ≤ 1.1 * |z| := by
  have h := abs_lt.1 hρ
  have hvm := vv_pos hρ z
  have hsq := vv_sq hρ z
  have hz1 : |z| < 1 / 1000 := by norm_num at hz ⊢; exact hz
  have ha0 := abs_pos.2 hz0
  obtain ⟨a, hae⟩ : ∃ a, a = |z| := ⟨_, rfl⟩
  have hz2 : z ^ 2 = a ^ 2 := by rw [hae, sq_abs]
  have hza := abs_le.1 (le_of_eq hae.symm)
  rw [← hae] at hz1 ha0 ⊢
  have hρa : |ρ * z| ≤ a := by rw [abs_mul, hae]; exact mul_le_of_le_one_left (abs_nonneg _) hρ.le
  have hρa' := abs_le.1 hρa
  -- the polynomial of the code
  obtain ⟨u, hu⟩ : ∃ u, u = z * (ρ / 2 + z * (1 / 6 - ρ * ρ / 4 + ρ * (6 * (ρ * ρ) - 5) / 24 * z)) := ⟨_, rfl⟩
  have hH : hh z ρ = 1 + u := by unfold hh; rw [if_pos hz, hu]
  have hpos := (hh_pos hρ z).1
  obtain ⟨w, hw⟩ : ∃ w, w = 1 / 6 - ρ * ρ / 4 + ρ * (6 * (ρ * ρ) - 5) / 24 * z := ⟨_, rfl⟩
  have hu' : u = ρ * z / 2 + w * z ^ 2 := by rw [hu, hw]; ring
  have hρ2 : ρ ^ 2 ≤ 1 := by nlinarith
  have hr0 : 0 ≤ ρ ^ 2 := sq_nonneg ρ
  have hr1 : |6 * (ρ * ρ) - 5| ≤ 5 := by rw [abs_le]; constructor <;> nlinarith
  have hq : |ρ * (6 * (ρ * ρ) - 5) / 24 * z| ≤ a / 4 := by
    rw [show ρ * (6 * (ρ * ρ) - 5) / 24 * z = (ρ * z) * (6 * (ρ * ρ) - 5) / 24 by ring, abs_div, abs_mul]
    have := mul_le_mul hρa hr1 (abs_nonneg _) ha0.le
    rw [abs_of_pos (by norm_num : (0:ℝ) < 24)]
    linarith
  obtain ⟨q, hqe⟩ : ∃ q, q = ρ * (6 * (ρ * ρ) - 5) / 24 * z := ⟨_, rfl⟩
  rw [← hqe] at hq hw
  have hq' := abs_le.1 hq
  have hw1 : |w| ≤ 1 / 5 := by rw [hw, abs_le]; constructor <;> nlinarith
  have hw' := abs_le.1 hw1
  have hwz : |w * z ^ 2| ≤ a ^ 2 / 5 := by
    rw [abs_mul, hz2, abs_of_nonneg (sq_nonneg a)]
    have := mul_le_mul_of_nonneg_right hw1 (sq_nonneg a)
    linarith
  have hwz' := abs_le.1 hwz
  have ha2 : a ^ 2 ≤ a / 1000 := by nlinarith
  have hua : |u| ≤ 0.51 * a := by rw [hu', abs_le]; norm_num; constructor <;> linarith
  have hua' := abs_le.1 hua
  -- logarithms
  obtain ⟨x, hx⟩ : ∃ x, x = 2 * (ρ * z) + z ^ 2 := ⟨_, rfl⟩
  have hxa : |x| ≤ 2.001 * a := by rw [hx, hz2, abs_le]; norm_num; constructor <;> linarith [sq_nonneg a]
  have hQ : vv z ρ ^ 2 = 1 + x := by rw [hsq, hx]; ring
  have hlogv : log (vv z ρ / hh z ρ ^ 2) = 1 / 2 * log (1 + x) - 2 * log (1 + u) := by
    rw [log_div hvm.ne' (by positivity), ← hQ, log_pow, log_pow, hH]
    push_cast
    ring
  have l1 := log_two (x := x) (hxa.trans (by norm_num; linarith))
  have l2 := log_two (x := u) (hua.trans (by norm_num; linarith))
  have c1 : |x| ^ 3 ≤ 8.1 * a ^ 3 := by
    calc |x| ^ 3 ≤ (2.001 * a) ^ 3 := by gcongr
      _ = 2.001 ^ 3 * a ^ 3 := by ring
      _ ≤ 8.1 * a ^ 3 := by gcongr; norm_num
  have c2 : |u| ^ 3 ≤ 0.14 * a ^ 3 := by
    calc |u| ^ 3 ≤ (0.51 * a) ^ 3 := by gcongr
      _ = 0.51 ^ 3 * a ^ 3 := by ring
      _ ≤ 0.14 * a ^ 3 := by gcongr; norm_num
  -- the main part
  have hmain : 1 / 2 * (x - x ^ 2 / 2) - 2 * (u - u ^ 2 / 2) = z ^ 2 * (1 / 6 - ρ ^ 2 / 4) - 2 * (q * z ^ 2) - (ρ * z) * z ^ 2 - z ^ 4 / 4 + (ρ * z) * (w * z ^ 2) + (w * z ^ 2) ^ 2 := by
    rw [hx, hu', hw]
    ring
  have ha3 : 0 < a ^ 3 := by positivity
  have d1 : |q * z ^ 2| ≤ a ^ 3 / 4 := by
    rw [abs_mul, hz2, abs_of_nonneg (sq_nonneg a)]
    have := mul_le_mul_of_nonneg_right hq (sq_nonneg a)
    linarith [this, (by ring : a / 4 * a ^ 2 = a ^ 3 / 4)]
  have d2 : |(ρ * z) * z ^ 2| ≤ a ^ 3 := by
    rw [abs_mul, hz2, abs_of_nonneg (sq_nonneg a)]
    have := mul_le_mul_of_nonneg_right hρa (sq_nonneg a)
    linarith [this, (by ring : a * a ^ 2 = a ^ 3)]
  have d3 : z ^ 4 ≤ a ^ 3 / 1000 := by
    rw [show z ^ 4 = (z ^ 2) ^ 2 by ring, hz2]
    nlinarith
  have d3' : 0 ≤ z ^ 4 := by positivity
  have d4 : |(ρ * z) * (w * z ^ 2)| ≤ a ^ 3 / 5 := by
    rw [abs_mul]
    have := mul_le_mul hρa hwz (abs_nonneg _) ha0.le
    linarith [this, (by ring : a * (a ^ 2 / 5) = a ^ 3 / 5)]
  have d5 : |(w * z ^ 2) ^ 2| ≤ a ^ 3 / 1000 := by
    rw [abs_pow]
    have : |w * z ^ 2| ^ 2 ≤ (a ^ 2 / 5) ^ 2 := by gcongr
    refine this.trans ?_
    nlinarith
  have hlog : |log (vv z ρ / hh z ρ ^ 2) - z ^ 2 * (1 / 6 - ρ ^ 2 / 4)| ≤ 11 * a ^ 3 := by
    rw [hlogv]
    have l1' := abs_le.1 l1
    have l2' := abs_le.1 l2
    have d1' := abs_le.1 d1; have d2' := abs_le.1 d2; have d4' := abs_le.1 d4; have d5' := abs_le.1 d5
    norm_num at c1 c2
    rw [abs_le]
    constructor <;> linarith
  have hh2 : |hh z ρ ^ 2 - 1| ≤ 1.1 * a := by
    have f : (2:ℝ) + u ≤ 2.1 ∧ 0 ≤ 2 + u := by norm_num at hua' ⊢; constructor <;> linarith
    rw [hH, show (1 + u) ^ 2 - 1 = u * (2 + u) by ring, abs_mul, abs_of_nonneg f.2]
    have := mul_le_mul hua f.1 f.2 (by positivity)
    norm_num at this ⊢
    linarith
  exact ⟨hlog, hh2, near_one hvm hQ hxa hz1⟩

lemma bracket_small {ρ z : ℝ} (hρ : |ρ| < 1) (hz : |z| < 1e-3) (hz0 : z ≠ 0) :
    |hh z ρ ^ 2 / z ^ 2 * (0.5 * log (vv z ρ / hh z ρ ^ 2) + 0.5 * ρ / (1 - ρ ^ 2) * (vv z ρ - 1 - ρ * z)) - (ρ / 4 + (2 - 3 * ρ ^ 2) / 24)| ≤ 8 * |z| := by
  obtain ⟨hlog, hh2, hv1⟩ := bracket_parts hρ hz hz0
  have h := abs_lt.1 hρ
  have hvm := vv_pos hρ z
  have hsq := vv_sq hρ z
  have hz1 : |z| < 1 / 1000 := by norm_num at hz ⊢; exact hz
  have ha0 := abs_pos.2 hz0
  obtain ⟨a, hae⟩ : ∃ a, a = |z| := ⟨_, rfl⟩
  have hz2 : z ^ 2 = a ^ 2 := by rw [hae, sq_abs]
  have hρa : |ρ * z| ≤ a := by rw [abs_mul, hae]; exact mul_le_of_le_one_left (abs_nonneg _) hρ.le
  have hρa' := abs_le.1 hρa
  rw [← hae] at hz1 ha0 hlog hh2 hv1 ⊢
  have ha3 : 0 < a ^ 3 := by positivity
  -- the correlation term
  have hv1' := abs_le.1 hv1
  obtain ⟨S, hS⟩ : ∃ S, S = vv z ρ + 1 + ρ * z := ⟨_, rfl⟩
  have hS1 : |S - 2| ≤ 2.1 * a := by rw [hS, abs_le]; norm_num at hv1' ⊢; constructor <;> linarith
  have hS2 := abs_le.1 hS1
  have hSpos : 1.9 ≤ S := by norm_num at hS2 ⊢; linarith
  have hS0 : 0 < S := lt_of_lt_of_le (by norm_num) hSpos
  have hgg : 0.5 * ρ / (1 - ρ ^ 2) * (vv z ρ - 1 - ρ * z) = ρ * z ^ 2 / (2 * S) := by
    have h1 : 1 - ρ ^ 2 ≠ 0 := by nlinarith
    have h2 : (vv z ρ - 1 - ρ * z) * S = (1 - ρ ^ 2) * z ^ 2 := by rw [hS]; linear_combination hsq
    rw [show vv z ρ - 1 - ρ * z = (1 - ρ ^ 2) * z ^ 2 / S by rw [← h2]; field_simp, show (0.5:ℝ) = 1 / 2 by norm_num]
    field_simp
  have hg : |ρ * z ^ 2 / (2 * S) - ρ * z ^ 2 / 4| ≤ a ^ 3 := by
    rw [show ρ * z ^ 2 / (2 * S) - ρ * z ^ 2 / 4 = ρ * z ^ 2 * (2 - S) / (4 * S) by field_simp; ring, abs_div, abs_mul, abs_mul, abs_of_pos (by linarith : 0 < 4 * S), div_le_iff₀ (by linarith),
      abs_sub_comm, hz2, abs_of_nonneg (sq_nonneg a)]
    have h1 : |ρ| * a ^ 2 * |S - 2| ≤ 1 * a ^ 2 * (2.1 * a) := by gcongr
    refine h1.trans ?_
    norm_num at hSpos ⊢
    have h2 : a ^ 3 * (21 / 10) ≤ a ^ 3 * (4 * S) := mul_le_mul_of_nonneg_left (by linarith) ha3.le
    linarith [h2, (by ring : a ^ 2 * (21 / 10 * a) = a ^ 3 * (21 / 10))]
  rw [hgg]
  exact bracket_combine hρ ha0 hz1 hz2 hlog hg hh2

/-- **C134** (consequence).  For `beta = 1` the first-order factor of `SabrChoiWu2021P` at the money is `1 + T (rho sigma vov / 4 + (2 - 3 rho²) vov² / 24)`, the known expansion; but just off the money
(`1e-6 ≤ |z| < 1e-3`) it is `1 + T w` with `w` within `8 vov² |z|` of `(rho / 4 + (2 - 3 rho²) / 24) vov²`.  The volatility smile has a jump of about `rho vov (vov - sigma) T / 4` (relative) at the money. -/
theorem choiWuP_lognormal_jump (m : Sabr) (hb : m.beta = 1) (ho : m.approxOrder ≠ 0) (hρ : |m.rho| < 1) (hσ : eps ≤ m.sigma) {K S T : ℝ} (hK : 0 < K) (hS : 0 < S) :
    let F := _root_.PyFENG.Spec.forward m.isFwd m.intr m.divr S T
    let z := m.vov / m.sigma * log (K / F)
    (m.choiWuPVol none F S T = .ok (m.sigma * (1 + T * (m.rho * m.sigma * m.vov / 4 + (2 - 3 * m.rho ^ 2) / 24 * m.vov ^ 2)))) ∧
    (1e-6 ≤ |z| → |z| < 1e-3 → ∃ v0 w, Sabr.choiWuPVol { m with approxOrder := 0 } none K S T = .ok v0 ∧ m.choiWuPVol none K S T = .ok (v0 * (1 + T * w)) ∧
      |w - (m.rho / 4 + (2 - 3 * m.rho ^ 2) / 24) * m.vov ^ 2| ≤ 8 * m.vov ^ 2 * |z|) := by
  classical
  intro F z
  have eF : m.mp.fwd S T = F := m.fwd_forward S T
  have eF' : (mp { m with approxOrder := 0 }).fwd S T = F := eF
  have hF : 0 < F := eF ▸ m.mp.fwd_pos hS T
  have hb0 : 1 - m.beta = 0 := by rw [hb]; ring
  have hσ0 : 0 < m.sigma := eps_pos.trans_le hσ
  refine ⟨?_, fun hz1 hz2 => ?_⟩
  · have h0 : ∀ r, hh 0 r = 1 := fun r => by unfold hh; norm_num
    have hk : F / F - 1 = 0 := by rw [div_self hF.ne', sub_self]
    unfold choiWuPVol vars
    simp only [eF, Option.getD_none, hk, powrel_correct 0 _ (by norm_num : (-1:ℝ) < 0), Bind.bind, Except.bind, pure, Except.pure, h0, if_neg ho, mul_zero, abs_zero, hb0, rpow_zero, div_one]
    rw [if_pos (by norm_num : (0:ℝ) < 1e-6)]
    congr 1
    rw [hb]
    ring
  · have hkf := div_pos hK hF
    have hx : (-1:ℝ) < K / F - 1 := by linarith
    have hz : z ≠ 0 := fun h => by rw [h, abs_zero] at hz1; norm_num at hz1
    have hpr : _root_.PyFENG.Spec.avgPow (K / F - 1) 0 * (K / F - 1) = log (K / F) := by
      rcases eq_or_ne (K / F - 1) 0 with h0 | h0
      · rw [h0, mul_zero, show K / F = 1 by linarith, log_one]
      · unfold _root_.PyFENG.Spec.avgPow
        rw [if_neg h0, show 1 + (K / F - 1) = K / F by ring]
        simp only [zero_sub, rpow_neg_one]
        rw [integral_inv_of_pos one_pos hkf, div_one, one_div, mul_right_comm, inv_mul_cancel₀ h0, one_mul]
    have hzz : m.vov / max m.sigma eps * _root_.PyFENG.Spec.avgPow (K / F - 1) 0 * (K / F - 1) = z := by
      rw [max_eq_left hσ, mul_assoc, hpr]
    have hmax : max (z ^ 2) eps = z ^ 2 := max_eq_left (by
      have : (1e-6:ℝ) ^ 2 ≤ |z| ^ 2 := by gcongr
      rw [sq_abs] at this
      refine le_trans ?_ this
      unfold eps; norm_num)
    have hB := bracket_small hρ hz2 hz
    refine ⟨m.sigma * hh z m.rho, hh z m.rho ^ 2 / z ^ 2 * (0.5 * log (vv z m.rho / hh z m.rho ^ 2) + 0.5 * m.rho / (1 - m.rho ^ 2) * (vv z m.rho - 1 - m.rho * z)) * m.vov ^ 2, ?_, ?_, ?_⟩
    · unfold choiWuPVol vars
      simp only [eF', Option.getD_none, powrel_correct _ _ hx, Bind.bind, Except.bind, pure, Except.pure, if_true, hb0, rpow_zero, div_one, one_mul, mul_one]
      rw [hzz]
    · unfold choiWuPVol vars choiWuPGg
      simp only [eF, Option.getD_none, powrel_correct _ _ hx, Bind.bind, Except.bind, pure, Except.pure, if_neg ho, hb0, rpow_zero, div_one, mul_one, abs_zero]
      simp only [hb]
      rw [hzz, if_neg (not_lt.2 hz1), if_pos (by norm_num : (0:ℝ) < 0.001), hmax, if_pos (close_self 1)]
      congr 1
      ring
    · rw [← sub_mul, abs_mul, abs_of_nonneg (sq_nonneg m.vov)]
      have := mul_le_mul_of_nonneg_right hB (sq_nonneg m.vov)
      linarith

/-- A strike ratio of `(11/8)²` with `rho = 0`, `beta = 1/2`, `sigma = vov = 1`, so `z = 3/4`. -/
private noncomputable def exP : Sabr := ⟨1, 1, 0, 0.5, 0, 0, false, 1, false⟩

/-- A lognormal case. -/
private noncomputable def exL : Sabr := ⟨0.2, 1, 0.5, 1, 0, 0, false, 1, false⟩

/-- The hypotheses of `choiWuP_geodesic` are met. -/
example : exP.choiWuPGg ⟨1, 0.5, 1, 0, 1⟩ ((11 / 8) ^ 2) (3 / 4) (5 / 4) = 0 := by
  have hk : (((11:ℝ) / 8) ^ 2) ^ (0.5:ℝ) = 11 / 8 := by
    rw [← rpow_natCast, ← rpow_mul (by norm_num)]
    norm_num
  have hη : exP.vov / ((0.5:ℝ) * 1) * (((11:ℝ) / 8) ^ 2) ^ (0.5:ℝ) * (1 / (5 / 4)) = 11 / 5 := by rw [hk]; norm_num [exP]
  have h := choiWuP_geodesic exP ⟨1, 0.5, 1, 0, 1⟩ ((11 / 8) ^ 2) (3 / 4) (5 / 4) (by norm_num [exP]) (by norm_num [exP]) (by norm_num [abs_of_pos])
    (by rw [hη]; norm_num) (by rw [hη]; norm_num) (by simp only; rw [hη]; right; norm_num [abs_of_pos]) (fun t _ => by
      rw [hη]
      unfold Spec.arcD Spec.arcN
      simp only [exP]
      norm_num
      nlinarith [sq_nonneg t])
  rw [h]
  norm_num [exP]

/-- At the money the first-order term is `0.5 · 0.2 · 1 / 4 + (2 - 3/4) / 24`; at `z = 1e-6` it is about `0.5 / 4 + (2 - 3/4) / 24`. -/
example : exL.choiWuPVol none 1 1 1 = .ok (0.2 * (1 + 1 * (0.5 * 0.2 * 1 / 4 + (2 - 3 * 0.5 ^ 2) / 24 * 1 ^ 2))) ∧
    ∃ v0 w, Sabr.choiWuPVol { exL with approxOrder := 0 } none (exp 2e-7) 1 1 = .ok v0 ∧ exL.choiWuPVol none (exp 2e-7) 1 1 = .ok (v0 * (1 + 1 * w)) ∧
      |w - (0.5 / 4 + (2 - 3 * 0.5 ^ 2) / 24)| ≤ 1e-5 := by
  obtain ⟨h1, h2⟩ := choiWuP_lognormal_jump exL rfl (by norm_num [exL]) (by norm_num [exL, abs_of_pos]) (by unfold eps; norm_num [exL]) (K := exp 2e-7) (S := 1) (T := 1) (exp_pos _) one_pos
  have eF : _root_.PyFENG.Spec.forward exL.isFwd exL.intr exL.divr 1 1 = 1 := by simp [exL, _root_.PyFENG.Spec.forward]
  have ez : exL.vov / exL.sigma * log (exp 2e-7 / 1) = 1e-6 := by rw [div_one, log_exp]; norm_num [exL]
  rw [eF] at h1 h2
  rw [ez] at h2
  refine ⟨h1, ?_⟩
  obtain ⟨v0, w, ha, hb, hc⟩ := h2 (by norm_num [abs_of_pos]) (by norm_num [abs_of_pos])
  refine ⟨v0, w, ha, hb, ?_⟩
  have e : (exL.rho / 4 + (2 - 3 * exL.rho ^ 2) / 24) * exL.vov ^ 2 = 0.5 / 4 + (2 - 3 * 0.5 ^ 2) / 24 := by simp only [exL]; ring
  rw [e] at hc
  refine hc.trans ?_
  norm_num [exL, abs_of_pos]

end Sabr

end PyFENG
