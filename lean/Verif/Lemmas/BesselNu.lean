import Verif.Props.HestonEta
import Verif.Lemmas.Kummer
import Mathlib.Analysis.Complex.LocallyUniformLimit
import Mathlib.Analysis.Complex.RealDeriv
import Mathlib.Analysis.SpecialFunctions.Gamma.Deriv

/-!
# The modified Bessel function: derivatives in the order and in the argument
-/

namespace PyFENG

open Filter Topology Set Spec

namespace Spec

/-- One term of the series of the modified Bessel function of complex order. -/
noncomputable def besselTermC (ν : ℂ) (z : ℝ) (k : ℕ) : ℂ := ((z / 2 : ℝ) : ℂ) ^ (ν + 2 * k) / (k.factorial * Complex.Gamma (ν + k + 1))

/-- The modified Bessel function `I_ν(z)` of complex order `ν`, by its series. -/
noncomputable def besselIC (ν : ℂ) (z : ℝ) : ℂ := ∑' k, besselTermC ν z k

/-- `digamma` and `trigamma` are the first and second derivatives of `log Γ` on the positive axis. -/
structure IsPolygamma (digamma trigamma : ℝ → ℝ) : Prop where
  d1 : ∀ x : ℝ, 0 < x → HasDerivAt (fun x => Real.log (Real.Gamma x)) (digamma x) x
  d2 : ∀ x : ℝ, 0 < x → HasDerivAt digamma (trigamma x) x

end Spec

namespace Bessel

lemma termC_ofReal {z : ℝ} (hz : 0 < z) (ν : ℝ) (k : ℕ) : besselTermC ν z k = (besselTerm ν z k : ℝ) := by
  unfold besselTermC besselTerm
  push_cast
  rw [Complex.ofReal_cpow (by positivity), ← Complex.Gamma_ofReal]
  push_cast
  rfl

lemma besselIC_ofReal {z : ℝ} (hz : 0 < z) (ν : ℝ) : besselIC ν z = (besselI ν z : ℝ) := by
  unfold besselIC besselI
  rw [Complex.ofReal_tsum]
  exact tsum_congr fun k => termC_ofReal hz ν k

lemma diff_termC {z : ℝ} (hz : 0 < z) (k : ℕ) : Differentiable ℂ fun ν : ℂ => besselTermC ν z k := by
  have h1 : Differentiable ℂ fun ν : ℂ => (Complex.Gamma (ν + k + 1))⁻¹ := Complex.differentiable_one_div_Gamma.comp (by fun_prop : Differentiable ℂ fun ν : ℂ => ν + k + 1)
  have h0 : ((z / 2 : ℝ) : ℂ) ≠ 0 := by exact_mod_cast (by positivity : z / 2 ≠ 0)
  have h2 : Differentiable ℂ fun ν : ℂ => ((z / 2 : ℝ) : ℂ) ^ (ν + 2 * k) := fun ν => by
    refine DifferentiableAt.const_cpow (by fun_prop) (Or.inl h0)
  have h3 := (h2.mul h1).mul (differentiable_const (((k.factorial : ℕ) : ℂ)⁻¹))
  refine Eq.subst (motive := fun f => Differentiable ℂ f) ?_ h3
  funext ν
  show _ * (Complex.Gamma (ν + k + 1))⁻¹ * (((k.factorial : ℕ) : ℂ)⁻¹) = _
  unfold besselTermC
  simp only
  generalize ((z / 2 : ℝ) : ℂ) ^ (ν + 2 * k) = A
  rw [div_eq_mul_inv, mul_inv]
  ring

lemma termC_succ {z : ℝ} (hz : 0 < z) {ν : ℂ} (k : ℕ) (hν : ν + k + 1 ≠ 0) :
    besselTermC ν z (k + 1) = besselTermC ν z k * ((((z / 2) ^ 2 : ℝ) : ℂ) / (((k + 1 : ℕ) : ℂ) * (((k + 1 : ℕ) : ℂ) + ν))) := by
  unfold besselTermC
  have h0 : ((z / 2 : ℝ) : ℂ) ≠ 0 := by exact_mod_cast (by positivity : z / 2 ≠ 0)
  have h2 : ((z / 2 : ℝ) : ℂ) ^ (ν + 2 * ((k + 1 : ℕ) : ℂ)) = ((z / 2 : ℝ) : ℂ) ^ (ν + 2 * (k : ℂ)) * (((z / 2) ^ 2 : ℝ) : ℂ) := by
    rw [Complex.ofReal_pow, ← Complex.cpow_natCast _ 2, ← Complex.cpow_add _ _ h0]
    congr 1
    push_cast
    ring
  rw [h2, show ν + ((k + 1 : ℕ) : ℂ) + 1 = (ν + k + 1) + 1 by push_cast; ring, Complex.Gamma_add_one _ hν, Nat.factorial_succ]
  push_cast
  rw [show (k : ℂ) + 1 + ν = ν + k + 1 by ring]
  simp only [div_eq_mul_inv, mul_inv]
  ring

lemma norm_termC_le {z : ℝ} (hz : 0 < z) {ν : ℂ} (hν : 0 < ν.re) (k : ℕ) :
    ‖besselTermC ν z k‖ ≤ ‖besselTermC ν z 0‖ * (((z / 2) ^ 2) ^ k / k.factorial) := by
  induction k with
  | zero => simp
  | succ k ih =>
    have hre : (k : ℝ) + 1 ≤ (ν + k + 1).re := by simp; linarith
    have hk : (0:ℝ) ≤ k := Nat.cast_nonneg k
    have h0 : ν + k + 1 ≠ 0 := fun h => by rw [h] at hre; simp at hre; linarith
    rw [termC_succ hz k h0, norm_mul, norm_div, norm_mul, Complex.norm_natCast, Complex.norm_real, Nat.factorial_succ, Real.norm_of_nonneg (sq_nonneg _)]
    have h1 : 1 ≤ ‖((k + 1 : ℕ) : ℂ) + ν‖ := by
      refine le_trans ?_ (Complex.re_le_norm _)
      simp
      linarith
    have hf := Nat.factorial_pos k
    calc _ ≤ ‖besselTermC ν z 0‖ * (((z / 2) ^ 2) ^ k / k.factorial) * ((z / 2) ^ 2 / (((k + 1 : ℕ) : ℝ) * 1)) := by gcongr
      _ = _ := by push_cast; field_simp; ring

/-- A neighbourhood with a uniform bound on the terms. -/
lemma exists_bound {z : ℝ} (hz : 0 < z) {ν0 : ℂ} (_ : 0 < ν0.re) :
    ∃ C : ℝ, ∀ (k : ℕ) (ν : ℂ), ν ∈ Metric.ball ν0 ν0.re → ‖besselTermC ν z k‖ ≤ C * (((z / 2) ^ 2) ^ k / k.factorial) := by
  obtain ⟨C, hC⟩ := (isCompact_closedBall ν0 ν0.re).exists_bound_of_continuousOn (diff_termC hz 0).continuous.continuousOn
  refine ⟨C, fun k ν hm => ?_⟩
  have hre : 0 < ν.re := by
    have h1 := Complex.abs_re_le_norm (ν - ν0)
    rw [mem_ball_iff_norm] at hm
    rw [Complex.sub_re] at h1
    have := neg_abs_le (ν.re - ν0.re)
    linarith
  refine (norm_termC_le hz hre k).trans ?_
  gcongr
  exact hC ν (Metric.ball_subset_closedBall hm)

lemma locUnif {z : ℝ} (hz : 0 < z) {ν0 : ℂ} (hν : 0 < ν0.re) :
    TendstoLocallyUniformlyOn (fun (N : ℕ) (ν : ℂ) => ∑ k ∈ Finset.range N, besselTermC ν z k) (fun ν => besselIC ν z) atTop (Metric.ball ν0 ν0.re) := by
  obtain ⟨C, hC⟩ := exists_bound hz hν
  exact (tendstoUniformlyOn_tsum_nat ((Real.summable_pow_div_factorial _).mul_left C) hC).tendstoLocallyUniformlyOn

lemma hasSum_C {z : ℝ} (hz : 0 < z) {ν : ℂ} (hν : 0 < ν.re) : HasSum (besselTermC ν z) (besselIC ν z) :=
  (Summable.of_norm_bounded ((Real.summable_pow_div_factorial _).mul_left ‖besselTermC ν z 0‖) fun k => norm_termC_le hz hν k).hasSum

lemma diff_sum {z : ℝ} (hz : 0 < z) (N : ℕ) : Differentiable ℂ fun ν : ℂ => ∑ k ∈ Finset.range N, besselTermC ν z k :=
  Differentiable.fun_sum fun k _ => diff_termC hz k

lemma diff_deriv_sum {z : ℝ} (hz : 0 < z) (N : ℕ) : Differentiable ℂ (deriv fun ν : ℂ => ∑ k ∈ Finset.range N, besselTermC ν z k) :=
  fun ν => ((diff_sum hz N).analyticAt ν).deriv.differentiableAt

/-- `I_ν(z)` is holomorphic in `ν` on the right half plane and the derivatives of the partial sums converge to its derivatives. -/
lemma order_deriv {z : ℝ} (hz : 0 < z) {ν : ℂ} (hν : 0 < ν.re) :
    HasDerivAt (fun ν => besselIC ν z) (deriv (fun ν => besselIC ν z) ν) ν ∧
    HasDerivAt (deriv fun ν => besselIC ν z) (deriv (deriv fun ν => besselIC ν z) ν) ν ∧
    Tendsto (fun N : ℕ => deriv (fun ν : ℂ => ∑ k ∈ Finset.range N, besselTermC ν z k) ν) atTop (𝓝 (deriv (fun ν => besselIC ν z) ν)) ∧
    Tendsto (fun N : ℕ => deriv (deriv fun ν : ℂ => ∑ k ∈ Finset.range N, besselTermC ν z k) ν) atTop (𝓝 (deriv (deriv fun ν => besselIC ν z) ν)) := by
  have h := locUnif hz hν
  have ho : IsOpen (Metric.ball ν ν.re) := Metric.isOpen_ball
  have hm : ν ∈ Metric.ball ν ν.re := Metric.mem_ball_self hν
  have hd := h.differentiableOn (Eventually.of_forall fun N => (diff_sum hz N).differentiableOn) ho
  have h1 := h.deriv (Eventually.of_forall fun N => (diff_sum hz N).differentiableOn) ho
  have hd1 := h1.differentiableOn (Eventually.of_forall fun N => (diff_deriv_sum hz N).differentiableOn) ho
  have h2 := h1.deriv (Eventually.of_forall fun N => (diff_deriv_sum hz N).differentiableOn) ho
  exact ⟨(hd.differentiableAt (ho.mem_nhds hm)).hasDerivAt, (hd1.differentiableAt (ho.mem_nhds hm)).hasDerivAt, h1.tendsto_at hm, h2.tendsto_at hm⟩

/-- First and second derivatives of `I_ν(z)` in the order `ν`. -/
noncomputable def d1 (z ν : ℝ) : ℝ := (deriv (fun ν => besselIC ν z) (ν : ℂ)).re
noncomputable def d2 (z ν : ℝ) : ℝ := (deriv (deriv fun ν => besselIC ν z) (ν : ℂ)).re

lemma hasDerivAt_d1 {z : ℝ} (hz : 0 < z) {ν : ℝ} (hν : 0 < ν) : HasDerivAt (fun ν => besselI ν z) (d1 z ν) ν := by
  have h := ((order_deriv hz (ν := (ν : ℂ)) (by simpa using hν)).1).real_of_complex
  refine h.congr_of_eventuallyEq (Eventually.of_forall fun x => ?_)
  show besselI x z = (besselIC x z).re
  rw [besselIC_ofReal hz, Complex.ofReal_re]

lemma hasDerivAt_d2 {z : ℝ} (hz : 0 < z) {ν : ℝ} (hν : 0 < ν) : HasDerivAt (d1 z) (d2 z ν) ν :=
  ((order_deriv hz (ν := (ν : ℂ)) (by simpa using hν)).2.1).real_of_complex

/-! ### Polygamma recurrences -/

variable {digamma trigamma : ℝ → ℝ}

lemma digamma_succ (h : IsPolygamma digamma trigamma) {x : ℝ} (hx : 0 < x) : digamma (x + 1) = digamma x + 1 / x := by
  have h1 : HasDerivAt (fun y : ℝ => Real.log (Real.Gamma (y + 1))) (digamma (x + 1)) x := (h.d1 (x + 1) (by linarith)).comp_add_const x 1
  have h2 : HasDerivAt (fun y : ℝ => Real.log y + Real.log (Real.Gamma y)) (x⁻¹ + digamma x) x := (Real.hasDerivAt_log hx.ne').add (h.d1 x hx)
  have h3 : (fun y : ℝ => Real.log (Real.Gamma (y + 1))) =ᶠ[𝓝 x] fun y => Real.log y + Real.log (Real.Gamma y) := by
    filter_upwards [lt_mem_nhds hx] with y hy
    rw [Real.Gamma_add_one hy.ne', Real.log_mul hy.ne' (Real.Gamma_pos_of_pos hy).ne']
  rw [h1.unique (h2.congr_of_eventuallyEq h3), one_div, add_comm]

lemma trigamma_succ (h : IsPolygamma digamma trigamma) {x : ℝ} (hx : 0 < x) : trigamma (x + 1) = trigamma x - 1 / x ^ 2 := by
  have h1 : HasDerivAt (fun y : ℝ => digamma (y + 1)) (trigamma (x + 1)) x := (h.d2 (x + 1) (by linarith)).comp_add_const x 1
  have h2 : HasDerivAt (fun y : ℝ => digamma y + y⁻¹) (trigamma x + -(x ^ 2)⁻¹) x := (h.d2 x hx).add (hasDerivAt_inv hx.ne')
  have h3 : (fun y : ℝ => digamma (y + 1)) =ᶠ[𝓝 x] fun y => digamma y + y⁻¹ := by
    filter_upwards [lt_mem_nhds hx] with y hy
    rw [digamma_succ h hy, one_div]
  rw [h1.unique (h2.congr_of_eventuallyEq h3), one_div]
  ring

/-- Such functions exist. -/
lemma exists_polygamma : ∃ digamma trigamma : ℝ → ℝ, IsPolygamma digamma trigamma := by
  have hG : ∀ x : ℝ, 0 < x → AnalyticAt ℂ Complex.Gamma x := fun x hx => by
    have ho : IsOpen {s : ℂ | 0 < s.re} := isOpen_lt continuous_const Complex.continuous_re
    have hd : DifferentiableOn ℂ Complex.Gamma {s : ℂ | 0 < s.re} := fun s hs => by
      refine (Complex.differentiableAt_Gamma s fun m h => ?_).differentiableWithinAt
      have hs : 0 < s.re := hs
      rw [h] at hs
      simp at hs
      have := Nat.cast_nonneg (α := ℝ) m
      linarith
    exact hd.analyticAt (ho.mem_nhds (by simpa using hx))
  have hg1 : ∀ x : ℝ, 0 < x → HasDerivAt Real.Gamma (deriv Complex.Gamma x).re x := fun x hx => by
    refine ((hG x hx).differentiableAt.hasDerivAt).real_of_complex.congr_of_eventuallyEq (Eventually.of_forall fun y => ?_)
    simp only [Complex.Gamma_ofReal, Complex.ofReal_re]
  have hg2 : ∀ x : ℝ, 0 < x → HasDerivAt (fun x : ℝ => (deriv Complex.Gamma x).re) (deriv (deriv Complex.Gamma) x).re x := fun x hx =>
    ((hG x hx).deriv.differentiableAt.hasDerivAt).real_of_complex
  refine ⟨fun x => (deriv Complex.Gamma x).re / Real.Gamma x, fun x => ((deriv (deriv Complex.Gamma) x).re * Real.Gamma x - (deriv Complex.Gamma x).re * (deriv Complex.Gamma x).re) / Real.Gamma x ^ 2, fun x hx => ?_, fun x hx => ?_⟩
  · exact (hg1 x hx).log (Real.Gamma_pos_of_pos hx).ne'
  · exact (hg2 x hx).div (hg1 x hx) (Real.Gamma_pos_of_pos hx).ne'

/-- Derivative of one term in the order. -/
lemma hasDerivAt_term (h : IsPolygamma digamma trigamma) {z : ℝ} (hz : 0 < z) {ν : ℝ} (hν : -1 < ν) (k : ℕ) :
    HasDerivAt (fun ν => besselTerm ν z k) ((Real.log (z / 2) - digamma (ν + k + 1)) * besselTerm ν z k) ν := by
  have hk : ∀ y : ℝ, -1 < y → 0 < y + k + 1 := fun y hy => by have := Nat.cast_nonneg (α := ℝ) k; linarith
  have hG : HasDerivAt (fun y : ℝ => Real.log (Real.Gamma (y + k + 1))) (digamma (ν + k + 1)) ν := by
    have := (h.d1 (ν + (k + 1)) (by have := hk ν hν; linarith)).comp_add_const ν ((k : ℝ) + 1)
    simp only [← add_assoc] at this
    exact this
  have h1 : HasDerivAt (fun y : ℝ => Real.log (z / 2) * (y + 2 * k) - Real.log k.factorial - Real.log (Real.Gamma (y + k + 1)))
      (Real.log (z / 2) - digamma (ν + k + 1)) ν := by
    have h2 : HasDerivAt (fun y : ℝ => Real.log (z / 2) * (y + 2 * k) - Real.log k.factorial) (Real.log (z / 2)) ν := by
      refine ((((hasDerivAt_id' ν).add_const _).const_mul (Real.log (z / 2))).sub_const _).congr_deriv ?_
      ring
    exact h2.fun_sub hG
  have e : ∀ y : ℝ, -1 < y → besselTerm y z k = Real.exp (Real.log (z / 2) * (y + 2 * k) - Real.log k.factorial - Real.log (Real.Gamma (y + k + 1))) := fun y hy => by
    unfold besselTerm
    have hf : (0:ℝ) < k.factorial := by exact_mod_cast Nat.factorial_pos k
    rw [Real.exp_sub, Real.exp_sub, Real.exp_log hf, Real.exp_log (Real.Gamma_pos_of_pos (hk y hy)), ← Real.rpow_def_of_pos (by positivity), div_div]
  have h2 := h1.exp
  refine (h2.congr_of_eventuallyEq ?_).congr_deriv ?_
  · filter_upwards [lt_mem_nhds hν] with y hy
    exact e y hy
  · rw [e ν hν]
    ring

/-! ### Derivatives in the argument -/

lemma inv_gamma_le {ν : ℝ} (hν : -1 < ν) (k : ℕ) : ‖(((Real.Gamma (ν + k + 1))⁻¹ : ℝ) : ℂ)‖ ≤ (Real.Gamma (ν + 1))⁻¹ * ((1 + ν)⁻¹) ^ k := by
  have h := Heston.besselTerm_le hν (show (0:ℝ) < 2 by norm_num) k
  unfold besselTerm at h
  have hf : (0:ℝ) < k.factorial := by exact_mod_cast Nat.factorial_pos k
  have hk := Real.Gamma_pos_of_pos (show 0 < ν + k + 1 by have := Nat.cast_nonneg (α := ℝ) k; linarith)
  rw [Complex.norm_real, Real.norm_of_nonneg (inv_nonneg.2 hk.le)]
  norm_num at h
  have h2 := mul_le_mul_of_nonneg_left h hf.le
  calc (Real.Gamma (ν + k + 1))⁻¹ = (k.factorial : ℝ) * ((Real.Gamma (ν + k + 1))⁻¹ * ((k.factorial : ℝ))⁻¹) := by field_simp
    _ ≤ _ := h2
    _ = _ := by
      have e : (4:ℝ) / (4 * (1 + ν)) = (1 + ν)⁻¹ := by rw [div_mul_eq_div_div, div_self (by norm_num), one_div]
      rw [e]
      field_simp

lemma bessel_eq_E {ν z : ℝ} (hz : 0 < z) :
    besselI ν z = (z / 2) ^ ν * (Kummer.E (fun k => (((Real.Gamma (ν + k + 1))⁻¹ : ℝ) : ℂ)) (((z / 2) ^ 2 : ℝ) : ℂ)).re := by
  unfold besselI Kummer.E
  have e : ∀ k : ℕ, ((((z / 2) ^ 2 : ℝ) : ℂ)) ^ k / (k.factorial : ℂ) * (((Real.Gamma (ν + k + 1))⁻¹ : ℝ) : ℂ) = (((((z / 2) ^ 2) ^ k / k.factorial * (Real.Gamma (ν + k + 1))⁻¹ : ℝ)) : ℂ) := fun k => by push_cast; rfl
  simp only [e]
  rw [← Complex.ofReal_tsum, Complex.ofReal_re, ← tsum_mul_left]
  refine tsum_congr fun k => ?_
  unfold besselTerm
  rw [Real.rpow_add (by positivity), ← pow_mul, show (2 * (k:ℝ)) = ((2 * k : ℕ) : ℝ) by push_cast; ring, Real.rpow_natCast]
  rw [div_eq_mul_inv, mul_inv]
  ring

/-- `I_ν' = I_{ν+1} + (ν/z) I_ν`. -/
lemma hasDerivAt_z {ν z : ℝ} (hν : -1 < ν) (hz : 0 < z) : HasDerivAt (besselI ν) (besselI (ν + 1) z + ν / z * besselI ν z) z := by
  have hD : 0 ≤ (1 + ν)⁻¹ := inv_nonneg.2 (by linarith)
  have hE := Kummer.hasDerivAt_E hD (inv_gamma_le hν) (((z / 2) ^ 2 : ℝ) : ℂ)
  have hE2 := hE.real_of_complex
  have hq : HasDerivAt (fun z : ℝ => (z / 2) ^ 2) (z / 2) z := by
    refine (((hasDerivAt_id' z).div_const 2).fun_pow 2).congr_deriv ?_
    norm_num
    ring
  have h1 := hE2.comp z hq
  have h2 : HasDerivAt (fun z : ℝ => (z / 2) ^ ν) (ν / z * (z / 2) ^ ν) z := by
    refine (((hasDerivAt_id' z).div_const 2).rpow_const (p := ν) (Or.inl (by positivity))).congr_deriv ?_
    rw [Real.rpow_sub_one (by positivity)]
    field_simp
  have h3 := h2.mul h1
  refine (h3.congr_of_eventuallyEq ?_).congr_deriv ?_
  · filter_upwards [lt_mem_nhds hz] with y hy
    exact bessel_eq_E hy
  · rw [bessel_eq_E (ν := ν) hz, bessel_eq_E (ν := ν + 1) hz, Real.rpow_add (by positivity), Real.rpow_one]
    have e : (fun k : ℕ => (((Real.Gamma (ν + (k + 1 : ℕ) + 1))⁻¹ : ℝ) : ℂ)) = fun k : ℕ => (((Real.Gamma (ν + 1 + k + 1))⁻¹ : ℝ) : ℂ) := by
      funext k; rw [show ν + ((k + 1 : ℕ) : ℝ) + 1 = ν + 1 + k + 1 by push_cast; ring]
    simp only [Function.comp, e]
    ring

/-- `I_ν - I_{ν+2} = 2(ν+1)/z I_{ν+1}`. -/
lemma recurrence {ν z : ℝ} (hν : -1 < ν) (hz : 0 < z) : besselI (ν + 2) z = besselI ν z - 2 * (ν + 1) / z * besselI (ν + 1) z := by
  obtain ⟨h1, h2⟩ := Heston.hasSum_bessel hν hz
  have h3 := h2.add (h1.mul_left (ν + 1))
  have h4 : HasSum (fun k : ℕ => besselTerm ν z k * (k * (k - 1)) + (ν + 1) * (besselTerm ν z k * k)) (z ^ 2 / 4 * besselI ν z) := by
    rw [← hasSum_nat_add_iff' 1]
    simp only [Finset.range_one, Finset.sum_singleton, Nat.cast_zero, zero_mul, mul_zero, sub_zero, add_zero]
    refine ((Heston.summable_bessel hν hz).hasSum.mul_left (z ^ 2 / 4)).congr_fun fun k => ?_
    rw [Heston.besselTerm_succ hν hz]
    have hk : (0:ℝ) < k + 1 + ν := by have := Nat.cast_nonneg (α := ℝ) k; linarith
    have hk1 : (0:ℝ) < k + 1 := by have := Nat.cast_nonneg (α := ℝ) k; linarith
    push_cast
    generalize (k:ℝ) = x at *
    obtain ⟨q, hq⟩ : ∃ q, q = x + 1 + ν := ⟨_, rfl⟩
    have : ν = q - x - 1 := by linarith
    rw [← hq] at hk ⊢
    rw [this]
    field_simp
    ring
  have h5 := h3.unique h4
  generalize besselI (ν + 2) z = A at *
  generalize besselI (ν + 1) z = B at *
  generalize besselI ν z = C at *
  field_simp at h5 ⊢
  linarith

/-- Bessel's equation. -/
lemma ode {ν z : ℝ} (hν : -1 < ν) (hz : 0 < z) :
    ∃ J1 J2 : ℝ, HasDerivAt (besselI ν) J1 z ∧ HasDerivAt (deriv (besselI ν)) J2 z ∧ z ^ 2 * J2 + z * J1 = (z ^ 2 + ν ^ 2) * besselI ν z := by
  have h1 := hasDerivAt_z hν hz
  have h2 : HasDerivAt (fun z => besselI (ν + 1) z + ν / z * besselI ν z)
      (besselI (ν + 2) z + (ν + 1) / z * besselI (ν + 1) z + (-(ν / z ^ 2) * besselI ν z + ν / z * (besselI (ν + 1) z + ν / z * besselI ν z))) z := by
    have a := hasDerivAt_z (ν := ν + 1) (by linarith) hz
    rw [add_assoc ν 1 1, one_add_one_eq_two] at a
    have b : HasDerivAt (fun z : ℝ => ν / z) (-(ν / z ^ 2)) z := by
      have := (hasDerivAt_inv hz.ne').const_mul ν
      simp only [← div_eq_mul_inv] at this
      refine this.congr_deriv ?_
      rw [mul_neg, ← div_eq_mul_inv]
    exact a.fun_add (b.fun_mul h1)
  refine ⟨_, _, h1, h2.congr_of_eventuallyEq ?_, ?_⟩
  · filter_upwards [lt_mem_nhds hz] with y hy
    exact (hasDerivAt_z hν hy).deriv
  · rw [recurrence hν hz]
    generalize besselI (ν + 1) z = B at *
    generalize besselI ν z = C at *
    field_simp
    ring

end Bessel

end PyFENG
