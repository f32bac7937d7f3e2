import Verif.Props.Bsm
import Mathlib.Analysis.Calculus.IteratedDeriv.Defs

/-!
# `Bsm.d2_var`, `Bsm.d3_var` (C11): derivatives of the price with respect to the variance `σ²`
-/

open MeasureTheory ProbabilityTheory Set Filter Topology Real

namespace PyFENG

namespace VarDeriv
variable (m : MParams) (K S T cp : ℝ)

/-- first derivative in variance (helper) -/
noncomputable def g1 (v : ℝ) : ℝ :=
  m.df T * m.fwd S T * √T * npdf (bd1 (m.fwd S T) K (√v * √T)) / (2 * √v)
/-- second derivative in variance (helper) -/
noncomputable def g2 (v : ℝ) : ℝ :=
  m.df T * m.fwd S T * √T * npdf (bd1 (m.fwd S T) K (√v * √T)) *
    (bd1 (m.fwd S T) K (√v * √T) * bd2 (m.fwd S T) K (√v * √T) - 1) / (4 * √v ^ 3)
/-- third derivative in variance (helper) -/
noncomputable def g3 (v : ℝ) : ℝ :=
  m.df T * m.fwd S T * √T * npdf (bd1 (m.fwd S T) K (√v * √T)) *
    ((bd1 (m.fwd S T) K (√v * √T) * bd2 (m.fwd S T) K (√v * √T) - 1)
      * (bd1 (m.fwd S T) K (√v * √T) * bd2 (m.fwd S T) K (√v * √T) - 3)
      - (bd1 (m.fwd S T) K (√v * √T) ^ 2 + bd2 (m.fwd S T) K (√v * √T) ^ 2)) / (8 * √v ^ 5)

variable {m K S T cp}

lemma floor_nhds {v : ℝ} (hv : eps < √v * √T) : ∀ᶠ x in 𝓝 v, eps < √x * √T := by
  have hc : Continuous fun x : ℝ => √x * √T := by fun_prop
  exact hc.continuousAt.eventually (lt_mem_nhds hv)

lemma vpos {v : ℝ} (hv : eps < √v * √T) : 0 < v ∧ 0 < T := by
  have he := eps_pos
  constructor
  · by_contra h
    rw [sqrt_eq_zero_of_nonpos (not_lt.1 h), zero_mul] at hv; linarith
  · by_contra h
    rw [sqrt_eq_zero_of_nonpos (not_lt.1 h), mul_zero] at hv; linarith

lemma std_deriv {v : ℝ} (hv : 0 < v) :
    HasDerivAt (fun v => √v * √T) (√T / (2 * √v)) v := by
  refine ((hasDerivAt_sqrt hv.ne').mul_const (√T)).congr_deriv ?_
  ring

lemma bd1_deriv {v : ℝ} (hK : 0 < K) (hS : 0 < S) (hv : 0 < v) (hT : 0 < T) :
    HasDerivAt (fun v => bd1 (m.fwd S T) K (√v * √T))
      (-(bd2 (m.fwd S T) K (√v * √T)) / (2 * v)) v := by
  have hq := sqrt_pos.2 hv
  have hqT := sqrt_pos.2 hT
  refine (hasDerivAt_bd1 (hasDerivAt_const v (m.fwd S T)) (hasDerivAt_const v K)
    (std_deriv (T := T) hv) (m.fwd_pos hS T) hK (by positivity)).congr_deriv ?_
  have : (2 * v) = 2 * (√v * √v) := by rw [mul_self_sqrt hv.le]
  rw [this]
  unfold bd2
  field_simp
  ring

lemma bd2_deriv {v : ℝ} (hK : 0 < K) (hS : 0 < S) (hv : 0 < v) (hT : 0 < T) :
    HasDerivAt (fun v => bd2 (m.fwd S T) K (√v * √T))
      (-(bd1 (m.fwd S T) K (√v * √T)) / (2 * v)) v := by
  have hq := sqrt_pos.2 hv
  have hqT := sqrt_pos.2 hT
  refine (hasDerivAt_bd2 (hasDerivAt_const v (m.fwd S T)) (hasDerivAt_const v K)
    (std_deriv (T := T) hv) (m.fwd_pos hS T) hK (by positivity)).congr_deriv ?_
  have : (2 * v) = 2 * (√v * √v) := by rw [mul_self_sqrt hv.le]
  rw [this]
  unfold bd1
  field_simp
  ring

lemma price_deriv (hcp : Spec.IsCp cp) (hK : 0 < K) (hS : 0 < S) {v : ℝ} (hv : eps < √v * √T) :
    HasDerivAt (fun v => Bsm.price { m with sigma := √v } K S T cp) (g1 m K S T v) v := by
  obtain ⟨pv, pT⟩ := vpos hv
  have h := bsm_vega_correct { m with sigma := √v } hcp hK hS hv
  have h2 := h.comp v (hasDerivAt_sqrt pv.ne')
  refine h2.congr_deriv ?_
  unfold g1 Bsm.vega
  rw [Bsm.d1_eq, sigmaStd_of_le hv.le]
  change m.df T * m.fwd S T * npdf (bd1 (m.fwd S T) K (√v * √T)) * √T * (1 / (2 * √v)) = _
  ring

lemma g1_deriv (hK : 0 < K) (hS : 0 < S) {v : ℝ} (hv : eps < √v * √T) :
    HasDerivAt (g1 m K S T) (g2 m K S T v) v := by
  obtain ⟨pv, pT⟩ := vpos hv
  have hq := sqrt_pos.2 pv
  have h1 := (hasDerivAt_npdf _).comp v (bd1_deriv (m := m) hK hS pv pT)
  have h2 := (h1.const_mul (m.df T * m.fwd S T * √T)).div
    ((hasDerivAt_sqrt pv.ne').const_mul 2) (by positivity)
  refine h2.congr_deriv ?_
  unfold g2
  simp only [Function.comp_apply]
  set a := bd1 (m.fwd S T) K (√v * √T)
  set b := bd2 (m.fwd S T) K (√v * √T)
  have : (2 * v) = 2 * (√v * √v) := by rw [mul_self_sqrt pv.le]
  rw [this]
  field_simp
  ring

lemma g2_deriv (hK : 0 < K) (hS : 0 < S) {v : ℝ} (hv : eps < √v * √T) :
    HasDerivAt (g2 m K S T) (g3 m K S T v) v := by
  obtain ⟨pv, pT⟩ := vpos hv
  have hq := sqrt_pos.2 pv
  have hb1 := bd1_deriv (m := m) hK hS pv pT
  have hb2 := bd2_deriv (m := m) hK hS pv pT
  have h1 := (hasDerivAt_npdf _).comp v hb1
  have h2 := (((h1.const_mul (m.df T * m.fwd S T * √T)).mul ((hb1.mul hb2).sub_const 1))).div
    (((hasDerivAt_sqrt pv.ne').pow 3).const_mul 4) (by simp only [Pi.pow_apply]; positivity)
  refine h2.congr_deriv ?_
  unfold g3
  simp only [Function.comp_apply, Pi.mul_apply, Pi.pow_apply]
  set a := bd1 (m.fwd S T) K (√v * √T)
  set b := bd2 (m.fwd S T) K (√v * √T)
  have : (2 * v) = 2 * (√v * √v) := by rw [mul_self_sqrt pv.le]
  rw [this]
  push_cast
  field_simp
  ring

lemma second (hcp : Spec.IsCp cp) (hK : 0 < K) (hS : 0 < S) {v : ℝ} (hv : eps < √v * √T) :
    iteratedDeriv 2 (fun v => Bsm.price { m with sigma := √v } K S T cp) v = g2 m K S T v := by
  have h : deriv (fun v => Bsm.price { m with sigma := √v } K S T cp) =ᶠ[𝓝 v] g1 m K S T := by
    filter_upwards [floor_nhds hv] with x hx
    exact (price_deriv hcp hK hS hx).deriv
  rw [iteratedDeriv_succ, iteratedDeriv_one, h.deriv_eq]
  exact (g1_deriv hK hS hv).deriv

lemma third (hcp : Spec.IsCp cp) (hK : 0 < K) (hS : 0 < S) {v : ℝ} (hv : eps < √v * √T) :
    iteratedDeriv 3 (fun v => Bsm.price { m with sigma := √v } K S T cp) v = g3 m K S T v := by
  have h : iteratedDeriv 2 (fun v => Bsm.price { m with sigma := √v } K S T cp)
      =ᶠ[𝓝 v] g2 m K S T := by
    filter_upwards [floor_nhds hv] with x hx
    exact second hcp hK hS hx
  rw [iteratedDeriv_succ, h.deriv_eq]
  exact (g2_deriv hK hS hv).deriv

end VarDeriv

/-- **C11, exact law.** The true second derivative in variance is `forward/spot` times `d2_var`. -/
theorem bsm_d2_var_law (m : MParams) {K S T cp : ℝ} (hcp : Spec.IsCp cp) (hK : 0 < K) (hS : 0 < S)
    (hσ : 0 < m.sigma) (hv : eps < m.sigma * √T) :
    iteratedDeriv 2 (fun v => Bsm.price { m with sigma := √v } K S T cp) (m.sigma ^ 2)
      = m.forward S T / S * Bsm.d2Var m K S T cp := by
  have e : √(m.sigma ^ 2) = m.sigma := sqrt_sq hσ.le
  rw [VarDeriv.second hcp hK hS (by rwa [e])]
  unfold VarDeriv.g2 Bsm.d2Var
  rw [e, Bsm.d1_eq, Bsm.d2_eq, sigmaStd_of_le hv.le, ← m.fwd_eq_forward]
  field_simp

/-- **C11, exact law.** The true third derivative in variance is `forward/spot` times `d3_var`. -/
theorem bsm_d3_var_law (m : MParams) {K S T cp : ℝ} (hcp : Spec.IsCp cp) (hK : 0 < K) (hS : 0 < S)
    (hσ : 0 < m.sigma) (hv : eps < m.sigma * √T) :
    iteratedDeriv 3 (fun v => Bsm.price { m with sigma := √v } K S T cp) (m.sigma ^ 2)
      = m.forward S T / S * Bsm.d3Var m K S T cp := by
  have e : √(m.sigma ^ 2) = m.sigma := sqrt_sq hσ.le
  rw [VarDeriv.third hcp hK hS (by rwa [e])]
  unfold VarDeriv.g3 Bsm.d3Var
  rw [e, Bsm.d1_eq, Bsm.d2_eq, sigmaStd_of_le hv.le, ← m.fwd_eq_forward]
  field_simp

/-- **C11, partial.** With `is_fwd=True` or equal rates, `d2_var`/`d3_var` are the derivatives of the price in the
variance.  Missing: `is_fwd=False` with `intr ≠ divr`, where the code is wrong (`bsm_d2_var_wrong`). -/
theorem bsm_d2_d3_var_correct_partial (m : MParams) {K S T cp : ℝ} (hcp : Spec.IsCp cp) (hK : 0 < K)
    (hS : 0 < S) (hσ : 0 < m.sigma) (hv : eps < m.sigma * √T)
    (hc : m.isFwd = true ∨ m.intr = m.divr) :
    iteratedDeriv 2 (fun v => Bsm.price { m with sigma := √v } K S T cp) (m.sigma ^ 2)
      = Bsm.d2Var m K S T cp ∧
    iteratedDeriv 3 (fun v => Bsm.price { m with sigma := √v } K S T cp) (m.sigma ^ 2)
      = Bsm.d3Var m K S T cp := by
  have hf : m.forward S T / S = 1 := by
    unfold MParams.forward
    rcases hc with h | h
    · simp [h, hS.ne']
    · simp [h, hS.ne']
  rw [bsm_d2_var_law m hcp hK hS hσ hv, bsm_d3_var_law m hcp hK hS hσ hv, hf, one_mul, one_mul]
  exact ⟨rfl, rfl⟩

example : Spec.IsCp 1 ∧ (0:ℝ) < 0.2 ∧ eps < (0.2:ℝ) * √1 := by
  have := eps_lt; refine ⟨Or.inl rfl, by norm_num, ?_⟩; rw [sqrt_one]; linarith

/-- **C11, refutation.** With a spot quote and different rates, `d2_var` is not the second derivative in variance
(unless `d1 d2 = 1`, where both vanish). -/
theorem bsm_d2_var_wrong (m : MParams) {K S T cp : ℝ} (hcp : Spec.IsCp cp) (hK : 0 < K) (hS : 0 < S)
    (hT : 0 < T) (hσ : 0 < m.sigma) (hv : eps < m.sigma * √T) (hf : m.isFwd = false)
    (hr : m.intr ≠ m.divr) (hd : Bsm.d1 m K S T * Bsm.d2 m K S T ≠ 1) :
    iteratedDeriv 2 (fun v => Bsm.price { m with sigma := √v } K S T cp) (m.sigma ^ 2)
      ≠ Bsm.d2Var m K S T cp := by
  rw [bsm_d2_var_law m hcp hK hS hσ hv]
  intro h
  have hne : Bsm.d2Var m K S T cp ≠ 0 := by
    unfold Bsm.d2Var
    have := m.df_pos T; have := npdf_pos (Bsm.d1 m K S T); have := sqrt_pos.2 hT
    have hd' := sub_ne_zero.2 hd
    refine div_ne_zero (mul_ne_zero (by positivity) hd') (by positivity)
  have h1 : m.forward S T / S = 1 := mul_right_cancel₀ hne (by rw [h, one_mul])
  unfold MParams.forward at h1
  rw [hf] at h1
  simp only [Bool.false_eq_true, if_false] at h1
  rw [mul_div_cancel_left₀ _ hS.ne', exp_eq_one_iff] at h1
  rcases mul_eq_zero.1 h1 with h2 | h2
  · exact hr (sub_eq_zero.1 h2)
  · exact hT.ne' h2

/-- Non-vacuity of the refutation: forward-at-the-money option with a 5% rate (`d1 d2 = -std²/4`). -/
example : Bsm.d1 ⟨0.2, 0.05, 0, false⟩ (100 * exp 0.05) 100 1 * Bsm.d2 ⟨0.2, 0.05, 0, false⟩ (100 * exp 0.05) 100 1 ≠ 1 := by
  have h : eps ≤ (0.2:ℝ) * √1 := by have := eps_lt; rw [sqrt_one]; linarith
  have hf : MParams.fwd ⟨0.2, 0.05, 0, false⟩ 100 1 = 100 * exp 0.05 := by
    rw [MParams.fwd_eq_forward]; simp [MParams.forward]
  simp only [Bsm.d1, Bsm.d2, hf, sigmaStd_of_le h, div_self (show (100 * exp (0.05:ℝ)) ≠ 0 by positivity)]
  norm_num

end PyFENG
