import Verif.Lemmas.BesselNu
import Verif.Props.Sv32Mc

/-!
# C120: the law of the average variance of the 3/2 model given the end points
-/

namespace PyFENG

open Real MeasureTheory Filter Topology Set Spec

namespace Spec

/-- Transition density at `y`, after time `t` from `x`, of the square-root process `dX = κ(Θ - X) dt + ξ √X dW`. -/
noncomputable def cirDensity (κ Θ ξ t x y : ℝ) : ℝ :=
  let c := 2 * κ / (ξ ^ 2 * (1 - exp (-(κ * t))))
  let ν := 2 * κ * Θ / ξ ^ 2 - 1
  c * exp (-(c * (x * exp (-(κ * t)) + y))) * (y / (x * exp (-(κ * t)))) ^ (ν / 2) * besselI ν (2 * c * √(x * y * exp (-(κ * t))))

/-- `mean` and `var` are the mean and variance of a law with Laplace transform `L(b) = E exp(-b A)`: `L'(0) = -mean`, `L''(0) = var + mean²`. -/
def IsLaplaceMV (L : ℝ → ℝ) (mean var : ℝ) : Prop :=
  L 0 = 1 ∧ ∃ L1 : ℝ → ℝ, (∀ᶠ b in 𝓝 0, HasDerivAt L (L1 b) b) ∧ L1 0 = -mean ∧ HasDerivAt L1 (var + mean ^ 2) 0

end Spec

namespace Sv32

/-! ### The Bessel series -/

lemma ivLoop_eq {z : ℝ} (hz : 0 < z) {ν : ℂ} (hν : ∀ k : ℕ, ν + k + 1 ≠ 0) (n : ℕ) :
    ivLoop Complex.Gamma ν z n = (besselTermC ν z n, ∑ k ∈ Finset.range (n + 1), besselTermC ν z k) := by
  induction n with
  | zero =>
    have : ((0.5 * z : ℝ) : ℂ) = ((z / 2 : ℝ) : ℂ) := by congr 1; norm_num; ring
    unfold ivLoop besselTermC
    simp only [this, Finset.sum_range_succ, Finset.sum_range_zero]
    simp
  | succ n ih =>
    have h := Bessel.termC_succ hz n (hν n)
    unfold ivLoop
    rw [ih, Finset.sum_range_succ _ (n + 1), h]

/-- **C120.** `iv_complex` is a partial sum of the series of the modified Bessel function (64 terms in the code), for every complex order other than a negative integer, and converges to that function. -/
theorem iv_complex_correct {z : ℝ} (hz : 0 < z) {ν : ℂ} :
    ((∀ k : ℕ, ν + k + 1 ≠ 0) → ∀ n, ivComplex Complex.Gamma n ν z = ∑ k ∈ Finset.range (n + 1), besselTermC ν z k) ∧
    (0 < ν.re → Tendsto (fun n => ivComplex Complex.Gamma n ν z) atTop (𝓝 (besselIC ν z))) := by
  have h1 : (∀ k : ℕ, ν + k + 1 ≠ 0) → ∀ n, ivComplex Complex.Gamma n ν z = ∑ k ∈ Finset.range (n + 1), besselTermC ν z k := fun h n => by
    unfold ivComplex
    rw [ivLoop_eq hz h]
  refine ⟨h1, fun hν => ?_⟩
  have h0 : ∀ k : ℕ, ν + k + 1 ≠ 0 := fun k h => by
    have := congrArg Complex.re h
    simp at this
    have := Nat.cast_nonneg (α := ℝ) k
    linarith
  simp only [h1 h0]
  exact (Bessel.hasSum_C hz hν).tendsto_sum_nat.comp (tendsto_add_atTop_nat 1)

variable {digamma trigamma : ℝ → ℝ}

lemma ivD12Loop_eq (h : IsPolygamma digamma trigamma) {z ν : ℝ} (hz : 0 < z) (hν : -1 < ν) (n : ℕ) :
    (ivD12Loop digamma trigamma ν z n).p0 = besselTerm ν z n ∧ (ivD12Loop digamma trigamma ν z n).psi1 = trigamma (ν + n + 1) ∧
    (ivD12Loop digamma trigamma ν z n).logMPsi0 = log (z / 2) - digamma (ν + n + 1) ∧
    (ivD12Loop digamma trigamma ν z n).iv1 = ∑ k ∈ Finset.range (n + 1), (log (z / 2) - digamma (ν + k + 1)) * besselTerm ν z k ∧
    (ivD12Loop digamma trigamma ν z n).iv2 = ∑ k ∈ Finset.range (n + 1), ((log (z / 2) - digamma (ν + k + 1)) ^ 2 - trigamma (ν + k + 1)) * besselTerm ν z k := by
  induction n with
  | zero => simp [ivD12Loop, besselTerm]
  | succ n ih =>
    obtain ⟨i1, i2, i3, i4, i5⟩ := ih
    have hn : 0 < ν + n + 1 := by have := Nat.cast_nonneg (α := ℝ) n; linarith
    have e1 : ν + ((n + 1 : ℕ) : ℝ) + 1 = ν + n + 1 + 1 := by push_cast; ring
    have e2 : ν + ((n + 1 : ℕ) : ℝ) = ν + n + 1 := by push_cast; ring
    have a1 : besselTerm ν z n * ((z / 2) ^ 2 / (((n + 1 : ℕ) : ℝ) * (((n + 1 : ℕ) : ℝ) + ν))) = besselTerm ν z (n + 1) := by
      rw [Heston.besselTerm_succ hν hz, show (((n + 1 : ℕ) : ℝ) + ν) = (n:ℝ) + 1 + ν by push_cast; ring]
      congr 1
      push_cast
      have : (n : ℝ) + 1 + ν ≠ 0 := by linarith
      have : (n : ℝ) + 1 ≠ 0 := by positivity
      field_simp
      norm_num
    have a2 : trigamma (ν + n + 1) - 1 / (ν + ((n + 1 : ℕ) : ℝ)) ^ 2 = trigamma (ν + ((n + 1 : ℕ) : ℝ) + 1) := by
      rw [e1, e2, Bessel.trigamma_succ h hn]
    have a3 : log (z / 2) - digamma (ν + n + 1) - 1 / (ν + ((n + 1 : ℕ) : ℝ)) = log (z / 2) - digamma (ν + ((n + 1 : ℕ) : ℝ) + 1) := by
      rw [e1, e2, Bessel.digamma_succ h hn]; ring
    unfold ivD12Loop
    simp only [i1, i2, i3, i4, i5, a1, a2, a3, true_and]
    rw [Finset.sum_range_succ _ (n + 1), Finset.sum_range_succ _ (n + 1)]
    exact ⟨rfl, rfl⟩

/-- **C120.** `iv_d12` returns, whatever the number of passes, the first and second derivatives in the order `ν` of the truncated series of the modified Bessel function. -/
theorem iv_d12_truncated (h : IsPolygamma digamma trigamma) {z ν : ℝ} (hz : 0 < z) (hν : -1 < ν) (n : ℕ) :
    HasDerivAt (fun ν => ∑ k ∈ Finset.range (n + 1), besselTerm ν z k) (ivD12 digamma trigamma n ν z).1 ν ∧
    HasDerivAt (fun ν => (ivD12 digamma trigamma n ν z).1) (ivD12 digamma trigamma n ν z).2 ν := by
  obtain ⟨-, -, -, i4, i5⟩ := ivD12Loop_eq h hz hν n
  have ht := fun (k : ℕ) => Bessel.hasDerivAt_term h hz hν k
  refine ⟨?_, ?_⟩
  · show HasDerivAt _ (ivD12Loop digamma trigamma ν z n).iv1 ν
    rw [i4]
    exact HasDerivAt.fun_sum fun k _ => ht k
  · show HasDerivAt _ (ivD12Loop digamma trigamma ν z n).iv2 ν
    rw [i5]
    have e : (fun ν => (ivD12 digamma trigamma n ν z).1) =ᶠ[𝓝 ν] fun ν => ∑ k ∈ Finset.range (n + 1), (log (z / 2) - digamma (ν + k + 1)) * besselTerm ν z k := by
      filter_upwards [lt_mem_nhds hν] with y hy
      exact (ivD12Loop_eq h hz hy n).2.2.2.1
    refine HasDerivAt.congr_of_eventuallyEq ?_ e
    refine HasDerivAt.fun_sum fun k _ => ?_
    have hk : 0 < ν + (k + 1) := by have := Nat.cast_nonneg (α := ℝ) k; linarith
    have hd : HasDerivAt (fun y : ℝ => log (z / 2) - digamma (y + k + 1)) (-trigamma (ν + k + 1)) ν := by
      have := ((h.d2 (ν + (k + 1)) hk).comp_add_const ν ((k : ℝ) + 1)).const_sub (log (z / 2))
      simp only [← add_assoc] at this
      exact this
    refine (hd.fun_mul (ht k)).congr_deriv ?_
    ring

/-- **C120.** As the number of passes grows, `iv_d12` converges to the first and second derivatives of the modified Bessel function in its order. -/
theorem iv_d12_limit (h : IsPolygamma digamma trigamma) {z : ℝ} (hz : 0 < z) :
    ∃ I1 I2 : ℝ → ℝ, ∀ ν, 0 < ν → HasDerivAt (fun ν => besselI ν z) (I1 ν) ν ∧ HasDerivAt I1 (I2 ν) ν ∧
      Tendsto (fun n => (ivD12 digamma trigamma n ν z).1) atTop (𝓝 (I1 ν)) ∧ Tendsto (fun n => (ivD12 digamma trigamma n ν z).2) atTop (𝓝 (I2 ν)) := by
  refine ⟨Bessel.d1 z, Bessel.d2 z, fun ν hν => ⟨Bessel.hasDerivAt_d1 hz hν, Bessel.hasDerivAt_d2 hz hν, ?_⟩⟩
  obtain ⟨-, -, t1, t2⟩ := Bessel.order_deriv hz (ν := (ν : ℂ)) (by simpa using hν)
  have r1 : ∀ (n : ℕ) (x : ℝ), 0 < x → (deriv (fun ν : ℂ => ∑ k ∈ Finset.range (n + 1), besselTermC ν z k) x).re = (ivD12 digamma trigamma n x z).1 := fun n x hx => by
    have a := ((Bessel.diff_sum hz (n + 1)) x).hasDerivAt.real_of_complex
    have b := (iv_d12_truncated h hz (by linarith : -1 < x) n).1
    refine (a.congr_of_eventuallyEq (Eventually.of_forall fun y => ?_)).unique b
    simp only
    rw [Complex.re_sum]
    exact Finset.sum_congr rfl fun k _ => by rw [Bessel.termC_ofReal hz, Complex.ofReal_re]
  have r2 : ∀ n : ℕ, (deriv (deriv fun ν : ℂ => ∑ k ∈ Finset.range (n + 1), besselTermC ν z k) ν).re = (ivD12 digamma trigamma n ν z).2 := fun n => by
    have a := ((Bessel.diff_deriv_sum hz (n + 1)) ν).hasDerivAt.real_of_complex
    have b := (iv_d12_truncated h hz (by linarith : -1 < ν) n).2
    refine (a.congr_of_eventuallyEq ?_).unique b
    filter_upwards [lt_mem_nhds hν] with y hy
    exact (r1 n y hy).symm
  refine ⟨?_, ?_⟩
  · have := ((Complex.continuous_re.tendsto _).comp t1).comp (tendsto_add_atTop_nat 1)
    refine this.congr fun n => ?_
    exact r1 n ν hν
  · have := ((Complex.continuous_re.tendsto _).comp t2).comp (tendsto_add_atTop_nat 1)
    refine this.congr fun n => ?_
    exact r2 n

/-! ### Mean and variance from the Laplace transform -/

lemma nu_eq {m : Sv32} (hmr : 0 < m.mr) (hth : 0 < m.theta) (_hv : m.vov ≠ 0) : m.nu = 2 * m.mr / m.vov ^ 2 + 1 := by
  unfold nu Cir.chiDim cir
  simp only
  field_simp
  ring

lemma nu_pos {m : Sv32} (hmr : 0 < m.mr) (hth : 0 < m.theta) (hv : m.vov ≠ 0) : 0 < m.nu := by
  rw [nu_eq hmr hth hv]; positivity

lemma phi_pos {m : Sv32} (hmr : 0 < m.mr) (hth : 0 < m.theta) (hv : m.vov ≠ 0) {dt : ℝ} (hdt : 0 < dt) : 0 < (m.cir.phiExp dt).1 := by
  have hk : 0 < m.mr * m.theta := mul_pos hmr hth
  unfold Cir.phiExp cir
  simp only
  have h1 : exp (-(m.mr * m.theta) * dt / 2) < 1 := exp_lt_one_iff.2 (by nlinarith [mul_pos hk hdt])
  have h2 := exp_pos (-(m.mr * m.theta) * dt / 2)
  have h3 : 0 < 1 / exp (-(m.mr * m.theta) * dt / 2) - exp (-(m.mr * m.theta) * dt / 2) := by
    have := (one_lt_div h2).2 h1
    linarith
  positivity

lemma zz_pos {m : Sv32} (hmr : 0 < m.mr) (hth : 0 < m.theta) (hv : m.vov ≠ 0) {dt v0 vT : ℝ} (hdt : 0 < dt) (h0 : 0 < v0) (hT : 0 < vT) : 0 < m.zz dt v0 vT :=
  div_pos (phi_pos hmr hth hv hdt) (sqrt_pos.2 (mul_pos h0 hT))

/-- The order `ν_b` and its derivatives. -/
lemma hasDerivAt_order {ν c : ℝ} (b : ℝ) (hb : 0 < ν ^ 2 + c * b) :
    HasDerivAt (fun b => √(ν ^ 2 + c * b)) (c / 2 / √(ν ^ 2 + c * b)) b ∧
    HasDerivAt (fun b => c / 2 / √(ν ^ 2 + c * b)) (-(c / 2) ^ 2 / √(ν ^ 2 + c * b) ^ 3) b := by
  have h1 : HasDerivAt (fun b => √(ν ^ 2 + c * b)) (c / 2 / √(ν ^ 2 + c * b)) b := by
    have := (((hasDerivAt_id' b).const_mul c).const_add (ν ^ 2)).sqrt hb.ne'
    refine this.congr_deriv ?_
    have := (sqrt_pos.2 hb).ne'
    field_simp
  refine ⟨h1, ?_⟩
  have hs := (sqrt_pos.2 hb).ne'
  have h2 := (h1.fun_inv hs).const_mul (c / 2)
  simp only [← div_eq_mul_inv] at h2
  refine h2.congr_deriv ?_
  field_simp

lemma order_ev {ν c : ℝ} (hν : 0 < ν) : ∀ᶠ b in 𝓝 (0:ℝ), 0 < ν ^ 2 + c * b := by
  have : ContinuousAt (fun b : ℝ => ν ^ 2 + c * b) 0 := by fun_prop
  exact this.eventually (lt_mem_nhds (by simp; positivity))

/-- The Laplace transform of the average variance given the end points in terms of real `b`. -/
noncomputable def lap (m : Sv32) (dt v0 vT b : ℝ) : ℝ := besselI √(m.nu ^ 2 + 8 / (m.vov ^ 2 * dt) * b) (m.zz dt v0 vT) / besselI m.nu (m.zz dt v0 vT)

/-- The same given also the Bessel variable `e`. -/
noncomputable def lapEta (m : Sv32) (dt v0 vT e b : ℝ) : ℝ :=
  Gamma (e + m.nu + 1) / Gamma (e + √(m.nu ^ 2 + 8 / (m.vov ^ 2 * dt) * b) + 1) * (m.zz dt v0 vT / 2) ^ (√(m.nu ^ 2 + 8 / (m.vov ^ 2 * dt) * b) - m.nu)

lemma order_complex {m : Sv32} {dt b : ℝ} (hb : 0 ≤ m.nu ^ 2 + 8 / (m.vov ^ 2 * dt) * b) :
    ((m.nu : ℂ) ^ 2 + 8 * (b : ℂ) / ((m.vov ^ 2 * dt : ℝ) : ℂ)) ^ (1 / 2 : ℂ) = ((√(m.nu ^ 2 + 8 / (m.vov ^ 2 * dt) * b) : ℝ) : ℂ) := by
  rw [sqrt_eq_rpow, Complex.ofReal_cpow hb]
  congr 1
  · push_cast; ring
  · norm_num

lemma laplace_none {m : Sv32} {dt v0 vT : ℝ} (hz : 0 < m.zz dt v0 vT) {b : ℝ} (hb : 0 ≤ m.nu ^ 2 + 8 / (m.vov ^ 2 * dt) * b) :
    m.condAvgvarLaplace Complex.Gamma besselIC besselI b dt v0 vT none = (m.lap dt v0 vT b : ℝ) := by
  unfold condAvgvarLaplace lap
  simp only
  rw [order_complex hb, Bessel.besselIC_ofReal hz]
  push_cast
  rfl

/-- **C120.** `cond_avgvar_mv` without `eta`: mean and variance are those of the law whose Laplace transform is `cond_avgvar_laplace`, with the Bessel functions and their derivatives in the order exact
(the limits of `iv_complex` and `iv_d12`). -/
theorem cond_avgvar_mv_correct (m : Sv32) (hmr : 0 < m.mr) (hth : 0 < m.theta) (hv : m.vov ≠ 0) {dt v0 vT : ℝ} (hdt : 0 < dt) (h0 : 0 < v0) (hT : 0 < vT) (h : IsPolygamma digamma trigamma)
    {ivd : ℝ → ℝ → ℝ × ℝ} (hd : ∀ ν z, 0 < ν → 0 < z → Tendsto (fun n => ivD12 digamma trigamma n ν z) atTop (𝓝 (ivd ν z))) :
    let r := condAvgvarMeanVar digamma trigamma besselI ivd m dt v0 vT none
    IsLaplaceMV (fun b : ℝ => (m.condAvgvarLaplace Complex.Gamma besselIC besselI b dt v0 vT none).re) r.1 r.2 ∧
    (0 ≤ r.2 → condAvgvarMv digamma trigamma besselI ivd m dt v0 vT none = (r.1, r.2 / r.1 ^ 2)) := by
  intro r
  have hν := nu_pos hmr hth hv
  have hz := zz_pos hmr hth hv hdt h0 hT
  set z := m.zz dt v0 vT with hzdef
  set c := 8 / (m.vov ^ 2 * dt) with hc
  obtain ⟨I1, I2, hI⟩ := iv_d12_limit h hz
  have hIp := Heston.besselI_pos (by linarith : -1 < m.nu) hz
  have ed : ivd m.nu z = (I1 m.nu, I2 m.nu) := tendsto_nhds_unique (hd _ _ hν hz) ((hI _ hν).2.2.1.prodMk_nhds (hI _ hν).2.2.2)
  have hs0 : √(m.nu ^ 2 + c * 0) = m.nu := by rw [mul_zero, add_zero, sqrt_sq hν.le]
  refine ⟨?_, fun h => ?_⟩
  · have eL : (fun b : ℝ => (m.condAvgvarLaplace Complex.Gamma besselIC besselI b dt v0 vT none).re) =ᶠ[𝓝 0] m.lap dt v0 vT := by
      filter_upwards [order_ev (c := c) hν] with b hb
      rw [laplace_none hz hb.le, Complex.ofReal_re]
    have hder : ∀ b, 0 < m.nu ^ 2 + c * b → HasDerivAt (m.lap dt v0 vT) (I1 √(m.nu ^ 2 + c * b) * (c / 2 / √(m.nu ^ 2 + c * b)) / besselI m.nu z) b := fun b hb => by
      have a := HasDerivAt.comp (h₂ := fun ν => besselI ν z) (h := fun b => √(m.nu ^ 2 + c * b)) b (hI _ (sqrt_pos.2 hb)).1 (hasDerivAt_order b hb).1
      exact a.div_const _
    refine ⟨?_, fun b => I1 √(m.nu ^ 2 + c * b) * (c / 2 / √(m.nu ^ 2 + c * b)) / besselI m.nu z, ?_, ?_, ?_⟩
    · refine eL.eq_of_nhds.trans ?_
      unfold lap
      rw [← hc, hs0, div_self hIp.ne']
    · filter_upwards [order_ev (c := c) hν, eL.eventually_nhds] with b hb he
      exact (hder b hb).congr_of_eventuallyEq he
    · show _ = -(condAvgvarMeanVar digamma trigamma besselI ivd m dt v0 vT none).1
      unfold condAvgvarMeanVar dNu
      simp only [← hzdef, ed, hs0]
      rw [hc]
      field_simp
      ring
    · have hb : 0 < m.nu ^ 2 + c * 0 := by simp; positivity
      have a := HasDerivAt.comp (h₂ := I1) (h := fun b => √(m.nu ^ 2 + c * b)) 0 (hI _ (sqrt_pos.2 hb)).2.1 (hasDerivAt_order 0 hb).1
      have a2 := (a.fun_mul (hasDerivAt_order 0 hb).2).div_const (besselI m.nu z)
      refine a2.congr_deriv ?_
      show _ = (condAvgvarMeanVar digamma trigamma besselI ivd m dt v0 vT none).2 + (condAvgvarMeanVar digamma trigamma besselI ivd m dt v0 vT none).1 ^ 2
      unfold condAvgvarMeanVar dNu
      simp only [← hzdef, ed, Function.comp, hs0]
      rw [sub_add_cancel, show c / 2 = 4 / (m.vov ^ 2 * dt) by rw [hc]; ring]
      ring
  · unfold condAvgvarMv
    simp only
    rw [if_neg (not_lt.2 (by exact div_nonneg h (sq_nonneg _)))]

/-- **C120.** `cond_avgvar_mv` given the Bessel variable `eta = e`: mean and variance of the law with Laplace transform `Γ(e+ν+1)/Γ(e+ν_b+1) (z/2)^{ν_b-ν}`, where `ν_b = √(ν² + 8b/(vov² dt))`. -/
theorem cond_avgvar_mv_eta_correct (m : Sv32) (hmr : 0 < m.mr) (hth : 0 < m.theta) (hv : m.vov ≠ 0) {dt v0 vT e : ℝ} (hdt : 0 < dt) (h0 : 0 < v0) (hT : 0 < vT) (he : 0 ≤ e)
    (h : IsPolygamma digamma trigamma) (iv : ℝ → ℝ → ℝ) (ivd : ℝ → ℝ → ℝ × ℝ) :
    let r := condAvgvarMeanVar digamma trigamma iv ivd m dt v0 vT (some e)
    let νb := fun b : ℝ => √(m.nu ^ 2 + 8 * b / (m.vov ^ 2 * dt))
    IsLaplaceMV (fun b : ℝ => Gamma (e + m.nu + 1) / Gamma (e + νb b + 1) * (m.zz dt v0 vT / 2) ^ (νb b - m.nu)) r.1 r.2 ∧
    (0 ≤ r.2 → condAvgvarMv digamma trigamma iv ivd m dt v0 vT (some e) = (r.1, r.2 / r.1 ^ 2)) := by
  intro r νb
  have hν := nu_pos hmr hth hv
  have hz := zz_pos hmr hth hv hdt h0 hT
  have ez : m.zz dt v0 vT = m.zz dt v0 vT := rfl
  set z := m.zz dt v0 vT with hzdef
  set c := 8 / (m.vov ^ 2 * dt) with hc
  have eb : ∀ b, νb b = √(m.nu ^ 2 + c * b) := fun b => by
    show √(m.nu ^ 2 + 8 * b / (m.vov ^ 2 * dt)) = _
    rw [hc, div_mul_eq_mul_div]
  have hs0 : √(m.nu ^ 2 + c * 0) = m.nu := by rw [mul_zero, add_zero, sqrt_sq hν.le]
  have hG : ∀ x, 0 ≤ x → 0 < Gamma (e + x + 1) := fun x hx => Gamma_pos_of_pos (by linarith)
  -- log of the transform
  have eL : (fun b : ℝ => Gamma (e + m.nu + 1) / Gamma (e + νb b + 1) * (z / 2) ^ (νb b - m.nu)) =
      fun b => exp (log (Gamma (e + m.nu + 1)) - log (Gamma (√(m.nu ^ 2 + c * b) + (e + 1))) + log (z / 2) * (√(m.nu ^ 2 + c * b) - m.nu)) := by
    funext b
    rw [eb, show √(m.nu ^ 2 + c * b) + (e + 1) = e + √(m.nu ^ 2 + c * b) + 1 by ring, exp_add, exp_sub, exp_log (hG _ hν.le), exp_log (hG _ (sqrt_nonneg _)), ← rpow_def_of_pos (by positivity)]
  have hp : ∀ b, 0 < m.nu ^ 2 + c * b → 0 < √(m.nu ^ 2 + c * b) + (e + 1) := fun b hb => by have := sqrt_pos.2 hb; linarith
  have hder : ∀ b, 0 < m.nu ^ 2 + c * b → HasDerivAt (fun b => log (Gamma (e + m.nu + 1)) - log (Gamma (√(m.nu ^ 2 + c * b) + (e + 1))) + log (z / 2) * (√(m.nu ^ 2 + c * b) - m.nu))
      ((log (z / 2) - digamma (√(m.nu ^ 2 + c * b) + (e + 1))) * (c / 2 / √(m.nu ^ 2 + c * b))) b := fun b hb => by
    have o := (hasDerivAt_order b hb).1
    have a := HasDerivAt.comp (h₂ := fun x => log (Gamma x)) (h := fun b => √(m.nu ^ 2 + c * b) + (e + 1)) b (h.d1 _ (hp b hb)) (o.add_const (e + 1))
    have a2 : HasDerivAt (fun b => log (Gamma (e + m.nu + 1)) - log (Gamma (√(m.nu ^ 2 + c * b) + (e + 1)))) (-(digamma (√(m.nu ^ 2 + c * b) + (e + 1)) * (c / 2 / √(m.nu ^ 2 + c * b)))) b := a.const_sub _
    refine (a2.fun_add ((o.sub_const m.nu).const_mul (log (z / 2)))).congr_deriv ?_
    ring
  have hder2 : HasDerivAt (fun b => (log (z / 2) - digamma (√(m.nu ^ 2 + c * b) + (e + 1))) * (c / 2 / √(m.nu ^ 2 + c * b)))
      (-(trigamma (m.nu + (e + 1)) * (c / 2 / m.nu)) * (c / 2 / m.nu) + (log (z / 2) - digamma (m.nu + (e + 1))) * (-(c / 2) ^ 2 / m.nu ^ 3)) 0 := by
    have hb : 0 < m.nu ^ 2 + c * 0 := by simp; positivity
    have o := hasDerivAt_order 0 hb
    have a := (HasDerivAt.comp (h₂ := digamma) (h := fun b => √(m.nu ^ 2 + c * b) + (e + 1)) 0 (h.d2 _ (hp 0 hb)) (o.1.add_const (e + 1))).const_sub (log (z / 2))
    have a2 := a.fun_mul o.2
    simp only [Function.comp, hs0] at a2
    exact a2
  refine ⟨?_, fun h => ?_⟩
  · rw [eL]
    refine ⟨?_, fun b => exp (log (Gamma (e + m.nu + 1)) - log (Gamma (√(m.nu ^ 2 + c * b) + (e + 1))) + log (z / 2) * (√(m.nu ^ 2 + c * b) - m.nu)) *
      ((log (z / 2) - digamma (√(m.nu ^ 2 + c * b) + (e + 1))) * (c / 2 / √(m.nu ^ 2 + c * b))), ?_, ?_, ?_⟩
    · simp only [hs0]
      rw [show m.nu + (e + 1) = e + m.nu + 1 by ring]
      simp
    · filter_upwards [order_ev (c := c) hν] with b hb
      exact (hder b hb).exp
    · show _ = -(condAvgvarMeanVar digamma trigamma iv ivd m dt v0 vT (some e)).1
      unfold condAvgvarMeanVar dNu
      simp only [← hzdef, hs0]
      rw [show m.nu + (e + 1) = e + m.nu + 1 by ring, show c / 2 = 4 / (m.vov ^ 2 * dt) by rw [hc]; ring]
      simp only [sub_self, mul_zero, add_zero, exp_zero, one_mul]
      ring
    · have hb : 0 < m.nu ^ 2 + c * 0 := by simp; positivity
      refine ((hder 0 hb).exp.fun_mul hder2).congr_deriv ?_
      show _ = (condAvgvarMeanVar digamma trigamma iv ivd m dt v0 vT (some e)).2 + (condAvgvarMeanVar digamma trigamma iv ivd m dt v0 vT (some e)).1 ^ 2
      unfold condAvgvarMeanVar dNu
      simp only [← hzdef, hs0]
      rw [show m.nu + (e + 1) = e + m.nu + 1 by ring, show c / 2 = 4 / (m.vov ^ 2 * dt) by rw [hc]; ring]
      simp only [sub_self, mul_zero, add_zero, exp_zero, one_mul]
      ring
  · unfold condAvgvarMv
    simp only
    rw [if_neg (not_lt.2 (by exact div_nonneg h (sq_nonneg _)))]

/-- Mixing the conditional transforms over the Bessel variable. -/
lemma eta_mixture {m : Sv32} (hmr : 0 < m.mr) (hth : 0 < m.theta) (hv : m.vov ≠ 0) {dt v0 vT : ℝ} (hdt : 0 < dt) (h0 : 0 < v0) (hT : 0 < vT) {b : ℝ} (hb : 0 ≤ b) :
    HasSum (fun k : ℕ => ((besselTerm m.nu (m.zz dt v0 vT) k / besselI m.nu (m.zz dt v0 vT) : ℝ) : ℂ) * m.condAvgvarLaplace Complex.Gamma besselIC besselI b dt v0 vT (some k))
      (((m.zz dt v0 vT / 2) ^ ((dt - 1) * (√(m.nu ^ 2 + 8 / (m.vov ^ 2 * dt) * b) - m.nu)) * m.lap dt v0 vT b : ℝ) : ℂ) := by
  have hν := nu_pos hmr hth hv
  have hz := zz_pos hmr hth hv hdt h0 hT
  set z := m.zz dt v0 vT with hzdef
  have hn : 0 ≤ m.nu ^ 2 + 8 / (m.vov ^ 2 * dt) * b := by positivity
  obtain ⟨nb, hnb⟩ : ∃ nb, nb = √(m.nu ^ 2 + 8 / (m.vov ^ 2 * dt) * b) := ⟨_, rfl⟩
  have hnb0 : 0 ≤ nb := by rw [hnb]; positivity
  have hsq : nb ^ 2 = m.nu ^ 2 + 8 / (m.vov ^ 2 * dt) * b := by rw [hnb, sq_sqrt hn]
  have hdiff : 8 * b / m.vov ^ 2 / (nb + m.nu) = dt * (nb - m.nu) := by
    have h1 : nb + m.nu ≠ 0 := by linarith
    rw [div_eq_iff h1, show dt * (nb - m.nu) * (nb + m.nu) = dt * (nb ^ 2 - m.nu ^ 2) by ring, hsq]
    field_simp
    ring
  have hI := (Heston.besselI_pos (by linarith : -1 < m.nu) hz).ne'
  have key : ∀ k : ℕ, ((besselTerm m.nu z k / besselI m.nu z : ℝ) : ℂ) * m.condAvgvarLaplace Complex.Gamma besselIC besselI b dt v0 vT (some k)
      = (((z / 2) ^ ((dt - 1) * (nb - m.nu)) / besselI m.nu z * besselTerm nb z k : ℝ) : ℂ) := fun k => by
    unfold condAvgvarLaplace
    simp only
    rw [order_complex hn, ← hnb]
    have e1 : 8 * (b : ℂ) / (m.vov : ℂ) ^ 2 / ((nb : ℂ) + (m.nu : ℂ)) = ((dt * (nb - m.nu) : ℝ) : ℂ) := by rw [← hdiff]; push_cast; rfl
    rw [e1, ← Complex.ofReal_cpow (by positivity), show ((k : ℝ) : ℂ) + (m.nu : ℂ) + 1 = ((k + m.nu + 1 : ℝ) : ℂ) by push_cast; rfl,
      show ((k : ℝ) : ℂ) + (nb : ℂ) + 1 = ((k + nb + 1 : ℝ) : ℂ) by push_cast; rfl, Complex.Gamma_ofReal, Complex.Gamma_ofReal, ← Complex.ofReal_div, ← Complex.ofReal_mul, ← Complex.ofReal_mul]
    congr 1
    unfold besselTerm
    have hk := Nat.cast_nonneg (α := ℝ) k
    have g1 := (Gamma_pos_of_pos (show 0 < (k:ℝ) + m.nu + 1 by linarith)).ne'
    have g2 := (Gamma_pos_of_pos (show 0 < (k:ℝ) + nb + 1 by linarith)).ne'
    have hf : ((k.factorial : ℕ) : ℝ) ≠ 0 := by exact_mod_cast (Nat.factorial_pos k).ne'
    rw [show m.nu + (k:ℝ) + 1 = k + m.nu + 1 by ring, show nb + (k:ℝ) + 1 = k + nb + 1 by ring]
    have e2 : (z / 2) ^ (m.nu + 2 * (k:ℝ)) * (z / 2) ^ (dt * (nb - m.nu)) = (z / 2) ^ ((dt - 1) * (nb - m.nu)) * (z / 2) ^ (nb + 2 * (k:ℝ)) := by
      rw [← rpow_add (by positivity), ← rpow_add (by positivity)]
      congr 1
      ring
    generalize (z / 2) ^ (m.nu + 2 * (k:ℝ)) = A at *
    generalize (z / 2) ^ (dt * (nb - m.nu)) = B at *
    generalize (z / 2) ^ ((dt - 1) * (nb - m.nu)) = C at *
    generalize (z / 2) ^ (nb + 2 * (k:ℝ)) = D at *
    field_simp
    linear_combination e2
  simp only [key]
  have hs := ((Heston.summable_bessel (show -1 < nb by linarith) hz).hasSum.mul_left ((z / 2) ^ ((dt - 1) * (nb - m.nu)) / besselI m.nu z)).mapL Complex.ofRealCLM
  simp only [Complex.ofRealCLM_apply] at hs
  refine Eq.subst (motive := fun x => HasSum _ x) ?_ hs
  congr 1
  unfold lap
  rw [← hnb, ← hzdef]
  show _ * besselI nb z = _
  ring

/-- **C120.** `cond_avgvar_laplace` with `eta` should average, over the law of the Bessel variable (`besselTerm / besselI`), to `cond_avgvar_laplace` without it. It does for `dt = 1`. For any other time
step and `b > 0` it does not (unless `zz = 2`): the exponent `nu_diff` lacks the time step. -/
theorem laplace_eta_mixture (m : Sv32) (hmr : 0 < m.mr) (hth : 0 < m.theta) (hv : m.vov ≠ 0) {dt v0 vT : ℝ} (hdt : 0 < dt) (h0 : 0 < v0) (hT : 0 < vT) {b : ℝ} (hb : 0 < b) (hz2 : m.zz dt v0 vT ≠ 2) :
    HasSum (fun k : ℕ => ((besselTerm m.nu (m.zz dt v0 vT) k / besselI m.nu (m.zz dt v0 vT) : ℝ) : ℂ) * m.condAvgvarLaplace Complex.Gamma besselIC besselI b dt v0 vT (some k))
      (m.condAvgvarLaplace Complex.Gamma besselIC besselI b dt v0 vT none) ↔ dt = 1 := by
  have hν := nu_pos hmr hth hv
  have hz := zz_pos hmr hth hv hdt h0 hT
  have hn : 0 < m.nu ^ 2 + 8 / (m.vov ^ 2 * dt) * b := by positivity
  have hm := eta_mixture hmr hth hv hdt h0 hT hb.le
  rw [laplace_none hz hn.le]
  have hlap : 0 < m.lap dt v0 vT b := div_pos (Heston.besselI_pos (by have := sqrt_pos.2 hn; linarith) hz) (Heston.besselI_pos (by linarith) hz)
  have hnb : m.nu < √(m.nu ^ 2 + 8 / (m.vov ^ 2 * dt) * b) := by
    refine lt_sqrt_of_sq_lt ?_
    have : 0 < 8 / (m.vov ^ 2 * dt) * b := by positivity
    linarith
  constructor
  · intro h
    have e := hm.unique h
    have e := Complex.ofReal_injective e
    have e1 : (m.zz dt v0 vT / 2) ^ ((dt - 1) * (√(m.nu ^ 2 + 8 / (m.vov ^ 2 * dt) * b) - m.nu)) = 1 := by
      have := mul_right_cancel₀ hlap.ne' (e.trans (one_mul _).symm)
      exact this
    rw [rpow_def_of_pos (by positivity), exp_eq_one_iff] at e1
    rcases mul_eq_zero.1 e1 with h | h
    · exact absurd (eq_one_of_pos_of_log_eq_zero (by positivity) h) (by intro h; apply hz2; linarith)
    · rcases mul_eq_zero.1 h with h | h
      · linarith
      · linarith
  · intro h
    have e : (dt - 1) * (√(m.nu ^ 2 + 8 / (m.vov ^ 2 * dt) * b) - m.nu) = 0 := by rw [h]; ring
    rw [e, rpow_zero, one_mul] at hm
    exact hm

/-! ### Feynman-Kac -/

/-- The kernel before the Bessel function, and the argument of the latter. -/
lemma kernel_pde {κ Θ ξ y b ν μ : ℝ} (hκ : 0 < κ) (hξ : ξ ≠ 0) (hy : 0 < y) (hμ : -1 < μ) (hν : κ * Θ = ξ ^ 2 * (ν + 1) / 2) (hμν : μ ^ 2 = ν ^ 2 + 8 * b / ξ ^ 2) {t x : ℝ} (ht : 0 < t) (hx : 0 < x) :
    let c := fun t => 2 * κ / (ξ ^ 2 * (1 - exp (-(κ * t))))
    let u := fun t x => c t * exp (-(c t * (x * exp (-(κ * t)) + y))) * (y / (x * exp (-(κ * t)))) ^ (ν / 2) * besselI μ (2 * c t * √(x * y * exp (-(κ * t))))
    ∃ ut ux uxx : ℝ, HasDerivAt (fun t => u t x) ut t ∧ HasDerivAt (u t) ux x ∧ HasDerivAt (deriv (u t)) uxx x ∧
      ut = ξ ^ 2 * x / 2 * uxx + κ * (Θ - x) * ux - b / x * u t x := by
  intro c u
  have hξ2 : 0 < ξ ^ 2 := by positivity
  have hE : ∀ t, 0 < t → 0 < 1 - exp (-(κ * t)) := fun t ht => by
    have : exp (-(κ * t)) < 1 := exp_lt_one_iff.2 (by nlinarith)
    linarith
  have hc : ∀ t, 0 < t → 0 < c t := fun t ht => by have := hE t ht; show 0 < 2 * κ / (ξ ^ 2 * (1 - exp (-(κ * t)))); positivity
  have hcc : ∀ t, c t = 2 * κ / (ξ ^ 2 * (1 - exp (-(κ * t)))) := fun t => rfl
  -- logarithmic form
  set P : ℝ → ℝ → ℝ := fun t x => log (c t) - c t * (x * exp (-(κ * t)) + y) + ν / 2 * (log y - log x + κ * t) with hP
  set Z : ℝ → ℝ → ℝ := fun t x => 2 * c t * (√x * √y * exp (-(κ * t) / 2)) with hZ
  have hu : ∀ t x, 0 < t → 0 < x → u t x = exp (P t x) * besselI μ (Z t x) := fun t x ht hx => by
    show c t * exp (-(c t * (x * exp (-(κ * t)) + y))) * (y / (x * exp (-(κ * t)))) ^ (ν / 2) * besselI μ (2 * c t * √(x * y * exp (-(κ * t)))) = _
    have e1 : √(x * y * exp (-(κ * t))) = √x * √y * exp (-(κ * t) / 2) := by
      rw [sqrt_mul (by positivity), sqrt_mul hx.le, Real.exp_half]
    have e2 : (y / (x * exp (-(κ * t)))) ^ (ν / 2) = exp (ν / 2 * (log y - log x + κ * t)) := by
      rw [rpow_def_of_pos (by positivity), log_div hy.ne' (by positivity), log_mul hx.ne' (by positivity), log_exp]
      congr 1
      ring
    rw [e1, e2, hP]
    simp only
    rw [exp_add, exp_sub, exp_log (hc t ht), exp_neg, ← div_eq_mul_inv]
  have hZp : ∀ t x, 0 < t → 0 < x → 0 < Z t x := fun t x ht hx => by have := hc t ht; rw [hZ]; positivity
  -- time derivatives
  have dE : HasDerivAt (fun t => exp (-(κ * t))) (-κ * exp (-(κ * t))) t := by
    refine (((hasDerivAt_id' t).const_mul κ).fun_neg.exp).congr_deriv ?_
    ring
  have dEh : HasDerivAt (fun t => exp (-(κ * t) / 2)) (-(κ / 2) * exp (-(κ * t) / 2)) t := by
    refine ((((hasDerivAt_id' t).const_mul κ).fun_neg.div_const 2).exp).congr_deriv ?_
    ring
  have dc : HasDerivAt c (-(c t * (κ * exp (-(κ * t)) / (1 - exp (-(κ * t)))))) t := by
    have h1 := ((dE.const_sub 1).const_mul (ξ ^ 2))
    have h2 := (h1.fun_inv (by have := hE t ht; positivity)).const_mul (2 * κ)
    simp only [← div_eq_mul_inv] at h2
    refine h2.congr_deriv ?_
    rw [hcc]
    have := (hE t ht).ne'
    field_simp
  obtain ⟨D, hD⟩ : ∃ D, D = 1 - exp (-(κ * t)) := ⟨_, rfl⟩
  have hDp : 0 < D := by rw [hD]; exact hE t ht
  have eE : exp (-(κ * t)) = 1 - D := by linarith
  have dPt : HasDerivAt (fun t => P t x) (-(κ * (1 - D) / D) - (-(c t * (κ * (1 - D) / D)) * (x * (1 - D) + y) + c t * (x * (-κ * (1 - D)))) + ν / 2 * κ) t := by
    have h1 := dc.log (hc t ht).ne'
    have h2 := dc.fun_mul ((dE.const_mul x).add_const y)
    have h3 : HasDerivAt (fun t : ℝ => ν / 2 * (log y - log x + κ * t)) (ν / 2 * κ) t := by
      refine ((((hasDerivAt_id' t).const_mul κ).const_add (log y - log x)).const_mul (ν / 2)).congr_deriv ?_
      ring
    refine ((h1.fun_sub h2).fun_add h3).congr_deriv ?_
    rw [neg_div, mul_div_cancel_left₀ _ (hc t ht).ne', ← hD, eE]
  have dZt : HasDerivAt (fun t => Z t x) (Z t x * (-(κ * (1 - D) / D) - κ / 2)) t := by
    have h1 := (dc.const_mul 2).fun_mul (dEh.const_mul (√x * √y))
    refine h1.congr_deriv ?_
    rw [hZ, ← eE, hD]
    simp only
    ring
  -- space derivatives
  have dPx : ∀ x, 0 < x → HasDerivAt (P t) (-(c t * (1 - D)) - ν / (2 * x)) x := fun x hx => by
    have h1 : HasDerivAt (fun x : ℝ => log (c t) - c t * (x * exp (-(κ * t)) + y)) (-(c t * (1 - D))) x := by
      refine (((((hasDerivAt_id' x).mul_const (exp (-(κ * t)))).add_const y).const_mul (c t)).const_sub (log (c t))).congr_deriv ?_
      rw [eE, one_mul]
    have h2 : HasDerivAt (fun x : ℝ => ν / 2 * (log y - log x + κ * t)) (-(ν / (2 * x))) x := by
      refine ((((Real.hasDerivAt_log hx.ne').const_sub (log y)).add_const (κ * t)).const_mul (ν / 2)).congr_deriv ?_
      field_simp
    refine (h1.fun_add h2).congr_deriv ?_
    ring
  have dPxx : HasDerivAt (fun x : ℝ => -(c t * (1 - D)) - ν / (2 * x)) (ν / (2 * x ^ 2)) x := by
    have h1 := (((hasDerivAt_inv hx.ne').const_mul (ν / 2)).const_sub (-(c t * (1 - D))))
    have e : (fun x : ℝ => -(c t * (1 - D)) - ν / (2 * x)) = fun x => -(c t * (1 - D)) - ν / 2 * x⁻¹ := by
      funext x; rw [div_mul_eq_div_div, div_eq_mul_inv (ν / 2)]
    rw [e]
    refine h1.congr_deriv ?_
    field_simp
  have dZx : ∀ x, 0 < x → HasDerivAt (Z t) (Z t x / (2 * x)) x := fun x hx => by
    have h1 := (((Real.hasDerivAt_sqrt hx.ne').mul_const (√y)).mul_const (exp (-(κ * t) / 2))).const_mul (2 * c t)
    refine h1.congr_deriv ?_
    rw [hZ]
    simp only
    have hs := sq_sqrt hx.le
    have hsp := (sqrt_pos.2 hx).ne'
    generalize √x = s at *
    rw [← hs]
    field_simp
  have dZxx : HasDerivAt (fun x => Z t x / (2 * x)) (-(Z t x / (4 * x ^ 2))) x := by
    have h1 := (dZx x hx).fun_div ((hasDerivAt_id' x).const_mul 2) (by positivity)
    refine h1.congr_deriv ?_
    field_simp
    ring
  have dJ : ∀ x, 0 < x → HasDerivAt (besselI μ) (besselI (μ + 1) (Z t x) + μ / Z t x * besselI μ (Z t x)) (Z t x) := fun x hx => Bessel.hasDerivAt_z hμ (hZp t x ht hx)
  obtain ⟨J1, J2, hJ1, hJ2, hode⟩ := Bessel.ode hμ (hZp t x ht hx)
  have hut : HasDerivAt (fun t => u t x) (exp (P t x) * (-(κ * (1 - D) / D) - (-(c t * (κ * (1 - D) / D)) * (x * (1 - D) + y) + c t * (x * (-κ * (1 - D)))) + ν / 2 * κ) * besselI μ (Z t x) +
      exp (P t x) * (J1 * (Z t x * (-(κ * (1 - D) / D) - κ / 2)))) t := by
    have h1 := dPt.exp.fun_mul (HasDerivAt.comp (h₂ := besselI μ) (h := fun t => Z t x) t hJ1 dZt)
    refine h1.congr_of_eventuallyEq ?_
    filter_upwards [lt_mem_nhds ht] with s hs
    exact hu s x hs hx
  have hux : ∀ w, 0 < w → HasDerivAt (u t) (exp (P t w) * ((-(c t * (1 - D)) - ν / (2 * w)) * besselI μ (Z t w) + deriv (besselI μ) (Z t w) * (Z t w / (2 * w)))) w := fun w hw => by
    have h1 := (dPx w hw).exp.fun_mul (HasDerivAt.comp (h₂ := besselI μ) (h := Z t) w (dJ w hw) (dZx w hw))
    rw [(dJ w hw).deriv]
    refine (h1.congr_of_eventuallyEq ?_).congr_deriv ?_
    · filter_upwards [lt_mem_nhds hw] with s hs
      exact hu t s ht hs
    · simp only [Function.comp]; ring
  have huxx : HasDerivAt (deriv (u t)) (exp (P t x) * (-(c t * (1 - D)) - ν / (2 * x)) * ((-(c t * (1 - D)) - ν / (2 * x)) * besselI μ (Z t x) + deriv (besselI μ) (Z t x) * (Z t x / (2 * x))) +
      exp (P t x) * ((ν / (2 * x ^ 2)) * besselI μ (Z t x) + (-(c t * (1 - D)) - ν / (2 * x)) * (J1 * (Z t x / (2 * x))) +
        (J2 * (Z t x / (2 * x)) * (Z t x / (2 * x)) + deriv (besselI μ) (Z t x) * (-(Z t x / (4 * x ^ 2)))))) x := by
    have a := dPxx.fun_mul (HasDerivAt.comp (h₂ := besselI μ) (h := Z t) x hJ1 (dZx x hx))
    have b := (HasDerivAt.comp (h₂ := deriv (besselI μ)) (h := Z t) x hJ2 (dZx x hx)).fun_mul dZxx
    have h1 := (dPx x hx).exp.fun_mul (a.fun_add b)
    refine h1.congr_of_eventuallyEq ?_
    filter_upwards [lt_mem_nhds hx] with s hs
    exact (hux s hs).deriv
  refine ⟨_, _, _, hut, hux x hx, huxx, ?_⟩
  rw [hu t x ht hx, hJ1.deriv]
  have hz2 : Z t x ^ 2 = 4 * c t ^ 2 * (x * y * (1 - D)) := by
    rw [hZ]
    simp only
    rw [← eE, show -(κ * t) = -(κ * t) / 2 + -(κ * t) / 2 by ring, exp_add]
    have h1 := sq_sqrt hx.le
    have h2 := sq_sqrt hy.le
    rw [← show √x ^ 2 * √y ^ 2 = x * y by rw [h1, h2]]
    ring_nf
  have hce : c t = 2 * κ / (ξ ^ 2 * D) := by rw [hcc, hD]
  generalize exp (P t x) = EP
  generalize besselI μ (Z t x) = J at *
  generalize Z t x = z at *
  have hJ2' : J2 * z ^ 2 = (z ^ 2 + μ ^ 2) * J - z * J1 := by linarith
  clear_value c
  generalize c t = C at *
  have hΘ : Θ = ξ ^ 2 * (ν + 1) / 2 / κ := by field_simp; linarith
  have e : J2 * (z / (2 * x)) * (z / (2 * x)) = ((z ^ 2 + μ ^ 2) * J - z * J1) / (4 * x ^ 2) := by rw [← hJ2']; field_simp; norm_num
  rw [e, hz2, hμν, hΘ, hce]
  field_simp
  ring

lemma zz_eq {m : Sv32} (hmr : 0 < m.mr) (hth : 0 < m.theta) (hv : m.vov ≠ 0) {t x y : ℝ} (ht : 0 < t) (hx : 0 < x) (hy : 0 < y) :
    m.zz t (1 / x) (1 / y) = 2 * (2 * m.cir.mr / (m.vov ^ 2 * (1 - exp (-(m.cir.mr * t))))) * √(x * y * exp (-(m.cir.mr * t))) := by
  have hk : 0 < m.cir.mr := mul_pos hmr hth
  unfold zz Cir.phiExp
  simp only
  have e1 : √(1 / x * (1 / y)) = 1 / √(x * y) := by rw [one_div_mul_one_div, sqrt_div zero_le_one, sqrt_one]
  have e2 : √(x * y * exp (-(m.cir.mr * t))) = √(x * y) * exp (-m.cir.mr * t / 2) := by
    rw [sqrt_mul (by positivity), ← Real.exp_half]
    congr 2
    ring
  have e3 : exp (-(m.cir.mr * t)) = exp (-m.cir.mr * t / 2) ^ 2 := by rw [← exp_nat_mul]; congr 1; push_cast; ring
  have h1 : exp (-m.cir.mr * t / 2) < 1 := exp_lt_one_iff.2 (by nlinarith [mul_pos hk ht])
  have h2 := exp_pos (-m.cir.mr * t / 2)
  have hs : m.cir.sigma = m.vov := rfl
  rw [e1, e2, e3, hs]
  generalize exp (-m.cir.mr * t / 2) = E at *
  have h3 : 0 < 1 - E ^ 2 := by nlinarith
  have h4 : 1 / E - E = (1 - E ^ 2) / E := by field_simp
  rw [h4]
  field_simp
  ring

/-- **C120.** Feynman-Kac for `cond_avgvar_laplace`. With `X = 1/v` the square-root process of `cir` (C118) and `p(t, x, y)` its transition density, the product of `p` and the conditional Laplace transform
of the average variance at `b t` - the kernel of `E[exp(-b ∫_0^t v ds); X_t ∈ dy]` - solves the backward equation of `X` with the killing rate `b v = b/x`, for every rate `b ≥ 0`, time, and end points. -/
theorem laplace_feynman_kac (m : Sv32) (hmr : 0 < m.mr) (hth : 0 < m.theta) (hv : m.vov ≠ 0) {b : ℝ} (hb : 0 ≤ b) {t x y : ℝ} (ht : 0 < t) (hx : 0 < x) (hy : 0 < y) :
    let u := fun t x : ℝ => cirDensity m.cir.mr m.cir.theta m.vov t x y * (m.condAvgvarLaplace Complex.Gamma besselIC besselI ((b * t : ℝ) : ℂ) t (1 / x) (1 / y) none).re
    ∃ ut ux uxx : ℝ, HasDerivAt (fun t => u t x) ut t ∧ HasDerivAt (u t) ux x ∧ HasDerivAt (deriv (u t)) uxx x ∧
      ut = m.vov ^ 2 * x / 2 * uxx + m.cir.mr * (m.cir.theta - x) * ux - b / x * u t x := by
  intro u
  have hk : 0 < m.cir.mr := mul_pos hmr hth
  have hν := nu_pos hmr hth hv
  obtain ⟨μ, hμ⟩ : ∃ μ, μ = √(m.nu ^ 2 + 8 * b / m.vov ^ 2) := ⟨_, rfl⟩
  have hμ0 : 0 ≤ μ := by rw [hμ]; positivity
  have hn : 2 * m.cir.mr * m.cir.theta / m.vov ^ 2 - 1 = m.nu := by
    unfold nu Cir.chiDim
    have hs : m.cir.sigma = m.vov := rfl
    rw [hs]
    ring
  have hkt : m.cir.mr * m.cir.theta = m.vov ^ 2 * (m.nu + 1) / 2 := by
    rw [← hn]; field_simp; ring
  obtain ⟨ut, ux, uxx, h1, h2, h3, h4⟩ := kernel_pde hk hv hy (by linarith : -1 < μ) hkt (b := b) (by rw [hμ, sq_sqrt (by positivity)]) ht hx
  have hu : ∀ s w, 0 < s → 0 < w → u s w = 2 * m.cir.mr / (m.vov ^ 2 * (1 - exp (-(m.cir.mr * s)))) * exp (-(2 * m.cir.mr / (m.vov ^ 2 * (1 - exp (-(m.cir.mr * s)))) * (w * exp (-(m.cir.mr * s)) + y))) *
      (y / (w * exp (-(m.cir.mr * s)))) ^ (m.nu / 2) * besselI μ (2 * (2 * m.cir.mr / (m.vov ^ 2 * (1 - exp (-(m.cir.mr * s))))) * √(w * y * exp (-(m.cir.mr * s)))) := fun s w hs hw => by
    have hz := zz_pos hmr hth hv hs (show 0 < 1 / w by positivity) (show 0 < 1 / y by positivity)
    show cirDensity m.cir.mr m.cir.theta m.vov s w y * _ = _
    rw [laplace_none hz (by positivity), Complex.ofReal_re]
    unfold lap cirDensity
    simp only
    rw [hn, zz_eq hmr hth hv hs hw hy, show m.nu ^ 2 + 8 / (m.vov ^ 2 * s) * (b * s) = m.nu ^ 2 + 8 * b / m.vov ^ 2 by field_simp, ← hμ]
    have hI := Heston.besselI_pos (by linarith : -1 < m.nu) hz
    rw [zz_eq hmr hth hv hs hw hy] at hI
    generalize besselI m.nu _ = I at *
    field_simp
  refine ⟨ut, ux, uxx, h1.congr_of_eventuallyEq ?_, h2.congr_of_eventuallyEq ?_, h3.congr_of_eventuallyEq ?_, ?_⟩
  · filter_upwards [lt_mem_nhds ht] with s hs
    exact hu s x hs hx
  · filter_upwards [lt_mem_nhds hx] with w hw
    exact hu t w ht hw
  · refine Filter.EventuallyEq.deriv ?_
    filter_upwards [lt_mem_nhds hx] with w hw
    exact hu t w ht hw
  · rw [hu t x ht hx]
    exact h4

/-- The hypotheses of `cond_avgvar_mv_correct` are met: the polygamma functions and the limit of `iv_d12` exist. -/
example : ∃ (digamma trigamma : ℝ → ℝ) (ivd : ℝ → ℝ → ℝ × ℝ), IsPolygamma digamma trigamma ∧
    ∀ ν z, 0 < ν → 0 < z → Tendsto (fun n => ivD12 digamma trigamma n ν z) atTop (𝓝 (ivd ν z)) := by
  obtain ⟨dg, tg, h⟩ := Bessel.exists_polygamma
  have key : ∀ ν z : ℝ, ∃ d : ℝ × ℝ, 0 < ν → 0 < z → Tendsto (fun n => ivD12 dg tg n ν z) atTop (𝓝 d) := fun ν z => by
    by_cases hz : 0 < z
    · by_cases hν : 0 < ν
      · obtain ⟨I1, I2, hI⟩ := iv_d12_limit h hz
        exact ⟨(I1 ν, I2 ν), fun _ _ => (hI ν hν).2.2.1.prodMk_nhds (hI ν hν).2.2.2⟩
      · exact ⟨0, fun h => absurd h hν⟩
    · exact ⟨0, fun _ h => absurd h hz⟩
  choose ivd hd using key
  exact ⟨dg, tg, ivd, h, hd⟩

end Sv32

/-- **C120.** The draws of `CirModel.draw_vol_ncx2`-type schemes have the transition density `Spec.cirDensity`: for every bounded measurable test function the expectation over the draw is the integral
against the density. -/
theorem Cir.draw_ncx2_density (c : Cir) (hk : 0 < c.mr) (hth : 0 < c.theta) (hs : c.sigma ≠ 0) {dt x : ℝ} (hdt : 0 < dt) (hx : 0 < x) {φ : ℝ → ℝ} (hφ : Measurable φ) {B : ℝ} (hB : ∀ y, |φ y| ≤ B) :
    Cir.drawNcx2 Ex.ncx2 c dt x φ = ∫ y in Ioi 0, φ y * cirDensity c.mr c.theta c.sigma dt x y := by
  obtain ⟨E, hE⟩ : ∃ E, E = exp (-c.mr * dt / 2) := ⟨_, rfl⟩
  have hE2 : exp (-(c.mr * dt)) = E ^ 2 := by rw [hE, ← exp_nat_mul]; congr 1; push_cast; ring
  have hE0 : 0 < E := by rw [hE]; exact exp_pos _
  have hE1 : E < 1 := by rw [hE]; exact exp_lt_one_iff.2 (by nlinarith [mul_pos hk hdt])
  have hD : 0 < 1 - E ^ 2 := by nlinarith
  have hs2 : 0 < c.sigma ^ 2 := by positivity
  obtain ⟨C, hC⟩ : ∃ C, C = 2 * c.mr / (c.sigma ^ 2 * (1 - E ^ 2)) := ⟨_, rfl⟩
  have hC0 : 0 < C := by rw [hC]; positivity
  obtain ⟨a, ha⟩ : ∃ a, a = 4 * c.mr * c.theta / c.sigma ^ 2 / 2 := ⟨_, rfl⟩
  have ha0 : 0 < a := by rw [ha]; positivity
  have h4 : 1 / E - E = (1 - E ^ 2) / E := by field_simp
  have p1 : x * (c.phiExp dt).2 * (c.phiExp dt).1 / 2 = C * x * E ^ 2 := by
    unfold Cir.phiExp; simp only; rw [← hE, h4, hC]; field_simp; norm_num
  have p2 : ∀ g, (c.phiExp dt).2 / (c.phiExp dt).1 * (2 * g) = C⁻¹ * g := fun g => by
    unfold Cir.phiExp; simp only; rw [← hE, h4, hC]; field_simp; norm_num
  have e1 : Cir.drawNcx2 Ex.ncx2 c dt x φ = Ex.poisson (C * x * E ^ 2) (fun n => Ex.gamma (a + n) fun g => φ (C⁻¹ * g)) := by
    show Ex.poisson (x * (c.phiExp dt).2 * (c.phiExp dt).1 / 2) (fun n => Ex.gamma (4 * c.mr * c.theta / c.sigma ^ 2 / 2 + n) fun g => φ ((c.phiExp dt).2 / (c.phiExp dt).1 * (2 * g))) = _
    simp only [p1, p2, ← ha]
  rw [e1]
  -- change of variable
  have e2 : ∀ (f : ℝ → ℝ) (n : ℕ), Ex.gamma (a + n) (fun g => f (C⁻¹ * g)) = ∫ y in Ioi 0, C * gammaPdf (a + n) (C * y) * f y := fun f n => by
    unfold Ex.gamma
    have := integral_comp_mul_left_Ioi (fun g => gammaPdf (a + n) g * f (C⁻¹ * g)) 0 hC0
    rw [mul_zero, smul_eq_mul] at this
    simp only [inv_mul_cancel_left₀ hC0.ne'] at this
    simp only [mul_assoc]
    rw [integral_const_mul, this, mul_inv_cancel_left₀ hC0.ne']
  have hG1 : ∀ n : ℕ, ∫ y in Ioi 0, C * gammaPdf (a + n) (C * y) = 1 := fun n => by
    have h1 := e2 (fun _ => 1) n
    simp only [mul_one] at h1
    rw [← h1]
    have h2 := Ex.gamma_exp (a := a + n) (s := 0) (by positivity) one_pos
    simpa using h2
  have hGi : ∀ n : ℕ, IntegrableOn (fun y => C * gammaPdf (a + n) (C * y)) (Ioi 0) := fun n => integrable_of_integral_ne (hG1 n ▸ one_ne_zero)
  have hGn : ∀ (n : ℕ), ∀ y ∈ Ioi (0:ℝ), 0 ≤ C * gammaPdf (a + n) (C * y) := fun n y hy => by
    have hy : 0 < y := hy
    unfold gammaPdf
    have := Gamma_pos_of_pos (show 0 < a + n by positivity)
    positivity
  have hB0 : 0 ≤ B := (abs_nonneg _).trans (hB 0)
  obtain ⟨lam, hl⟩ : ∃ lam, lam = C * x * E ^ 2 := ⟨_, rfl⟩
  have hl0 : 0 < lam := by rw [hl]; positivity
  have hFi : ∀ n : ℕ, Integrable (fun y => lam ^ n / n.factorial * (C * gammaPdf (a + n) (C * y) * φ y)) (volume.restrict (Ioi 0)) := fun n =>
    ((hGi n).mul_bdd (c := B) hφ.aestronglyMeasurable (ae_of_all _ hB)).const_mul _
  have hFs : Summable fun n : ℕ => ∫ y in Ioi 0, ‖lam ^ n / n.factorial * (C * gammaPdf (a + n) (C * y) * φ y)‖ := by
    refine Summable.of_nonneg_of_le (fun n => integral_nonneg fun y => norm_nonneg _) (fun n => ?_) ((Real.summable_pow_div_factorial lam).mul_right B)
    calc ∫ y in Ioi 0, ‖lam ^ n / n.factorial * (C * gammaPdf (a + n) (C * y) * φ y)‖ ≤ ∫ y in Ioi 0, lam ^ n / n.factorial * B * (C * gammaPdf (a + n) (C * y)) := by
          refine setIntegral_mono_on (hFi n).norm ((hGi n).const_mul _) measurableSet_Ioi fun y hy => ?_
          rw [norm_mul, norm_mul, Real.norm_of_nonneg (hGn n y hy), Real.norm_of_nonneg (by positivity)]
          have h1 : ‖φ y‖ ≤ B := hB y
          have h2 := hGn n y hy
          calc _ ≤ lam ^ n / n.factorial * (C * gammaPdf (a + n) (C * y) * B) := by gcongr
            _ = _ := by ring
      _ = _ := by rw [integral_const_mul, hG1, mul_one]
  have key := (hasSum_integral_of_summable_integral_norm hFi hFs).tsum_eq
  unfold Ex.poisson poisMix
  simp only [e2, ← integral_const_mul]
  rw [← hl, key, ← integral_const_mul]
  refine setIntegral_congr_fun measurableSet_Ioi fun y hy => ?_
  have hy : 0 < y := hy
  -- pointwise: the Poisson mixture of gamma densities is the Bessel form
  have hz0 : 0 < 2 * C * √(x * y * E ^ 2) := by positivity
  have hzh : 2 * C * √(x * y * E ^ 2) / 2 = C * √(x * y * E ^ 2) := by ring
  have hsq : (C * √(x * y * E ^ 2)) ^ 2 = lam * (C * y) := by rw [mul_pow, sq_sqrt (by positivity), hl]; ring
  have hν : 2 * c.mr * c.theta / c.sigma ^ 2 - 1 = a - 1 := by rw [ha]; ring
  have hr : (C * y) ^ (a - 1) = (y / (x * E ^ 2)) ^ ((a - 1) / 2) * (C * √(x * y * E ^ 2)) ^ (a - 1) := by
    have h1 : C * √(x * y * E ^ 2) = ((C * √(x * y * E ^ 2)) ^ 2) ^ (1 / 2 : ℝ) := by rw [← sqrt_eq_rpow, sqrt_sq (by positivity)]
    rw [h1, ← rpow_mul (by positivity), hsq, hl, show 1 / 2 * (a - 1) = (a - 1) / 2 by ring, ← mul_rpow (by positivity) (by positivity),
      show y / (x * E ^ 2) * (C * x * E ^ 2 * (C * y)) = (C * y) ^ 2 by field_simp, ← rpow_natCast, ← rpow_mul (by positivity)]
    congr 1
    push_cast
    ring
  unfold cirDensity
  simp only
  rw [hE2, ← hC, hν]
  unfold besselI
  rw [← tsum_mul_left, ← tsum_mul_left, ← tsum_mul_left]
  refine tsum_congr fun n => ?_
  unfold besselTerm gammaPdf
  rw [hzh, show a - 1 + (n:ℝ) + 1 = a + n by ring, show a - 1 + 2 * (n:ℝ) = (a - 1) + ((2 * n : ℕ) : ℝ) by push_cast; ring, rpow_add (by positivity), rpow_natCast, pow_mul, hsq,
    show a + (n:ℝ) - 1 = a - 1 + n by ring, rpow_add (by positivity), rpow_natCast, hr, show -(C * (x * E ^ 2 + y)) = -lam + -(C * y) by rw [hl]; ring, exp_add]
  have hg := (Gamma_pos_of_pos (show 0 < a + n by positivity)).ne'
  have hf : ((n.factorial : ℕ) : ℝ) ≠ 0 := by exact_mod_cast (Nat.factorial_pos n).ne'
  generalize (y / (x * E ^ 2)) ^ ((a - 1) / 2) = r1
  generalize (C * √(x * y * E ^ 2)) ^ (a - 1) = r2
  generalize exp (-lam) = q1
  generalize exp (-(C * y)) = q2
  rw [mul_pow lam]
  field_simp

end PyFENG
