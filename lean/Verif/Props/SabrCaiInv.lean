import Verif.Model.SabrMc
import Verif.Lemmas.LaplaceInv
import Verif.Lemmas.ExMv
import Mathlib.Analysis.SpecialFunctions.Arcosh
import Mathlib.Probability.Distributions.Exponential

/-!
# C125: the exact draw of the average variance of Cai et al. (2017): transform, Euler inversion, inverse-transform draw
-/

namespace PyFENG

open Real MeasureTheory ProbabilityTheory Filter Set Topology

namespace Sabr

/-! ### Euler inversion -/

/-- **C125.** The Euler weights are probabilities: the assertion made when they are built never fails. -/
theorem comb_coef_weights (m : ℕ) : (∀ j, 0 ≤ combCoef m j) ∧ ∑ j ∈ Finset.range (m + 1), combCoef m j = 1 := by
  refine ⟨fun j => by unfold combCoef; positivity, ?_⟩
  unfold combCoef
  rw [← Finset.sum_mul]
  have h : (∑ j ∈ Finset.range (m + 1), (m.choose j : ℝ)) = 2 ^ m := by exact_mod_cast Nat.sum_range_choose m
  rw [h, ← mul_pow]
  norm_num

/-- **C125.** `inv_laplace`: for the transform of the distribution function of any law on the positive half-line (with a continuous distribution function), the Euler-summed Bromwich sum differs from the distribution
function at `u` by at most the aliasing error `exp(-M)/(1 - exp(-M))` plus the damped remainder of the series beyond the `n`-th term, for every number `m` of Euler averages. -/
theorem inv_laplace_error (μ : Measure ℝ) [IsProbabilityMeasure μ] (hμ : μ (Iio 0) = 0) (hc : Continuous fun s => μ.real (Iic s)) (F : ℂ → ℂ)
    (hF : ∀ θ : ℂ, 0 < θ.re → F θ = (∫ x, Complex.exp (-θ * x) ∂μ) / θ) {M u : ℝ} (hM : 0 < M) (hu : 0 < u)
    (hs : Summable fun k : ℕ => ‖F (((M : ℂ) - 2 * Complex.I * π * k) / (2 * u))‖) (m n : ℕ) :
    |invLaplaceSum F M m n u - μ.real (Iic u)| ≤
      exp (-M) / (1 - exp (-M)) + exp (M / 2) / u * ∑' j : ℕ, ‖F (((M : ℂ) - 2 * Complex.I * π * (n + 1 + j : ℕ)) / (2 * u))‖ := by
  set f : ℝ → ℝ := fun s => μ.real (Iic s) with hf
  have hre : ∀ k : ℝ, (((M : ℂ) - 2 * Complex.I * π * k) / (2 * u)).re = M / (2 * u) := fun k => by
    rw [show (2 * u : ℂ) = ((2 * u : ℝ) : ℂ) by push_cast; ring, Complex.div_ofReal_re]
    simp
  have hpos : 0 < M / (2 * u) := by positivity
  have hFl : ∀ θ : ℂ, 0 < θ.re → F θ = Spec.laplace f θ := fun θ hθ => by rw [hF θ hθ, hf, LaplaceInv.cdf_laplace μ hμ hθ]
  have hFk : ∀ k : ℕ, F (((M : ℂ) - 2 * Complex.I * π * k) / (2 * u)) = Spec.laplace f (((M : ℂ) - 2 * Complex.I * π * k) / (2 * u)) := fun k =>
    hFl _ (by have := hre k; push_cast at this; rw [this]; exact hpos)
  have f01 : ∀ s, 0 ≤ f s ∧ f s ≤ 1 := fun s => ⟨measureReal_nonneg, measureReal_le_one⟩
  have hneg : ∀ s < 0, f s = 0 := fun s hs => by
    have : μ (Iic s) = 0 := measure_mono_null (fun x hx => lt_of_le_of_lt hx hs) hμ
    simp only [hf, Measure.real, this, ENNReal.toReal_zero]
  have h0 : ∀ s ≤ 0, f s = 0 := fun s hs => by
    rcases hs.eq_or_lt with h | h
    · rw [h]
      have h1 : Tendsto f (𝓝[<] 0) (𝓝 (f 0)) := hc.continuousAt.tendsto.mono_left nhdsWithin_le_nhds
      have h2 : Tendsto f (𝓝[<] 0) (𝓝 0) := tendsto_const_nhds.congr' (by filter_upwards [self_mem_nhdsWithin] with x hx using (hneg x hx).symm)
      exact tendsto_nhds_unique h1 h2
    · exact hneg s h
  have hsZ : Summable fun k : ℤ => Spec.laplace f (((M : ℂ) + 2 * Complex.I * π * k) / (2 * u)) := by
    refine Summable.of_norm (Summable.of_nat_of_neg ?_ ?_)
    · refine hs.congr fun k => ?_
      rw [hFk, ← RCLike.norm_conj, ← LaplaceInv.laplace_conj]
      congr 2
      simp only [map_div₀, map_sub, map_mul, Complex.conj_ofReal, Complex.conj_I, map_ofNat, map_natCast, Int.cast_natCast]
      ring
    · refine hs.congr fun k => ?_
      rw [hFk]
      congr 2
      push_cast
      ring
  obtain ⟨S, hS, hG⟩ := LaplaceInv.euler_inversion hc h0 (C := 1) (fun s => by rw [abs_of_nonneg (f01 s).1]; exact (f01 s).2) hM hu hsZ
  set ss : ℕ → ℝ := fun k => (F (((M : ℂ) - 2 * Complex.I * π * k) / (2 * u))).re with hss
  have hS' : HasSum (fun k : ℕ => (-1 : ℝ) ^ k * ss k) S := hS.congr_fun fun k => by rw [hss]; simp only [hFk]
  have hss0 : ss 0 = (Spec.laplace f ((M : ℂ) / (2 * u))).re := by rw [hss]; simp only [hFk]; simp
  -- aliasing
  have hal : |exp (M / 2) / u * (-(1 / 2 * ss 0) + S) - f u| ≤ exp (-M) / (1 - exp (-M)) := by
    rw [hss0]
    have hq : exp (-M) < 1 := exp_lt_one_iff.2 (by linarith)
    have h1 := (hasSum_nat_add_iff' 1).2 hG
    simp only [Finset.range_one, Finset.sum_singleton, Nat.cast_zero, mul_zero, neg_zero, exp_zero, one_mul, zero_add] at h1
    have h2 : HasSum (fun j : ℕ => exp (-M) * exp (-M) ^ j) (exp (-M) * (1 - exp (-M))⁻¹) := (hasSum_geometric_of_lt_one (exp_pos _).le hq).mul_left _
    have e : ∀ j : ℕ, exp (-(M * ((j + 1 : ℕ) : ℝ))) = exp (-M) * exp (-M) ^ j := fun j => by
      rw [← pow_succ', ← exp_nat_mul]; congr 1; ring
    have h3 := hasSum_le (fun j => by
      rw [e]
      exact mul_le_of_le_one_right (by positivity) (f01 _).2) h1 h2
    have h4 := h1.nonneg fun j => mul_nonneg (exp_pos _).le (f01 _).1
    rw [abs_le]
    rw [← div_eq_mul_inv] at h3
    refine ⟨?_, h3⟩
    have : 0 ≤ exp (-M) / (1 - exp (-M)) := div_nonneg (exp_pos _).le (by linarith)
    linarith
  -- truncation and Euler averaging
  set cum : ℕ → ℝ := fun k => ∑ j ∈ Finset.range (k + 1), (if j % 2 = 1 then -ss j else ss j) with hcum
  have hsgn : ∀ j : ℕ, (if j % 2 = 1 then -ss j else ss j) = (-1 : ℝ) ^ j * ss j := fun j => by
    split_ifs with h
    · rw [Odd.neg_one_pow (Nat.odd_iff.2 h)]; ring
    · rw [Even.neg_one_pow (Nat.even_iff.2 (by omega))]; ring
  set R := ∑' j : ℕ, ‖F (((M : ℂ) - 2 * Complex.I * π * (n + 1 + j : ℕ)) / (2 * u))‖ with hR
  have hsn : Summable fun j : ℕ => ‖F (((M : ℂ) - 2 * Complex.I * π * (n + 1 + j : ℕ)) / (2 * u))‖ := by
    have := (summable_nat_add_iff (n + 1)).2 hs
    refine this.congr fun j => ?_
    rw [add_comm j (n + 1)]
  have htail : ∀ k, n ≤ k → |cum k - S| ≤ R := fun k hk => by
    have h1 := (hasSum_nat_add_iff' (k + 1)).2 hS'
    have e1 : cum k = ∑ j ∈ Finset.range (k + 1), (-1 : ℝ) ^ j * ss j := Finset.sum_congr rfl fun j _ => hsgn j
    rw [← e1] at h1
    rw [abs_sub_comm, ← h1.tsum_eq]
    obtain ⟨d, rfl⟩ := Nat.exists_eq_add_of_le hk
    have hb : ∀ j : ℕ, ‖(-1 : ℝ) ^ (j + (n + d + 1)) * ss (j + (n + d + 1))‖ ≤ ‖F (((M : ℂ) - 2 * Complex.I * π * (n + 1 + (j + d) : ℕ)) / (2 * u))‖ := fun j => by
      rw [norm_mul, norm_pow, norm_neg, norm_one, one_pow, one_mul, show j + (n + d + 1) = n + 1 + (j + d) by ring]
      exact Complex.abs_re_le_norm _
    have hsd := (summable_nat_add_iff d).2 hsn
    refine (tsum_of_norm_bounded hsd.hasSum hb).trans ?_
    have := hsn.sum_add_tsum_nat_add d
    rw [hR, ← this]
    exact le_add_of_nonneg_left (Finset.sum_nonneg fun _ _ => norm_nonneg _)
  obtain ⟨hw0, hw1⟩ := comb_coef_weights m
  have hval : invLaplaceSum F M m n u = exp (M / 2) / u * (-(1 / 2 * ss 0) + ∑ j ∈ Finset.range (m + 1), combCoef m j * cum (n + j)) := by
    unfold invLaplaceSum
    simp only [hcum, hss]
    norm_num
  have hE : |∑ j ∈ Finset.range (m + 1), combCoef m j * cum (n + j) - S| ≤ R := by
    have : ∑ j ∈ Finset.range (m + 1), combCoef m j * cum (n + j) - S = ∑ j ∈ Finset.range (m + 1), combCoef m j * (cum (n + j) - S) := by
      simp only [mul_sub, Finset.sum_sub_distrib, ← Finset.sum_mul, hw1, one_mul]
    rw [this]
    calc _ ≤ ∑ j ∈ Finset.range (m + 1), |combCoef m j * (cum (n + j) - S)| := Finset.abs_sum_le_sum_abs _ _
      _ ≤ ∑ j ∈ Finset.range (m + 1), combCoef m j * R := Finset.sum_le_sum fun j _ => by
          rw [abs_mul, abs_of_nonneg (hw0 j)]
          exact mul_le_mul_of_nonneg_left (htail _ (by omega)) (hw0 j)
      _ = R := by rw [← Finset.sum_mul, hw1, one_mul]
  rw [hval]
  have hEu : 0 < exp (M / 2) / u := by positivity
  have hsplit : exp (M / 2) / u * (-(1 / 2 * ss 0) + ∑ j ∈ Finset.range (m + 1), combCoef m j * cum (n + j)) - f u
      = (exp (M / 2) / u * (-(1 / 2 * ss 0) + S) - f u) + exp (M / 2) / u * (∑ j ∈ Finset.range (m + 1), combCoef m j * cum (n + j) - S) := by ring
  show |exp (M / 2) / u * (-(1 / 2 * ss 0) + ∑ j ∈ Finset.range (m + 1), combCoef m j * cum (n + j)) - f u| ≤ _
  rw [hsplit]
  refine (abs_add_le _ _).trans (add_le_add hal ?_)
  rw [abs_mul, abs_of_pos hEu]
  exact mul_le_mul_of_nonneg_left hE hEu.le

/-- The hypotheses of `inv_laplace_error` are met by the exponential law. -/
example {M u : ℝ} (hM : 0 < M) (hu : 0 < u) : ∃ (μ : Measure ℝ) (_ : IsProbabilityMeasure μ) (F : ℂ → ℂ), μ (Iio 0) = 0 ∧ (Continuous fun s => μ.real (Iic s)) ∧
    (∀ θ : ℂ, 0 < θ.re → F θ = (∫ x, Complex.exp (-θ * x) ∂μ) / θ) ∧ Summable fun k : ℕ => ‖F (((M : ℂ) - 2 * Complex.I * π * k) / (2 * u))‖ := by
  have hcdf : ∀ s, (expMeasure 1).real (Iic s) = if 0 ≤ s then 1 - exp (-s) else 0 := fun s => by
    have := isProbabilityMeasure_expMeasure one_pos
    have h := cdf_expMeasure_eq (r := 1) one_pos s
    rw [cdf_eq_real] at h
    rw [h]
    simp
  have hμ := isProbabilityMeasure_expMeasure one_pos
  have hneg : expMeasure 1 (Iio 0) = 0 := by
    have h := hcdf 0
    rw [if_pos le_rfl, neg_zero, exp_zero, sub_self] at h
    have h0 : expMeasure 1 (Iic 0) = 0 := by
      rwa [measureReal_eq_zero_iff] at h
    exact measure_mono_null Iio_subset_Iic_self h0
  refine ⟨expMeasure 1, hμ, fun θ => (∫ x, Complex.exp (-θ * x) ∂(expMeasure 1)) / θ, hneg, ?_, fun θ _ => rfl, ?_⟩
  · simp only [hcdf]
    refine Continuous.if_le (by fun_prop) continuous_const continuous_const continuous_id fun s hs => ?_
    rw [← hs]; simp
  · have hval : ∀ θ : ℂ, 0 < θ.re → (∫ x, Complex.exp (-θ * x) ∂(expMeasure 1)) / θ = 1 / (θ * (1 + θ)) := fun θ hθ => by
      rw [← LaplaceInv.cdf_laplace _ hneg hθ]
      unfold Spec.laplace
      have e : ∀ s ∈ Ioi (0:ℝ), Complex.exp (-θ * s) * (((expMeasure 1).real (Iic s) : ℝ) : ℂ) = Complex.exp (-θ * s) - Complex.exp (-(1 + θ) * s) := fun s hs => by
        have hs : 0 < s := hs
        rw [hcdf, if_pos hs.le]
        push_cast
        rw [mul_sub, mul_one, ← Complex.exp_add]
        congr 2
        ring
      rw [setIntegral_congr_fun measurableSet_Ioi e, integral_sub (integrableOn_exp_mul_complex_Ioi (by simpa using hθ) 0) (integrableOn_exp_mul_complex_Ioi (by simp; linarith) 0),
        integral_exp_mul_complex_Ioi (by simpa using hθ), integral_exp_mul_complex_Ioi (by simp; linarith)]
      have h1 : θ ≠ 0 := fun h => by rw [h] at hθ; simp at hθ
      have h2 : 1 + θ ≠ 0 := fun h => by
        have := congrArg Complex.re h
        simp at this; linarith
      simp only [Complex.ofReal_zero, mul_zero, Complex.exp_zero]
      field_simp
      ring
    have hpos : ∀ k : ℕ, (((M : ℂ) - 2 * Complex.I * π * k) / (2 * u)).re = M / (2 * u) := fun k => by
      rw [show (2 * u : ℂ) = ((2 * u : ℝ) : ℂ) by push_cast; ring, Complex.div_ofReal_re]
      simp
    have him : ∀ k : ℕ, (((M : ℂ) - 2 * Complex.I * π * k) / (2 * u)).im = -(π * k / u) := fun k => by
      rw [show (2 * u : ℂ) = ((2 * u : ℝ) : ℂ) by push_cast; ring, Complex.div_ofReal_im]
      simp
      field_simp
    have hp : 0 < M / (2 * u) := by positivity
    rw [← summable_nat_add_iff 1]
    have hs : Summable fun k : ℕ => (u / π) ^ 2 * (1 / ((k + 1 : ℕ) : ℝ) ^ 2) := ((summable_nat_add_iff 1).2 (Real.summable_one_div_nat_pow.2 (by norm_num : 1 < 2))).mul_left _
    refine Summable.of_nonneg_of_le (fun _ => norm_nonneg _) (fun k => ?_) hs
    have hv := hval (((M : ℂ) - 2 * Complex.I * π * ((k + 1 : ℕ) : ℂ)) / (2 * u)) (by rw [hpos (k + 1)]; exact hp)
    refine (congrArg norm hv).trans_le ?_
    generalize hθ : (((M : ℂ) - 2 * Complex.I * π * ((k + 1 : ℕ) : ℂ)) / (2 * u)) = θ
    have h1 : |θ.im| = π * ((k + 1 : ℕ) : ℝ) / u := by rw [← hθ, him, abs_neg, abs_of_nonneg (by positivity)]
    have h2 : π * ((k + 1 : ℕ) : ℝ) / u ≤ ‖θ‖ := h1 ▸ Complex.abs_im_le_norm θ
    have h3 : π * ((k + 1 : ℕ) : ℝ) / u ≤ ‖1 + θ‖ := by
      have := Complex.abs_im_le_norm (1 + θ)
      rwa [Complex.add_im, Complex.one_im, zero_add, h1] at this
    have h4 : 0 < π * ((k + 1 : ℕ) : ℝ) / u := by positivity
    rw [norm_div, norm_one, norm_mul]
    refine (one_div_le_one_div_of_le (by positivity) (mul_le_mul h2 h3 h4.le (norm_nonneg _))).trans_eq ?_
    field_simp

/-! ### The transform -/

lemma zz_ge {σ v θ : ℝ} (hσ : 0 < σ) (hθ : 0 ≤ θ) : 1 ≤ 0.5 * σ + (0.5 + θ * v ^ 2) / σ := by
  have h : 0.5 * σ + (0.5 + θ * v ^ 2) / σ - 1 = (σ - 1) ^ 2 / (2 * σ) + θ * v ^ 2 / σ := by
    field_simp
    ring
  have : 0 ≤ (σ - 1) ^ 2 / (2 * σ) + θ * v ^ 2 / σ := by positivity
  linarith

/-- **C125.** `cond_invavgvar_mgf(-θ)` at real `θ ≥ 0`: the real number `exp((x² - φ²)/(2 vovn²))` with `x = log sigma_t` and `cosh φ = cosh x + θ vovn² exp(-x)`. -/
theorem cond_invavgvar_mgf_real {σ v θ : ℝ} (hσ : 0 < σ) (hθ : 0 ≤ θ) :
    condInvavgvarMgf (-θ) v σ = ((exp ((log σ ^ 2 - arcosh (cosh (log σ) + θ * v ^ 2 * exp (-log σ)) ^ 2) / (2 * v ^ 2)) : ℝ) : ℂ) := by
  have hz := zz_ge (v := v) hσ hθ
  have hzz : cosh (log σ) + θ * v ^ 2 * exp (-log σ) = 0.5 * σ + (0.5 + θ * v ^ 2) / σ := by
    rw [cosh_eq, exp_neg, exp_log hσ]
    norm_num
    field_simp
    ring
  rw [hzz]
  obtain ⟨z, hzd⟩ : ∃ z, z = 0.5 * σ + (0.5 + θ * v ^ 2) / σ := ⟨_, rfl⟩
  rw [← hzd] at hz ⊢
  have e1 : (0.5 * (σ : ℂ) + (0.5 + - -(θ : ℂ) * (v : ℂ) ^ 2) / σ) = (z : ℂ) := by
    rw [hzd, neg_neg]; push_cast; ring
  have hz2 : 0 ≤ z ^ 2 - 1 := by nlinarith
  have e2 : ((z : ℂ) ^ 2 - 1) ^ (1 / 2 : ℂ) = ((√(z ^ 2 - 1) : ℝ) : ℂ) := by
    rw [sqrt_eq_rpow, Complex.ofReal_cpow hz2]; push_cast; rfl
  unfold condInvavgvarMgf arcosh
  simp only [e1, e2]
  rw [← Complex.ofReal_add, ← Complex.ofReal_log (by positivity)]
  push_cast
  rfl

/-- **C125.** The transform of the inverse average variance has the properties of one: it is one at zero, strictly decreasing in `θ` and strictly between zero and one. -/
theorem cond_invavgvar_mgf_props {σ v : ℝ} (hσ : 0 < σ) (hv : 0 < v) :
    condInvavgvarMgf 0 v σ = 1 ∧ (∀ θ₁ θ₂ : ℝ, 0 ≤ θ₁ → θ₁ < θ₂ → (condInvavgvarMgf (-θ₂) v σ).re < (condInvavgvarMgf (-θ₁) v σ).re) ∧
      ∀ θ : ℝ, 0 < θ → 0 < (condInvavgvarMgf (-θ) v σ).re ∧ (condInvavgvarMgf (-θ) v σ).re < 1 := by
  have h0 : condInvavgvarMgf 0 v σ = 1 := by
    have := cond_invavgvar_mgf_real (v := v) hσ le_rfl
    rw [Complex.ofReal_zero, neg_zero, zero_mul, zero_mul, add_zero] at this
    rw [this, ← cosh_abs, arcosh_cosh (abs_nonneg _), sq_abs, sub_self, zero_div, exp_zero, Complex.ofReal_one]
  have hmono : ∀ θ₁ θ₂ : ℝ, 0 ≤ θ₁ → θ₁ < θ₂ → (condInvavgvarMgf (-θ₂) v σ).re < (condInvavgvarMgf (-θ₁) v σ).re := fun θ₁ θ₂ h1 h2 => by
    rw [cond_invavgvar_mgf_real hσ h1, cond_invavgvar_mgf_real hσ (h1.trans h2.le), Complex.ofReal_re, Complex.ofReal_re]
    have hlt : cosh (log σ) + θ₁ * v ^ 2 * exp (-log σ) < cosh (log σ) + θ₂ * v ^ 2 * exp (-log σ) := by
      have : 0 < (θ₂ - θ₁) * v ^ 2 * exp (-log σ) := mul_pos (mul_pos (sub_pos.2 h2) (by positivity)) (exp_pos _)
      linarith
    have hge : 1 ≤ cosh (log σ) + θ₁ * v ^ 2 * exp (-log σ) := by
      have := one_le_cosh (log σ)
      have : 0 ≤ θ₁ * v ^ 2 * exp (-log σ) := by positivity
      linarith
    have ha := (arcosh_lt_arcosh (by linarith) (by linarith)).2 hlt
    have hb := arcosh_nonneg hge
    refine exp_lt_exp.2 (div_lt_div_of_pos_right ?_ (by positivity))
    nlinarith
  refine ⟨h0, hmono, fun θ hθ => ⟨?_, ?_⟩⟩
  · rw [cond_invavgvar_mgf_real hσ hθ.le, Complex.ofReal_re]; exact exp_pos _
  · have := hmono 0 θ le_rfl hθ
    rwa [Complex.ofReal_zero, neg_zero, h0, Complex.one_re] at this

/-- The Gaussian density of the normalised log volatility times the transform at `s` of the reciprocal of the (unnormalised) integrated variance, as computed by `cond_invavgvar_mgf`. -/
noncomputable def Spec.jointKernel (t x s : ℝ) : ℝ := (√(2 * π * t))⁻¹ * exp (-(x ^ 2 / (2 * t))) * (condInvavgvarMgf (-((s / t : ℝ) : ℂ)) (√t) (exp x)).re

lemma jointKernel_eq {t : ℝ} (ht : 0 < t) (x : ℝ) {s : ℝ} (hs : 0 ≤ s) :
    Spec.jointKernel t x s = (√(2 * π * t))⁻¹ * exp (-(arcosh (cosh x + s * exp (-x)) ^ 2 / (2 * t))) := by
  unfold Spec.jointKernel
  rw [cond_invavgvar_mgf_real (exp_pos x) (by positivity), Complex.ofReal_re, log_exp, sq_sqrt ht.le, mul_assoc, ← exp_add, div_mul_cancel₀ _ ht.ne']
  congr 2
  ring

lemma hasDerivAt_phi_s {x s : ℝ} (hs : 0 < s) : HasDerivAt (fun s => arcosh (cosh x + s * exp (-x))) (exp (-x) / √((cosh x + s * exp (-x)) ^ 2 - 1)) s := by
  have hz : 1 < cosh x + s * exp (-x) := by
    have := one_le_cosh x
    have : 0 < s * exp (-x) := by positivity
    linarith
  have h := (hasDerivAt_arcosh hz).comp s (((hasDerivAt_id' s).mul_const (exp (-x))).const_add (cosh x))
  refine h.congr_deriv ?_
  rw [one_mul, inv_mul_eq_div]

lemma hasDerivAt_z_x (x s : ℝ) : HasDerivAt (fun x => cosh x + s * exp (-x)) (sinh x - s * exp (-x)) x := by
  refine ((hasDerivAt_cosh x).add (((hasDerivAt_id' x).fun_neg.exp).const_mul s)).congr_deriv ?_
  ring

lemma hasDerivAt_phi_x (x : ℝ) {s : ℝ} (hs : 0 < s) : HasDerivAt (fun x => arcosh (cosh x + s * exp (-x))) ((sinh x - s * exp (-x)) / √((cosh x + s * exp (-x)) ^ 2 - 1)) x := by
  have hz : 1 < cosh x + s * exp (-x) := by
    have := one_le_cosh x
    have : 0 < s * exp (-x) := by positivity
    linarith
  have h := (hasDerivAt_arcosh hz).comp x (hasDerivAt_z_x x s)
  refine h.congr_deriv ?_
  rw [inv_mul_eq_div]

lemma hasDerivAt_w {z : ℝ → ℝ} {z' y : ℝ} (hz : HasDerivAt z z' y) (h1 : 1 < z y) : HasDerivAt (fun y => √(z y ^ 2 - 1)) (z y * z' / √(z y ^ 2 - 1)) y := by
  have h := ((hz.fun_pow 2).sub_const 1).sqrt (by nlinarith)
  refine h.congr_deriv ?_
  push_cast
  field_simp

lemma z_gt (x : ℝ) {s : ℝ} (hs : 0 < s) : 1 < cosh x + s * exp (-x) := by
  have := one_le_cosh x
  have : 0 < s * exp (-x) := by positivity
  linarith

/-- **C125.** The kernel `N(x; 0, t) E[exp(-s/A_t) | B_t = x]` computed by the code satisfies the forward equation `∂_t k = ½ ∂_xx k + e^{2x} s ∂_ss k` of the pair (Brownian motion, integrated exponential variance)
(`∂_ss exp(-s/a) = a⁻² exp(-s/a)`), and it has the right boundary values: the Gaussian density at `s = 0`, and no mass at positive `s` as `t → 0`. -/
theorem joint_kernel_pde {t x s : ℝ} (ht : 0 < t) (hs : 0 < s) :
    (∃ kx ks : ℝ → ℝ, ∃ kt kxx kss : ℝ, HasDerivAt (fun t => Spec.jointKernel t x s) kt t ∧ (∀ x, HasDerivAt (fun x => Spec.jointKernel t x s) (kx x) x) ∧ HasDerivAt kx kxx x ∧
      (∀ s > 0, HasDerivAt (fun s => Spec.jointKernel t x s) (ks s) s) ∧ HasDerivAt ks kss s ∧ kt = 1 / 2 * kxx + exp x ^ 2 * s * kss) ∧
    Spec.jointKernel t x 0 = (√(2 * π * t))⁻¹ * exp (-(x ^ 2 / (2 * t))) ∧
    Tendsto (fun t => Spec.jointKernel t x s) (𝓝[>] 0) (𝓝 0) := by
  refine ⟨?_, ?_, ?_⟩
  · obtain ⟨c, hc⟩ : ∃ c, c = (√(2 * π * t))⁻¹ := ⟨_, rfl⟩
    set φ : ℝ → ℝ → ℝ := fun x s => arcosh (cosh x + s * exp (-x)) with hφ
    set w : ℝ → ℝ → ℝ := fun x s => √((cosh x + s * exp (-x)) ^ 2 - 1) with hw
    have hw0 : ∀ x, ∀ s > 0, 0 < w x s := fun x s hs => sqrt_pos.2 (by nlinarith [z_gt x hs])
    have hw2 : ∀ x, ∀ s > 0, w x s ^ 2 = (cosh x + s * exp (-x)) ^ 2 - 1 := fun x s hs => sq_sqrt (by nlinarith [z_gt x hs])
    have hk : ∀ x, ∀ s > 0, Spec.jointKernel t x s = c * exp (-(φ x s ^ 2 / (2 * t))) := fun x s hs => by rw [jointKernel_eq ht x hs.le, hc]
    set kx : ℝ → ℝ := fun x => c * (exp (-(φ x s ^ 2 / (2 * t))) * (-(φ x s * ((sinh x - s * exp (-x)) / w x s) / t))) with hkx
    set ks : ℝ → ℝ := fun s => c * (exp (-(φ x s ^ 2 / (2 * t))) * (-(φ x s * (exp (-x) / w x s) / t))) with hks
    -- spatial derivatives of the exponential
    have hEx : ∀ x, HasDerivAt (fun x => exp (-(φ x s ^ 2 / (2 * t)))) (exp (-(φ x s ^ 2 / (2 * t))) * (-(φ x s * ((sinh x - s * exp (-x)) / w x s) / t))) x := fun x => by
      refine ((((hasDerivAt_phi_x x hs).fun_pow 2).div_const (2 * t)).fun_neg.exp).congr_deriv ?_
      simp only [hφ, hw]
      push_cast
      field_simp
    have hEs : ∀ s > 0, HasDerivAt (fun s => exp (-(φ x s ^ 2 / (2 * t)))) (exp (-(φ x s ^ 2 / (2 * t))) * (-(φ x s * (exp (-x) / w x s) / t))) s := fun s hs => by
      refine ((((hasDerivAt_phi_s hs).fun_pow 2).div_const (2 * t)).fun_neg.exp).congr_deriv ?_
      simp only [hφ, hw]
      push_cast
      field_simp
    have hwx : HasDerivAt (fun x => w x s) ((cosh x + s * exp (-x)) * (sinh x - s * exp (-x)) / w x s) x := hasDerivAt_w (hasDerivAt_z_x x s) (z_gt x hs)
    have hzs : HasDerivAt (fun s => cosh x + s * exp (-x)) (exp (-x)) s := by
      refine (((hasDerivAt_id' s).mul_const (exp (-x))).const_add (cosh x)).congr_deriv (by ring)
    have hws : HasDerivAt (fun s => w x s) ((cosh x + s * exp (-x)) * exp (-x) / w x s) s := hasDerivAt_w hzs (z_gt x hs)
    have hnum : HasDerivAt (fun x => sinh x - s * exp (-x)) (cosh x + s * exp (-x)) x := by
      refine ((hasDerivAt_sinh x).sub (((hasDerivAt_id' x).fun_neg.exp).const_mul s)).congr_deriv ?_
      ring
    have hW : 0 < w x s := hw0 x s hs
    have hW2 := hw2 x s hs
    have hxx := (((hEx x).fun_mul (((hasDerivAt_phi_x x hs).fun_mul (hnum.fun_div hwx hW.ne')).div_const t).fun_neg).const_mul c)
    have hss := (((hEs s hs).fun_mul (((hasDerivAt_phi_s (x := x) hs).fun_mul ((hasDerivAt_const s (exp (-x))).fun_div hws hW.ne')).div_const t).fun_neg).const_mul c)
    have hct : HasDerivAt (fun t => (√(2 * π * t))⁻¹) (-(c / (2 * t))) t := by
      have hp : 0 < 2 * π * t := by positivity
      have h := (((hasDerivAt_id' t).const_mul (2 * π)).sqrt hp.ne').fun_inv (sqrt_pos.2 hp).ne'
      refine h.congr_deriv ?_
      rw [hc, mul_one]
      have h2 : √(2 * π * t) ^ 2 = 2 * π * t := sq_sqrt hp.le
      have h3 : √(2 * π * t) ≠ 0 := (sqrt_pos.2 hp).ne'
      rw [h2]
      field_simp
    have hEt : HasDerivAt (fun t => exp (-(φ x s ^ 2 / (2 * t)))) (exp (-(φ x s ^ 2 / (2 * t))) * (φ x s ^ 2 / (2 * t ^ 2))) t := by
      have h := ((hasDerivAt_const t (φ x s ^ 2)).fun_div ((hasDerivAt_id' t).const_mul 2) (by positivity)).fun_neg.exp
      refine h.congr_deriv ?_
      congr 1
      field_simp
      ring
    have htt := hct.fun_mul hEt
    refine ⟨kx, ks, _, _, _, htt.congr_of_eventuallyEq ?_, fun y => ?_, hxx, fun s' hs' => ?_, hss, ?_⟩
    · filter_upwards [lt_mem_nhds ht] with τ hτ
      rw [jointKernel_eq hτ x hs.le]
    · have : (fun x => Spec.jointKernel t x s) = fun x => c * exp (-(φ x s ^ 2 / (2 * t))) := funext fun x => hk x s hs
      rw [this]
      exact (hEx y).const_mul c
    · refine ((hEs s' hs').const_mul c).congr_of_eventuallyEq ?_
      filter_upwards [lt_mem_nhds hs'] with s'' h''
      exact hk x s'' h''
    · simp only [← hc]
      generalize exp (-(φ x s ^ 2 / (2 * t))) = E
      have hp : arcosh (cosh x + s * exp (-x)) = φ x s := rfl
      have hww : √((cosh x + s * exp (-x)) ^ 2 - 1) = w x s := rfl
      rw [hp, hww]
      generalize φ x s = p
      have hcs := cosh_sq x
      have hce : exp (-x) = cosh x - sinh x := by rw [cosh_eq, sinh_eq]; ring
      have hce' : exp x = cosh x + sinh x := by rw [cosh_eq, sinh_eq]; ring
      have hN : (sinh x - s * exp (-x)) ^ 2 + 2 * s = w x s ^ 2 := by
        have h1 : exp (-x) * exp x = 1 := by rw [← exp_add]; simp
        rw [hce, hce'] at h1
        rw [hW2, hce]
        linear_combination (-2 * s - 1) * h1
      have he : exp (-x) = (exp x)⁻¹ := exp_neg x
      have hs' : s = (w x s ^ 2 - (sinh x - s * exp (-x)) ^ 2) / 2 := by linarith
      have hX : exp x ≠ 0 := (exp_pos x).ne'
      generalize cosh x + s * exp (-x) = Z at *
      generalize sinh x - s * exp (-x) = N at *
      rw [he]
      have hW' : w x s ≠ 0 := hW.ne'
      generalize w x s = W at *
      generalize exp x = X at *
      clear hce hce' hcs hkx hks hEx hEs hwx hws hxx hss htt hEt hct
      field_simp
      rw [hs']
      field_simp
      ring
  · have := jointKernel_eq ht x (le_refl (0:ℝ))
    rw [this, zero_mul, add_zero, ← cosh_abs, arcosh_cosh (abs_nonneg _), sq_abs]
  · obtain ⟨p, hp⟩ : ∃ p, p = arcosh (cosh x + s * exp (-x)) := ⟨_, rfl⟩
    have hp0 : 0 < p := by rw [hp]; exact arcosh_pos (z_gt x hs)
    have hub : Tendsto (fun t : ℝ => 2 / p ^ 2 * √t) (𝓝[>] 0) (𝓝 0) := by
      have h : Continuous fun t : ℝ => 2 / p ^ 2 * √t := by fun_prop
      have h2 := h.continuousAt.tendsto (x := (0:ℝ))
      rw [sqrt_zero, mul_zero] at h2
      exact h2.mono_left nhdsWithin_le_nhds
    refine tendsto_of_tendsto_of_tendsto_of_le_of_le' tendsto_const_nhds hub ?_ ?_
    · filter_upwards [self_mem_nhdsWithin] with t ht
      have ht : 0 < t := ht
      rw [jointKernel_eq ht x hs.le]; positivity
    · filter_upwards [self_mem_nhdsWithin] with t ht
      have ht : 0 < t := ht
      rw [jointKernel_eq ht x hs.le, ← hp]
      have h1 : exp (-(p ^ 2 / (2 * t))) ≤ 2 * t / p ^ 2 := by
        have h2 : p ^ 2 / (2 * t) ≤ exp (p ^ 2 / (2 * t)) := by linarith [add_one_le_exp (p ^ 2 / (2 * t))]
        rw [exp_neg]
        refine (inv_anti₀ (by positivity) h2).trans_eq ?_
        rw [inv_div]
      have h3 : (√(2 * π * t))⁻¹ ≤ (√t)⁻¹ := inv_anti₀ (sqrt_pos.2 ht) (sqrt_le_sqrt (by nlinarith [two_le_pi, mul_le_mul_of_nonneg_right two_le_pi ht.le]))
      calc _ ≤ (√t)⁻¹ * (2 * t / p ^ 2) := mul_le_mul h3 h1 (exp_pos _).le (by positivity)
        _ = 2 / p ^ 2 * √t := by
          have : √t ≠ 0 := (sqrt_pos.2 ht).ne'
          have h4 : √t * √t = t := mul_self_sqrt ht.le
          field_simp
          rw [sq, h4]

/-! ### Inverse-transform draw -/

/-- The probability that an inverse-transform draw from an approximate distribution function stays below a level. -/
lemma inverse_draw {G : ℝ → ℝ} (hG : StrictMonoOn G (Ioi 0)) (hG01 : ∀ x > 0, 0 ≤ G x ∧ G x ≤ 1) {err : ℝ} (he : 0 ≤ err) (sol : ℝ → ℝ) (hm : Measurable sol)
    (hsol : ∀ u ∈ Ioo (0:ℝ) 1, 0 < sol u ∧ |G (sol u) - u| ≤ err) {x : ℝ} (hx : 0 < x) :
    |(∫ u in Ioo (0:ℝ) 1, if sol u ≤ x then (1:ℝ) else 0) - G x| ≤ err := by
  set A : Set ℝ := {u | sol u ≤ x} with hAdef
  have hAm : MeasurableSet A := measurableSet_le hm measurable_const
  have hsub1 : Ioo 0 (G x - err) ⊆ A ∩ Ioo 0 1 := fun u hu => by
    have hu1 : u < 1 := by linarith [hu.2, (hG01 x hx).2]
    refine ⟨?_, hu.1, hu1⟩
    obtain ⟨h1, h2⟩ := hsol u ⟨hu.1, hu1⟩
    show sol u ≤ x
    by_contra hc
    have := hG hx h1 (not_le.1 hc)
    rw [abs_le] at h2
    linarith [hu.2, h2.2]
  have hsub2 : A ∩ Ioo 0 1 ⊆ Ioc 0 (G x + err) := fun u hu => by
    refine ⟨hu.2.1, ?_⟩
    obtain ⟨h1, h2⟩ := hsol u hu.2
    have : G (sol u) ≤ G x := hG.monotoneOn h1 hx hu.1
    rw [abs_le] at h2
    linarith [h2.1]
  have hval : (∫ u in Ioo (0:ℝ) 1, if sol u ≤ x then (1:ℝ) else 0) = (volume (A ∩ Ioo 0 1)).toReal := by
    have : (fun u => if sol u ≤ x then (1:ℝ) else 0) = A.indicator 1 := by
      funext u
      simp only [indicator_apply, hAdef, mem_ofPred_eq, Pi.one_apply]
    rw [this, integral_indicator_one hAm, measureReal_restrict_apply hAm]
    rfl
  have hfin : volume (A ∩ Ioo 0 1) ≠ ⊤ := ((measure_mono hsub2).trans_lt (by rw [Real.volume_Ioc]; exact ENNReal.ofReal_lt_top)).ne
  have hu1 : (volume (A ∩ Ioo 0 1)).toReal ≤ G x + err :=
    ENNReal.toReal_le_of_le_ofReal (by linarith [(hG01 x hx).1]) ((measure_mono hsub2).trans (by rw [Real.volume_Ioc, sub_zero]))
  have hl1 : G x - err ≤ (volume (A ∩ Ioo 0 1)).toReal := by
    have h1 := ENNReal.toReal_mono hfin (measure_mono hsub1)
    rw [Real.volume_Ioo, sub_zero] at h1
    exact (le_max_left _ 0).trans (by rwa [ENNReal.toReal_ofReal'] at h1)
  rw [hval, abs_le]
  constructor <;> linarith

/-- **C125.** `draw_cond_avgvar`: if the numerically inverted distribution function `F` is within `δ` of the true conditional distribution function `G` of the inverse average variance (C125, inversion bound) and the root
finder leaves a residual of at most `tol`, the drawn average variance `a` satisfies `|P(1/a ≤ x) - G(x)| ≤ tol + δ` at every level. -/
theorem draw_cond_avgvar_law (m : Sabr) (solve : (ℝ → ℝ) → ℝ → ℝ) (F : ℝ → ℝ → ℝ → ℝ) {dt σt δ tol : ℝ} {G : ℝ → ℝ} (hG : StrictMonoOn G (Ioi 0)) (hG01 : ∀ x > 0, 0 ≤ G x ∧ G x ≤ 1)
    (hδ : ∀ x > 0, |F x (m.vov * √dt) σt - G x| ≤ δ) (hm : Measurable (solve fun x => F x (m.vov * √dt) σt))
    (hsol : ∀ u ∈ Ioo (0:ℝ) 1, 0 < solve (fun x => F x (m.vov * √dt) σt) u ∧ |F (solve (fun x => F x (m.vov * √dt) σt) u) (m.vov * √dt) σt - u| ≤ tol) {x : ℝ} (hx : 0 < x) :
    |drawCondAvgvar rngEx solve F m dt σt (fun a => if 1 / a ≤ x then 1 else 0) - G x| ≤ tol + δ := by
  show |(∫ u in Ioo (0:ℝ) 1, if 1 / (1 / solve (fun x => F x (m.vov * √dt) σt) u) ≤ x then (1:ℝ) else 0) - G x| ≤ _
  simp only [one_div_one_div]
  have h0 : 0 ≤ tol + δ := add_nonneg ((abs_nonneg _).trans (hsol (1 / 2) ⟨by norm_num, by norm_num⟩).2) ((abs_nonneg _).trans (hδ 1 one_pos))
  refine inverse_draw hG hG01 h0 _ hm (fun u hu => ?_) hx
  obtain ⟨h1, h2⟩ := hsol u hu
  refine ⟨h1, ?_⟩
  have h3 := hδ _ h1
  rw [abs_le] at *
  constructor <;> linarith [h2.1, h2.2, h3.1, h3.2]

/-- **C125.** `cond_states_step`: the joint draw of the volatility and the average variance: for every event of the volatility ratio and every level of the scaled inverse average variance the joint probability is
within `tol + δ` of the exact one (lognormal ratio, conditional law `G r` of the inverse normalised average variance given the ratio `r`). -/
theorem step_cai_law (m : Sabr) (solve : (ℝ → ℝ) → ℝ → ℝ) (F : ℝ → ℝ → ℝ → ℝ) {dt σ0 δ tol : ℝ} (hσ : 0 < σ0) {G : ℝ → ℝ → ℝ} (hG : ∀ r > 0, StrictMonoOn (G r) (Ioi 0))
    (hG01 : ∀ r > 0, ∀ x > 0, 0 ≤ G r x ∧ G r x ≤ 1) (hGm : ∀ x, Measurable fun r => G r x)
    (hδ : ∀ r > 0, ∀ x > 0, |F x (m.vov * √dt) r - G r x| ≤ δ) (hm : Measurable fun p : ℝ × ℝ => solve (fun x => F x (m.vov * √dt) p.1) p.2)
    (hsol : ∀ r > 0, ∀ u ∈ Ioo (0:ℝ) 1, 0 < solve (fun x => F x (m.vov * √dt) r) u ∧ |F (solve (fun x => F x (m.vov * √dt) r) u) (m.vov * √dt) r - u| ≤ tol)
    {φ : ℝ → ℝ} (hφm : Measurable φ) (hφ : ∀ s, 0 ≤ φ s ∧ φ s ≤ 1) {x : ℝ} (hx : 0 < x) :
    |stepCai rngEx solve F m dt σ0 (fun p => φ p.1 * if σ0 ^ 2 / p.2 ≤ x then 1 else 0)
      - Spec.gaussE fun z => φ (exp (m.vov * √dt * z - (m.vov * √dt) ^ 2 / 2) * σ0) * G (exp (m.vov * √dt * z - (m.vov * √dt) ^ 2 / 2)) x| ≤ tol + δ := by
  set r : ℝ → ℝ := fun z => exp (m.vov * √dt * z - (m.vov * √dt) ^ 2 / 2) with hr
  have hrm : Measurable r := by rw [hr]; fun_prop
  have hr0 : ∀ z, 0 < r z := fun z => exp_pos _
  set q : ℝ → ℝ := fun ρ => ∫ u in Ioo (0:ℝ) 1, if solve (fun x => F x (m.vov * √dt) ρ) u ≤ x then (1:ℝ) else 0 with hq
  have hval : stepCai rngEx solve F m dt σ0 (fun p => φ p.1 * if σ0 ^ 2 / p.2 ≤ x then 1 else 0) = Spec.gaussE fun z => φ (r z * σ0) * q (r z) := by
    show (Spec.gaussE fun z => ∫ u in Ioo (0:ℝ) 1, φ (exp (m.vov * √dt * (z - m.vov * √dt / 2)) * σ0) *
      (if σ0 ^ 2 / (σ0 ^ 2 * (1 / solve (fun x => F x (m.vov * √dt) (exp (m.vov * √dt * (z - m.vov * √dt / 2)))) u)) ≤ x then (1:ℝ) else 0)) = _
    have e1 : ∀ z, exp (m.vov * √dt * (z - m.vov * √dt / 2)) = r z := fun z => by rw [hr]; congr 1; ring
    have e2 : ∀ y : ℝ, σ0 ^ 2 / (σ0 ^ 2 * (1 / y)) = y := fun y => by
      rw [← div_div, div_self (pow_pos hσ 2).ne', one_div_one_div]
    simp only [e1, e2, integral_const_mul]
    rfl
  have hqm : Measurable q := by
    have h1 : Measurable fun p : ℝ × ℝ => if solve (fun x => F x (m.vov * √dt) p.1) p.2 ≤ x then (1:ℝ) else 0 := Measurable.ite (measurableSet_le hm measurable_const) measurable_const measurable_const
    exact (h1.stronglyMeasurable.integral_prod_right (ν := volume.restrict (Ioo (0:ℝ) 1))).measurable
  have hq1 : ∀ ρ > 0, |q ρ - G ρ x| ≤ tol + δ := fun ρ hρ => by
    have h := draw_cond_avgvar_law m solve F (hG ρ hρ) (hG01 ρ hρ) (hδ ρ hρ) (hm.comp (measurable_const.prodMk measurable_id)) (hsol ρ hρ) hx
    have e : drawCondAvgvar rngEx solve F m dt ρ (fun a => if 1 / a ≤ x then 1 else 0) = q ρ := by
      show (∫ u in Ioo (0:ℝ) 1, if 1 / (1 / solve (fun x => F x (m.vov * √dt) ρ) u) ≤ x then (1:ℝ) else 0) = _
      simp only [one_div_one_div]
      rfl
    rwa [e] at h
  rw [hval]
  have hc0 : 0 ≤ tol + δ := (abs_nonneg _).trans (hq1 1 one_pos)
  have hi1 : Integrable (fun z => φ (r z * σ0) * q (r z)) (gaussianReal 0 1) := by
    refine Integrable.of_bound (C := 1 + (tol + δ)) ((hφm.comp (hrm.mul_const σ0)).mul (hqm.comp hrm)).aestronglyMeasurable (ae_of_all _ fun z => ?_)
    have h1 := hq1 _ (hr0 z)
    have h2 := hG01 _ (hr0 z) x hx
    rw [norm_mul, norm_of_nonneg (hφ _).1]
    have h3 : ‖q (r z)‖ ≤ 1 + (tol + δ) := by
      rw [Real.norm_eq_abs, abs_le]
      rw [abs_le] at h1
      constructor <;> linarith [h1.1, h1.2, h2.1, h2.2]
    exact (mul_le_of_le_one_left (norm_nonneg _) (hφ _).2).trans h3
  have hi2 : Integrable (fun z => φ (r z * σ0) * G (r z) x) (gaussianReal 0 1) := by
    refine Integrable.of_bound (C := 1) ((hφm.comp (hrm.mul_const σ0)).mul ((hGm x).comp hrm)).aestronglyMeasurable (ae_of_all _ fun z => ?_)
    have h2 := hG01 _ (hr0 z) x hx
    rw [norm_mul, norm_of_nonneg (hφ _).1, norm_of_nonneg h2.1]
    exact mul_le_one₀ (hφ _).2 h2.1 h2.2
  unfold Spec.gaussE
  rw [← integral_sub hi1 hi2, ← Real.norm_eq_abs]
  refine (norm_integral_le_of_norm_le_const (C := tol + δ) (ae_of_all _ fun z => ?_)).trans_eq (by simp)
  rw [← mul_sub, norm_mul, norm_of_nonneg (hφ _).1, Real.norm_eq_abs]
  exact (mul_le_of_le_one_left (abs_nonneg _) (hφ _).2).trans (hq1 _ (hr0 z))

/-- The hypotheses of `draw_cond_avgvar_law` and `step_cai_law` are met, for instance by the exponential distribution function and its exact inverse (no residual, no error). -/
example : ∃ (solve : (ℝ → ℝ) → ℝ → ℝ) (F : ℝ → ℝ → ℝ → ℝ) (G : ℝ → ℝ → ℝ), (∀ r > 0, StrictMonoOn (G r) (Ioi 0)) ∧ (∀ r > 0, ∀ x > 0, 0 ≤ G r x ∧ G r x ≤ 1) ∧
    (∀ x, Measurable fun r => G r x) ∧ (∀ v, ∀ r > 0, ∀ x > 0, |F x v r - G r x| ≤ 0) ∧ (∀ v, Measurable fun p : ℝ × ℝ => solve (fun x => F x v p.1) p.2) ∧
    ∀ v, ∀ r > 0, ∀ u ∈ Ioo (0:ℝ) 1, 0 < solve (fun x => F x v r) u ∧ |F (solve (fun x => F x v r) u) v r - u| ≤ 0 := by
  refine ⟨fun _ u => -log (1 - u), fun x _ _ => 1 - exp (-x), fun _ x => 1 - exp (-x), fun r _ a _ b _ hab => ?_, fun r _ x hx => ⟨?_, ?_⟩, fun x => measurable_const, fun v r _ x _ => by simp,
    fun v => by fun_prop, fun v r _ u hu => ⟨?_, ?_⟩⟩
  · have : exp (-b) < exp (-a) := exp_lt_exp.2 (by linarith)
    simp only; linarith
  · have : exp (-x) ≤ 1 := exp_le_one_iff.2 (by linarith)
    simp only; linarith
  · have := exp_pos (-x)
    simp only; linarith
  · have := log_neg (by linarith [hu.2] : 0 < 1 - u) (by linarith [hu.1])
    simp only; linarith
  · simp only [neg_neg]
    rw [exp_log (by linarith [hu.2])]
    simp

end Sabr

end PyFENG
