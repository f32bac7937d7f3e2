import Verif.Gauss
import Mathlib.Analysis.Fourier.PoissonSummation
import Mathlib.Analysis.SpecialFunctions.ImproperIntegrals
import Mathlib.MeasureTheory.Integral.Prod

/-!
# Laplace transforms of distribution functions and their numerical inversion
-/

namespace PyFENG

open Real MeasureTheory Filter Set Topology

/-- The Laplace transform. -/
noncomputable def Spec.laplace (f : ℝ → ℝ) (θ : ℂ) : ℂ := ∫ s in Ioi (0:ℝ), Complex.exp (-θ * s) * f s

namespace LaplaceInv

lemma laplace_conj (f : ℝ → ℝ) (θ : ℂ) : Spec.laplace f ((starRingEnd ℂ) θ) = (starRingEnd ℂ) (Spec.laplace f θ) := by
  unfold Spec.laplace
  rw [← integral_conj]
  refine integral_congr_ae (ae_of_all _ fun s => ?_)
  simp only [map_mul, Complex.conj_ofReal, ← Complex.exp_conj, map_neg]

/-- The function to which Poisson summation is applied. -/
noncomputable def g (f : ℝ → ℝ) (M u : ℝ) (y : ℝ) : ℂ := ((exp (-(M * y)) * f (2 * u * y) : ℝ) : ℂ)

lemma fourier_g {f : ℝ → ℝ} (h0 : ∀ s ≤ 0, f s = 0) {M u : ℝ} (hu : 0 < u) (n : ℤ) :
    FourierTransform.fourier (g f M u) (n : ℝ) = (1 / (2 * u) : ℂ) * Spec.laplace f (((M : ℂ) + 2 * Complex.I * π * n) / (2 * u)) := by
  rw [Real.fourier_real_eq_integral_exp_smul]
  have e1 : (∫ v : ℝ, Complex.exp (((-2 * π * v * n : ℝ) : ℂ) * Complex.I) • g f M u v)
      = ∫ v in Ioi (0:ℝ), (fun s : ℝ => Complex.exp (-(((M : ℂ) + 2 * Complex.I * π * n) / (2 * u)) * s) * f s) (2 * u * v) := by
    rw [← integral_indicator measurableSet_Ioi]
    congr 1
    funext v
    by_cases hv : 0 < v
    · rw [indicator_of_mem (show v ∈ Ioi 0 from hv)]
      unfold g
      have hu' : (u : ℂ) ≠ 0 := by exact_mod_cast hu.ne'
      simp only [smul_eq_mul, Complex.ofReal_mul, Complex.ofReal_exp, ← mul_assoc]
      rw [← Complex.exp_add]
      congr 2
      push_cast
      field_simp
      ring
    · rw [indicator_of_notMem (show v ∉ Ioi 0 from hv)]
      unfold g
      rw [h0 _ (by nlinarith [not_lt.1 hv])]
      simp
  refine Eq.trans ?_ (Eq.trans e1 ?_)
  · refine integral_congr_ae (ae_of_all _ fun v => ?_)
    simp
  · have := integral_comp_mul_left_Ioi (fun s : ℝ => Complex.exp (-(((M : ℂ) + 2 * Complex.I * π * n) / (2 * u)) * s) * f s) 0 (by positivity : 0 < 2 * u)
    rw [mul_zero] at this
    refine this.trans ?_
    unfold Spec.laplace
    rw [Complex.real_smul]
    push_cast
    rw [one_div]

lemma g_decay {f : ℝ → ℝ} (h0 : ∀ s ≤ 0, f s = 0) {C : ℝ} (hb : ∀ s, |f s| ≤ C) {M u : ℝ} (hM : 0 < M) (hu : 0 < u) :
    (g f M u) =O[cocompact ℝ] fun x : ℝ => |x| ^ (-2 : ℝ) := by
  rw [cocompact_eq_atBot_atTop, Asymptotics.isBigO_sup]
  constructor
  · refine (Asymptotics.isBigO_zero _ _).congr' ?_ (EventuallyEq.refl _ _)
    filter_upwards [eventually_le_atBot 0] with x hx
    unfold g
    rw [h0 _ (by nlinarith)]
    simp
  · have h1 : (g f M u) =O[atTop] fun x : ℝ => exp (-(M * x)) := by
      refine Asymptotics.IsBigO.of_bound C (Eventually.of_forall fun x => ?_)
      unfold g
      rw [Complex.norm_real, norm_mul, mul_comm]
      exact mul_le_mul_of_nonneg_right (hb _) (norm_nonneg _)
    have h2 : (fun x : ℝ => exp (-(M * x))) =O[atTop] fun x : ℝ => |x| ^ (-2 : ℝ) := by
      have := (isLittleO_exp_neg_mul_rpow_atTop hM (-2)).isBigO
      refine this.congr' ?_ ?_
      · exact Eventually.of_forall fun x => by simp only [neg_mul]
      · filter_upwards [eventually_ge_atTop 0] with x hx
        rw [abs_of_nonneg hx]
    exact h1.trans h2

/-- Poisson summation for the damped function: the alternating sums of the real parts of the transform on the vertical line converge, and their limit gives the function at `u` up to the damped values at odd multiples. -/
theorem euler_inversion {f : ℝ → ℝ} (hc : Continuous f) (h0 : ∀ s ≤ 0, f s = 0) {C : ℝ} (hb : ∀ s, |f s| ≤ C) {M u : ℝ} (hM : 0 < M) (hu : 0 < u)
    (hs : Summable fun n : ℤ => Spec.laplace f (((M : ℂ) + 2 * Complex.I * π * n) / (2 * u))) :
    ∃ S, HasSum (fun k : ℕ => (-1 : ℝ) ^ k * (Spec.laplace f (((M : ℂ) - 2 * Complex.I * π * k) / (2 * u))).re) S ∧
      HasSum (fun j : ℕ => exp (-(M * j)) * f ((2 * j + 1) * u)) (exp (M / 2) / u * (-(1 / 2 * (Spec.laplace f ((M : ℂ) / (2 * u))).re) + S)) := by
  set F : ℤ → ℂ := fun n => Spec.laplace f (((M : ℂ) + 2 * Complex.I * π * n) / (2 * u)) with hF
  have hgc : Continuous (g f M u) := by
    unfold g
    exact Complex.continuous_ofReal.comp (by fun_prop)
  have hFs : Summable fun n : ℤ => FourierTransform.fourier (g f M u) (n : ℝ) := by
    simp only [fourier_g h0 hu]
    exact hs.mul_left _
  have hP := Real.tsum_eq_tsum_fourier_of_rpow_decay_of_summable hgc (b := 2) (by norm_num) (g_decay h0 hb hM hu) hFs (1 / 2)
  have hfour : ∀ n : ℤ, fourier n (((1 / 2 : ℝ)) : UnitAddCircle) = (-1 : ℂ) ^ n := fun n => by
    rw [fourier_coe_apply, ← Complex.exp_pi_mul_I, ← Complex.exp_int_mul]
    congr 1
    push_cast
    ring
  have hsum : Summable fun n : ℤ => FourierTransform.fourier (g f M u) (n : ℝ) * fourier n (((1 / 2 : ℝ)) : UnitAddCircle) := by
    refine Summable.of_norm_bounded hFs.norm fun n => ?_
    rw [norm_mul, hfour, norm_zpow, norm_neg, norm_one, one_zpow, mul_one]
  have h1 : HasSum (fun n : ℤ => (1 / (2 * u) : ℂ) * F n * (-1 : ℂ) ^ n) (∑' n : ℤ, g f M u (1 / 2 + n)) := by
    rw [hP]
    refine hsum.hasSum.congr_fun fun n => ?_
    rw [hfour, fourier_g h0 hu]
  -- the left-hand side
  have hgs : HasSum (fun j : ℕ => g f M u (1 / 2 + (j : ℤ))) (∑' n : ℤ, g f M u (1 / 2 + n)) := by
    have hz : ∀ n : ℤ, n ∉ Set.range (Nat.cast : ℕ → ℤ) → g f M u (1 / 2 + n) = 0 := fun n hn => by
      have hneg : n < 0 := by
        by_contra hc'
        exact hn ⟨n.toNat, Int.toNat_of_nonneg (not_lt.1 hc')⟩
      have : (n : ℝ) ≤ -1 := by exact_mod_cast Int.le_sub_one_of_lt hneg
      unfold g
      rw [h0 _ (by nlinarith)]
      simp
    have hinj : Function.Injective (Nat.cast : ℕ → ℤ) := Nat.cast_injective
    rw [← hinj.tsum_eq (fun n hn => by by_contra hc'; exact hn (hz n hc'))]
    refine Summable.hasSum ?_
    have hbd : Summable fun j : ℕ => C * exp (-(M / 2)) * exp (-M) ^ j :=
      (summable_geometric_of_lt_one (exp_pos _).le (exp_lt_one_iff.2 (by linarith))).mul_left _
    refine Summable.of_norm_bounded hbd fun j => ?_
    unfold g
    rw [Complex.norm_real, norm_mul, norm_of_nonneg (exp_pos _).le, ← exp_nat_mul, mul_comm (exp _), mul_assoc C, ← exp_add]
    refine mul_le_mul (hb _) (le_of_eq ?_) (exp_pos _).le ((abs_nonneg _).trans (hb 0))
    congr 1
    push_cast
    ring
  set G : ℂ := ∑' n : ℤ, g f M u (1 / 2 + n) with hG
  have hu' : (u : ℂ) ≠ 0 := by exact_mod_cast hu.ne'
  have h2 : HasSum (fun n : ℤ => F n * (-1 : ℂ) ^ n) (2 * u * G) := by
    refine (h1.mul_left (2 * u : ℂ)).congr_fun fun n => ?_
    field_simp
  have hre : ∀ k : ℕ, (F (-k)).re = (Spec.laplace f (((M : ℂ) - 2 * Complex.I * π * k) / (2 * u))).re ∧ (F k).re = (F (-k)).re := fun k => by
    constructor
    · rw [hF]
      simp only
      congr 3
      push_cast
      ring
    · have : F k = (starRingEnd ℂ) (F (-k)) := by
        rw [hF]
        simp only
        rw [← laplace_conj]
        congr 1
        simp only [map_div₀, map_add, map_mul, Complex.conj_ofReal, Complex.conj_I, map_ofNat, Int.cast_neg, map_neg, Int.cast_natCast, map_natCast]
        ring
      rw [this, Complex.conj_re]
  have h3 := h2.nat_add_neg
  have h4 : HasSum (fun k : ℕ => 2 * ((-1 : ℝ) ^ k * (Spec.laplace f (((M : ℂ) - 2 * Complex.I * π * k) / (2 * u))).re)) ((2 * u * G + F 0 * (-1 : ℂ) ^ (0:ℤ)).re) := by
    refine (Complex.hasSum_re h3).congr_fun fun k => ?_
    have e1 : ((-1 : ℂ) ^ ((k : ℤ))) = (((-1 : ℝ) ^ k : ℝ) : ℂ) := by push_cast; rw [zpow_natCast]
    have e2 : ((-1 : ℂ) ^ (-(k : ℤ))) = (((-1 : ℝ) ^ k : ℝ) : ℂ) := by
      push_cast
      rw [zpow_neg, zpow_natCast, ← inv_pow]; norm_num
    rw [e1, e2, Complex.add_re, Complex.re_mul_ofReal, Complex.re_mul_ofReal, (hre k).2, (hre k).1]
    ring
  have h5 := h4.mul_left (1 / 2)
  refine ⟨_, h5.congr_fun fun k => by ring, ?_⟩
  have hF0 : F 0 = Spec.laplace f ((M : ℂ) / (2 * u)) := by rw [hF]; simp
  have hGre : HasSum (fun j : ℕ => (g f M u (1 / 2 + (j : ℤ))).re) G.re := Complex.hasSum_re hgs
  have h6 := hGre.mul_left (exp (M / 2))
  have hval : exp (M / 2) / u * (-(1 / 2 * (Spec.laplace f ((M : ℂ) / (2 * u))).re) + 1 / 2 * (2 * u * G + F 0 * (-1 : ℂ) ^ (0:ℤ)).re) = exp (M / 2) * G.re := by
    rw [zpow_zero, mul_one, Complex.add_re, hF0, show (2 * u * G : ℂ).re = 2 * u * G.re by rw [show (2 * u * G : ℂ) = ((2 * u : ℝ) : ℂ) * G by push_cast; ring, Complex.re_ofReal_mul]]
    field_simp
    ring
  rw [hval]
  refine h6.congr_fun fun j => ?_
  unfold g
  rw [Complex.ofReal_re, ← mul_assoc, ← exp_add]
  push_cast
  congr 2 <;> ring

/-- The Laplace transform of the distribution function of a law on the positive half-line is the transform of the law divided by `θ`. -/
theorem cdf_laplace (μ : Measure ℝ) [IsProbabilityMeasure μ] (hμ : μ (Iio 0) = 0) {θ : ℂ} (hθ : 0 < θ.re) :
    Spec.laplace (fun s => μ.real (Iic s)) θ = (∫ x, Complex.exp (-θ * x) ∂μ) / θ := by
  have hθ0 : θ ≠ 0 := fun h => by rw [h] at hθ; simp at hθ
  have hint : IntegrableOn (fun s : ℝ => Complex.exp (-θ * s)) (Ioi 0) := integrableOn_exp_mul_complex_Ioi (by simpa using hθ) 0
  have hprod : Integrable (fun p : ℝ × ℝ => (if p.2 ≤ p.1 then Complex.exp (-θ * p.1) else 0)) ((volume.restrict (Ioi 0)).prod μ) := by
    refine Integrable.mono' (g := fun p : ℝ × ℝ => ‖Complex.exp (-θ * p.1)‖) ?_ ?_ (ae_of_all _ fun p => ?_)
    · exact (hint.norm).comp_fst μ
    · exact (Measurable.ite (measurableSet_le measurable_snd measurable_fst) (by fun_prop) measurable_const).aestronglyMeasurable
    · split_ifs
      · exact le_rfl
      · rw [norm_zero]; exact norm_nonneg _
  have hsw := integral_integral_swap (f := fun s x : ℝ => (if x ≤ s then Complex.exp (-θ * s) else 0)) hprod
  have e1 : ∀ s : ℝ, ∫ x, (if x ≤ s then Complex.exp (-θ * s) else 0) ∂μ = Complex.exp (-θ * s) * (μ.real (Iic s) : ℝ) := fun s => by
    have : (fun x : ℝ => (if x ≤ s then Complex.exp (-θ * s) else 0)) = (Iic s).indicator fun _ => Complex.exp (-θ * s) := by
      funext x; simp [indicator_apply]
    rw [this, integral_indicator_const _ measurableSet_Iic, Complex.real_smul, mul_comm]
  have hpos : ∀ᵐ x ∂μ, 0 ≤ x := by
    rw [ae_iff]
    convert hμ using 2
    ext x; simp
  have e2 : ∀ᵐ x ∂μ, ∫ s in Ioi (0:ℝ), (if x ≤ s then Complex.exp (-θ * s) else 0) = Complex.exp (-θ * x) / θ := by
    filter_upwards [hpos] with x hx
    have : (fun s : ℝ => (if x ≤ s then Complex.exp (-θ * s) else 0)) = (Ici x).indicator fun s : ℝ => Complex.exp (-θ * s) := by
      funext s; simp [indicator_apply]
    rw [this, setIntegral_indicator measurableSet_Ici]
    have hset : (Ioi (0:ℝ) ∩ Ici x : Set ℝ) =ᵐ[volume] Ioi x := by
      have h1 : (Ioi (0:ℝ) ∩ Ici x : Set ℝ) =ᵐ[volume] (Ioi (0:ℝ) ∩ Ioi x : Set ℝ) := ae_eq_set_inter (ae_eq_refl _) Ioi_ae_eq_Ici.symm
      refine h1.trans (Eq.eventuallyEq ?_)
      rw [Ioi_inter_Ioi, max_eq_right hx]
    rw [setIntegral_congr_set hset, integral_exp_mul_complex_Ioi (by simpa using hθ)]
    rw [neg_div_neg_eq]
  unfold Spec.laplace
  simp only [← e1]
  rw [hsw, integral_congr_ae e2, integral_div]

end LaplaceInv

end PyFENG
