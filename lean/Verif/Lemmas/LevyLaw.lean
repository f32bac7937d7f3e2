import Mathlib.MeasureTheory.Measure.LevyConvergence
import Mathlib.MeasureTheory.Measure.LevyProkhorovMetric
import Mathlib.MeasureTheory.Measure.Prokhorov
import Mathlib.MeasureTheory.Group.Convolution
import Mathlib.Analysis.SpecialFunctions.Complex.LogBounds

/-!
# Existence of an infinitely divisible law with a given Lévy density and finite exponential moments
-/

namespace PyFENG.LevyLaw

open MeasureTheory Filter Topology Set Real

/-- A pointwise limit of characteristic functions, continuous at zero, is a characteristic function; bounds on exponential moments pass to the limit. -/
lemma exists_of_charFun {μ : ℕ → Measure ℝ} [∀ i, IsProbabilityMeasure (μ i)] {φ : ℝ → ℂ} (hφ : ContinuousAt φ 0) (h : ∀ t, Tendsto (fun n => charFun (μ n) t) atTop (𝓝 (φ t)))
    {I : Set ℝ} {B : ℝ → ENNReal} (hB : ∀ c ∈ I, ∀ᶠ n in atTop, ∫⁻ x, ENNReal.ofReal (exp (c * x)) ∂(μ n) ≤ B c) :
    ∃ ν : Measure ℝ, IsProbabilityMeasure ν ∧ (∀ t, charFun ν t = φ t) ∧ ∀ c ∈ I, ∫⁻ x, ENNReal.ofReal (exp (c * x)) ∂ν ≤ B c := by
  let P : ℕ → ProbabilityMeasure ℝ := fun n => ⟨μ n, inferInstance⟩
  have ht := isTightMeasureSet_of_tendsto_charFun hφ h
  have hK : IsCompact (closure (range P)) := by
    refine isCompact_closure_of_isTightMeasureSet ?_
    convert ht using 1
    ext m
    constructor
    · rintro ⟨-, ⟨n, rfl⟩, rfl⟩; exact ⟨n, rfl⟩
    · rintro ⟨n, rfl⟩; exact ⟨P n, ⟨n, rfl⟩, rfl⟩
  obtain ⟨ν, -, g, hg, hlim⟩ := hK.tendsto_subseq (x := P) fun n => subset_closure ⟨n, rfl⟩
  have hc := ProbabilityMeasure.tendsto_iff_tendsto_charFun.1 hlim
  have he : ∀ t, charFun (ν : Measure ℝ) t = φ t := fun t => tendsto_nhds_unique (hc t) ((h t).comp hg.tendsto_atTop)
  refine ⟨ν, inferInstance, he, fun c hcI => ?_⟩
  have h1 := lintegral_le_liminf_lintegral_of_forall_isOpen_measure_le_liminf_measure (μ := (ν : Measure ℝ)) (μs := fun i => μ (g i)) (f := fun x => exp (c * x)) (by fun_prop)
    (fun x => (exp_pos _).le) (fun G hG => ProbabilityMeasure.le_liminf_measure_open_of_tendsto hlim hG)
  refine h1.trans (liminf_le_of_frequently_le' ?_)
  exact (hg.tendsto_atTop.eventually (hB c hcI)).frequently

/-- Convolution powers. -/
noncomputable def convPow (p : Measure ℝ) : ℕ → Measure ℝ
  | 0 => Measure.dirac 0
  | n + 1 => (convPow p n).conv p

lemma convPow_spec (p : Measure ℝ) [IsProbabilityMeasure p] (n : ℕ) :
    IsProbabilityMeasure (convPow p n) ∧ (∀ t, charFun (convPow p n) t = charFun p t ^ n) ∧
    ∀ c, ∫⁻ x, ENNReal.ofReal (exp (c * x)) ∂(convPow p n) = (∫⁻ x, ENNReal.ofReal (exp (c * x)) ∂p) ^ n := by
  induction n with
  | zero =>
    unfold convPow
    refine ⟨inferInstance, fun t => by simp [charFun_dirac], fun c => ?_⟩
    rw [lintegral_dirac' _ (by fun_prop)]
    simp
  | succ n ih =>
    obtain ⟨i1, i2, i3⟩ := ih
    unfold convPow
    refine ⟨inferInstance, fun t => by rw [charFun_conv, i2, pow_succ], fun c => ?_⟩
    rw [Measure.lintegral_conv (by fun_prop)]
    simp only [mul_add, exp_add]
    have : ∀ x, ∫⁻ y, ENNReal.ofReal (exp (c * x) * exp (c * y)) ∂p = ENNReal.ofReal (exp (c * x)) * ∫⁻ y, ENNReal.ofReal (exp (c * y)) ∂p := fun x => by
      rw [← lintegral_const_mul _ (by fun_prop)]
      congr 1
      ext y
      rw [ENNReal.ofReal_mul (exp_pos _).le]
    simp only [this]
    rw [lintegral_mul_const _ (by fun_prop), i3, pow_succ]

/-- One small step: stay with probability `1 - λ/N`, otherwise jump with density `k/λ`. -/
noncomputable def stepLaw (k : ℝ → ℝ) (N : ℝ) : Measure ℝ :=
  ENNReal.ofReal (1 - (∫ x, k x) / N) • Measure.dirac 0 + ENNReal.ofReal (1 / N) • volume.withDensity fun x => ENNReal.ofReal (k x)

lemma stepLaw_spec {k : ℝ → ℝ} (hk0 : ∀ x, 0 ≤ k x) (hkm : Measurable k) (hk : Integrable k) {N : ℝ} (hN0 : 0 < N) (hN : ∫ x, k x ≤ N) :
    IsProbabilityMeasure (stepLaw k N) ∧
    (∀ t : ℝ, charFun (stepLaw k N) t = 1 + (∫ x : ℝ, (Complex.exp (t * x * Complex.I) - 1) * (k x : ℂ)) / N) ∧
    ∀ c, Integrable (fun x => exp (c * x) * k x) →
      ∫⁻ x, ENNReal.ofReal (exp (c * x)) ∂(stepLaw k N) = ENNReal.ofReal (1 + (∫ x, (exp (c * x) - 1) * k x) / N) ∧ 0 ≤ 1 + (∫ x, (exp (c * x) - 1) * k x) / N := by
  have hl0 : 0 ≤ ∫ x, k x := integral_nonneg hk0
  have hq : 0 ≤ 1 - (∫ x, k x) / N := by rw [sub_nonneg, div_le_one hN0]; exact hN
  have hlin : ∀ c, Integrable (fun x => exp (c * x) * k x) →
      ∫⁻ x, ENNReal.ofReal (exp (c * x)) ∂(stepLaw k N) = ENNReal.ofReal (1 + (∫ x, (exp (c * x) - 1) * k x) / N) ∧ 0 ≤ 1 + (∫ x, (exp (c * x) - 1) * k x) / N := fun c hc => by
    have h0 : 0 ≤ ∫ x, exp (c * x) * k x := integral_nonneg fun x => mul_nonneg (exp_pos _).le (hk0 x)
    have e1 : ∫ x, (exp (c * x) - 1) * k x = (∫ x, exp (c * x) * k x) - ∫ x, k x := by
      rw [← integral_sub hc hk]
      congr 1
      ext x
      ring
    have e2 : 1 + (∫ x, (exp (c * x) - 1) * k x) / N = (1 - (∫ x, k x) / N) + 1 / N * ∫ x, exp (c * x) * k x := by rw [e1]; ring
    have e3 : ∫⁻ x, ENNReal.ofReal (exp (c * x)) ∂(volume.withDensity fun x => ENNReal.ofReal (k x)) = ENNReal.ofReal (∫ x, exp (c * x) * k x) := by
      rw [lintegral_withDensity_eq_lintegral_mul _ (by fun_prop) (by fun_prop), ofReal_integral_eq_lintegral_ofReal hc (ae_of_all _ fun x => mul_nonneg (exp_pos _).le (hk0 x))]
      congr 1
      ext x
      rw [Pi.mul_apply, ← ENNReal.ofReal_mul (hk0 x), mul_comm]
    refine ⟨?_, by rw [e2]; positivity⟩
    unfold stepLaw
    rw [lintegral_add_measure, lintegral_smul_measure, lintegral_smul_measure, lintegral_dirac' _ (by fun_prop), e3, e2, ENNReal.ofReal_add hq (by positivity), ENNReal.ofReal_mul (by positivity)]
    simp
  have hprob : IsProbabilityMeasure (stepLaw k N) := by
    constructor
    have := (hlin 0 (by simpa using hk)).1
    simpa using this
  refine ⟨hprob, fun t => ?_, hlin⟩
  have hki : Integrable (fun x : ℝ => Complex.exp (t * x * Complex.I) * (k x : ℂ)) := by
    refine Integrable.bdd_mul (c := 1) hk.ofReal (by fun_prop) (ae_of_all _ fun x => ?_)
    rw [show (t : ℂ) * x * Complex.I = ((t * x : ℝ) : ℂ) * Complex.I by push_cast; ring, Complex.norm_exp_ofReal_mul_I]
  have hmeas : Measurable fun x => ENNReal.ofReal (k x) := by fun_prop
  have e3 : ∫ x : ℝ, Complex.exp (t * x * Complex.I) ∂(volume.withDensity fun x => ENNReal.ofReal (k x)) = ∫ x : ℝ, Complex.exp (t * x * Complex.I) * (k x : ℂ) := by
    rw [integral_withDensity_eq_integral_toReal_smul hmeas (ae_of_all _ fun x => ENNReal.ofReal_lt_top)]
    congr 1
    ext x
    rw [ENNReal.toReal_ofReal (hk0 x), Complex.real_smul, mul_comm]
  haveI : IsFiniteMeasure (volume.withDensity fun x => ENNReal.ofReal (k x)) := isFiniteMeasure_withDensity_ofReal hk.2
  have hbd : ∀ m : Measure ℝ, IsFiniteMeasure m → Integrable (fun x : ℝ => Complex.exp (t * x * Complex.I)) m := fun m _ => by
    refine Integrable.of_bound (C := 1) (by fun_prop) (ae_of_all _ fun x => ?_)
    rw [show (t : ℂ) * x * Complex.I = ((t * x : ℝ) : ℂ) * Complex.I by push_cast; ring, Complex.norm_exp_ofReal_mul_I]
  rw [charFun_apply_real]
  unfold stepLaw
  rw [integral_add_measure ((hbd _ inferInstance).smul_measure ENNReal.ofReal_ne_top) ((hbd _ inferInstance).smul_measure ENNReal.ofReal_ne_top), integral_smul_measure, integral_smul_measure,
    integral_dirac' _ _ (by fun_prop), e3, ENNReal.toReal_ofReal hq, ENNReal.toReal_ofReal (by positivity)]
  have hkc : Integrable fun x : ℝ => (k x : ℂ) := hk.ofReal
  have e1 : ∫ x : ℝ, (Complex.exp (t * x * Complex.I) - 1) * (k x : ℂ) = (∫ x : ℝ, Complex.exp (t * x * Complex.I) * (k x : ℂ)) - ((∫ x, k x : ℝ) : ℂ) := by
    rw [show ((∫ x, k x : ℝ) : ℂ) = ∫ x : ℝ, (k x : ℂ) from (integral_ofReal (𝕜 := ℂ)).symm, ← integral_sub hki hkc]
    congr 1
    ext x
    ring
  rw [e1, Complex.real_smul, Complex.real_smul]
  push_cast
  simp
  ring

/-- Compound Poisson law with a shift: jump density `k` of finite mass, drift `d`. -/
lemma exists_compound {k : ℝ → ℝ} (hk0 : ∀ x, 0 ≤ k x) (hkm : Measurable k) (hk : Integrable k) (d : ℝ) {I : Set ℝ} (hI : ∀ c ∈ I, Integrable fun x => exp (c * x) * k x) :
    ∃ ν : Measure ℝ, IsProbabilityMeasure ν ∧ (∀ t : ℝ, charFun ν t = Complex.exp ((∫ x : ℝ, (Complex.exp (t * x * Complex.I) - 1) * (k x : ℂ)) + t * d * Complex.I)) ∧
      ∀ c ∈ I, ∫⁻ x, ENNReal.ofReal (exp (c * x)) ∂ν ≤ ENNReal.ofReal (exp ((∫ x, (exp (c * x) - 1) * k x) + c * d)) := by
  obtain ⟨n0, hn0⟩ := exists_nat_ge (∫ x, k x)
  have hN : ∀ n : ℕ, ∫ x, k x ≤ ((n + n0 + 1 : ℕ) : ℝ) := fun n => by push_cast; have := Nat.cast_nonneg (α := ℝ) n; linarith
  have hN0 : ∀ n : ℕ, (0:ℝ) < ((n + n0 + 1 : ℕ) : ℝ) := fun n => by positivity
  have hs := fun n : ℕ => stepLaw_spec hk0 hkm hk (hN0 n) (hN n)
  haveI : ∀ n : ℕ, IsProbabilityMeasure (stepLaw k ((n + n0 + 1 : ℕ) : ℝ)) := fun n => (hs n).1
  have hp := fun n : ℕ => convPow_spec (stepLaw k ((n + n0 + 1 : ℕ) : ℝ)) (n + n0 + 1)
  haveI : ∀ n : ℕ, IsProbabilityMeasure (convPow (stepLaw k ((n + n0 + 1 : ℕ) : ℝ)) (n + n0 + 1)) := fun n => (hp n).1
  have hcf : ∀ t : ℝ, Tendsto (fun n : ℕ => charFun (convPow (stepLaw k ((n + n0 + 1 : ℕ) : ℝ)) (n + n0 + 1)) t) atTop (𝓝 (Complex.exp (∫ x : ℝ, (Complex.exp (t * x * Complex.I) - 1) * (k x : ℂ)))) := fun t => by
    have h := (Complex.tendsto_one_add_div_pow_exp (∫ x : ℝ, (Complex.exp (t * x * Complex.I) - 1) * (k x : ℂ))).comp (tendsto_add_atTop_nat (n0 + 1))
    refine h.congr fun n => ?_
    rw [(hp n).2.1, (hs n).2.1]
    simp only [Function.comp, Complex.ofReal_natCast, add_assoc]
  have hcont : ContinuousAt (fun t : ℝ => Complex.exp (∫ x : ℝ, (Complex.exp (t * x * Complex.I) - 1) * (k x : ℂ))) 0 := by
    refine (Complex.continuous_exp.comp (continuous_of_dominated (bound := fun x => 2 * k x) (fun t => ?_) (fun t => ae_of_all _ fun x => ?_) (hk.const_mul 2) (ae_of_all _ fun x => by fun_prop))).continuousAt
    · exact (Measurable.mul (by fun_prop) (by fun_prop)).aestronglyMeasurable
    · rw [norm_mul, Complex.norm_real, Real.norm_of_nonneg (hk0 x)]
      refine mul_le_mul_of_nonneg_right ((norm_sub_le _ _).trans ?_) (hk0 x)
      rw [show (t : ℂ) * x * Complex.I = ((t * x : ℝ) : ℂ) * Complex.I by push_cast; ring, Complex.norm_exp_ofReal_mul_I]
      norm_num
  obtain ⟨ν, h1, h2, h3⟩ := exists_of_charFun hcont hcf (I := I) (B := fun c => ENNReal.ofReal (exp (∫ x, (exp (c * x) - 1) * k x))) fun c hc => Eventually.of_forall fun n => by
    obtain ⟨e1, e2⟩ := (hs n).2.2 c (hI c hc)
    rw [(hp n).2.2, e1, ← ENNReal.ofReal_pow e2]
    refine ENNReal.ofReal_le_ofReal ?_
    have h := add_one_le_exp ((∫ x, (exp (c * x) - 1) * k x) / ((n + n0 + 1 : ℕ) : ℝ))
    calc _ ≤ exp ((∫ x, (exp (c * x) - 1) * k x) / ((n + n0 + 1 : ℕ) : ℝ)) ^ (n + n0 + 1) := pow_le_pow_left₀ e2 (by linarith) _
      _ = _ := by rw [← exp_nat_mul, mul_div_cancel₀ _ (hN0 n).ne']
  refine ⟨ν.conv (Measure.dirac d), inferInstance, fun t => ?_, fun c hc => ?_⟩
  · rw [charFun_conv, h2, charFun_dirac, ← Complex.exp_add]
    congr 2
    simp
  · rw [Measure.lintegral_conv (by fun_prop)]
    have : ∀ x, ∫⁻ y, ENNReal.ofReal (exp (c * (x + y))) ∂(Measure.dirac d) = ENNReal.ofReal (exp (c * x)) * ENNReal.ofReal (exp (c * d)) := fun x => by
      rw [lintegral_dirac' _ (by fun_prop), mul_add, exp_add, ENNReal.ofReal_mul (exp_pos _).le]
    simp only [this]
    rw [lintegral_mul_const _ (by fun_prop), exp_add, ENNReal.ofReal_mul (exp_pos _).le]
    exact mul_le_mul_left (h3 c hc) _

/-- Jumps larger than `1/(n+1)`. -/
def big (n : ℕ) : Set ℝ := {x | 1 / ((n : ℝ) + 1) < |x|}

lemma big_meas (n : ℕ) : MeasurableSet (big n) := measurableSet_lt measurable_const continuous_abs.measurable

lemma big_mono : Monotone big := fun a b h x hx => by
  have hx : 1 / ((a : ℝ) + 1) < |x| := hx
  refine lt_of_le_of_lt (b := 1 / ((a : ℝ) + 1)) ?_ hx
  have : (a : ℝ) ≤ b := by exact_mod_cast h
  gcongr

lemma big_union : ⋃ n, big n = {x | x ≠ 0} := by
  ext x
  simp only [mem_iUnion, mem_setOf_eq]
  refine ⟨fun ⟨n, hn⟩ h => ?_, fun h => ?_⟩
  · have : 1 / ((n : ℝ) + 1) < |x| := hn
    rw [h, abs_zero] at this
    have : (0:ℝ) < 1 / ((n : ℝ) + 1) := by positivity
    linarith
  · exact exists_nat_one_div_lt (abs_pos.2 h)

lemma tendsto_big {E : Type*} [NormedAddCommGroup E] [NormedSpace ℝ E] {f : ℝ → E} (hf : Integrable f) : Tendsto (fun n => ∫ x in big n, f x) atTop (𝓝 (∫ x, f x)) := by
  have h := tendsto_setIntegral_of_monotone (μ := volume) (f := f) big_meas big_mono hf.integrableOn
  rw [big_union] at h
  have : ∫ x in {x : ℝ | x ≠ 0}, f x = ∫ x, f x := by
    rw [show {x : ℝ | x ≠ 0} = ({0} : Set ℝ)ᶜ from rfl]
    have h0 : (({0} : Set ℝ)ᶜ : Set ℝ) =ᵐ[volume] univ := by
      rw [ae_eq_univ, compl_compl]; simp
    rw [setIntegral_congr_set h0, setIntegral_univ]
  rw [this] at h
  exact h

/-- Existence of the law of the Lévy process at time one with Lévy density `k` and the martingale drift, with its exponential moments. -/
lemma exists_levy {k : ℝ → ℝ} (hk0 : ∀ x, 0 ≤ k x) (hkm : Measurable k) (hkb : ∀ n, IntegrableOn k (big n)) {I : Set ℝ} (h1 : (1:ℝ) ∈ I) (hI : ∀ c ∈ I, ∀ n, IntegrableOn (fun x => exp (c * x) * k x) (big n))
    (hg : ∀ c ∈ I, Integrable fun x => (exp (c * x) - 1 - c * (exp x - 1)) * k x) (hG : ∀ t : ℝ, Integrable fun x : ℝ => (Complex.exp (t * x * Complex.I) - 1 - t * Complex.I * (Complex.exp x - 1)) * (k x : ℂ))
    (hc : ContinuousAt (fun t : ℝ => Complex.exp (∫ x : ℝ, (Complex.exp (t * x * Complex.I) - 1 - t * Complex.I * (Complex.exp x - 1)) * (k x : ℂ))) 0) :
    ∃ ν : Measure ℝ, IsProbabilityMeasure ν ∧ (∀ t : ℝ, charFun ν t = Complex.exp (∫ x : ℝ, (Complex.exp (t * x * Complex.I) - 1 - t * Complex.I * (Complex.exp x - 1)) * (k x : ℂ))) ∧
      ∀ c ∈ I, Integrable (fun x => exp (c * x)) ν := by
  have hkn0 : ∀ n x, 0 ≤ (big n).indicator k x := fun n x => indicator_nonneg (fun x _ => hk0 x) x
  have hd1 : ∀ n, Integrable fun x => (exp x - 1) * (big n).indicator k x := fun n => by
    have h := ((hI 1 h1 n).sub (hkb n)).integrable_indicator (big_meas n)
    refine h.congr (ae_of_all _ fun x => ?_)
    by_cases hx : x ∈ big n
    · simp [hx]; ring
    · simp [hx]
  have hex := fun n : ℕ => exists_compound (hkn0 n) (hkm.indicator (big_meas n)) ((hkb n).integrable_indicator (big_meas n)) (-∫ x, (exp x - 1) * (big n).indicator k x) (I := I) fun c hc => by
    have h := (hI c hc n).integrable_indicator (big_meas n)
    refine h.congr (ae_of_all _ fun x => ?_)
    by_cases hx : x ∈ big n <;> simp [hx]
  choose ν hν1 hν2 hν3 using hex
  haveI := hν1
  have hcf : ∀ t : ℝ, Tendsto (fun n => charFun (ν n) t) atTop (𝓝 (Complex.exp (∫ x : ℝ, (Complex.exp (t * x * Complex.I) - 1 - t * Complex.I * (Complex.exp x - 1)) * (k x : ℂ)))) := fun t => by
    have h := ((Complex.continuous_exp.tendsto _).comp (tendsto_big (hG t)))
    refine h.congr fun n => ?_
    rw [hν2]
    simp only [Function.comp]
    congr 1
    have hA : Integrable fun x : ℝ => (Complex.exp (t * x * Complex.I) - 1) * (((big n).indicator k x : ℝ) : ℂ) := by
      refine Integrable.bdd_mul (c := 2) ((hkb n).integrable_indicator (big_meas n)).ofReal (by fun_prop) (ae_of_all _ fun x => ?_)
      refine (norm_sub_le _ _).trans ?_
      rw [show (t : ℂ) * x * Complex.I = ((t * x : ℝ) : ℂ) * Complex.I by push_cast; ring, Complex.norm_exp_ofReal_mul_I]
      norm_num
    have hB : Integrable fun x : ℝ => (((exp x - 1) * (big n).indicator k x : ℝ) : ℂ) := (hd1 n).ofReal
    rw [Complex.ofReal_neg, show ((∫ x, (exp x - 1) * (big n).indicator k x : ℝ) : ℂ) = ∫ x, (((exp x - 1) * (big n).indicator k x : ℝ) : ℂ) from (integral_ofReal (𝕜 := ℂ)).symm,
      show ∀ a b : ℂ, a + t * -b * Complex.I = a - (t * Complex.I) * b from fun a b => by ring, ← integral_const_mul, ← integral_sub hA (hB.const_mul _), ← integral_indicator (big_meas n)]
    congr 1
    ext x
    by_cases hx : x ∈ big n
    · simp [hx]; ring
    · simp [hx]
  obtain ⟨μ, m1, m2, m3⟩ := exists_of_charFun hc hcf (I := I) (B := fun c => ENNReal.ofReal (exp (∫ x, |(exp (c * x) - 1 - c * (exp x - 1)) * k x|))) fun c hc => Eventually.of_forall fun n => by
    refine (hν3 n c hc).trans (ENNReal.ofReal_le_ofReal (exp_le_exp.2 ?_))
    have hA : Integrable fun x : ℝ => (exp (c * x) - 1) * (big n).indicator k x := by
      have h := ((hI c hc n).sub (hkb n)).integrable_indicator (big_meas n)
      refine h.congr (ae_of_all _ fun x => ?_)
      by_cases hx : x ∈ big n
      · simp [hx]; ring
      · simp [hx]
    rw [mul_neg, ← sub_eq_add_neg, ← integral_const_mul, ← integral_sub hA ((hd1 n).const_mul c)]
    refine integral_mono (hA.sub ((hd1 n).const_mul c)) (hg c hc).abs fun x => ?_
    by_cases hx : x ∈ big n
    · simp only [indicator_of_mem hx]
      refine le_trans (le_of_eq ?_) (le_abs_self _)
      ring
    · simp only [indicator_of_notMem hx, mul_zero, sub_zero]
      exact abs_nonneg _
  refine ⟨μ, m1, m2, fun c hc => ⟨by fun_prop, ?_⟩⟩
  rw [hasFiniteIntegral_iff_ofReal (ae_of_all _ fun x => (exp_pos _).le)]
  exact lt_of_le_of_lt (m3 c hc) ENNReal.ofReal_lt_top

end PyFENG.LevyLaw
