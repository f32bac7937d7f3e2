import Verif.Spec
import Mathlib.Probability.BrownianMotion.Basic
import Mathlib.Probability.Independence.Integration
import Mathlib.MeasureTheory.Integral.Prod
import Mathlib.MeasureTheory.Integral.IntervalIntegral.FundThmCalculus
import Mathlib.LinearAlgebra.Lagrange
import Mathlib.MeasureTheory.Integral.IntervalIntegral.IntegrationByParts

/-!
# Exponential functionals of Brownian motion

For a Brownian motion `B`, `A_t = ∫_0^t exp(a B_s + μ s) ds` has explicit mixed moments `E[A_t^n exp(b B_t)]`.
-/

namespace PyFENG

open MeasureTheory ProbabilityTheory Real Set
open scoped NNReal ENNReal

/-- A standard Brownian motion: the finite-dimensional laws of Brownian motion (Mathlib's `IsPreBrownianReal`), measurable coordinates and
continuous paths. -/
structure Spec.IsBM {Ω : Type*} [MeasurableSpace Ω] (P : Measure Ω) (B : ℝ≥0 → Ω → ℝ) : Prop where
  law : IsPreBrownianReal B P
  meas : ∀ t, Measurable (B t)
  cont : ∀ ω, Continuous fun t => B t ω

/-- `∫_0^t exp(a B_s + μ s) ds`. -/
noncomputable def Spec.expFunctional {Ω : Type*} (B : ℝ≥0 → Ω → ℝ) (a μ : ℝ) (t : ℝ) (ω : Ω) : ℝ :=
  ∫ s in (0:ℝ)..t, exp (a * B s.toNNReal ω + μ * s)

namespace BmExp

/-- The moments, by the recursion obtained from conditioning on the past. -/
noncomputable def mom (a μ : ℝ) : ℕ → ℝ → ℝ → ℝ
  | 0, b, t => exp (b ^ 2 * t / 2)
  | n + 1, b, t => (n + 1) * ∫ s in (0:ℝ)..t, mom a μ n (b + a) s * exp (μ * s) * exp (b ^ 2 * (t - s) / 2)

lemma mom_succ (a μ : ℝ) (n : ℕ) (b t : ℝ) :
    mom a μ (n + 1) b t = (n + 1) * exp (b ^ 2 * t / 2) * ∫ s in (0:ℝ)..t, mom a μ n (b + a) s * exp ((μ - b ^ 2 / 2) * s) := by
  rw [mom, mul_assoc]
  congr 1
  rw [← intervalIntegral.integral_const_mul]
  apply intervalIntegral.integral_congr
  intro s _
  simp only
  rw [mul_assoc, ← exp_add, mul_left_comm, ← exp_add]
  congr 2
  ring

lemma continuous_mom (a μ : ℝ) (n : ℕ) : ∀ b, Continuous (mom a μ n b) := by
  induction n with
  | zero => intro b; show Continuous fun t => exp (b ^ 2 * t / 2); fun_prop
  | succ n ih =>
    intro b
    have h : mom a μ (n + 1) b = fun t => (n + 1) * exp (b ^ 2 * t / 2) * ∫ s in (0:ℝ)..t, mom a μ n (b + a) s * exp ((μ - b ^ 2 / 2) * s) := by
      ext t; exact mom_succ a μ n b t
    rw [h]
    have hc : Continuous fun s => mom a μ n (b + a) s * exp ((μ - b ^ 2 / 2) * s) := by
      have := ih (b + a); fun_prop
    have := intervalIntegral.continuous_primitive (μ := volume) (fun u v => hc.intervalIntegrable u v) 0
    fun_prop

lemma mom_nonneg (a μ : ℝ) (n : ℕ) : ∀ b {t : ℝ}, 0 ≤ t → 0 ≤ mom a μ n b t := by
  induction n with
  | zero => intro b t _; exact (exp_pos _).le
  | succ n ih =>
    intro b t ht
    unfold mom
    have := intervalIntegral.integral_nonneg (μ := volume) (f := fun s => mom a μ n (b + a) s * exp (μ * s) * exp (b ^ 2 * (t - s) / 2)) ht
      fun s hs => by have := ih (b + a) hs.1; positivity
    positivity

lemma eval_comap {Ω ι : Type*} (f : Ω → ι → ℝ) (i : ι) : Measurable[MeasurableSpace.comap f inferInstance] (fun ω => f ω i) := by
  have h : Measurable[MeasurableSpace.comap f inferInstance] f := comap_measurable f
  exact (measurable_pi_apply i).comp h

/-- Integrals along continuous paths are measurable. -/
lemma measurable_int {Ω : Type*} [MeasurableSpace Ω] {X : ℝ → Ω → ℝ} (hm : ∀ u, Measurable (X u)) (hc : ∀ ω, Continuous fun u => X u ω) (a μ t : ℝ) :
    Measurable fun ω => ∫ u in Ioc 0 t, exp (a * X u ω + μ * u) := by
  have h3 := (measurable_uncurry_of_continuous_of_measurable hc hm).comp (measurable_swap (α := Ω) (β := ℝ))
  have h4 : Measurable fun p : Ω × ℝ => X p.2 p.1 := h3
  have hs : StronglyMeasurable (Function.uncurry fun (ω : Ω) (u : ℝ) => exp (a * X u ω + μ * u)) :=
    ((h4.const_mul a).add (measurable_snd.const_mul μ)).exp.stronglyMeasurable
  exact (hs.integral_prod_right (ν := volume.restrict (Ioc 0 t))).measurable

/-- The growth rates `g_j` of the moments. -/
noncomputable def rate (a μ b : ℝ) (j : ℕ) : ℝ := (b + j * a) ^ 2 / 2 + j * μ

/-- The reciprocal weights of at least two distinct nodes sum to zero. -/
lemma sum_weights_zero {s : Finset ℕ} {v : ℕ → ℝ} (hv : Set.InjOn v s) (hs : 2 ≤ s.card) :
    ∑ i ∈ s, (1:ℝ) / ∏ j ∈ s.erase i, (v i - v j) = 0 := by
  have h := Lagrange.coeff_eq_sum (F := ℝ) hv (P := 1) (by
    rw [Polynomial.degree_one]; exact_mod_cast (by omega : 0 < s.card))
  simp only [Polynomial.eval_one] at h
  rw [← h, Polynomial.coeff_one, if_neg (by omega)]

lemma prod_erase_succ {n j : ℕ} (hj : j < n + 1) (v : ℕ → ℝ) (x : ℝ) :
    ∏ i ∈ (Finset.range (n + 2)).erase (j + 1), (x - v i) = (x - v 0) * ∏ i ∈ (Finset.range (n + 1)).erase j, (x - v (i + 1)) := by
  have e : (Finset.range (n + 2)).erase (j + 1) = insert 0 (((Finset.range (n + 1)).erase j).image (· + 1)) := by
    ext i
    simp only [Finset.mem_erase, Finset.mem_range, Finset.mem_insert, Finset.mem_image]
    constructor
    · rintro ⟨h1, h2⟩
      rcases i with _ | i
      · exact Or.inl rfl
      · exact Or.inr ⟨i, ⟨by omega, by omega⟩, rfl⟩
    · rintro (rfl | ⟨i, ⟨h1, h2⟩, rfl⟩)
      · omega
      · omega
  rw [e, Finset.prod_insert (by simp), Finset.prod_image (by intro x _ y _ h; simpa using h)]

/-- **Geman-Yor formula** for the mixed moments. -/
theorem mom_closed (a μ : ℝ) (n : ℕ) : ∀ (b : ℝ) (_ : Set.InjOn (rate a μ b) (Finset.range (n + 1))) (t : ℝ),
    mom a μ n b t = n.factorial * ∑ j ∈ Finset.range (n + 1), exp (rate a μ b j * t) / ∏ i ∈ (Finset.range (n + 1)).erase j, (rate a μ b j - rate a μ b i) := by
  induction n with
  | zero => intro b _ t; simp [mom, rate]; ring_nf
  | succ n ih =>
    intro b hb t
    have hr : ∀ j, rate a μ (b + a) j = rate a μ b (j + 1) - μ := fun j => by unfold rate; push_cast; ring
    have hb' : Set.InjOn (rate a μ (b + a)) (Finset.range (n + 1)) := by
      intro i hi j hj hij
      rw [hr, hr] at hij
      have := hb (x₁ := i + 1) (x₂ := j + 1) (by simp at hi ⊢; omega) (by simp at hj ⊢; omega) (by linarith)
      omega
    have h0 : rate a μ b 0 = b ^ 2 / 2 := by simp [rate]
    have hne : ∀ j ∈ Finset.range (n + 1), rate a μ b (j + 1) - rate a μ b 0 ≠ 0 := by
      intro j hj h
      have := hb (x₁ := j + 1) (x₂ := 0) (by simp at hj ⊢; omega) (by simp) (by linarith)
      omega
    set W : ℕ → ℝ := fun j => ∏ i ∈ (Finset.range (n + 1)).erase j, (rate a μ b (j + 1) - rate a μ b (i + 1)) with hW
    have hint : ∀ s, mom a μ n (b + a) s * exp ((μ - b ^ 2 / 2) * s) =
        ∑ j ∈ Finset.range (n + 1), (n.factorial / W j) * exp ((rate a μ b (j + 1) - rate a μ b 0) * s) := by
      intro s
      rw [ih (b + a) hb' s, Finset.mul_sum, Finset.sum_mul]
      refine Finset.sum_congr rfl fun j _ => ?_
      have e1 : ∏ i ∈ (Finset.range (n + 1)).erase j, (rate a μ (b + a) j - rate a μ (b + a) i) = W j :=
        Finset.prod_congr rfl fun i _ => by rw [hr, hr]; ring
      have e2 : exp (rate a μ (b + a) j * s) * exp ((μ - b ^ 2 / 2) * s) = exp ((rate a μ b (j + 1) - rate a μ b 0) * s) := by
        rw [← exp_add, hr, h0]; congr 1; ring
      rw [e1, ← e2]
      ring
    have hI : ∫ s in (0:ℝ)..t, mom a μ n (b + a) s * exp ((μ - b ^ 2 / 2) * s) =
        ∑ j ∈ Finset.range (n + 1), (n.factorial / W j) * ((exp ((rate a μ b (j + 1) - rate a μ b 0) * t) - 1) / (rate a μ b (j + 1) - rate a μ b 0)) := by
      simp_rw [hint]
      rw [intervalIntegral.integral_finsetSum]
      · refine Finset.sum_congr rfl fun j hj => ?_
        rw [intervalIntegral.integral_const_mul]
        have hd : ∀ x ∈ Set.uIcc 0 t, HasDerivAt (fun s => exp ((rate a μ b (j + 1) - rate a μ b 0) * s) / (rate a μ b (j + 1) - rate a μ b 0))
            (exp ((rate a μ b (j + 1) - rate a μ b 0) * x)) x := by
          intro x _
          have := (((hasDerivAt_id' x).const_mul (rate a μ b (j + 1) - rate a μ b 0)).exp).div_const (rate a μ b (j + 1) - rate a μ b 0)
          refine this.congr_deriv ?_
          have := hne j hj
          field_simp
        rw [intervalIntegral.integral_eq_sub_of_hasDerivAt hd (Continuous.intervalIntegrable (by fun_prop) _ _)]
        rw [mul_zero, exp_zero, sub_div]
      · intro j _
        exact Continuous.intervalIntegrable (by fun_prop) _ _
    rw [mom_succ, hI, Nat.factorial_succ, Finset.sum_range_succ' _ (n + 1)]
    have hw := sum_weights_zero hb (by simp)
    rw [Finset.sum_range_succ'] at hw
    have hP : ∀ j ∈ Finset.range (n + 1), ∏ i ∈ (Finset.range (n + 1 + 1)).erase (j + 1), (rate a μ b (j + 1) - rate a μ b i) =
        (rate a μ b (j + 1) - rate a μ b 0) * W j := fun j hj => prod_erase_succ (Finset.mem_range.1 hj) _ _
    have hw' : (1:ℝ) / ∏ i ∈ (Finset.range (n + 1 + 1)).erase 0, (rate a μ b 0 - rate a μ b i) =
        - ∑ j ∈ Finset.range (n + 1), 1 / ((rate a μ b (j + 1) - rate a μ b 0) * W j) := by
      have e : ∑ j ∈ Finset.range (n + 1), 1 / ((rate a μ b (j + 1) - rate a μ b 0) * W j) =
          ∑ j ∈ Finset.range (n + 1), 1 / ∏ i ∈ (Finset.range (n + 1 + 1)).erase (j + 1), (rate a μ b (j + 1) - rate a μ b i) :=
        Finset.sum_congr rfl fun j hj => by rw [hP j hj]
      rw [e]
      linarith
    have hs : ∑ j ∈ Finset.range (n + 1), exp (rate a μ b (j + 1) * t) / ∏ i ∈ (Finset.range (n + 1 + 1)).erase (j + 1), (rate a μ b (j + 1) - rate a μ b i) =
        ∑ j ∈ Finset.range (n + 1), exp (rate a μ b (j + 1) * t) / ((rate a μ b (j + 1) - rate a μ b 0) * W j) :=
      Finset.sum_congr rfl fun j hj => by rw [hP j hj]
    rw [hs, div_eq_mul_one_div (exp (rate a μ b 0 * t)), hw', mul_neg, Finset.mul_sum (a := exp (rate a μ b 0 * t)), ← sub_eq_add_neg, ← Finset.sum_sub_distrib, Finset.mul_sum, Finset.mul_sum]
    refine Finset.sum_congr rfl fun j hj => ?_
    have e3 : exp (rate a μ b (j + 1) * t) = exp (b ^ 2 * t / 2) * exp ((rate a μ b (j + 1) - rate a μ b 0) * t) := by
      rw [← exp_add, h0]; congr 1; ring
    have e4 : exp (rate a μ b 0 * t) = exp (b ^ 2 * t / 2) := by rw [h0]; congr 1; ring
    rw [e3, e4]
    push_cast
    generalize rate a μ b (j + 1) - rate a μ b 0 = d
    ring

variable {Ω : Type*} [mΩ : MeasurableSpace Ω] {P : Measure Ω} {B : ℝ≥0 → Ω → ℝ} (hB : Spec.IsBM P B) (a μ : ℝ)

include hB

lemma isProb : IsProbabilityMeasure P := hB.law.isGaussianProcess.isProbabilityMeasure

lemma continuous_path (ω : Ω) : Continuous fun s : ℝ => exp (a * B s.toNNReal ω + μ * s) := by
  have h : Continuous fun s : ℝ => B s.toNNReal ω := (hB.cont ω).comp continuous_real_toNNReal
  exact ((h.const_mul a).add (continuous_const.mul continuous_id)).rexp

lemma A_nonneg {t : ℝ} (ht : 0 ≤ t) (ω : Ω) : 0 ≤ Spec.expFunctional B a μ t ω :=
  intervalIntegral.integral_nonneg ht fun _ _ => (exp_pos _).le

lemma A_pos {t : ℝ} (ht : 0 < t) (ω : Ω) : 0 < Spec.expFunctional B a μ t ω :=
  intervalIntegral.intervalIntegral_pos_of_pos ((continuous_path hB a μ ω).intervalIntegrable _ _) (fun _ => exp_pos _) ht

lemma hasDerivAt_A (ω : Ω) (t : ℝ) : HasDerivAt (fun t => Spec.expFunctional B a μ t ω) (exp (a * B t.toNNReal ω + μ * t)) t :=
  intervalIntegral.integral_hasDerivAt_right ((continuous_path hB a μ ω).intervalIntegrable _ _)
    ((continuous_path hB a μ ω).stronglyMeasurableAtFilter _ _) (continuous_path hB a μ ω).continuousAt

lemma continuous_A (ω : Ω) : Continuous fun t => Spec.expFunctional B a μ t ω :=
  continuous_iff_continuousAt.2 fun t => (hasDerivAt_A hB a μ ω t).continuousAt

/-- `A_t` is determined by the path up to `t`. -/
lemma measurable_A_past (t : ℝ≥0) :
    Measurable[MeasurableSpace.comap (fun ω (u : Iic t) => B u ω) inferInstance] (Spec.expFunctional B a μ t) := by
  have hm : ∀ u : ℝ, Measurable[MeasurableSpace.comap (fun ω (u : Iic t) => B u ω) inferInstance] (B (min u.toNNReal t)) := fun u =>
    eval_comap (fun ω (u : Iic t) => B u ω) ⟨min u.toNNReal t, mem_Iic.2 (min_le_right _ _)⟩
  have h2 : ∀ ω : Ω, Continuous fun u : ℝ => B (min u.toNNReal t) ω := fun ω =>
    (hB.cont ω).comp (continuous_real_toNNReal.min continuous_const)
  have h := @measurable_int Ω (MeasurableSpace.comap (fun ω (u : Iic t) => B u ω) inferInstance) (fun u ω => B (min u.toNNReal t) ω) hm h2 a μ t
  refine (congrArg (fun f => Measurable[MeasurableSpace.comap (fun ω (u : Iic t) => B u ω) inferInstance] f) ?_).mpr h
  ext ω
  unfold Spec.expFunctional
  rw [intervalIntegral.integral_of_le (NNReal.coe_nonneg t)]
  refine setIntegral_congr_fun measurableSet_Ioc fun s hs => ?_
  have : min s.toNNReal t = s.toNNReal := min_eq_left (by rw [Real.toNNReal_le_iff_le_coe]; exact hs.2)
  simp only [this]

lemma past_le (t : ℝ≥0) : MeasurableSpace.comap (fun ω (u : Iic t) => B u ω) inferInstance ≤ mΩ :=
  measurable_iff_comap_le.1 (measurable_pi_lambda _ fun u => hB.meas u)

lemma measurable_A {t : ℝ} (ht : 0 ≤ t) : Measurable (Spec.expFunctional B a μ t) := by
  have := (measurable_A_past hB a μ ⟨t, ht⟩).mono (past_le hB _) le_rfl
  exact this

/-- `E exp(b (B_t - B_s)) = exp(b²(t-s)/2)`. -/
lemma lintegral_exp_incr (b : ℝ) {s t : ℝ≥0} (hst : s ≤ t) :
    ∫⁻ ω, ENNReal.ofReal (exp (b * (B t ω - B s ω))) ∂P = ENNReal.ofReal (exp (b ^ 2 * (t - s) / 2)) := by
  have hl := hB.law.hasLaw_sub t s
  have hd : ((nndist t.1 s.1 : ℝ≥0) : ℝ) = t - s := by
    rw [coe_nndist, Real.dist_eq, abs_of_nonneg]
    · rfl
    · have := NNReal.coe_le_coe.2 hst; exact sub_nonneg.2 this
  have h1 : ∫⁻ ω, ENNReal.ofReal (exp (b * (B t ω - B s ω))) ∂P = ∫⁻ x, ENNReal.ofReal (exp (b * x)) ∂(gaussianReal 0 (nndist t.1 s.1)) := by
    rw [← hl.map_eq, lintegral_map' (by fun_prop) hl.aemeasurable]
    rfl
  rw [h1, ← ofReal_integral_eq_lintegral_ofReal]
  · have := congrFun (mgf_fun_id_gaussianReal (μ := 0) (v := nndist t.1 s.1)) b
    rw [mgf] at this
    rw [this, hd]
    congr 2
    ring
  · exact integrable_exp_mul_gaussianReal b
  · exact Filter.Eventually.of_forall fun _ => (exp_pos _).le

/-- The past of the path up to `s` is independent of the increment after `s`. -/
lemma lintegral_past_mul {s t : ℝ≥0} (hst : s ≤ t) {f : Ω → ℝ≥0∞}
    (hf : Measurable[MeasurableSpace.comap (fun ω (u : Iic s) => B u ω) inferInstance] f) (b : ℝ) :
    ∫⁻ ω, f ω * ENNReal.ofReal (exp (b * (B t ω - B s ω))) ∂P = (∫⁻ ω, f ω ∂P) * ENNReal.ofReal (exp (b ^ 2 * (t - s) / 2)) := by
  rw [← lintegral_exp_incr hB b hst]
  have hi := hB.law.indepFun_shift s
  have hg : Measurable fun ω => ENNReal.ofReal (exp (b * (B t ω - B s ω))) := by
    have := hB.meas t; have := hB.meas s; fun_prop
  refine lintegral_mul_eq_lintegral_mul_lintegral_of_indepFun (hf.mono (past_le hB s) le_rfl) hg ?_
  rw [IndepFun_iff_Indep] at hi ⊢
  refine indep_of_indep_of_le_left (indep_of_indep_of_le_right hi.symm ?_) ?_
  · rw [← measurable_iff_comap_le]
    have h0 : Measurable[MeasurableSpace.comap (fun ω (u : ℝ≥0) => B (s + u) ω - B s ω) inferInstance] fun ω => B (s + (t - s)) ω - B s ω :=
      eval_comap (fun ω (u : ℝ≥0) => B (s + u) ω - B s ω) (t - s)
    rw [add_tsub_cancel_of_le hst] at h0
    exact ((h0.const_mul b).exp).ennreal_ofReal
  · exact measurable_iff_comap_le.1 hf

lemma measurable_B_past (t : ℝ≥0) : Measurable[MeasurableSpace.comap (fun ω (u : Iic t) => B u ω) inferInstance] (B t) :=
  eval_comap (fun ω (u : Iic t) => B u ω) ⟨t, mem_Iic.2 le_rfl⟩

/-- All mixed moments, as Lebesgue integrals. -/
theorem lintegral_mom (n : ℕ) : ∀ (b : ℝ) (t : ℝ≥0),
    ∫⁻ ω, ENNReal.ofReal (Spec.expFunctional B a μ t ω ^ n * exp (b * B t ω)) ∂P = ENNReal.ofReal (mom a μ n b t) := by
  have hP := isProb hB
  induction n with
  | zero =>
    intro b t
    have h := lintegral_exp_incr hB b (zero_le (a := t))
    have h0 := hB.law.eval_zero_ae_eq_zero
    simp only [pow_zero, one_mul, mom]
    have e : ∫⁻ ω, ENNReal.ofReal (exp (b * B t ω)) ∂P = ∫⁻ ω, ENNReal.ofReal (exp (b * (B t ω - B 0 ω))) ∂P :=
      lintegral_congr_ae (by filter_upwards [h0] with ω hω; rw [hω, sub_zero])
    rw [e, h]
    simp
  | succ n ih =>
    intro b t
    -- pathwise fundamental theorem
    have hpath : ∀ ω, ENNReal.ofReal (Spec.expFunctional B a μ t ω ^ (n + 1) * exp (b * B t ω)) =
        ∫⁻ s in Ioc (0:ℝ) t, ENNReal.ofReal ((n + 1) * Spec.expFunctional B a μ s ω ^ n * exp (a * B s.toNNReal ω + μ * s) * exp (b * B t ω)) := by
      intro ω
      have hc : Continuous fun s : ℝ => (n + 1) * Spec.expFunctional B a μ s ω ^ n * exp (a * B s.toNNReal ω + μ * s) * exp (b * B t ω) := by
        have h1 := continuous_A hB a μ ω
        have h2 := continuous_path hB a μ ω
        exact ((continuous_const.mul (h1.pow n)).mul h2).mul continuous_const
      have hd : ∀ s ∈ uIcc (0:ℝ) t, HasDerivAt (fun s => Spec.expFunctional B a μ s ω ^ (n + 1) * exp (b * B t ω))
          ((n + 1) * Spec.expFunctional B a μ s ω ^ n * exp (a * B s.toNNReal ω + μ * s) * exp (b * B t ω)) s := by
        intro s _
        have := ((hasDerivAt_A hB a μ ω s).fun_pow (n + 1)).mul_const (exp (b * B t ω))
        simpa using this
      have hft := intervalIntegral.integral_eq_sub_of_hasDerivAt hd (hc.intervalIntegrable _ _)
      have h0 : Spec.expFunctional B a μ 0 ω = 0 := intervalIntegral.integral_same
      rw [h0, zero_pow (Nat.succ_ne_zero n), zero_mul, sub_zero, intervalIntegral.integral_of_le (NNReal.coe_nonneg t)] at hft
      rw [← hft, ofReal_integral_eq_lintegral_ofReal]
      · exact hc.integrableOn_Ioc
      · refine (ae_restrict_iff' measurableSet_Ioc).2 (Filter.Eventually.of_forall fun s hs => ?_)
        have := A_nonneg hB a μ hs.1.le ω
        positivity
    simp_rw [hpath]
    rw [lintegral_lintegral_swap]
    · have hin : ∀ s ∈ Ioc (0:ℝ) t, ∫⁻ ω, ENNReal.ofReal ((n + 1) * Spec.expFunctional B a μ s ω ^ n * exp (a * B s.toNNReal ω + μ * s) *
          exp (b * B t ω)) ∂P = ENNReal.ofReal ((n + 1) * (mom a μ n (b + a) s * exp (μ * s) * exp (b ^ 2 * (t - s) / 2))) := by
        intro s hs
        have hs0 := hs.1.le
        lift s to ℝ≥0 using hs0
        have hst : s ≤ t := by exact_mod_cast hs.2
        have e : ∀ ω, ENNReal.ofReal ((n + 1) * Spec.expFunctional B a μ s ω ^ n * exp (a * B (s:ℝ).toNNReal ω + μ * s) * exp (b * B t ω)) =
            ENNReal.ofReal ((n + 1) * exp (μ * s)) * (ENNReal.ofReal (Spec.expFunctional B a μ s ω ^ n * exp ((b + a) * B s ω)) *
              ENNReal.ofReal (exp (b * (B t ω - B s ω)))) := by
          intro ω
          have hA := A_nonneg hB a μ (NNReal.coe_nonneg s) ω
          rw [← ENNReal.ofReal_mul (by positivity), ← ENNReal.ofReal_mul (by positivity), Real.toNNReal_coe]
          congr 1
          have : exp (a * B s ω + μ * s) * exp (b * B t ω) = exp (μ * s) * (exp ((b + a) * B s ω) * exp (b * (B t ω - B s ω))) := by
            rw [← exp_add, ← exp_add, ← exp_add]; congr 1; ring
          linear_combination ((n:ℝ) + 1) * Spec.expFunctional B a μ s ω ^ n * this
        simp_rw [e]
        have hA := measurable_A_past hB a μ s
        have hBs := measurable_B_past hB s
        have hf : Measurable[MeasurableSpace.comap (fun ω (u : Iic s) => B u ω) inferInstance]
            fun ω => ENNReal.ofReal (Spec.expFunctional B a μ s ω ^ n * exp ((b + a) * B s ω)) :=
          ((hA.pow_const n).mul ((hBs.const_mul (b + a)).exp)).ennreal_ofReal
        have h1 := hf.mono (past_le hB s) le_rfl
        have h2 : Measurable fun ω => ENNReal.ofReal (exp (b * (B t ω - B s ω))) := by
          have := hB.meas t; have := hB.meas s; fun_prop
        have h3 : Measurable fun ω => ENNReal.ofReal (Spec.expFunctional B a μ s ω ^ n * exp ((b + a) * B s ω)) *
            ENNReal.ofReal (exp (b * (B t ω - B s ω))) := h1.mul h2
        rw [lintegral_const_mul _ h3, lintegral_past_mul hB hst hf b, ih (b + a) s]
        have := mom_nonneg a μ n (b + a) (NNReal.coe_nonneg s)
        rw [← ENNReal.ofReal_mul this, ← ENNReal.ofReal_mul (by positivity)]
        congr 1
        ring
      rw [setLIntegral_congr_fun measurableSet_Ioc hin, ← ofReal_integral_eq_lintegral_ofReal]
      · rw [← intervalIntegral.integral_of_le (NNReal.coe_nonneg t), intervalIntegral.integral_const_mul]
        rfl
      · have : Continuous fun s : ℝ => ((n:ℝ) + 1) * (mom a μ n (b + a) s * exp (μ * s) * exp (b ^ 2 * (t - s) / 2)) := by
          have := continuous_mom a μ n (b + a); fun_prop
        exact this.integrableOn_Ioc
      · refine (ae_restrict_iff' measurableSet_Ioc).2 (Filter.Eventually.of_forall fun s hs => ?_)
        have := mom_nonneg a μ n (b + a) hs.1.le
        positivity
    · -- joint measurability
      have hjB : Measurable (Function.uncurry fun (ω : Ω) (s : ℝ) => B s.toNNReal ω) := by
        have h3 := measurable_uncurry_of_continuous_of_measurable (u := fun (s : ℝ) ω => B s.toNNReal ω)
          (fun ω => (hB.cont ω).comp continuous_real_toNNReal) (fun s => hB.meas _)
        exact h3.comp measurable_swap
      have hjA : Measurable (Function.uncurry fun (ω : Ω) (s : ℝ) => Spec.expFunctional B a μ (s.toNNReal) ω) := by
        have h3 := measurable_uncurry_of_continuous_of_measurable (u := fun (s : ℝ) ω => Spec.expFunctional B a μ s.toNNReal ω)
          (fun ω => (continuous_A hB a μ ω).comp (continuous_subtype_val.comp continuous_real_toNNReal)) (fun s => measurable_A hB a μ s.toNNReal.2)
        exact h3.comp measurable_swap
      have hsnd : Measurable fun p : Ω × ℝ => p.2 := measurable_snd
      have hBt : Measurable fun p : Ω × ℝ => B t p.1 := (hB.meas t).comp measurable_fst
      have hall : Measurable fun p : Ω × ℝ => ENNReal.ofReal ((n + 1) * Spec.expFunctional B a μ p.2.toNNReal p.1 ^ n *
          exp (a * B p.2.toNNReal p.1 + μ * p.2) * exp (b * B t p.1)) := by
        have h1 : Measurable fun p : Ω × ℝ => Spec.expFunctional B a μ p.2.toNNReal p.1 := hjA
        have h2 : Measurable fun p : Ω × ℝ => B p.2.toNNReal p.1 := hjB
        exact ((((h1.pow_const n).const_mul _).mul (((h2.const_mul a).add (hsnd.const_mul μ)).exp)).mul ((hBt.const_mul b).exp)).ennreal_ofReal
      refine hall.aemeasurable.congr ?_
      have hpos : ∀ᵐ p : Ω × ℝ ∂(P.prod (volume.restrict (Ioc (0:ℝ) t))), 0 ≤ p.2 := by
        have : ∀ᵐ s : ℝ ∂(volume.restrict (Ioc (0:ℝ) t)), 0 ≤ s :=
          (ae_restrict_iff' measurableSet_Ioc).2 (Filter.Eventually.of_forall fun s hs => hs.1.le)
        exact Measure.quasiMeasurePreserving_snd.ae this
      filter_upwards [hpos] with p hp
      simp only [Function.uncurry, Real.coe_toNNReal _ hp]

/-- All mixed moments. -/
theorem integral_mom (n : ℕ) (b : ℝ) (t : ℝ≥0) :
    Integrable (fun ω => Spec.expFunctional B a μ t ω ^ n * exp (b * B t ω)) P ∧
    ∫ ω, Spec.expFunctional B a μ t ω ^ n * exp (b * B t ω) ∂P = mom a μ n b t := by
  have hm : Measurable fun ω => Spec.expFunctional B a μ t ω ^ n * exp (b * B t ω) :=
    ((measurable_A hB a μ (NNReal.coe_nonneg t)).pow_const n).mul (((hB.meas t).const_mul b).exp)
  have hn : ∀ ω, 0 ≤ Spec.expFunctional B a μ t ω ^ n * exp (b * B t ω) := fun ω => by
    have := A_nonneg hB a μ (NNReal.coe_nonneg t) ω; positivity
  have hl := lintegral_mom hB a μ n b t
  have hi : Integrable (fun ω => Spec.expFunctional B a μ t ω ^ n * exp (b * B t ω)) P := by
    refine ⟨hm.aestronglyMeasurable, ?_⟩
    rw [hasFiniteIntegral_iff_ofReal (Filter.Eventually.of_forall hn), hl]
    exact ENNReal.ofReal_lt_top
  refine ⟨hi, ?_⟩
  rw [integral_eq_lintegral_of_nonneg_ae (Filter.Eventually.of_forall hn) hm.aestronglyMeasurable, hl,
    ENNReal.toReal_ofReal (mom_nonneg a μ n b (NNReal.coe_nonneg t))]

end BmExp

end PyFENG
