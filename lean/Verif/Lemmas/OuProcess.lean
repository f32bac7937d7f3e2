import Verif.Lemmas.Brownian
import Verif.Lemmas.MvGauss
import Mathlib.Probability.Distributions.Gaussian.IsGaussianProcess.Independence
import Mathlib.MeasureTheory.Measure.CharacteristicFunction.TaylorExpansion
import Mathlib.Analysis.SpecialFunctions.Integrals.Basic

/-!
# The Ornstein-Uhlenbeck process

The equation `dX_t = κ (θ - X_t) dt + ξ dW_t` has additive noise, so a solution is a continuous process satisfying the integrated equation for every path.
Every solution is Gaussian, with the mean and the covariance computed here.
-/

namespace PyFENG

open MeasureTheory ProbabilityTheory Real Set Filter Topology
open scoped NNReal ENNReal

/-- `X` solves `X_t = x0 + ∫_0^t κ (θ - X_s) ds + ξ W_t` for the Brownian motion `W`. -/
structure Spec.IsOU {Ω : Type*} [MeasurableSpace Ω] (P : Measure Ω) (W X : ℝ≥0 → Ω → ℝ) (κ θ ξ x0 : ℝ) : Prop where
  bm : Spec.IsBM P W
  cont : ∀ ω, Continuous fun t => X t ω
  sde : ∀ ω (t : ℝ≥0), X t ω = x0 + (∫ s in (0:ℝ)..t, κ * (θ - X s.toNNReal ω)) + ξ * W t ω

namespace Ou

/-! ### Limits of linear combinations of a Gaussian process -/

section Gauss

variable {Ω T : Type*} {W : T → Ω → ℝ}

/-- Pointwise limits of linear combinations. -/
def Lim (W : T → Ω → ℝ) (Y : Ω → ℝ) : Prop := ∃ y : ℕ → Ω → ℝ, (∀ n, y n ∈ Submodule.span ℝ (range W)) ∧ ∀ ω, Tendsto (fun n => y n ω) atTop (𝓝 (Y ω))

lemma Lim.of (t : T) : Lim W (W t) := ⟨fun _ => W t, fun _ => Submodule.subset_span ⟨t, rfl⟩, fun _ => tendsto_const_nhds⟩

lemma Lim.add {Y Z : Ω → ℝ} (hY : Lim W Y) (hZ : Lim W Z) : Lim W (fun ω => Y ω + Z ω) := by
  obtain ⟨y, h1, h2⟩ := hY
  obtain ⟨z, h3, h4⟩ := hZ
  exact ⟨fun n => y n + z n, fun n => Submodule.add_mem _ (h1 n) (h3 n), fun ω => (h2 ω).add (h4 ω)⟩

lemma Lim.smul {Y : Ω → ℝ} (c : ℝ) (hY : Lim W Y) : Lim W (fun ω => c * Y ω) := by
  obtain ⟨y, h1, h2⟩ := hY
  exact ⟨fun n => c • y n, fun n => Submodule.smul_mem _ _ (h1 n), fun ω => (h2 ω).const_mul c⟩

lemma Lim.zero : Lim W (fun _ => 0) := ⟨fun _ => 0, fun _ => Submodule.zero_mem _, fun _ => tendsto_const_nhds⟩

lemma Lim.sum {ι : Type*} (s : Finset ι) {Y : ι → Ω → ℝ} (h : ∀ i, Lim W (Y i)) : Lim W (fun ω => ∑ i ∈ s, Y i ω) := by
  classical
  induction s using Finset.induction_on with
  | empty => simpa using Lim.zero
  | insert a s ha ih => simp_rw [Finset.sum_insert ha]; exact (h a).add ih

variable [MeasurableSpace Ω] {P : Measure Ω}

/-- Linear combinations of a centred Gaussian process are centred normal. -/
lemma span_gauss (hW : IsGaussianProcess W P) (h0 : ∀ t, ∫ ω, W t ω ∂P = 0) {Y : Ω → ℝ} (hY : Y ∈ Submodule.span ℝ (range W)) :
    HasGaussianLaw Y P ∧ ∫ ω, Y ω ∂P = 0 := by
  obtain ⟨c, rfl⟩ := (Finsupp.mem_span_range_iff_exists_finsupp).1 hY
  have e : (c.sum fun i a => a • W i) = fun ω => ∑ i ∈ c.support, c i • W i ω := by
    ext ω
    simp [Finsupp.sum, Finset.sum_apply]
  rw [e]
  refine ⟨(hW.smul (fun i => c i)).hasGaussianLaw_fun_sum, ?_⟩
  show ∫ ω, ∑ i ∈ c.support, c i • W i ω ∂P = 0
  rw [integral_finsetSum c.support (f := fun i ω => c i • W i ω) fun i _ => ((hW.hasGaussianLaw_eval i).integrable).smul (c i)]
  exact Finset.sum_eq_zero fun i _ => by simp [integral_const_mul, h0]

/-- A pointwise limit of centred normal variables is centred normal. -/
lemma gauss_of_tendsto {y : ℕ → Ω → ℝ} {Y : Ω → ℝ} (hy : ∀ n, HasGaussianLaw (y n) P ∧ ∫ ω, y n ω ∂P = 0) (hl : ∀ ω, Tendsto (fun n => y n ω) atTop (𝓝 (Y ω))) :
    AEMeasurable Y P ∧ ∃ v : ℝ≥0, P.map Y = gaussianReal 0 v := by
  haveI := (hy 0).1.isProbabilityMeasure
  have hm : AEMeasurable Y P := aemeasurable_of_tendsto_metrizable_ae atTop (fun n => (hy n).1.aemeasurable) (ae_of_all _ hl)
  have hY := Measure.isProbabilityMeasure_map (μ := P) hm
  refine ⟨hm, ?_⟩
  have hlaw : ∀ n, P.map (y n) = gaussianReal 0 Var[y n; P].toNNReal := fun n => by rw [(hy n).1.map_eq_gaussianReal, (hy n).2]
  have hcf : ∀ u, Tendsto (fun n => charFun (P.map (y n)) u) atTop (𝓝 (charFun (P.map Y) u)) := by
    intro u
    simp_rw [charFun_apply_real]
    have e : ∀ f : Ω → ℝ, AEMeasurable f P → ∫ x, Complex.exp (u * x * Complex.I) ∂(P.map f) = ∫ ω, Complex.exp (u * f ω * Complex.I) ∂P := fun f hf => by
      rw [integral_map hf (by fun_prop)]
    rw [e Y hm]
    simp_rw [fun n => e (y n) (hy n).1.aemeasurable]
    refine tendsto_integral_of_dominated_convergence (fun _ => 1) (fun n => ?_) (integrable_const _) (fun n => ae_of_all _ fun ω => ?_) (ae_of_all _ fun ω => ?_)
    · have := (hy n).1.aemeasurable
      have h2 : Measurable fun x : ℝ => Complex.exp (u * x * Complex.I) := by fun_prop
      exact (h2.comp_aemeasurable this).aestronglyMeasurable
    · have := Complex.norm_exp_ofReal_mul_I (u * y n ω)
      push_cast at this
      rw [this]
    · have hc : Continuous fun x : ℝ => Complex.exp (u * x * Complex.I) := by fun_prop
      exact (hc.tendsto _).comp (hl ω)
  have hcont : Continuous (charFun (P.map Y)) := continuous_charFun
  have h1 : charFun (P.map Y) 0 = 1 := by simp [charFun_zero]
  obtain ⟨u, hu, hne⟩ : ∃ u : ℝ, u ≠ 0 ∧ charFun (P.map Y) u ≠ 0 := by
    have h2 : ∀ᶠ u in 𝓝 (0:ℝ), charFun (P.map Y) u ≠ 0 := hcont.continuousAt.eventually_ne (by rw [h1]; exact one_ne_zero)
    obtain ⟨ε, hε, hb⟩ := Metric.eventually_nhds_iff.1 h2
    exact ⟨ε / 2, by positivity, hb (by simp [abs_of_pos hε]; linarith)⟩
  have hcfn : ∀ n u, charFun (P.map (y n)) u = Complex.exp (-(Var[y n; P].toNNReal * u ^ 2 / 2)) := by
    intro n u
    rw [hlaw n, charFun_gaussianReal]
    congr 1
    push_cast
    ring
  have hnorm : ∀ n u, ‖charFun (P.map (y n)) u‖ = exp (-(Var[y n; P].toNNReal * u ^ 2 / 2)) := by
    intro n u
    rw [hcfn, show (-((Var[y n; P].toNNReal : ℂ) * u ^ 2 / 2)) = ((-(Var[y n; P].toNNReal * u ^ 2 / 2) : ℝ) : ℂ) by push_cast; ring, Complex.norm_exp_ofReal]
  have hv : ∃ v : ℝ, Tendsto (fun n => ((Var[y n; P].toNNReal : ℝ≥0) : ℝ)) atTop (𝓝 v) := by
    have h3 := ((hcf u).norm).log (by simpa using hne)
    simp_rw [hnorm, log_exp] at h3
    refine ⟨-(2 / u ^ 2) * log ‖charFun (P.map Y) u‖, ?_⟩
    refine (h3.const_mul (-(2 / u ^ 2))).congr fun n => ?_
    field_simp
  obtain ⟨v, hv⟩ := hv
  have hv0 : 0 ≤ v := ge_of_tendsto' hv fun n => NNReal.coe_nonneg _
  refine ⟨v.toNNReal, Measure.ext_of_charFun ?_⟩
  ext u
  refine tendsto_nhds_unique (hcf u) ?_
  simp_rw [hcfn]
  rw [charFun_gaussianReal, coe_toNNReal _ hv0]
  have hc : Continuous fun x : ℝ => Complex.exp (-((x:ℂ) * u ^ 2 / 2)) := by fun_prop
  have := (hc.tendsto v).comp hv
  refine Eq.subst (motive := fun z => Tendsto _ atTop (𝓝 z)) ?_ this
  congr 1
  push_cast
  ring

lemma Lim.gauss (hW : IsGaussianProcess W P) (h0 : ∀ t, ∫ ω, W t ω ∂P = 0) {Y : Ω → ℝ} (hY : Lim W Y) : AEMeasurable Y P ∧ ∃ v : ℝ≥0, P.map Y = gaussianReal 0 v := by
  obtain ⟨y, h1, h2⟩ := hY
  exact gauss_of_tendsto (fun n => span_gauss hW h0 (h1 n)) h2

/-- A family of limits of linear combinations of a centred Gaussian process is a Gaussian process. -/
lemma isGaussianProcess_of_lim (hW : IsGaussianProcess W P) (h0 : ∀ t, ∫ ω, W t ω ∂P = 0) {S : Type*} {Z : S → Ω → ℝ} (hZ : ∀ s, Lim W (Z s)) : IsGaussianProcess Z P where
  hasGaussianLaw I := by
    classical
    have hmZ : AEMeasurable (fun ω => I.restrict (Z · ω)) P := aemeasurable_pi_lambda _ fun i => ((hZ i).gauss hW h0).1
    refine ⟨isGaussian_of_map_eq_gaussianReal fun L => ?_⟩
    have e : (⇑L ∘ fun ω => I.restrict (Z · ω)) = fun ω => ∑ i : I, L (Pi.single i 1) * Z i ω := by
      ext ω
      exact MvGauss.dual_apply L _
    rw [AEMeasurable.map_map_of_aemeasurable L.continuous.measurable.aemeasurable hmZ, e]
    obtain ⟨v, hv⟩ := ((Lim.sum (W := W) (Finset.univ : Finset I) fun i => (hZ i).smul (L (Pi.single i 1))).gauss hW h0).2
    exact ⟨0, v, hv⟩

end Gauss

/-- Riemann sums of a continuous function. -/
lemma riemann {f : ℝ → ℝ} (hf : Continuous f) {t : ℝ} (ht : 0 ≤ t) :
    Tendsto (fun n : ℕ => ∑ k ∈ Finset.range (n + 1), t / (n + 1) * f (t * k / (n + 1))) atTop (𝓝 (∫ s in (0:ℝ)..t, f s)) := by
  rw [Metric.tendsto_atTop]
  intro ε hε
  have huc := (isCompact_Icc (a := (0:ℝ)) (b := t)).uniformContinuousOn_of_continuous hf.continuousOn
  obtain ⟨δ, hδ, hd⟩ := (Metric.uniformContinuousOn_iff.1 huc) (ε / (2 * (t + 1))) (by positivity)
  obtain ⟨N, hN⟩ := exists_nat_gt (t / δ)
  refine ⟨N, fun n hn => ?_⟩
  have hn1 : (0:ℝ) < n + 1 := by positivity
  have hsmall : t / (n + 1) < δ := by
    rw [div_lt_iff₀ hn1]
    have h1 : (N:ℝ) ≤ n := by exact_mod_cast hn
    rw [div_lt_iff₀ hδ] at hN
    nlinarith
  set a : ℕ → ℝ := fun k => t * k / (n + 1) with ha
  have hstep : ∀ k, a (k + 1) - a k = t / (n + 1) := by intro k; simp only [ha]; push_cast; field_simp; ring
  have hsum := intervalIntegral.sum_integral_adjacent_intervals (μ := volume) (f := f) (a := a) (n := n + 1) fun k _ => hf.intervalIntegrable _ _
  have ha0 : a 0 = 0 := by simp [ha]
  have hat : a (n + 1) = t := by simp only [ha]; push_cast; field_simp
  rw [ha0, hat] at hsum
  rw [← hsum, Real.dist_eq, ← Finset.sum_sub_distrib]
  have hterm : ∀ k ∈ Finset.range (n + 1), |t / (n + 1) * f (t * k / (n + 1)) - ∫ s in a k..a (k + 1), f s| ≤ ε / (2 * (t + 1)) * (t / (n + 1)) := by
    intro k hk
    have hk' : (k:ℝ) + 1 ≤ n + 1 := by exact_mod_cast Finset.mem_range.1 hk
    have e : t / (n + 1) * f (t * k / (n + 1)) = ∫ s in a k..a (k + 1), f (a k) := by
      rw [intervalIntegral.integral_const, hstep, smul_eq_mul]
    have hle : a k ≤ a (k + 1) := by have := hstep k; have : 0 ≤ t / (n + 1) := by positivity
                                     linarith [hstep k]
    rw [e, ← intervalIntegral.integral_sub intervalIntegrable_const (hf.intervalIntegrable _ _)]
    have hb := intervalIntegral.norm_integral_le_of_norm_le_const (a := a k) (b := a (k + 1)) (f := fun s => f (a k) - f s) (C := ε / (2 * (t + 1))) ?_
    · rw [hstep, abs_of_nonneg (by positivity)] at hb
      exact hb
    · intro s hs
      rw [uIoc_of_le hle] at hs
      have hak0 : 0 ≤ a k := by simp only [ha]; positivity
      have hak1 : a (k + 1) ≤ t := by
        simp only [ha]
        rw [div_le_iff₀ hn1]
        push_cast
        exact mul_le_mul_of_nonneg_left hk' ht
      have := hd (a k) ⟨hak0, by linarith⟩ s ⟨by linarith [hs.1], by linarith [hs.2]⟩ (by
        rw [Real.dist_eq, abs_sub_comm, abs_of_nonneg (by linarith [hs.1])]
        have := hstep k
        linarith [hs.2])
      exact this.le
  refine (Finset.abs_sum_le_sum_abs _ _).trans_lt ((Finset.sum_le_sum hterm).trans_lt ?_)
  rw [Finset.sum_const, Finset.card_range, nsmul_eq_mul]
  push_cast
  have : ((n:ℝ) + 1) * (ε / (2 * (t + 1)) * (t / (n + 1))) = ε / 2 * (t / (t + 1)) := by field_simp
  rw [this]
  have : t / (t + 1) ≤ 1 := by rw [div_le_one (by positivity)]; linarith
  nlinarith

/-! ### Fubini along continuous paths -/

section Path

variable {Ω : Type*} [mΩ : MeasurableSpace Ω] {P : Measure Ω}

lemma measurable_path_int {F : ℝ → Ω → ℝ} (hm : ∀ u, Measurable (F u)) (hc : ∀ ω, Continuous fun u => F u ω) {t : ℝ} (ht : 0 ≤ t) :
    Measurable fun ω => ∫ u in (0:ℝ)..t, F u ω := by
  have h3 := (measurable_uncurry_of_continuous_of_measurable hc hm).comp (measurable_swap (α := Ω) (β := ℝ))
  have hs : StronglyMeasurable (Function.uncurry fun (ω : Ω) (u : ℝ) => F u ω) := h3.stronglyMeasurable
  have h := (hs.integral_prod_right (ν := volume.restrict (Ioc 0 t))).measurable
  simp_rw [intervalIntegral.integral_of_le ht]
  exact h

/-- Expectation and time integral commute for a process with continuous paths and bounded absolute mean. -/
lemma fubini [SFinite P] {F : ℝ → Ω → ℝ} (hm : ∀ u, Measurable (F u)) (hc : ∀ ω, Continuous fun u => F u ω) {t C : ℝ} (ht : 0 ≤ t)
    (hi : ∀ u ∈ Ioc 0 t, Integrable (F u) P ∧ ∫ ω, |F u ω| ∂P ≤ C) :
    Integrable (fun ω => ∫ u in (0:ℝ)..t, F u ω) P ∧ ∫ ω, (∫ u in (0:ℝ)..t, F u ω) ∂P = ∫ u in (0:ℝ)..t, ∫ ω, F u ω ∂P := by
  have h3 : Measurable (Function.uncurry F) := measurable_uncurry_of_continuous_of_measurable hc hm
  have hI : Integrable (Function.uncurry F) ((volume.restrict (Ioc 0 t)).prod P) := by
    rw [integrable_prod_iff h3.aestronglyMeasurable]
    refine ⟨(ae_restrict_iff' measurableSet_Ioc).2 (ae_of_all _ fun u hu => (hi u hu).1), ?_⟩
    refine Integrable.mono' (integrable_const C) (h3.norm.stronglyMeasurable.integral_prod_right (ν := P)).aestronglyMeasurable ?_
    refine (ae_restrict_iff' measurableSet_Ioc).2 (ae_of_all _ fun u hu => ?_)
    rw [Real.norm_eq_abs, abs_of_nonneg (integral_nonneg fun _ => norm_nonneg _)]
    exact (hi u hu).2
  constructor
  · have := hI.integral_prod_right
    refine this.congr (ae_of_all _ fun ω => ?_)
    simp only [Function.uncurry]
    rw [intervalIntegral.integral_of_le ht]
  · rw [← uIoc_of_le ht] at hI
    exact (intervalIntegral_integral_swap hI).symm

end Path

/-! ### The solution -/

/-- `W_t - κ e^{-κ t} ∫_0^t e^{κ s} W_s ds`: the solution with `x0 = θ = 0`, `ξ = 1`. -/
noncomputable def zed {Ω : Type*} (W : ℝ≥0 → Ω → ℝ) (κ : ℝ) (t : ℝ≥0) (ω : Ω) : ℝ :=
  W t ω - κ * exp (-(κ * t)) * ∫ s in (0:ℝ)..t, exp (κ * s) * W s.toNNReal ω

variable {Ω : Type*} [mΩ : MeasurableSpace Ω] {P : Measure Ω} {W X : ℝ≥0 → Ω → ℝ} {κ θ ξ x0 : ℝ}

lemma volterra {w : ℝ → ℝ} (hw : Continuous w) {x : ℝ → ℝ} (hx : Continuous x) (κ θ ξ x0 : ℝ)
    (h : ∀ t, 0 ≤ t → x t = x0 + (∫ s in (0:ℝ)..t, κ * (θ - x s)) + ξ * w t) {t : ℝ} (ht : 0 ≤ t) :
    x t = θ + (x0 - θ) * exp (-(κ * t)) + ξ * (w t - κ * exp (-(κ * t)) * ∫ s in (0:ℝ)..t, exp (κ * s) * w s) := by
  set J : ℝ → ℝ := fun t => ∫ s in (0:ℝ)..t, (x s - θ) with hJ
  have hJd : ∀ t, HasDerivAt J (x t - θ) t := fun t =>
    (show Continuous fun s => x s - θ by fun_prop).integral_hasStrictDerivAt 0 t |>.hasDerivAt
  have hxJ : ∀ t, 0 ≤ t → x t - θ = x0 - θ - κ * J t + ξ * w t := by
    intro t ht
    rw [h t ht, hJ]
    have : ∫ s in (0:ℝ)..t, κ * (θ - x s) = -(κ * ∫ s in (0:ℝ)..t, (x s - θ)) := by
      rw [← intervalIntegral.integral_const_mul, ← intervalIntegral.integral_neg]
      exact intervalIntegral.integral_congr fun s _ => by ring
    rw [this]
    ring
  have hD : ∀ s ∈ Set.uIcc 0 t, HasDerivAt (fun t => exp (κ * t) * J t) (exp (κ * s) * (x0 - θ + ξ * w s)) s := by
    intro s hs
    rw [uIcc_of_le ht] at hs
    refine (((((hasDerivAt_id' s).const_mul κ).exp).fun_mul (hJd s))).congr_deriv ?_
    rw [hxJ s hs.1]
    ring
  have hFTC := intervalIntegral.integral_eq_sub_of_hasDerivAt (f' := fun s => exp (κ * s) * (x0 - θ + ξ * w s)) hD (Continuous.intervalIntegrable (by fun_prop) _ _)
  have hJ0 : J 0 = 0 := by simp [hJ]
  rw [hJ0, mul_zero, sub_zero] at hFTC
  have hsplit : ∫ s in (0:ℝ)..t, κ * (exp (κ * s) * (x0 - θ + ξ * w s)) = (x0 - θ) * (exp (κ * t) - 1) + ξ * (κ * ∫ s in (0:ℝ)..t, exp (κ * s) * w s) := by
    have e : ∀ s, κ * (exp (κ * s) * (x0 - θ + ξ * w s)) = (x0 - θ) * (κ * exp (κ * s)) + (ξ * κ) * (exp (κ * s) * w s) := fun s => by ring
    simp_rw [e]
    rw [intervalIntegral.integral_add (Continuous.intervalIntegrable (by fun_prop) _ _) (Continuous.intervalIntegrable (by fun_prop) _ _),
      intervalIntegral.integral_const_mul (x0 - θ), intervalIntegral.integral_const_mul (ξ * κ)]
    have h2 := intervalIntegral.integral_eq_sub_of_hasDerivAt (a := 0) (b := t) (f := fun s => exp (κ * s)) (f' := fun s => κ * exp (κ * s)) (fun s _ => by
      refine (((hasDerivAt_id' s).const_mul κ).exp).congr_deriv ?_
      ring) (Continuous.intervalIntegrable (by fun_prop) _ _)
    rw [h2]
    simp
    ring
  rw [intervalIntegral.integral_const_mul, hFTC] at hsplit
  have hx' := hxJ t ht
  have hE : exp (-(κ * t)) * exp (κ * t) = 1 := by rw [← exp_add]; simp
  have hk : κ * J t = exp (-(κ * t)) * ((x0 - θ) * (exp (κ * t) - 1) + ξ * (κ * ∫ s in (0:ℝ)..t, exp (κ * s) * w s)) := by
    rw [← hsplit]
    linear_combination (-(κ * J t)) * hE
  linear_combination hx' - hk - (x0 - θ) * hE

lemma _root_.PyFENG.Spec.IsOU.eq (h : Spec.IsOU P W X κ θ ξ x0) (t : ℝ≥0) (ω : Ω) : X t ω = θ + (x0 - θ) * exp (-(κ * t)) + ξ * zed W κ t ω := by
  have hw : Continuous fun s : ℝ => W s.toNNReal ω := (h.bm.cont ω).comp continuous_real_toNNReal
  have hx : Continuous fun s : ℝ => X s.toNNReal ω := (h.cont ω).comp continuous_real_toNNReal
  have := volterra hw hx κ θ ξ x0 (fun s hs => by
    have := h.sde ω s.toNNReal
    rw [coe_toNNReal _ hs] at this
    exact this) (NNReal.coe_nonneg t)
  simp only [Real.toNNReal_coe] at this
  rw [this]
  rfl

lemma int_exp (hκ : κ ≠ 0) (c a b : ℝ) : ∫ u in a..b, exp (κ * u) * c = c * (exp (κ * b) - exp (κ * a)) / κ := by
  rw [intervalIntegral.integral_mul_const]
  have h2 := intervalIntegral.integral_eq_sub_of_hasDerivAt (a := a) (b := b) (f := fun s => exp (κ * s) / κ) (f' := fun s => exp (κ * s)) (fun s _ => by
    refine ((((hasDerivAt_id' s).const_mul κ).exp).div_const κ).congr_deriv ?_
    field_simp) (Continuous.intervalIntegrable (by fun_prop) _ _)
  rw [h2]
  ring

section Zed

variable (hW : Spec.IsBM P W)
include hW

lemma cont_W (ω : Ω) : Continuous fun s : ℝ => W s.toNNReal ω := (hW.cont ω).comp continuous_real_toNNReal

lemma cont_eW (κ : ℝ) (ω : Ω) : Continuous fun s : ℝ => exp (κ * s) * W s.toNNReal ω :=
  (show Continuous fun s : ℝ => exp (κ * s) by fun_prop).mul (cont_W hW ω)

lemma lim_zed (κ : ℝ) (t : ℝ≥0) : Lim W (zed W κ t) := by
  have hI : Lim W fun ω => ∫ s in (0:ℝ)..t, exp (κ * s) * W s.toNNReal ω := by
    refine ⟨fun n ω => ∑ k ∈ Finset.range (n + 1), (t : ℝ) / (n + 1) * (exp (κ * (t * k / (n + 1))) * W (((t:ℝ) * k / (n + 1)).toNNReal) ω), fun n => ?_, fun ω => ?_⟩
    · have e : (fun ω => ∑ k ∈ Finset.range (n + 1), (t : ℝ) / (n + 1) * (exp (κ * (t * k / (n + 1))) * W (((t:ℝ) * k / (n + 1)).toNNReal) ω)) =
          ∑ k ∈ Finset.range (n + 1), ((t : ℝ) / (n + 1) * exp (κ * (t * k / (n + 1)))) • W (((t:ℝ) * k / (n + 1)).toNNReal) := by
        ext ω
        simp [Finset.sum_apply, mul_assoc]
      show (fun ω => ∑ k ∈ Finset.range (n + 1), (t : ℝ) / (n + 1) * (exp (κ * (t * k / (n + 1))) * W (((t:ℝ) * k / (n + 1)).toNNReal) ω)) ∈ _
      rw [e]
      exact Submodule.sum_mem _ fun k _ => Submodule.smul_mem _ _ (Submodule.subset_span ⟨_, rfl⟩)
    · exact riemann (cont_eW hW κ ω) (NNReal.coe_nonneg t)
  have := (Lim.of (W := W) t).add (hI.smul (-(κ * exp (-(κ * t)))))
  have e : (fun ω => W t ω + -(κ * exp (-(κ * t))) * ∫ s in (0:ℝ)..t, exp (κ * s) * W s.toNNReal ω) = zed W κ t := by
    ext ω; unfold zed; ring
  rwa [e] at this

lemma gauss_zed (κ : ℝ) : IsGaussianProcess (zed W κ) P := isGaussianProcess_of_lim hW.law.isGaussianProcess hW.law.integral_eval fun t => lim_zed hW κ t

lemma mean_zed (κ : ℝ) (t : ℝ≥0) : ∫ ω, zed W κ t ω ∂P = 0 := by
  obtain ⟨hm, v, hv⟩ := (lim_zed hW κ t).gauss hW.law.isGaussianProcess hW.law.integral_eval
  have h := integral_map (μ := P) (f := fun x : ℝ => x) hm (by fun_prop)
  rw [hv, integral_id_gaussianReal] at h
  exact h.symm

lemma meas_zed (κ : ℝ) (t : ℝ≥0) : Measurable (zed W κ t) := by
  have h1 := measurable_path_int (F := fun s ω => exp (κ * s) * W s.toNNReal ω) (fun u => (hW.meas _).const_mul _)
    (fun ω => cont_eW hW κ ω) (NNReal.coe_nonneg t)
  unfold zed
  exact (hW.meas t).sub (h1.const_mul _)

lemma cont_zed (κ : ℝ) (ω : Ω) : Continuous fun t => zed W κ t ω := by
  have hc := cont_W hW ω
  have h1 := intervalIntegral.continuous_primitive (μ := volume) (f := fun s => exp (κ * s) * W s.toNNReal ω) (fun u v => (cont_eW hW κ ω).intervalIntegrable u v) 0
  have h2 : Continuous fun t : ℝ≥0 => ∫ s in (0:ℝ)..t, exp (κ * s) * W s.toNNReal ω := h1.comp NNReal.continuous_coe
  have h3 := hW.cont ω
  unfold zed
  exact h3.sub ((show Continuous fun t : ℝ≥0 => κ * exp (-(κ * t)) by fun_prop).mul h2)

lemma memLp_zed (κ : ℝ) (t : ℝ≥0) : MemLp (zed W κ t) 2 P := ((gauss_zed hW κ).hasGaussianLaw_eval t).memLp_two

lemma memLp_W (t : ℝ≥0) : MemLp (W t) 2 P := (hW.law.isGaussianProcess.hasGaussianLaw_eval t).memLp_two

lemma W_mul (s t : ℝ≥0) : ∫ ω, W s ω * W t ω ∂P = min s t := by
  haveI := BmExp.isProb hW
  have := hW.law.covariance_eval s t
  rw [covariance_eq_sub (memLp_W hW s) (memLp_W hW t), hW.law.integral_eval, zero_mul, sub_zero] at this
  exact this

/-- `E[Y Z_t]` from `E[Y W_u]`. -/
lemma mul_zed {Y : Ω → ℝ} (hm : Measurable Y) (hY : MemLp Y 2 P) (κ : ℝ) (t : ℝ≥0) :
    ∫ ω, Y ω * zed W κ t ω ∂P = ∫ ω, Y ω * W t ω ∂P - κ * exp (-(κ * t)) * ∫ u in (0:ℝ)..t, exp (κ * u) * ∫ ω, Y ω * W u.toNNReal ω ∂P := by
  haveI := BmExp.isProb hW
  have hi : ∀ u : ℝ≥0, Integrable (fun ω => Y ω * W u ω) P := fun u => hY.integrable_mul (memLp_W hW u)
  have hF := fubini (P := P) (F := fun u ω => exp (κ * u) * (Y ω * W u.toNNReal ω)) (C := exp (|κ| * t) * ((∫ ω, Y ω ^ 2 ∂P) + t))
    (fun u => (hm.mul (hW.meas _)).const_mul _) (fun ω => (show Continuous fun s : ℝ => exp (κ * s) by fun_prop).mul (continuous_const.mul (cont_W hW ω))) (NNReal.coe_nonneg t) (fun u hu => ?_)
  · have e : ∀ ω, Y ω * zed W κ t ω = Y ω * W t ω - κ * exp (-(κ * t)) * ∫ u in (0:ℝ)..t, exp (κ * u) * (Y ω * W u.toNNReal ω) := by
      intro ω
      unfold zed
      have : ∫ u in (0:ℝ)..t, exp (κ * u) * (Y ω * W u.toNNReal ω) = Y ω * ∫ u in (0:ℝ)..t, exp (κ * u) * W u.toNNReal ω := by
        rw [← intervalIntegral.integral_const_mul]
        exact intervalIntegral.integral_congr fun u _ => by ring
      rw [this]
      ring
    simp_rw [e]
    rw [integral_sub (hi t) (hF.1.const_mul _), integral_const_mul, hF.2]
    congr 2
    exact intervalIntegral.integral_congr fun u _ => by rw [integral_const_mul]
  · refine ⟨(hi _).const_mul _, ?_⟩
    simp_rw [abs_mul, abs_of_pos (exp_pos _)]
    rw [integral_const_mul]
    have h1 : ∫ ω, |Y ω| * |W u.toNNReal ω| ∂P ≤ (∫ ω, Y ω ^ 2 ∂P) + t := by
      have hw2 : ∫ ω, W u.toNNReal ω ^ 2 ∂P = u := by
        have := W_mul hW u.toNNReal u.toNNReal
        simp_rw [← sq] at this
        rw [this]
        simp [hu.1.le]
      calc ∫ ω, |Y ω| * |W u.toNNReal ω| ∂P ≤ ∫ ω, (Y ω ^ 2 + W u.toNNReal ω ^ 2) ∂P := by
            refine integral_mono_of_nonneg (ae_of_all _ fun ω => by positivity) (hY.integrable_sq.add (memLp_W hW _).integrable_sq) (ae_of_all _ fun ω => ?_)
            simp only
            nlinarith [sq_abs (Y ω), sq_abs (W u.toNNReal ω), sq_nonneg (|Y ω| - |W u.toNNReal ω|), sq_nonneg (Y ω), sq_nonneg (W u.toNNReal ω)]
        _ = (∫ ω, Y ω ^ 2 ∂P) + u := by rw [integral_add hY.integrable_sq (memLp_W hW _).integrable_sq, hw2]
        _ ≤ _ := by linarith [hu.2]
    have h2 : exp (κ * u) ≤ exp (|κ| * t) := exp_le_exp.2 ((le_abs_self _).trans (by rw [abs_mul, abs_of_pos hu.1]; exact mul_le_mul_of_nonneg_left hu.2 (abs_nonneg _)))
    exact mul_le_mul h2 h1 (integral_nonneg fun _ => by positivity) (exp_pos _).le

lemma W_zed (hκ : κ ≠ 0) {r s : ℝ≥0} (hrs : r ≤ s) : ∫ ω, W r ω * zed W κ s ω ∂P = exp (-(κ * s)) * (exp (κ * r) - 1) / κ := by
  have hrs' : (r:ℝ) ≤ s := by exact_mod_cast hrs
  rw [mul_zed hW (hW.meas r) (memLp_W hW r), W_mul hW, min_eq_left hrs]
  have hsplit : ∫ u in (0:ℝ)..s, exp (κ * u) * ∫ ω, W r ω * W u.toNNReal ω ∂P = (∫ u in (0:ℝ)..r, exp (κ * u) * u) + ∫ u in (r:ℝ)..s, exp (κ * u) * (r:ℝ) := by
    have e : ∀ u : ℝ, 0 ≤ u → ∫ ω, W r ω * W u.toNNReal ω ∂P = min (r:ℝ) u := fun u hu => by rw [W_mul hW, NNReal.coe_min, coe_toNNReal _ hu]
    have e1 : ∫ u in (0:ℝ)..s, exp (κ * u) * ∫ ω, W r ω * W u.toNNReal ω ∂P = ∫ u in (0:ℝ)..s, exp (κ * u) * min (r:ℝ) u :=
      intervalIntegral.integral_congr fun u hu => by
        rw [uIcc_of_le (NNReal.coe_nonneg s)] at hu
        rw [e u hu.1]
    rw [e1, ← intervalIntegral.integral_add_adjacent_intervals (b := (r:ℝ)) (Continuous.intervalIntegrable (by fun_prop) _ _) (Continuous.intervalIntegrable (by fun_prop) _ _)]
    congr 1
    · exact intervalIntegral.integral_congr fun u hu => by
        rw [uIcc_of_le (NNReal.coe_nonneg r)] at hu
        rw [min_eq_right hu.2]
    · exact intervalIntegral.integral_congr fun u hu => by
        rw [uIcc_of_le hrs'] at hu
        rw [min_eq_left hu.1]
  rw [hsplit, int_exp hκ]
  have h2 := intervalIntegral.integral_eq_sub_of_hasDerivAt (a := 0) (b := (r:ℝ)) (f := fun u => exp (κ * u) * (u / κ - 1 / κ ^ 2)) (f' := fun u => exp (κ * u) * u) (fun u _ => by
    refine ((((hasDerivAt_id' u).const_mul κ).exp).fun_mul (((hasDerivAt_id' u).div_const κ).sub_const (1 / κ ^ 2))).congr_deriv ?_
    field_simp
    ring) (Continuous.intervalIntegrable (by fun_prop) _ _)
  rw [h2]
  have hE : exp (-(κ * (s:ℝ))) = 1 / exp (κ * s) := by rw [exp_neg, one_div]
  rw [hE, mul_zero, exp_zero]
  have := (exp_pos (κ * (s:ℝ))).ne'
  generalize exp (κ * (s:ℝ)) = a at *
  generalize exp (κ * (r:ℝ)) = b at *
  field_simp
  ring

/-- The covariance of the solution. -/
lemma zed_mul (hκ : κ ≠ 0) {s t : ℝ≥0} (hts : t ≤ s) : ∫ ω, zed W κ s ω * zed W κ t ω ∂P = (exp (-(κ * (s - t))) - exp (-(κ * (s + t)))) / (2 * κ) := by
  rw [mul_zed hW (meas_zed hW κ s) (memLp_zed hW κ s)]
  have e : ∀ r : ℝ≥0, r ≤ s → ∫ ω, zed W κ s ω * W r ω ∂P = exp (-(κ * s)) * (exp (κ * r) - 1) / κ := fun r hr => by
    rw [← W_zed hW hκ hr]
    exact integral_congr_ae (ae_of_all _ fun ω => by simp only; ring)
  have e1 : ∫ u in (0:ℝ)..t, exp (κ * u) * ∫ ω, zed W κ s ω * W u.toNNReal ω ∂P = ∫ u in (0:ℝ)..t, exp (κ * u) * (exp (-(κ * s)) * (exp (κ * u) - 1) / κ) :=
    intervalIntegral.integral_congr fun u hu => by
      rw [uIcc_of_le (NNReal.coe_nonneg t)] at hu
      have hu2 : u.toNNReal ≤ s := (Real.toNNReal_le_iff_le_coe.2 hu.2).trans hts
      rw [e _ hu2, coe_toNNReal _ hu.1]
  rw [e t hts, e1]
  have h2 := intervalIntegral.integral_eq_sub_of_hasDerivAt (a := 0) (b := (t:ℝ)) (f := fun u => exp (-(κ * s)) / κ * (exp (κ * u) ^ 2 / (2 * κ) - exp (κ * u) / κ))
    (f' := fun u => exp (κ * u) * (exp (-(κ * s)) * (exp (κ * u) - 1) / κ)) (fun u _ => by
      have hd := ((hasDerivAt_id' u).const_mul κ).exp
      refine (((hd.fun_pow 2).div_const (2 * κ)).fun_sub (hd.div_const κ) |>.const_mul (exp (-(κ * s)) / κ)).congr_deriv ?_
      generalize exp (κ * u) = a
      generalize exp (-(κ * (s:ℝ))) = b
      norm_num
      field_simp
      ) (Continuous.intervalIntegrable (by fun_prop) _ _)
  rw [h2]
  have hE : exp (-(κ * (s:ℝ))) = 1 / exp (κ * s) := by rw [exp_neg, one_div]
  have hE2 : exp (-(κ * (t:ℝ))) = 1 / exp (κ * t) := by rw [exp_neg, one_div]
  have hE3 : exp (-(κ * ((s:ℝ) - t))) = exp (κ * t) / exp (κ * s) := by rw [← exp_sub]; ring_nf
  have hE4 : exp (-(κ * ((s:ℝ) + t))) = 1 / (exp (κ * t) * exp (κ * s)) := by rw [← exp_add, exp_neg, one_div]; ring_nf
  rw [hE, hE2, hE3, hE4, mul_zero, exp_zero]
  have h1 := (exp_pos (κ * (s:ℝ))).ne'
  have h3 := (exp_pos (κ * (t:ℝ))).ne'
  generalize exp (κ * (s:ℝ)) = a at *
  generalize exp (κ * (t:ℝ)) = b at *
  field_simp
  ring

/-- The solution exists. -/
lemma isOU (κ θ ξ x0 : ℝ) : Spec.IsOU P W (fun t ω => θ + (x0 - θ) * exp (-(κ * t)) + ξ * zed W κ t ω) κ θ ξ x0 where
  bm := hW
  cont ω := by
    have := cont_zed hW κ ω
    exact (show Continuous fun t : ℝ≥0 => θ + (x0 - θ) * exp (-(κ * t)) by fun_prop).add (continuous_const.mul this)
  sde ω t := by
    set I : ℝ → ℝ := fun t => ∫ s in (0:ℝ)..t, exp (κ * s) * W s.toNNReal ω with hI
    have hId : ∀ t, HasDerivAt I (exp (κ * t) * W t.toNNReal ω) t := fun t => ((cont_eW hW κ ω).integral_hasStrictDerivAt 0 t).hasDerivAt
    have hD : ∀ s ∈ uIcc (0:ℝ) t, HasDerivAt (fun s => -((x0 - θ) * (1 - exp (-(κ * s)))) - ξ * κ * (exp (-(κ * s)) * I s))
        (κ * (θ - (θ + (x0 - θ) * exp (-(κ * (s.toNNReal : ℝ))) + ξ * zed W κ s.toNNReal ω))) s := by
      intro s hs
      rw [uIcc_of_le (NNReal.coe_nonneg t)] at hs
      have hd : HasDerivAt (fun s => exp (-(κ * s))) (exp (-(κ * s)) * -(κ * 1)) s := (((hasDerivAt_id' s).const_mul κ).fun_neg).exp
      refine (((hd.const_sub 1).const_mul (x0 - θ)).fun_neg.fun_sub ((hd.fun_mul (hId s)).const_mul (ξ * κ))).congr_deriv ?_
      unfold zed
      rw [coe_toNNReal _ hs.1, show (∫ u in (0:ℝ)..s, exp (κ * u) * W u.toNNReal ω) = I s from rfl]
      have hE : exp (-(κ * s)) * exp (κ * s) = 1 := by rw [← exp_add]; simp
      linear_combination (-(ξ * κ * W s.toNNReal ω)) * hE
    have hc : Continuous fun s : ℝ => κ * (θ - (θ + (x0 - θ) * exp (-(κ * (s.toNNReal : ℝ))) + ξ * zed W κ s.toNNReal ω)) := by
      have h1 : Continuous fun s : ℝ => zed W κ s.toNNReal ω := (cont_zed hW κ ω).comp continuous_real_toNNReal
      have h2 : Continuous fun s : ℝ => exp (-(κ * (s.toNNReal : ℝ))) := by fun_prop
      exact continuous_const.mul (continuous_const.sub ((continuous_const.add (continuous_const.mul h2)).add (continuous_const.mul h1)))
    rw [intervalIntegral.integral_eq_sub_of_hasDerivAt hD (hc.intervalIntegrable _ _)]
    have h0 : I 0 = 0 := by simp [hI]
    have hz : zed W κ t ω = W t ω - κ * exp (-(κ * t)) * I t := rfl
    rw [h0, hz]
    simp
    ring

/-- The innovation over `[s, s + d]`. -/
lemma innovation (hκ : κ ≠ 0) (s : ℝ≥0) {d : ℝ≥0} (hd : 0 < d) :
    Measurable (fun ω => (zed W κ (s + d) ω - exp (-(κ * d)) * zed W κ s ω) / √((1 - exp (-(κ * d)) ^ 2) / (2 * κ))) ∧
    P.map (fun ω => (zed W κ (s + d) ω - exp (-(κ * d)) * zed W κ s ω) / √((1 - exp (-(κ * d)) ^ 2) / (2 * κ))) = gaussianReal 0 1 ∧
    IndepFun (fun ω (u : Iic s) => zed W κ u ω) (fun ω => (zed W κ (s + d) ω - exp (-(κ * d)) * zed W κ s ω) / √((1 - exp (-(κ * d)) ^ 2) / (2 * κ))) P := by
  haveI := BmExp.isProb hW
  have hd' : (0:ℝ) < d := by exact_mod_cast hd
  have hv : 0 < (1 - exp (-(κ * d)) ^ 2) / (2 * κ) := by
    rw [← exp_nat_mul]
    push_cast
    rcases lt_or_gt_of_ne hκ with h | h
    · exact div_pos_of_neg_of_neg (by rw [sub_neg, one_lt_exp_iff]; nlinarith) (by linarith)
    · exact div_pos (by rw [sub_pos, exp_lt_one_iff]; nlinarith) (by linarith)
  set v := (1 - exp (-(κ * d)) ^ 2) / (2 * κ) with hvdef
  set N : Ω → ℝ := fun ω => (zed W κ (s + d) ω - exp (-(κ * d)) * zed W κ s ω) / √v with hN
  have hNl : Lim W N := by
    have := ((lim_zed hW κ (s + d)).smul (1 / √v)).add ((lim_zed hW κ s).smul (-(exp (-(κ * d)) / √v)))
    have e : (fun ω => 1 / √v * zed W κ (s + d) ω + -(exp (-(κ * d)) / √v) * zed W κ s ω) = N := by ext ω; rw [hN]; ring
    rwa [e] at this
  have hNm : Measurable N := ((meas_zed hW κ _).sub ((meas_zed hW κ _).const_mul _)).div_const _
  have hi : ∀ a b, Integrable (fun ω => zed W κ a ω * zed W κ b ω) P := fun a b => (memLp_zed hW κ a).integrable_mul (memLp_zed hW κ b)
  have hcov : ∀ u ≤ s, ∫ ω, zed W κ u ω * N ω ∂P = 0 := by
    intro u hu
    have e : ∀ ω, zed W κ u ω * N ω = (1 / √v) * (zed W κ (s + d) ω * zed W κ u ω) - (exp (-(κ * d)) / √v) * (zed W κ s ω * zed W κ u ω) := fun ω => by
      rw [hN]; ring
    simp_rw [e]
    rw [integral_sub ((hi _ _).const_mul _) ((hi _ _).const_mul _), integral_const_mul, integral_const_mul, zed_mul hW hκ (hu.trans (by simp)), zed_mul hW hκ hu]
    push_cast
    have e1 : exp (-(κ * ((s:ℝ) + d - u))) = exp (-(κ * d)) * exp (-(κ * ((s:ℝ) - u))) := by rw [← exp_add]; ring_nf
    have e2 : exp (-(κ * ((s:ℝ) + d + u))) = exp (-(κ * d)) * exp (-(κ * ((s:ℝ) + u))) := by rw [← exp_add]; ring_nf
    rw [e1, e2]
    ring
  refine ⟨hNm, ?_, ?_⟩
  · obtain ⟨_, w, hw⟩ := hNl.gauss hW.law.isGaussianProcess hW.law.integral_eval
    have h2 : ∫ ω, N ω ^ 2 ∂P = 1 := by
      have e : ∀ ω, N ω ^ 2 = (1 / v) * (zed W κ (s + d) ω * zed W κ (s + d) ω) - (2 * exp (-(κ * d)) / v) * (zed W κ (s + d) ω * zed W κ s ω)
          + (exp (-(κ * d)) ^ 2 / v) * (zed W κ s ω * zed W κ s ω) := fun ω => by
        rw [hN]; simp only; rw [div_pow, sq_sqrt hv.le]; ring
      simp_rw [e]
      rw [integral_add (f := fun ω => (1 / v) * (zed W κ (s + d) ω * zed W κ (s + d) ω) - (2 * exp (-(κ * d)) / v) * (zed W κ (s + d) ω * zed W κ s ω))
          (((hi _ _).const_mul _).sub ((hi _ _).const_mul _)) ((hi _ _).const_mul _), integral_sub ((hi _ _).const_mul _) ((hi _ _).const_mul _),
        integral_const_mul, integral_const_mul, integral_const_mul, zed_mul hW hκ le_rfl, zed_mul hW hκ (by simp), zed_mul hW hκ le_rfl]
      push_cast
      have hve : v * (2 * κ) = 1 - exp (-(κ * d)) ^ 2 := by rw [hvdef]; field_simp
      have e0 : exp (-(κ * ((s:ℝ) + d - ((s:ℝ) + d)))) = 1 := by simp
      have e0' : exp (-(κ * ((s:ℝ) - s))) = 1 := by simp
      have e1 : exp (-(κ * ((s:ℝ) + d - s))) = exp (-(κ * d)) := by ring_nf
      have e2 : exp (-(κ * ((s:ℝ) + d + ((s:ℝ) + d)))) = exp (-(κ * d)) ^ 2 * exp (-(κ * ((s:ℝ) + s))) := by rw [← exp_nat_mul, ← exp_add]; push_cast; ring_nf
      have e3 : exp (-(κ * ((s:ℝ) + d + s))) = exp (-(κ * d)) * exp (-(κ * ((s:ℝ) + s))) := by rw [← exp_add]; ring_nf
      rw [e0, e0', e1, e2, e3]
      have hvn := hv.ne'
      clear_value v
      generalize exp (-(κ * (d:ℝ))) = E at *
      generalize exp (-(κ * ((s:ℝ) + s))) = F at *
      have hvv : v = (1 - E ^ 2) / (2 * κ) := by rw [eq_div_iff (by simpa using hκ)]; exact hve
      have hne : 1 - E ^ 2 ≠ 0 := by rw [← hve]; positivity
      field_simp
      linear_combination (-1 : ℝ) * hve
    have h3 := integral_map (μ := P) (f := fun x : ℝ => x ^ 2) hNm.aemeasurable (by fun_prop)
    rw [hw, h2] at h3
    have h4 := variance_id_gaussianReal (μ := 0) (v := w)
    rw [variance_of_integral_eq_zero (by fun_prop) (by simpa using integral_id_gaussianReal (μ := 0) (v := w))] at h4
    simp only [id] at h4
    rw [h3] at h4
    rw [hw]
    congr 1
    exact_mod_cast h4.symm
  · have hg : IsGaussianProcess (Sum.elim (fun u : Iic s => zed W κ u) (fun _ : Unit => N)) P :=
      isGaussianProcess_of_lim hW.law.isGaussianProcess hW.law.integral_eval fun x => by
        rcases x with u | _
        · exact lim_zed hW κ u
        · exact hNl
    have := hg.indepFun_of_covariance_eq_zero (fun u => (meas_zed hW κ u).aemeasurable) (fun _ => hNm.aemeasurable) (fun u _ => by
      have hN2 : MemLp N 2 P := (hg.hasGaussianLaw_eval (Sum.inr ())).memLp_two
      rw [covariance_eq_sub (memLp_zed hW κ u) hN2, mean_zed hW, zero_mul, sub_zero]
      exact hcov u u.2)
    exact this.comp measurable_id (measurable_pi_apply ())

end Zed

lemma lin_law {T : Type*} {Y : T → Ω → ℝ} (h : IsGaussianProcess Y P) (h0 : ∀ t, ∫ ω, Y t ω ∂P = 0) (I : Finset T) (c : I → ℝ) :
    P.map (fun ω => ∑ i : I, c i * Y i ω) = gaussianReal 0 (∑ i : I, ∑ j : I, c i * c j * ∫ ω, Y i ω * Y j ω ∂P).toNNReal := by
  have hsp := span_gauss h h0 (Y := fun ω => ∑ i : I, c i * Y i ω) (by
    have e : (fun ω => ∑ i : I, c i * Y i ω) = ∑ i : I, c i • Y i := by ext ω; simp [Finset.sum_apply]
    rw [e]
    exact Submodule.sum_mem _ fun i _ => Submodule.smul_mem _ _ (Submodule.subset_span ⟨_, rfl⟩))
  have hL : ∀ t, MemLp (Y t) 2 P := fun t => (h.hasGaussianLaw_eval t).memLp_two
  rw [hsp.1.map_eq_gaussianReal, hsp.2, variance_of_integral_eq_zero hsp.1.aemeasurable hsp.2]
  congr 2
  simp_rw [sq, Finset.sum_mul_sum]
  have hij : ∀ i j : I, Integrable (fun ω => c i * Y i ω * (c j * Y j ω)) P := fun i j =>
    (((hL i).integrable_mul (hL j)).const_mul (c i * c j)).congr (ae_of_all _ fun ω => by simp only [Pi.mul_apply]; ring)
  rw [integral_finsetSum _ fun i _ => integrable_finsetSum _ fun j _ => hij i j]
  refine Finset.sum_congr rfl fun i _ => ?_
  rw [integral_finsetSum _ fun j _ => hij i j]
  refine Finset.sum_congr rfl fun j _ => ?_
  rw [← integral_const_mul]
  exact integral_congr_ae (ae_of_all _ fun ω => by simp only; ring)

/-- Centred Gaussian processes with the same covariance have the same finite-dimensional laws. -/
lemma fdd_eq {T Ω' : Type*} [MeasurableSpace Ω'] {P' : Measure Ω'} {Y : T → Ω → ℝ} {Y' : T → Ω' → ℝ} (h : IsGaussianProcess Y P) (h' : IsGaussianProcess Y' P')
    (h0 : ∀ t, ∫ ω, Y t ω ∂P = 0) (h0' : ∀ t, ∫ ω, Y' t ω ∂P' = 0) (hc : ∀ s t, ∫ ω, Y s ω * Y t ω ∂P = ∫ ω, Y' s ω * Y' t ω ∂P') (I : Finset T) :
    P.map (fun ω => I.restrict (Y · ω)) = P'.map (fun ω => I.restrict (Y' · ω)) := by
  classical
  haveI := h.isProbabilityMeasure
  haveI := h'.isProbabilityMeasure
  have hm : AEMeasurable (fun ω => I.restrict (Y · ω)) P := aemeasurable_pi_lambda _ fun i => h.aemeasurable i
  have hm' : AEMeasurable (fun ω => I.restrict (Y' · ω)) P' := aemeasurable_pi_lambda _ fun i => h'.aemeasurable i
  haveI := Measure.isProbabilityMeasure_map hm
  haveI := Measure.isProbabilityMeasure_map hm'
  refine Measure.ext_of_charFunDual ?_
  ext L
  rw [charFunDual_eq_charFun_map_one, charFunDual_eq_charFun_map_one, AEMeasurable.map_map_of_aemeasurable L.continuous.measurable.aemeasurable hm,
    AEMeasurable.map_map_of_aemeasurable L.continuous.measurable.aemeasurable hm']
  have e : (⇑L ∘ fun ω => I.restrict (Y · ω)) = fun ω => ∑ i : I, L (Pi.single i 1) * Y i ω := by
    ext ω
    exact MvGauss.dual_apply L _
  have e' : (⇑L ∘ fun ω => I.restrict (Y' · ω)) = fun ω => ∑ i : I, L (Pi.single i 1) * Y' i ω := by
    ext ω
    exact MvGauss.dual_apply L _
  rw [e, e', lin_law h h0, lin_law h' h0']
  simp_rw [hc]

end Ou

end PyFENG
