import Verif.Lemmas.OuProcess
import Verif.Lemmas.Moments
import Mathlib.MeasureTheory.Function.ConvergenceInMeasure

/-!
# Quadratic variation of Brownian motion and Itô integrals of Ornstein-Uhlenbeck processes
-/

namespace PyFENG

open MeasureTheory ProbabilityTheory Real Set Filter Topology
open scoped NNReal ENNReal

/-- The integral of the process `X` against `W` over `[0, T]`: the limit in probability of the sums with the integrand at the left end points of `n` equal intervals. -/
def Spec.IsItoIntegral {Ω : Type*} [MeasurableSpace Ω] (P : Measure Ω) (W X : ℝ≥0 → Ω → ℝ) (T : ℝ≥0) (I : Ω → ℝ) : Prop :=
  TendstoInMeasure P (fun (n : ℕ) ω => ∑ i ∈ Finset.range n, X (i * (T / n)) ω * (W ((i + 1 : ℕ) * (T / n)) ω - W (i * (T / n)) ω)) atTop I

namespace QuadVar

variable {Ω : Type*} {mΩ : MeasurableSpace Ω} {P : Measure Ω} {W X : ℝ≥0 → Ω → ℝ}

lemma tendstoInMeasure_add [IsFiniteMeasure P] {f g : ℕ → Ω → ℝ} {F G : Ω → ℝ} (hf : TendstoInMeasure P f atTop F) (hg : TendstoInMeasure P g atTop G) :
    TendstoInMeasure P (fun n ω => f n ω + g n ω) atTop (fun ω => F ω + G ω) := by
  rw [tendstoInMeasure_iff_norm] at *
  intro ε hε
  have h := (hf (ε / 2) (by linarith)).add (hg (ε / 2) (by linarith))
  rw [add_zero] at h
  refine tendsto_of_tendsto_of_tendsto_of_le_of_le tendsto_const_nhds h (fun _ => zero_le) fun n => ?_
  refine (measure_mono ?_).trans (measure_union_le _ _)
  intro ω hω
  simp only [mem_ofPred_eq, mem_union] at hω ⊢
  by_contra hc
  push Not at hc
  have e : f n ω + g n ω - (F ω + G ω) = (f n ω - F ω) + (g n ω - G ω) := by ring
  rw [e] at hω
  have := norm_add_le (f n ω - F ω) (g n ω - G ω)
  linarith

lemma tendstoInMeasure_mul {f : ℕ → Ω → ℝ} {F : Ω → ℝ} (hf : TendstoInMeasure P f atTop F) (c : ℝ) :
    TendstoInMeasure P (fun n ω => c * f n ω) atTop (fun ω => c * F ω) := by
  rw [tendstoInMeasure_iff_norm] at *
  intro ε hε
  have hc : 0 < |c| + 1 := by positivity
  refine tendsto_of_tendsto_of_tendsto_of_le_of_le tendsto_const_nhds (hf (ε / (|c| + 1)) (by positivity)) (fun _ => zero_le) fun n => ?_
  refine measure_mono fun ω hω => ?_
  simp only [mem_ofPred_eq] at hω ⊢
  rw [← mul_sub, norm_mul, Real.norm_eq_abs c] at hω
  rw [div_le_iff₀ hc]
  nlinarith [norm_nonneg (f n ω - F ω)]

/-- Squared increments of Brownian motion over a uniform grid. -/
lemma incr (hB : Spec.IsBM P W) (T : ℝ≥0) :
    (∀ (n i : ℕ) (k : ℕ), Integrable (fun ω => (W ((i + 1 : ℕ) * (T / n)) ω - W (i * (T / n)) ω) ^ k) P) ∧
    (∀ n i : ℕ, ∫ ω, (W ((i + 1 : ℕ) * (T / n)) ω - W (i * (T / n)) ω) ^ 2 ∂P = (T / n : ℝ≥0)) ∧
    (∀ n i : ℕ, MemLp (fun ω => (W ((i + 1 : ℕ) * (T / n)) ω - W (i * (T / n)) ω) ^ 2) 2 P) ∧
    ∀ (n : ℕ) (s : Finset ℕ), variance (fun ω => ∑ i ∈ s, (W ((i + 1 : ℕ) * (T / n)) ω - W (i * (T / n)) ω) ^ 2) P ≤ s.card * (3 * ((T / n : ℝ≥0) : ℝ) ^ 2) := by
  haveI := BmExp.isProb hB
  set D : ℕ → ℕ → Ω → ℝ := fun n i ω => W ((i + 1 : ℕ) * (T / n)) ω - W (i * (T / n)) ω with hD
  have hmono : ∀ n : ℕ, Monotone fun i : ℕ => (i : ℝ≥0) * (T / n) := fun n i j hij => by
    simp only
    gcongr
  have hlaw : ∀ n i, HasLaw (D n i) (gaussianReal 0 (T / n)) P := fun n i => by
    have h := hB.law.hasLaw_sub ((i + 1 : ℕ) * (T / n)) (i * (T / n))
    refine Eq.subst (motive := fun v => HasLaw (D n i) (gaussianReal 0 v) P) ?_ h
    apply NNReal.eq
    show |((((i + 1 : ℕ) : ℝ≥0) * (T / n) : ℝ≥0) : ℝ) - (((i : ℝ≥0) * (T / n) : ℝ≥0) : ℝ)| = ((T / n : ℝ≥0) : ℝ)
    push_cast
    rw [show ((i : ℝ) + 1) * (T / n) - i * (T / n) = T / n by ring, abs_of_nonneg (by positivity)]
  have hm : ∀ n i, Measurable (D n i) := fun n i => (hB.meas _).sub (hB.meas _)
  have mom : ∀ n i (k : ℕ), Integrable (fun ω => D n i ω ^ k) P := fun n i k => by
    have h1 : MemLp (id : ℝ → ℝ) k (gaussianReal 0 (T / n)) := memLp_id_gaussianReal k
    have h2 : Integrable (fun x : ℝ => x ^ k) (gaussianReal 0 (T / n)) := by
      have := h1.integrable_norm_pow'
      refine (integrable_norm_iff (by fun_prop)).1 ?_
      simpa using this
    rw [← (hlaw n i).map_eq] at h2
    exact h2.comp_measurable (hm n i)
  have hmean : ∀ n i, ∫ ω, D n i ω ^ 2 ∂P = (T / n : ℝ≥0) := fun n i => by
    have h := (hlaw n i).variance_eq
    rw [variance_id_gaussianReal, variance_eq_integral (hm n i).aemeasurable] at h
    have h0 : ∫ ω, D n i ω ∂P = 0 := by
      have := (hlaw n i).integral_eq
      simpa using this
    rw [h0] at h
    simpa using h
  have hfour : ∀ n i, ∫ ω, D n i ω ^ 4 ∂P = 3 * ((T / n : ℝ≥0) : ℝ) ^ 2 := fun n i => by
    have h := (hlaw n i).integral_comp (f := fun x : ℝ => x ^ 4) (by fun_prop)
    simp only [Function.comp_def] at h
    rw [h]
    have e : gaussianReal 0 (T / n) = (gaussianReal 0 1).map (√((T / n : ℝ≥0) : ℝ) * ·) := by
      rw [gaussianReal_map_const_mul]
      congr 1
      · simp
      · apply NNReal.eq
        push_cast
        rw [mul_one]
        exact (sq_sqrt (by positivity)).symm
    rw [e, integral_map (by fun_prop) (by fun_prop)]
    have h5 := (gaussE_poly 0 0 0 0 (((T / n : ℝ≥0) : ℝ) ^ 2)).2
    simp only [zero_mul, zero_add] at h5
    have e2 : ∀ x : ℝ, (√((T / n : ℝ≥0) : ℝ) * x) ^ 4 = ((T / n : ℝ≥0) : ℝ) ^ 2 * x ^ 4 := fun x => by
      rw [mul_pow, show √((T / n : ℝ≥0) : ℝ) ^ 4 = (√((T / n : ℝ≥0) : ℝ) ^ 2) ^ 2 by ring, sq_sqrt (by positivity)]
    simp only [e2]
    exact h5
  have hL2 : ∀ n i, MemLp (fun ω => D n i ω ^ 2) 2 P := fun n i => by
    rw [memLp_two_iff_integrable_sq ((hm n i).pow_const 2).aestronglyMeasurable]
    simp only [← pow_mul]
    exact mom n i 4
  have hvar : ∀ (n : ℕ) (s : Finset ℕ), variance (fun ω => ∑ i ∈ s, D n i ω ^ 2) P ≤ s.card * (3 * ((T / n : ℝ≥0) : ℝ) ^ 2) := fun n s => by
    have hind : iIndepFun (fun i => D n i) P := hB.law.hasIndepIncrements.nat (hmono n)
    have h := IndepFun.variance_sum (μ := P) (X := fun i ω => D n i ω ^ 2) (s := s) (fun i _ => hL2 n i) (fun i _ j _ hij =>
      (hind.indepFun hij).comp (φ := fun x : ℝ => x ^ 2) (ψ := fun x : ℝ => x ^ 2) (by fun_prop) (by fun_prop))
    have e : (fun ω => ∑ i ∈ s, D n i ω ^ 2) = ∑ i ∈ s, fun ω => D n i ω ^ 2 := by ext ω; simp
    rw [e, h]
    refine (Finset.sum_le_card_nsmul _ _ (3 * ((T / n : ℝ≥0) : ℝ) ^ 2) fun i _ => ?_).trans (by simp)
    refine (variance_le_expectation_sq ((hm n i).pow_const 2).aestronglyMeasurable).trans (le_of_eq ?_)
    rw [← hfour n i]
    refine integral_congr_ae (ae_of_all _ fun ω => ?_)
    simp only [Pi.pow_apply]
    ring
  exact ⟨mom, hmean, hL2, hvar⟩

/-- The quadratic variation of Brownian motion over `[0, T]` is `T`. -/
theorem bm (hB : Spec.IsBM P W) (T : ℝ≥0) :
    TendstoInMeasure P (fun (n : ℕ) ω => ∑ i ∈ Finset.range n, (W ((i + 1 : ℕ) * (T / n)) ω - W (i * (T / n)) ω) ^ 2) atTop (fun _ => (T : ℝ)) := by
  haveI := BmExp.isProb hB
  obtain ⟨mom, hmean, hL2, hvar'⟩ := incr hB T
  set D : ℕ → ℕ → Ω → ℝ := fun n i ω => W ((i + 1 : ℕ) * (T / n)) ω - W (i * (T / n)) ω with hD
  have hvar : ∀ n : ℕ, variance (fun ω => ∑ i ∈ Finset.range n, D n i ω ^ 2) P ≤ n * (3 * ((T / n : ℝ≥0) : ℝ) ^ 2) := fun n => by
    have := hvar' n (Finset.range n)
    rwa [Finset.card_range] at this
  rw [tendstoInMeasure_iff_norm]
  intro ε hε
  have hlim : Tendsto (fun n : ℕ => ENNReal.ofReal (3 * (T : ℝ) ^ 2 / ε ^ 2 / n)) atTop (𝓝 0) := by
    rw [← ENNReal.ofReal_zero]
    exact ENNReal.tendsto_ofReal (tendsto_const_div_atTop_nhds_zero_nat _)
  refine tendsto_of_tendsto_of_tendsto_of_le_of_le' tendsto_const_nhds hlim (Eventually.of_forall fun _ => zero_le) ?_
  filter_upwards [eventually_gt_atTop 0] with n hn
  have hn' : (n : ℝ) ≠ 0 := by positivity
  have hmem : MemLp (fun ω => ∑ i ∈ Finset.range n, D n i ω ^ 2) 2 P := memLp_finsetSum _ fun i _ => hL2 n i
  have hE : ∫ ω, ∑ i ∈ Finset.range n, D n i ω ^ 2 ∂P = T := by
    rw [integral_finsetSum _ fun i _ => mom n i 2]
    simp only [hmean]
    rw [Finset.sum_const, Finset.card_range, nsmul_eq_mul]
    push_cast
    field_simp
  have h := meas_ge_le_variance_div_sq hmem hε
  rw [hE] at h
  refine h.trans (ENNReal.ofReal_le_ofReal ?_)
  have h2 := hvar n
  rw [div_le_iff₀ (by positivity)]
  refine h2.trans (le_of_eq ?_)
  push_cast
  field_simp

/-- Riemann sums with the integrand at the right end points, against `∫ g`. -/
lemma riemann {f g : ℝ → ℝ} (hf : Continuous f) (hg : Continuous g) {T : ℝ} (hT : 0 ≤ T) :
    Tendsto (fun n : ℕ => ∑ i ∈ Finset.range n, f ((i + 1 : ℕ) * (T / n)) * ∫ s in (i * (T / n))..((i + 1 : ℕ) * (T / n)), g s) atTop (𝓝 (∫ s in (0:ℝ)..T, f s * g s)) := by
  rw [Metric.tendsto_atTop]
  intro ε hε
  have hG : 0 ≤ ∫ s in (0:ℝ)..T, |g s| := intervalIntegral.integral_nonneg hT fun _ _ => abs_nonneg _
  set G := ∫ s in (0:ℝ)..T, |g s| with hGdef
  have huc : UniformContinuousOn f (Icc 0 T) := isCompact_Icc.uniformContinuousOn_of_continuous hf.continuousOn
  obtain ⟨δ, hδ, hδf⟩ := Metric.uniformContinuousOn_iff.1 huc (ε / (2 * (G + 1))) (by positivity)
  obtain ⟨N, hN⟩ := exists_nat_gt (T / δ)
  refine ⟨N + 1, fun n hn => ?_⟩
  have hn0 : (0 : ℝ) < n := by exact_mod_cast (by omega : 0 < n)
  have hh : T / n < δ := by
    rw [div_lt_iff₀ hn0]
    have : T / δ < n := hN.trans_le (by exact_mod_cast (by omega : N ≤ n))
    rw [div_lt_iff₀ hδ] at this
    linarith
  have hh0 : 0 ≤ T / n := by positivity
  set a : ℕ → ℝ := fun i => i * (T / n) with ha
  have hla : a n = T := by simp only [ha]; field_simp
  have hmono : ∀ i, a i ≤ a (i + 1) := fun i => by simp only [ha]; push_cast; nlinarith
  have hmonotone : Monotone a := monotone_nat_of_le_succ hmono
  have ii : ∀ {u : ℝ → ℝ}, Continuous u → ∀ x y, IntervalIntegrable u volume x y := fun hu x y => hu.intervalIntegrable x y
  have e1 : ∫ s in (0:ℝ)..T, f s * g s = ∑ i ∈ Finset.range n, ∫ s in (a i)..(a (i + 1)), f s * g s := by
    rw [intervalIntegral.sum_integral_adjacent_intervals fun i _ => ii (by fun_prop : Continuous fun s => f s * g s) _ _, hla]
    simp [ha]
  have e2 : G = ∑ i ∈ Finset.range n, ∫ s in (a i)..(a (i + 1)), |g s| := by
    rw [intervalIntegral.sum_integral_adjacent_intervals fun i _ => ii hg.abs _ _, hla, hGdef]
    simp [ha]
  have e3 : ∀ i, f (a (i + 1)) * ∫ s in (a i)..(a (i + 1)), g s = ∫ s in (a i)..(a (i + 1)), f (a (i + 1)) * g s := fun i => (intervalIntegral.integral_const_mul _ _).symm
  have key : ∀ i ∈ Finset.range n, ‖f (a (i + 1)) * (∫ s in (a i)..(a (i + 1)), g s) - ∫ s in (a i)..(a (i + 1)), f s * g s‖ ≤ ε / (2 * (G + 1)) * ∫ s in (a i)..(a (i + 1)), |g s| := fun i hi => by
    rw [e3, ← intervalIntegral.integral_sub (ii (by fun_prop) _ _) (ii (by fun_prop : Continuous fun s => f s * g s) _ _), ← intervalIntegral.integral_const_mul]
    refine intervalIntegral.norm_integral_le_of_norm_le (hmono i) (ae_of_all _ fun s hs => ?_) (ii (by fun_prop) _ _)
    have hi' : i + 1 ≤ n := Finset.mem_range.1 hi
    have h0i : 0 ≤ a i := by simp only [ha]; positivity
    have h1i : a (i + 1) ≤ T := by rw [← hla]; exact hmonotone hi'
    have hd : dist (f (a (i + 1))) (f s) < ε / (2 * (G + 1)) := hδf _ ⟨h0i.trans (hmono i), h1i⟩ _ ⟨h0i.trans hs.1.le, hs.2.trans h1i⟩ (by
      rw [Real.dist_eq, abs_of_nonneg (by linarith [hs.2])]
      have : a (i + 1) - a i = T / n := by simp only [ha]; push_cast; ring
      linarith [hs.1])
    rw [← sub_mul, norm_mul, Real.norm_eq_abs (g s)]
    exact mul_le_mul_of_nonneg_right (by rw [← dist_eq_norm]; exact hd.le) (abs_nonneg _)
  rw [dist_eq_norm]
  show ‖∑ i ∈ Finset.range n, f (a (i + 1)) * (∫ s in (a i)..(a (i + 1)), g s) - _‖ < ε
  rw [e1, ← Finset.sum_sub_distrib]
  refine lt_of_le_of_lt ((norm_sum_le _ _).trans (Finset.sum_le_sum key)) ?_
  rw [← Finset.mul_sum, ← e2, div_mul_eq_mul_div, div_lt_iff₀ (by positivity)]
  nlinarith

/-- Itô's formula for the square of an Ornstein-Uhlenbeck process: the integral of `X` against `W`. -/
theorem ito {κ θ ξ x0 : ℝ} (h : Spec.IsOU P W X κ θ ξ x0) (hξ : ξ ≠ 0) (hX : ∀ t, Measurable (X t)) (T : ℝ≥0) :
    Spec.IsItoIntegral P W X T (fun ω => (X T ω ^ 2 - X 0 ω ^ 2 - ξ ^ 2 * T) / (2 * ξ) - κ / ξ * ∫ s in (0:ℝ)..T, X s.toNNReal ω * (θ - X s.toNNReal ω)) := by
  haveI := BmExp.isProb h.bm
  have hQ := bm h.bm T
  set D : ℕ → ℕ → Ω → ℝ := fun n i ω => W ((i + 1 : ℕ) * (T / n)) ω - W (i * (T / n)) ω with hD
  have hm : ∀ n i, Measurable (D n i) := fun n i => (h.bm.meas _).sub (h.bm.meas _)
  have hpath : ∀ ω, Tendsto (fun n : ℕ => ∑ i ∈ Finset.range n, (X (i * (T / n)) ω * D n i ω + ξ / 2 * D n i ω ^ 2)) atTop
      (𝓝 ((X T ω ^ 2 - X 0 ω ^ 2) / (2 * ξ) - κ / ξ * ∫ s in (0:ℝ)..T, X s.toNNReal ω * (θ - X s.toNNReal ω))) := fun ω => by
    have hc : Continuous fun s : ℝ => X s.toNNReal ω := (h.cont ω).comp continuous_real_toNNReal
    have hg : Continuous fun s : ℝ => κ * (θ - X s.toNNReal ω) := continuous_const.mul (continuous_const.sub hc)
    set x : ℝ → ℝ := fun s => X s.toNNReal ω with hx
    have r1 := riemann hc hg T.coe_nonneg
    have r2 := riemann (f := fun s => ∫ r in (0:ℝ)..s, κ * (θ - x r)) (intervalIntegral.continuous_primitive (fun a b => hg.intervalIntegrable a b) 0) hg T.coe_nonneg
    have hA : ∀ n i : ℕ, ξ * D n i ω = x ((i + 1 : ℕ) * (T / n)) - x (i * (T / n)) - ∫ s in ((i:ℝ) * (T / n))..((i + 1 : ℕ) * (T / n)), κ * (θ - x s) := fun n i => by
      have c1 : ∀ j : ℕ, (((j : ℝ) * (T / n)).toNNReal) = (j * (T / n) : ℝ≥0) := fun j => by
        rw [← NNReal.coe_natCast, ← NNReal.coe_natCast n, ← NNReal.coe_div, ← NNReal.coe_mul, Real.toNNReal_coe]
      have s1 := h.sde ω ((i + 1 : ℕ) * (T / n))
      have s0 := h.sde ω (i * (T / n))
      simp only [hx, hD]
      rw [c1, c1, s1, s0]
      have hint := intervalIntegral.integral_add_adjacent_intervals (μ := volume) (hg.intervalIntegrable 0 ((i:ℝ) * (T / n))) (hg.intervalIntegrable ((i:ℝ) * (T / n)) ((i + 1 : ℕ) * (T / n)))
      have c2 : ∀ j : ℕ, ((j * (T / n) : ℝ≥0) : ℝ) = (j : ℝ) * (T / n) := fun j => by push_cast; rfl
      rw [c2, c2, ← hint]
      ring
    set F : ℝ → ℝ := fun s => ∫ r in (0:ℝ)..s, κ * (θ - x r) with hF
    have hFA : ∀ a b : ℝ, ∫ s in a..b, κ * (θ - x s) = F b - F a := fun a b =>
      (intervalIntegral.integral_interval_sub_left (hg.intervalIntegrable 0 b) (hg.intervalIntegrable 0 a)).symm
    have hFd : ∀ s, HasDerivAt F (κ * (θ - x s)) s := fun s =>
      intervalIntegral.integral_hasDerivAt_right (hg.intervalIntegrable 0 s) (hg.stronglyMeasurableAtFilter _ _) hg.continuousAt
    have hF0 : F 0 = 0 := by simp [hF]
    have hFc : Continuous F := continuous_iff_continuousAt.2 fun s => (hFd s).continuousAt
    have hFF : ∫ s in (0:ℝ)..T, F s * (κ * (θ - x s)) = F T ^ 2 / 2 := by
      rw [intervalIntegral.integral_eq_sub_of_hasDerivAt (f := fun s => F s ^ 2 / 2) (fun s _ => ?_) (Continuous.intervalIntegrable (by fun_prop) _ _)]
      · simp [hF0]
      · refine (((hFd s).fun_pow 2).div_const 2).congr_deriv ?_
        norm_num
        ring
    rw [hFF] at r2
    have hfin : ∀ n : ℕ, 0 < n → ∑ i ∈ Finset.range n, (X (i * (T / n)) ω * D n i ω + ξ / 2 * D n i ω ^ 2) =
        (x T ^ 2 - x 0 ^ 2) / (2 * ξ) - 1 / ξ * (∑ i ∈ Finset.range n, x ((i + 1 : ℕ) * (T / n)) * ∫ s in ((i:ℝ) * (T / n))..((i + 1 : ℕ) * (T / n)), κ * (θ - x s)) +
        1 / ξ * ((∑ i ∈ Finset.range n, F ((i + 1 : ℕ) * (T / n)) * ∫ s in ((i:ℝ) * (T / n))..((i + 1 : ℕ) * (T / n)), κ * (θ - x s)) - F T ^ 2 / 2) := fun n hn => by
      have hn' : (n : ℝ) ≠ 0 := by positivity
      have t1 := Finset.sum_range_sub (fun i : ℕ => x ((i : ℝ) * (T / n)) ^ 2) n
      have t2 := Finset.sum_range_sub (fun i : ℕ => F ((i : ℝ) * (T / n)) ^ 2) n
      have hTn : (n : ℝ) * ((T : ℝ) / n) = T := by field_simp
      simp only [hTn, Nat.cast_zero, zero_mul, hF0] at t1 t2
      have e1 : (x T ^ 2 - x 0 ^ 2) / (2 * ξ) = ∑ i ∈ Finset.range n, 1 / (2 * ξ) * (x ((i + 1 : ℕ) * (T / n)) ^ 2 - x (i * (T / n)) ^ 2) := by
        rw [← Finset.mul_sum, t1]; ring
      have e2 : F T ^ 2 / 2 = ∑ i ∈ Finset.range n, 1 / 2 * (F ((i + 1 : ℕ) * (T / n)) ^ 2 - F (i * (T / n)) ^ 2) := by
        rw [← Finset.mul_sum, t2]; ring
      rw [e1, e2, Finset.mul_sum, ← Finset.sum_sub_distrib, ← Finset.sum_sub_distrib, Finset.mul_sum, ← Finset.sum_add_distrib]
      refine Finset.sum_congr rfl fun i _ => ?_
      have hDi : D n i ω = (x ((i + 1 : ℕ) * (T / n)) - x (i * (T / n)) - ∫ s in ((i:ℝ) * (T / n))..((i + 1 : ℕ) * (T / n)), κ * (θ - x s)) / ξ := by
        rw [← hA]; field_simp
      have hXi : X (i * (T / n)) ω = x (i * (T / n)) := by
        simp only [hx]
        rw [← NNReal.coe_natCast, ← NNReal.coe_natCast n, ← NNReal.coe_div, ← NNReal.coe_mul, Real.toNNReal_coe]
      rw [hDi, hXi, hFA]
      field_simp
      ring
    have hlim := ((tendsto_const_nhds (x := (x T ^ 2 - x 0 ^ 2) / (2 * ξ))).sub (r1.const_mul (1 / ξ))).add ((r2.sub_const (F T ^ 2 / 2)).const_mul (1 / ξ))
    have hlim' := hlim.congr' (f₂ := fun n : ℕ => ∑ i ∈ Finset.range n, (X (i * (T / n)) ω * D n i ω + ξ / 2 * D n i ω ^ 2)) (by
      filter_upwards [eventually_gt_atTop 0] with n hn
      exact (hfin n hn).symm)
    refine Eq.subst (motive := fun l => Tendsto _ atTop (𝓝 l)) ?_ hlim'
    have hxT : x T = X T ω := by simp [hx]
    have hx0 : x 0 = X 0 ω := by simp [hx]
    rw [hxT, hx0, sub_self, mul_zero, add_zero]
    congr 1
    rw [← intervalIntegral.integral_const_mul, ← intervalIntegral.integral_const_mul]
    refine intervalIntegral.integral_congr fun s _ => ?_
    simp only [hx]
    ring
  have hZ := tendstoInMeasure_of_tendsto_ae (μ := P) (f := fun (n : ℕ) ω => ∑ i ∈ Finset.range n, (X (i * (T / n)) ω * D n i ω + ξ / 2 * D n i ω ^ 2))
    (fun n => (Finset.measurable_fun_sum _ fun i _ => ((hX _).mul (hm n i)).add (((hm n i).pow_const 2).const_mul _)).aestronglyMeasurable) (ae_of_all _ hpath)
  have hS := tendstoInMeasure_add hZ (tendstoInMeasure_mul hQ (-(ξ / 2)))
  refine (hS.congr (fun n => ae_of_all _ fun ω => ?_) (ae_of_all _ fun ω => ?_))
  · simp only
    rw [Finset.sum_add_distrib, ← Finset.mul_sum]
    ring
  · simp only
    field_simp
    ring

end QuadVar

end PyFENG
