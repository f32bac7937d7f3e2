import Verif.Props.DistQuad
import Verif.Lemmas.Subord
import Mathlib.Probability.Independence.Process.Basic
import Mathlib.Probability.Independence.CharacteristicFunction
import Mathlib.MeasureTheory.Constructions.Polish.Basic
import Mathlib.Probability.Moments.Variance

/-!
# Series of independent gamma variables

`X = ∑ g n`, `g n` independent gamma with shape `a` and rates `r n`, `∑ 1/r n < ∞`: convergence, Laplace transform, absence of atoms, Chebyshev bound, decay of the characteristic function.
-/

namespace PyFENG

open Real Filter Topology MeasureTheory ProbabilityTheory

/-- Specification: independent gamma variables of shape `a` and rates `r 0, r 1, …`. -/
structure Spec.GammaSeq {Ω : Type*} [MeasurableSpace Ω] (P : Measure Ω) (a : ℝ) (r : ℕ → ℝ) (g : ℕ → Ω → ℝ) : Prop where
  meas : ∀ n, Measurable (g n)
  indep : iIndepFun g P
  law : ∀ n, P.map (g n) = gammaMeasure a (r n)

namespace GammaSeries

variable {Ω : Type*} [MeasurableSpace Ω] {P : Measure Ω} [IsProbabilityMeasure P] {a : ℝ} {r : ℕ → ℝ} {g : ℕ → Ω → ℝ}

lemma nonneg (h : Spec.GammaSeq P a r g) : ∀ᵐ ω ∂P, ∀ n, 0 ≤ g n ω := by
  rw [ae_all_iff]
  intro n
  have := gammaMeasure_pos (a := a) (r := r n)
  rw [← h.law n] at this
  exact ae_of_ae_map (h.meas n).aemeasurable this

lemma mean (h : Spec.GammaSeq P a r g) (ha : 0 < a) (hr : ∀ n, 0 < r n) (n : ℕ) :
    Integrable (g n) P ∧ ∫ ω, g n ω ∂P = a / r n ∧ MemLp (g n) 2 P ∧ Var[g n; P] = a / r n ^ 2 := by
  have i1 := DistGamma.integrable_gamma_pow ha (hr n) 1
  have i2 := DistGamma.integrable_gamma_pow ha (hr n) 2
  obtain ⟨m1, m2, -, -⟩ := DistGamma.raw_moments ha (hr n)
  rw [← h.law n] at i1 i2 m1 m2
  have am := (h.meas n).aemeasurable (μ := P)
  rw [integrable_map_measure (by fun_prop) am] at i1 i2
  rw [integral_map am (by fun_prop)] at m1 m2
  have hi : Integrable (g n) P := i1.congr (ae_of_all _ fun ω => by simp)
  have hL : MemLp (g n) 2 P := (memLp_two_iff_integrable_sq (h.meas n).aestronglyMeasurable).2 i2
  refine ⟨hi, m1, hL, ?_⟩
  rw [variance_eq_sub hL, show (g n ^ 2 : Ω → ℝ) = fun ω => g n ω ^ 2 from rfl, m1, m2]
  have := hr n
  field_simp
  ring

lemma summable_ae (h : Spec.GammaSeq P a r g) (ha : 0 < a) (hr : ∀ n, 0 < r n) (hs : Summable fun n => 1 / r n) : ∀ᵐ ω ∂P, Summable fun n => g n ω := by
  have hfin : ∫⁻ ω, ∑' n, ENNReal.ofReal (g n ω) ∂P ≠ ⊤ := by
    rw [lintegral_tsum fun n => (h.meas n).ennreal_ofReal.aemeasurable]
    have e : ∀ n, ∫⁻ ω, ENNReal.ofReal (g n ω) ∂P = ENNReal.ofReal (a / r n) := fun n => by
      obtain ⟨hi, hm, -⟩ := mean h ha hr n
      rw [← hm, ofReal_integral_eq_lintegral_ofReal hi]
      filter_upwards [nonneg h] with ω hω using hω n
    simp only [e]
    have hs' : Summable fun n => a / r n := (hs.mul_left a).congr fun n => by rw [mul_one_div]
    exact hs'.tsum_ofReal_ne_top
  have := ae_lt_top' (AEMeasurable.tsum fun n => (h.meas n).ennreal_ofReal.aemeasurable) hfin
  filter_upwards [this, nonneg h] with ω h1 h2
  have := ENNReal.summable_toReal h1.ne
  exact this.congr fun n => ENNReal.toReal_ofReal (h2 n)

/-- The sum of the series. -/
noncomputable def X (g : ℕ → Ω → ℝ) (ω : Ω) : ℝ := ∑' n, g n ω

lemma measurable_X (h : Spec.GammaSeq P a r g) : Measurable (X g) := Measurable.tsum h.meas

lemma tendsto_ae (h : Spec.GammaSeq P a r g) (ha : 0 < a) (hr : ∀ n, 0 < r n) (hs : Summable fun n => 1 / r n) :
    ∀ᵐ ω ∂P, Tendsto (fun N => ∑ n ∈ Finset.range N, g n ω) atTop (𝓝 (X g ω)) := by
  filter_upwards [summable_ae h ha hr hs] with ω hω
  exact hω.hasSum.tendsto_sum_nat

lemma X_nonneg (h : Spec.GammaSeq P a r g) : ∀ᵐ ω ∂P, 0 ≤ X g ω := by
  filter_upwards [nonneg h] with ω hω
  exact tsum_nonneg hω

lemma mgf_term (h : Spec.GammaSeq P a r g) (ha : 0 < a) (hr : ∀ n, 0 < r n) (n : ℕ) {s : ℝ} (hs : s < r n) :
    Integrable (fun ω => exp (s * g n ω)) P ∧ mgf (g n) P s = (1 - s / r n) ^ (-a) := by
  obtain ⟨h1, h2⟩ := gamma_mgf ha (hr n) hs
  rw [← h.law n] at h1 h2
  have am := (h.meas n).aemeasurable (μ := P)
  rw [integrable_map_measure (by fun_prop) am] at h1
  rw [mgf_id_map am] at h2
  refine ⟨h1, ?_⟩
  rw [h2, rpow_def_of_pos (by rw [sub_pos, div_lt_one (hr n)]; exact hs), mul_comm]

lemma mgf_partial (h : Spec.GammaSeq P a r g) (ha : 0 < a) (hr : ∀ n, 0 < r n) {s : ℝ} (hs : ∀ n, s < r n) (N : ℕ) :
    Integrable (fun ω => exp (s * ∑ n ∈ Finset.range N, g n ω)) P ∧ ∫ ω, exp (s * ∑ n ∈ Finset.range N, g n ω) ∂P = ∏ n ∈ Finset.range N, (1 - s / r n) ^ (-a) := by
  have h1 := h.indep.integrable_exp_mul_sum (t := s) h.meas (s := Finset.range N) fun n _ => (mgf_term h ha hr n (hs n)).1
  have h2 := h.indep.mgf_sum (t := s) h.meas (Finset.range N)
  unfold mgf at h2
  simp only [Finset.sum_apply] at h1 h2
  refine ⟨h1, h2.trans (Finset.prod_congr rfl fun n _ => (mgf_term h ha hr n (hs n)).2)⟩

/-- Laplace transform of the sum. -/
lemma mgf_X (h : Spec.GammaSeq P a r g) (ha : 0 < a) (hr : ∀ n, 0 < r n) (hsum : Summable fun n => 1 / r n) {s : ℝ} (hs : ∀ n, s < r n) {L : ℝ}
    (hL : Tendsto (fun N => ∏ n ∈ Finset.range N, (1 - s / r n) ^ (-a)) atTop (𝓝 L)) :
    Integrable (fun ω => exp (s * X g ω)) P ∧ mgf (X g) P s = L := by
  have ht := tendsto_ae h ha hr hsum
  have hte : ∀ᵐ ω ∂P, Tendsto (fun N => exp (s * ∑ n ∈ Finset.range N, g n ω)) atTop (𝓝 (exp (s * X g ω))) := by
    filter_upwards [ht] with ω hω
    exact (continuous_exp.tendsto _).comp (hω.const_mul s)
  have hmX := measurable_X h
  have hint : Integrable (fun ω => exp (s * X g ω)) P := by
    refine ⟨by fun_prop, ?_⟩
    rw [hasFiniteIntegral_iff_ofReal (ae_of_all _ fun ω => (exp_pos _).le)]
    have hF : ∫⁻ ω, ENNReal.ofReal (exp (s * X g ω)) ∂P ≤ ENNReal.ofReal L := by
      have e1 : ∫⁻ ω, ENNReal.ofReal (exp (s * X g ω)) ∂P = ∫⁻ ω, liminf (fun N => ENNReal.ofReal (exp (s * ∑ n ∈ Finset.range N, g n ω))) atTop ∂P := by
        refine lintegral_congr_ae ?_
        filter_upwards [hte] with ω hω
        exact ((ENNReal.tendsto_ofReal hω).liminf_eq).symm
      have hm : ∀ N, Measurable fun ω => ENNReal.ofReal (exp (s * ∑ n ∈ Finset.range N, g n ω)) := fun N => by
        have : Measurable fun ω => ∑ n ∈ Finset.range N, g n ω := Finset.measurable_sum _ fun n _ => h.meas n
        fun_prop
      rw [e1]
      refine (lintegral_liminf_le hm).trans ?_
      have e2 : ∀ N, ∫⁻ ω, ENNReal.ofReal (exp (s * ∑ n ∈ Finset.range N, g n ω)) ∂P = ENNReal.ofReal (∏ n ∈ Finset.range N, (1 - s / r n) ^ (-a)) := fun N => by
        obtain ⟨h1, h2⟩ := mgf_partial h ha hr hs N
        rw [← h2, ofReal_integral_eq_lintegral_ofReal h1 (ae_of_all _ fun ω => (exp_pos _).le)]
      simp only [e2]
      exact (ENNReal.tendsto_ofReal hL).liminf_eq.le
    exact hF.trans_lt ENNReal.ofReal_lt_top
  refine ⟨hint, ?_⟩
  unfold mgf
  refine tendsto_nhds_unique ?_ hL
  have e : (fun N => ∏ n ∈ Finset.range N, (1 - s / r n) ^ (-a)) = fun N => ∫ ω, exp (s * ∑ n ∈ Finset.range N, g n ω) ∂P := funext fun N => ((mgf_partial h ha hr hs N).2).symm
  rw [e]
  refine tendsto_integral_of_dominated_convergence (fun ω => 1 + exp (s * X g ω)) (fun N => (mgf_partial h ha hr hs N).1.aestronglyMeasurable) ((integrable_const 1).add hint) ?_ hte
  intro N
  filter_upwards [nonneg h, summable_ae h ha hr hsum] with ω h0 h1
  rw [norm_of_nonneg (exp_pos _).le]
  have hS : 0 ≤ ∑ n ∈ Finset.range N, g n ω := Finset.sum_nonneg fun n _ => h0 n
  have hle : ∑ n ∈ Finset.range N, g n ω ≤ X g ω := h1.sum_le_tsum _ fun n _ => h0 n
  rcases le_or_gt s 0 with hs0 | hs0
  · have : exp (s * ∑ n ∈ Finset.range N, g n ω) ≤ 1 := exp_le_one_iff.2 (mul_nonpos_of_nonpos_of_nonneg hs0 hS)
    linarith [exp_pos (s * X g ω)]
  · have : exp (s * ∑ n ∈ Finset.range N, g n ω) ≤ exp (s * X g ω) := exp_le_exp.2 (mul_le_mul_of_nonneg_left hle hs0.le)
    linarith

/-- The first term is independent of the sum of the others. -/
lemma indep_tail (h : Spec.GammaSeq P a r g) : IndepFun (g 0) (fun ω => ∑' n, g (n + 1) ω) P := by
  have hp : IndepFun (g 0) (fun ω n => g (n + 1) ω) P := by
    refine IndepFun.indepFun_process (h.meas 0) (fun n => h.meas (n + 1)) fun I => ?_
    have hd : Disjoint ({0} : Finset ℕ) (I.image (· + 1)) := by
      rw [Finset.disjoint_singleton_left]
      simp
    have h1 := h.indep.indepFun_finset {0} (I.image (· + 1)) hd h.meas
    have m1 : Measurable fun (v : ({0} : Finset ℕ) → ℝ) => v ⟨0, Finset.mem_singleton_self 0⟩ := measurable_pi_apply _
    have h2 := h1.comp (φ := fun (v : ({0} : Finset ℕ) → ℝ) => v ⟨0, Finset.mem_singleton_self 0⟩) (ψ := fun (v : (I.image (· + 1) : Finset ℕ) → ℝ) (i : I) => v ⟨i + 1, Finset.mem_image_of_mem _ i.2⟩)
      m1 (measurable_pi_lambda _ fun i => measurable_pi_apply _)
    exact h2
  have hm : Measurable fun v : ℕ → ℝ => ∑' n, v n := Measurable.tsum fun n => measurable_pi_apply n
  exact hp.comp measurable_id hm

/-- The law has no atoms. -/
lemma no_atom (h : Spec.GammaSeq P a r g) (ha : 0 < a) (hr : ∀ n, 0 < r n) (hsum : Summable fun n => 1 / r n) (x : ℝ) : P.map (X g) {x} = 0 := by
  have hT : Measurable fun ω => ∑' n, g (n + 1) ω := Measurable.tsum fun n => h.meas (n + 1)
  rw [Measure.map_apply (measurable_X h) (measurableSet_singleton x)]
  have e : X g ⁻¹' {x} =ᵐ[P] (fun ω => (g 0 ω, ∑' n, g (n + 1) ω)) ⁻¹' {p : ℝ × ℝ | p.1 + p.2 = x} := by
    filter_upwards [summable_ae h ha hr hsum] with ω hω
    refine propext ?_
    show X g ω = x ↔ g 0 ω + ∑' n, g (n + 1) ω = x
    unfold X
    rw [hω.tsum_eq_zero_add]
  have hms : MeasurableSet {p : ℝ × ℝ | p.1 + p.2 = x} := measurableSet_eq_fun (by fun_prop) (by fun_prop)
  rw [measure_congr e, ← Measure.map_apply ((h.meas 0).prodMk hT) hms, (indepFun_iff_map_prod_eq_prod_map_map (h.meas 0).aemeasurable hT.aemeasurable).1 (indep_tail h)]
  have : IsProbabilityMeasure (P.map (g 0)) := Measure.isProbabilityMeasure_map (h.meas 0).aemeasurable
  have : IsProbabilityMeasure (P.map fun ω => ∑' n, g (n + 1) ω) := Measure.isProbabilityMeasure_map hT.aemeasurable
  rw [Measure.prod_apply_symm hms]
  have hz : ∀ y : ℝ, P.map (g 0) ((fun z => (z, y)) ⁻¹' {p : ℝ × ℝ | p.1 + p.2 = x}) = 0 := fun y => by
    have : (fun z : ℝ => (z, y)) ⁻¹' {p : ℝ × ℝ | p.1 + p.2 = x} = {x - y} := by
      ext z
      simp only [Set.mem_preimage, Set.mem_setOf_eq, Set.mem_singleton_iff]
      constructor <;> intro h <;> linarith
    rw [this, h.law 0]
    unfold gammaMeasure
    exact withDensity_absolutelyContinuous _ _ (by simp)
  simp only [hz]
  simp

/-- Chebyshev's inequality for the sum. -/
lemma tail_le (h : Spec.GammaSeq P a r g) (ha : 0 < a) (hr : ∀ n, 0 < r n) (hsum : Summable fun n => 1 / r n) (hsum2 : Summable fun n => 1 / r n ^ 2) {c : ℝ} (hc : 0 < c) :
    (P.map (X g)).real (Set.Ici (a * (∑' n, 1 / r n) + c)) ≤ a * (∑' n, 1 / r n ^ 2) / c ^ 2 := by
  have hmX := measurable_X h
  have hS : ∀ N, Measurable fun ω => ∑ n ∈ Finset.range N, g n ω := fun N => Finset.measurable_sum _ fun n _ => h.meas n
  have hmean : ∀ N, ∫ ω, (∑ n ∈ Finset.range N, g n ω) ∂P = ∑ n ∈ Finset.range N, a / r n := fun N => by
    rw [integral_finsetSum _ fun n _ => (mean h ha hr n).1]
    exact Finset.sum_congr rfl fun n _ => (mean h ha hr n).2.1
  have hvar : ∀ N, ∫⁻ ω, ENNReal.ofReal ((∑ n ∈ Finset.range N, g n ω - ∑ n ∈ Finset.range N, a / r n) ^ 2) ∂P = ENNReal.ofReal (∑ n ∈ Finset.range N, a / r n ^ 2) := fun N => by
    have hv := IndepFun.variance_sum (X := g) (s := Finset.range N) (μ := P) (fun n _ => (mean h ha hr n).2.2.1) fun i _ j _ hij => h.indep.indepFun hij
    have hL : MemLp (∑ n ∈ Finset.range N, g n) 2 P := memLp_finsetSum' _ fun n _ => (mean h ha hr n).2.2.1
    rw [← Finset.sum_congr rfl fun n _ => (mean h ha hr n).2.2.2, ← hv, variance, evariance_eq_lintegral_ofReal, ENNReal.ofReal_toReal]
    · refine lintegral_congr fun ω => ?_
      rw [← hmean N]
      simp only [Finset.sum_apply]
    · rw [← evariance_eq_lintegral_ofReal]
      exact hL.evariance_ne_top
  have hb : ∫⁻ ω, ENNReal.ofReal ((X g ω - a * ∑' n, 1 / r n) ^ 2) ∂P ≤ ENNReal.ofReal (a * ∑' n, 1 / r n ^ 2) := by
    have l1 : Tendsto (fun N => ∑ n ∈ Finset.range N, a / r n) atTop (𝓝 (a * ∑' n, 1 / r n)) := by
      have := (hsum.mul_left a).hasSum.tendsto_sum_nat
      rw [tsum_mul_left] at this
      exact this.congr fun N => Finset.sum_congr rfl fun n _ => by rw [mul_one_div]
    have l2 : Tendsto (fun N => ∑ n ∈ Finset.range N, a / r n ^ 2) atTop (𝓝 (a * ∑' n, 1 / r n ^ 2)) := by
      have := (hsum2.mul_left a).hasSum.tendsto_sum_nat
      rw [tsum_mul_left] at this
      exact this.congr fun N => Finset.sum_congr rfl fun n _ => by rw [mul_one_div]
    have e1 : ∫⁻ ω, ENNReal.ofReal ((X g ω - a * ∑' n, 1 / r n) ^ 2) ∂P =
        ∫⁻ ω, liminf (fun N => ENNReal.ofReal ((∑ n ∈ Finset.range N, g n ω - ∑ n ∈ Finset.range N, a / r n) ^ 2)) atTop ∂P := by
      refine lintegral_congr_ae ?_
      filter_upwards [tendsto_ae h ha hr hsum] with ω hω
      exact ((ENNReal.tendsto_ofReal ((hω.sub l1).pow 2)).liminf_eq).symm
    rw [e1]
    refine (lintegral_liminf_le fun N => ?_).trans ?_
    · have := hS N
      fun_prop
    · simp only [hvar]
      exact (ENNReal.tendsto_ofReal l2).liminf_eq.le
  have hpos : 0 ≤ a * ∑' n, 1 / r n ^ 2 := mul_nonneg ha.le (tsum_nonneg fun n => by have := hr n; positivity)
  have hM : ENNReal.ofReal (c ^ 2) * P {ω | ENNReal.ofReal (c ^ 2) ≤ ENNReal.ofReal ((X g ω - a * ∑' n, 1 / r n) ^ 2)} ≤ ENNReal.ofReal (a * ∑' n, 1 / r n ^ 2) :=
    (mul_meas_ge_le_lintegral (by fun_prop) _).trans hb
  have hsub : X g ⁻¹' Set.Ici (a * (∑' n, 1 / r n) + c) ⊆ {ω | ENNReal.ofReal (c ^ 2) ≤ ENNReal.ofReal ((X g ω - a * ∑' n, 1 / r n) ^ 2)} := by
    intro ω hω
    have hω' : a * (∑' n, 1 / r n) + c ≤ X g ω := hω
    refine ENNReal.ofReal_le_ofReal ?_
    exact pow_le_pow_left₀ hc.le (by linarith) 2
  rw [measureReal_def, Measure.map_apply hmX measurableSet_Ici, le_div_iff₀ (by positivity), mul_comm]
  have h3 : ENNReal.ofReal (c ^ 2) * P (X g ⁻¹' Set.Ici (a * (∑' n, 1 / r n) + c)) ≤ ENNReal.ofReal (a * ∑' n, 1 / r n ^ 2) := (mul_le_mul_right (measure_mono hsub) _).trans hM
  have h4 := ENNReal.toReal_mono ENNReal.ofReal_ne_top h3
  rwa [ENNReal.toReal_mul, ENNReal.toReal_ofReal (by positivity), ENNReal.toReal_ofReal hpos] at h4

/-- Decay of the characteristic function. -/
lemma charFun_le (h : Spec.GammaSeq P a r g) (ha : 0 < a) (hr : ∀ n, 0 < r n) (hsum : Summable fun n => 1 / r n) {u : ℝ} (hu : 0 < u) (p : ℕ) :
    |∫ y, cos (u * y) ∂(P.map (X g))| ≤ ∏ n ∈ Finset.range p, (r n / u) ^ a := by
  have hmX := measurable_X h
  have hS : ∀ N, Measurable fun ω => ∑ n ∈ Finset.range N, g n ω := fun N => Finset.measurable_sum _ fun n _ => h.meas n
  have hterm : ∀ n, ‖charFun (P.map (g n)) u‖ ≤ 1 ∧ ‖charFun (P.map (g n)) u‖ ≤ (r n / u) ^ a := fun n => by
    have : IsProbabilityMeasure (P.map (g n)) := Measure.isProbabilityMeasure_map (h.meas n).aemeasurable
    refine ⟨norm_charFun_le_one _, ?_⟩
    rw [h.law n, ← complexMGF_id_mul_I, gamma_complexMGF ha (hr n) (by simpa using hr n), Complex.norm_exp]
    have e : (-(a : ℂ) * Complex.log (1 - (u : ℂ) * Complex.I / (r n : ℂ))).re = -a * log ‖1 - (u : ℂ) * Complex.I / (r n : ℂ)‖ := by
      rw [neg_mul, Complex.neg_re, Complex.re_ofReal_mul, Complex.log_re]; ring
    have hrn := hr n
    have hn : u / r n ≤ ‖1 - (u : ℂ) * Complex.I / (r n : ℂ)‖ := by
      have := Complex.abs_im_le_norm (1 - (u : ℂ) * Complex.I / (r n : ℂ))
      refine le_trans ?_ this
      rw [Complex.sub_im, Complex.div_ofReal_im]
      simp [abs_div, abs_of_pos hu, abs_of_pos hrn]
    have hp : 0 < u / r n := by positivity
    rw [e, rpow_def_of_pos (by positivity), show r n / u = (u / r n)⁻¹ by rw [inv_div], log_inv]
    refine exp_le_exp.2 ?_
    have := log_le_log hp hn
    nlinarith
  have hcf : ∀ N, p ≤ N → ‖∫ ω, Complex.exp (u * (∑ n ∈ Finset.range N, g n ω : ℝ) * Complex.I) ∂P‖ ≤ ∏ n ∈ Finset.range p, (r n / u) ^ a := fun N hN => by
    have h1 := congrFun (iIndepFun.charFun_map_finsetSum_eq_prod (X := g) (s := Finset.range N) (fun n _ => (h.meas n).aemeasurable) (h.indep.restrict _)) u
    rw [charFun_apply_real, integral_map (show AEMeasurable (∑ n ∈ Finset.range N, g n) P by
      have : (∑ n ∈ Finset.range N, g n) = fun ω => ∑ n ∈ Finset.range N, g n ω := by ext ω; simp
      rw [this]; exact (hS N).aemeasurable) (by fun_prop)] at h1
    simp only [Finset.sum_apply, Finset.prod_apply] at h1
    rw [h1, norm_prod, ← Finset.prod_range_mul_prod_Ico _ hN]
    refine (mul_le_mul (Finset.prod_le_prod (fun n _ => norm_nonneg _) fun n _ => (hterm n).2) (Finset.prod_le_one (fun n _ => norm_nonneg _) fun n _ => (hterm n).1)
      (Finset.prod_nonneg fun n _ => norm_nonneg _) (Finset.prod_nonneg fun n _ => rpow_nonneg (div_pos (hr n) hu).le _)).trans ?_
    rw [mul_one]
  have hlim : Tendsto (fun N => ∫ ω, Complex.exp (u * (∑ n ∈ Finset.range N, g n ω : ℝ) * Complex.I) ∂P) atTop (𝓝 (∫ ω, Complex.exp (u * (X g ω : ℝ) * Complex.I) ∂P)) := by
    refine tendsto_integral_of_dominated_convergence (fun _ => 1) (fun N => ?_) (integrable_const _) ?_ ?_
    · have := hS N
      exact (by fun_prop : Measurable fun ω => Complex.exp (u * (∑ n ∈ Finset.range N, g n ω : ℝ) * Complex.I)).aestronglyMeasurable
    · intro N
      refine ae_of_all _ fun ω => ?_
      rw [show (u : ℂ) * (∑ n ∈ Finset.range N, g n ω : ℝ) * Complex.I = ((u * ∑ n ∈ Finset.range N, g n ω : ℝ) : ℂ) * Complex.I by push_cast; ring, Complex.norm_exp_ofReal_mul_I]
    · filter_upwards [tendsto_ae h ha hr hsum] with ω hω
      have hc : Continuous fun x : ℝ => Complex.exp (u * (x : ℂ) * Complex.I) := by fun_prop
      exact (hc.tendsto _).comp hω
  have hb : ‖∫ ω, Complex.exp (u * (X g ω : ℝ) * Complex.I) ∂P‖ ≤ ∏ n ∈ Finset.range p, (r n / u) ^ a :=
    le_of_tendsto hlim.norm (by filter_upwards [eventually_ge_atTop p] with N hN using hcf N hN)
  refine le_trans ?_ hb
  rw [integral_map hmX.aemeasurable (by fun_prop)]
  have hI : Integrable (fun ω => Complex.exp (u * (X g ω : ℝ) * Complex.I)) P := by
    refine Integrable.of_bound (by fun_prop) 1 (ae_of_all _ fun ω => ?_)
    rw [show (u : ℂ) * (X g ω : ℝ) * Complex.I = ((u * X g ω : ℝ) : ℂ) * Complex.I by push_cast; ring, Complex.norm_exp_ofReal_mul_I]
  have hre : ∫ ω, cos (u * X g ω) ∂P = (∫ ω, Complex.exp (u * (X g ω : ℝ) * Complex.I) ∂P).re := by
    rw [← RCLike.re_eq_complex_re, ← integral_re hI]
    refine integral_congr_ae (ae_of_all _ fun ω => ?_)
    simp only [RCLike.re_eq_complex_re]
    rw [show (u : ℂ) * (X g ω : ℝ) * Complex.I = ((u * X g ω : ℝ) : ℂ) * Complex.I by push_cast; ring, Complex.exp_ofReal_mul_I_re]
  rw [hre]
  exact Complex.abs_re_le_norm _

end GammaSeries

end PyFENG
