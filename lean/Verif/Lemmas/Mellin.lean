import Verif.Lemmas.Subord
import Mathlib.Analysis.SpecialFunctions.Pow.Asymptotics

/-!
# Regularised gamma integrals

`∫₀^∞ x^(s-1) Σ aᵢ e^{-rᵢ x} dx = Γ(s) Σ aᵢ rᵢ^{-s}` for complex rates with positive real part, first for `s > 0` and then,
under the moment conditions `Σ aᵢ = 0` and `Σ aᵢ rᵢ = 0`, for `s > -1` and `s > -2`.  This is the computation behind the
CGMY characteristic exponent.
-/

namespace PyFENG

open MeasureTheory ProbabilityTheory Set Filter Topology

/-- The statement "the integral converges and has the value given by the gamma function". -/
def MellinExp {ι : Type*} [Fintype ι] (s : ℝ) (a r : ι → ℂ) : Prop :=
  IntegrableOn (fun x : ℝ => ((x ^ (s - 1) : ℝ) : ℂ) * ∑ i, a i * Complex.exp (-r i * x)) (Ioi 0) ∧
  ∫ x in Ioi (0 : ℝ), ((x ^ (s - 1) : ℝ) : ℂ) * ∑ i, a i * Complex.exp (-r i * x) =
    (Real.Gamma s : ℂ) * ∑ i, a i * r i ^ (-s : ℂ)

lemma integrableOn_rpow_exp {s b : ℝ} (hs : 0 < s) (hb : 0 < b) :
    IntegrableOn (fun x : ℝ => x ^ (s - 1) * Real.exp (-(b * x))) (Ioi 0) := by
  by_contra h
  have h1 := Real.integral_rpow_mul_exp_neg_mul_Ioi hs hb
  rw [integral_undef h] at h1
  have : 0 < (1 / b) ^ s * Real.Gamma s := mul_pos (Real.rpow_pos_of_pos (by positivity) _) (Real.Gamma_pos_of_pos hs)
  linarith

lemma measurable_mellin {ι : Type*} [Fintype ι] (s : ℝ) (a r : ι → ℂ) :
    Measurable (fun x : ℝ => ((x ^ s : ℝ) : ℂ) * ∑ i, a i * Complex.exp (-r i * x)) := by fun_prop

lemma mellin_one {s : ℝ} (hs : 0 < s) {r : ℂ} (hr : 0 < r.re) :
    IntegrableOn (fun x : ℝ => ((x ^ (s - 1) : ℝ) : ℂ) * Complex.exp (-r * x)) (Ioi 0) ∧
    ∫ x in Ioi (0 : ℝ), ((x ^ (s - 1) : ℝ) : ℂ) * Complex.exp (-r * x) = (Real.Gamma s : ℂ) * r ^ (-s : ℂ) := by
  constructor
  · refine (integrableOn_rpow_exp hs hr).mono' (by fun_prop) ?_
    filter_upwards [ae_restrict_mem measurableSet_Ioi] with x hx
    rw [norm_mul, Complex.norm_real, Complex.norm_exp, Real.norm_of_nonneg (Real.rpow_nonneg (le_of_lt hx) _)]
    simp
  · have h := gamma_complexMGF hs one_pos (z := 1 - r) (by simpa using hr)
    unfold complexMGF gammaMeasure at h
    rw [integral_withDensity_eq_integral_toReal_smul (by unfold gammaPDF; fun_prop)
      (by simp [gammaPDF])] at h
    have h' : ∀ x, (gammaPDF s 1 x).toReal = gammaPDFReal s 1 x := fun x => by
      unfold gammaPDF
      exact ENNReal.toReal_ofReal (gammaPDFReal_nonneg hs one_pos x)
    simp only [h'] at h
    rw [← setIntegral_eq_integral_of_forall_compl_eq_zero (s := Set.Ici 0), integral_Ici_eq_integral_Ioi] at h
    · have hG : (Real.Gamma s : ℂ) ≠ 0 := by exact_mod_cast (Real.Gamma_pos_of_pos hs).ne'
      have e : ∀ x ∈ Ioi (0 : ℝ), gammaPDFReal s 1 x • Complex.exp ((1 - r) * (id x : ℝ)) =
          (Real.Gamma s : ℂ)⁻¹ * (((x ^ (s - 1) : ℝ) : ℂ) * Complex.exp (-r * x)) := by
        intro x hx
        have hx' : (0 : ℝ) ≤ x := le_of_lt hx
        simp only [gammaPDFReal, if_pos hx', Complex.real_smul, id]
        push_cast
        rw [Real.one_rpow, show (1 - r) * (x : ℂ) = x + -r * x by ring, Complex.exp_add]
        have h1 : Complex.exp (-(1 * (x : ℂ))) * Complex.exp (x : ℂ) = 1 := by
          rw [← Complex.exp_add]; simp
        push_cast
        linear_combination (1 / (Real.Gamma s : ℂ) * ((x ^ (s - 1) : ℝ) : ℂ) * Complex.exp (-r * x)) * h1
      rw [setIntegral_congr_fun measurableSet_Ioi e, integral_const_mul] at h
      rw [inv_mul_eq_iff_eq_mul₀ hG] at h
      rw [h]
      congr 1
      have hr0 : r ≠ 0 := fun h0 => by simp [h0] at hr
      rw [Complex.cpow_def_of_ne_zero hr0]
      congr 1
      simp
      ring
    · intro x hx
      have hx' : ¬ 0 ≤ x := hx
      simp [gammaPDFReal, if_neg hx']

lemma mellin_zero {ι : Type*} [Fintype ι] {s : ℝ} (hs : 0 < s) (a : ι → ℂ) {r : ι → ℂ} (hr : ∀ i, 0 < (r i).re) :
    MellinExp s a r := by
  have e : ∀ x : ℝ, ((x ^ (s - 1) : ℝ) : ℂ) * ∑ i, a i * Complex.exp (-r i * x) =
      ∑ i, a i * (((x ^ (s - 1) : ℝ) : ℂ) * Complex.exp (-r i * x)) := by
    intro x
    rw [Finset.mul_sum]
    exact Finset.sum_congr rfl fun i _ => by ring
  have hint : ∀ i ∈ Finset.univ, IntegrableOn (fun x : ℝ => a i * (((x ^ (s - 1) : ℝ) : ℂ) * Complex.exp (-r i * x))) (Ioi 0) :=
    fun i _ => (mellin_one hs (hr i)).1.const_mul _
  constructor
  · simp only [e]
    exact integrable_finsetSum _ hint
  · simp only [e]
    rw [integral_finsetSum _ hint, Finset.mul_sum]
    refine Finset.sum_congr rfl fun i _ => ?_
    rw [integral_const_mul, (mellin_one hs (hr i)).2]
    ring

/-- One integration by parts: from `s + 1` to `s`, given a bound of order `x^p`. -/
lemma mellin_step {ι : Type*} [Fintype ι] {s : ℝ} (hs0 : s ≠ 0) {p : ℕ} (hsp : 0 < s + p) {a r : ι → ℂ}
    (hr : ∀ i, 0 < (r i).re) {ρ C : ℝ} (hρ : 0 < ρ)
    (hb : ∀ x : ℝ, 0 < x → ‖∑ i, a i * Complex.exp (-r i * x)‖ ≤ C * (x ^ p * Real.exp (-(ρ * x))))
    (hnext : MellinExp (s + 1) (fun i => a i * r i) r) : MellinExp s a r := by
  obtain ⟨hI, hV⟩ := hnext
  rw [add_sub_cancel_right] at hI hV
  set f : ℝ → ℂ := fun x => ∑ i, a i * Complex.exp (-r i * x) with hf
  have hint : IntegrableOn (fun x : ℝ => ((x ^ (s - 1) : ℝ) : ℂ) * f x) (Ioi 0) := by
    refine ((integrableOn_rpow_exp hsp hρ).const_mul C).mono' (by fun_prop) ?_
    filter_upwards [ae_restrict_mem measurableSet_Ioi] with x hx
    have hx' : (0 : ℝ) < x := hx
    rw [norm_mul, Complex.norm_real, Real.norm_of_nonneg (Real.rpow_nonneg hx'.le _)]
    refine (mul_le_mul_of_nonneg_left (hb x hx') (Real.rpow_nonneg hx'.le _)).trans (le_of_eq ?_)
    rw [show s + p - 1 = s - 1 + p by ring, Real.rpow_add hx', Real.rpow_natCast]
    ring
  refine ⟨hint, ?_⟩
  -- the boundary terms
  have hnorm : ∀ x : ℝ, 0 < x → ‖((x ^ s : ℝ) : ℂ) * f x‖ ≤ C * (x ^ (s + p) * Real.exp (-ρ * x)) := by
    intro x hx
    rw [norm_mul, Complex.norm_real, Real.norm_of_nonneg (Real.rpow_nonneg hx.le _)]
    refine (mul_le_mul_of_nonneg_left (hb x hx) (Real.rpow_nonneg hx.le _)).trans (le_of_eq ?_)
    rw [Real.rpow_add hx, Real.rpow_natCast]
    ring_nf
  have hF0 : ContinuousWithinAt (fun x : ℝ => ((x ^ s : ℝ) : ℂ) * f x) (Ici 0) 0 := by
    have h0 : ((((0 : ℝ) ^ s : ℝ) : ℂ) * f 0) = 0 := by rw [Real.zero_rpow hs0]; simp
    unfold ContinuousWithinAt
    beta_reduce
    rw [h0]
    have hg : Tendsto (fun x : ℝ => C * (x ^ (s + p) * Real.exp (-ρ * x))) (𝓝[Ici 0] 0) (𝓝 0) := by
      have hc : ContinuousAt (fun x : ℝ => C * (x ^ (s + p) * Real.exp (-ρ * x))) 0 := by
        refine continuousAt_const.mul ((Real.continuousAt_rpow_const _ _ (Or.inr hsp.le)).mul ?_)
        fun_prop
      have := hc.tendsto.mono_left (nhdsWithin_le_nhds (s := Ici 0))
      simpa [Real.zero_rpow hsp.ne'] using this
    refine squeeze_zero_norm' ?_ hg
    filter_upwards [self_mem_nhdsWithin] with x hx
    rcases (show (0 : ℝ) ≤ x from hx).eq_or_lt with h | h
    · rw [← h, h0]
      simp [Real.zero_rpow hsp.ne']
    · exact hnorm x h
  have hFinf : Tendsto (fun x : ℝ => ((x ^ s : ℝ) : ℂ) * f x) atTop (𝓝 0) := by
    have hg := (tendsto_rpow_mul_exp_neg_mul_atTop_nhds_zero (s + p) ρ hρ).const_mul C
    rw [mul_zero] at hg
    refine squeeze_zero_norm' ?_ hg
    filter_upwards [eventually_gt_atTop 0] with x hx using hnorm x hx
  have hderiv : ∀ x ∈ Ioi (0 : ℝ), HasDerivAt (fun x : ℝ => ((x ^ s : ℝ) : ℂ) * f x)
      (s * (((x ^ (s - 1) : ℝ) : ℂ) * f x) - ((x ^ s : ℝ) : ℂ) * ∑ i, a i * r i * Complex.exp (-r i * x)) x := by
    intro x hx
    have hx' : (0 : ℝ) < x := hx
    have h1 : HasDerivAt (fun x : ℝ => ((x ^ s : ℝ) : ℂ)) ((s * x ^ (s - 1) : ℝ) : ℂ) x := by
      have := (Real.hasDerivAt_rpow_const (p := s) (Or.inl hx'.ne')).ofReal_comp
      exact this
    have h2 : HasDerivAt f (∑ i, a i * (Complex.exp (-r i * x) * -r i)) x := by
      have : ∀ i ∈ Finset.univ, HasDerivAt (fun x : ℝ => a i * Complex.exp (-r i * x)) (a i * (Complex.exp (-r i * x) * -r i)) x := by
        intro i _
        have h3 : HasDerivAt (fun x : ℝ => -r i * (x : ℂ)) (-r i) x := by
          have := (Complex.ofRealCLM.hasDerivAt (x := x)).const_mul (-r i)
          simpa using this
        exact (h3.cexp).const_mul _
      have h := HasDerivAt.fun_sum this
      exact h
    refine (h1.mul h2).congr_deriv ?_
    have : ∑ i, a i * (Complex.exp (-r i * x) * -r i) = -∑ i, a i * r i * Complex.exp (-r i * x) := by
      rw [← Finset.sum_neg_distrib]
      exact Finset.sum_congr rfl fun i _ => by ring
    rw [this]
    push_cast
    ring
  have hint' : IntegrableOn (fun x : ℝ => (s : ℂ) * (((x ^ (s - 1) : ℝ) : ℂ) * f x) -
      ((x ^ s : ℝ) : ℂ) * ∑ i, a i * r i * Complex.exp (-r i * x)) (Ioi 0) := (hint.const_mul _).sub hI
  have hmain := integral_Ioi_of_hasDerivAt_of_tendsto hF0 hderiv hint' hFinf
  rw [integral_sub (hint.const_mul _) hI, integral_const_mul, hV, Real.zero_rpow hs0] at hmain
  simp only [Complex.ofReal_zero, zero_mul, sub_zero] at hmain
  have hsc : (s : ℂ) ≠ 0 := by exact_mod_cast hs0
  have h1 : (s : ℂ) * ∫ x in Ioi (0 : ℝ), ((x ^ (s - 1) : ℝ) : ℂ) * f x =
      s * ((Real.Gamma s : ℂ) * ∑ i, a i * r i ^ (-s : ℂ)) := by
    rw [sub_eq_zero] at hmain
    rw [hmain, Real.Gamma_add_one hs0]
    push_cast
    rw [mul_assoc]
    congr 2
    refine Finset.sum_congr rfl fun i _ => ?_
    have hri : r i ≠ 0 := fun h0 => by have := hr i; simp [h0] at this
    rw [show (-((s : ℂ) + 1)) = -s - 1 by ring, Complex.cpow_sub _ _ hri, Complex.cpow_one]
    field_simp
  exact mul_left_cancel₀ hsc h1

/-! ## Taylor bounds for `e^{-w}`, `Re w ≥ 0` -/

lemma norm_exp_neg_sub_one_le {w : ℂ} (hw : 0 ≤ w.re) : ‖Complex.exp (-w) - 1‖ ≤ ‖w‖ := by
  have h := norm_image_sub_le_of_norm_deriv_le_segment_01' (f := fun t : ℝ => Complex.exp (-w * t))
    (f' := fun t => Complex.exp (-w * t) * -w) (C := ‖w‖) ?_ ?_
  · simpa using h
  · intro t _
    have h3 : HasDerivAt (fun x : ℝ => -w * (x : ℂ)) (-w) t := by
      have := (Complex.ofRealCLM.hasDerivAt (x := t)).const_mul (-w)
      simpa using this
    exact h3.cexp.hasDerivWithinAt
  · intro t ht
    rw [norm_mul, norm_neg, Complex.norm_exp]
    have : Real.exp (-w * (t : ℂ)).re ≤ 1 := by
      rw [Real.exp_le_one_iff]
      simp
      exact mul_nonneg hw ht.1
    nlinarith [norm_nonneg w]

lemma norm_exp_neg_sub_one_add_le {w : ℂ} (hw : 0 ≤ w.re) : ‖Complex.exp (-w) - 1 + w‖ ≤ ‖w‖ ^ 2 := by
  have h := norm_image_sub_le_of_norm_deriv_le_segment_01' (f := fun t : ℝ => Complex.exp (-w * t) + w * t)
    (f' := fun t => Complex.exp (-w * t) * -w + w) (C := ‖w‖ ^ 2) ?_ ?_
  · have e : Complex.exp (-w) - 1 + w = (Complex.exp (-w * (1 : ℝ)) + w * (1 : ℝ)) -
        (Complex.exp (-w * (0 : ℝ)) + w * (0 : ℝ)) := by simp; ring
    rw [e]; exact h
  · intro t _
    have h3 : HasDerivAt (fun x : ℝ => -w * (x : ℂ)) (-w) t := by
      have := (Complex.ofRealCLM.hasDerivAt (x := t)).const_mul (-w)
      simpa using this
    have h4 : HasDerivAt (fun x : ℝ => w * (x : ℂ)) w t := by
      have := (Complex.ofRealCLM.hasDerivAt (x := t)).const_mul w
      simpa using this
    exact (h3.cexp.add h4).hasDerivWithinAt
  · intro t ht
    rw [show Complex.exp (-w * t) * -w + w = -w * (Complex.exp (-(w * t)) - 1) by
      rw [neg_mul]; ring, norm_mul, norm_neg]
    have h1 := norm_exp_neg_sub_one_le (w := w * t) (by simp; exact mul_nonneg hw ht.1)
    rw [norm_mul, Complex.norm_real, Real.norm_of_nonneg ht.1] at h1
    have h2 : ‖w‖ * t ≤ ‖w‖ := by nlinarith [norm_nonneg w, ht.2]
    nlinarith [norm_nonneg w]

lemma exists_rate {ι : Type*} [Fintype ι] {r : ι → ℂ} (hr : ∀ i, 0 < (r i).re) :
    ∃ ρ : ℝ, 0 < ρ ∧ ∀ i, ρ ≤ (r i).re := by
  rcases isEmpty_or_nonempty ι with h | h
  · exact ⟨1, one_pos, fun i => h.elim i⟩
  · obtain ⟨i0, hi0⟩ := Finite.exists_min (fun i => (r i).re)
    exact ⟨_, hr i0, hi0⟩

lemma factor_rate {ι : Type*} [Fintype ι] (a r : ι → ℂ) (ρ x : ℝ) :
    ∑ i, a i * Complex.exp (-r i * x) = Complex.exp (-(ρ * x)) * ∑ i, a i * Complex.exp (-((r i - ρ) * x)) := by
  rw [Finset.mul_sum]
  refine Finset.sum_congr rfl fun i _ => ?_
  rw [mul_left_comm, ← Complex.exp_add]
  congr 2
  ring

lemma norm_exp_real (ρ x : ℝ) : ‖Complex.exp (-((ρ : ℂ) * x))‖ = Real.exp (-(ρ * x)) := by
  rw [Complex.norm_exp]; simp

lemma bound_one {ι : Type*} [Fintype ι] {a r : ι → ℂ} {ρ : ℝ} (hρ : ∀ i, ρ ≤ (r i).re) (h0 : ∑ i, a i = 0)
    {x : ℝ} (hx : 0 < x) :
    ‖∑ i, a i * Complex.exp (-r i * x)‖ ≤ (∑ i, ‖a i‖ * ‖r i - ρ‖) * (x ^ 1 * Real.exp (-(ρ * x))) := by
  rw [factor_rate a r ρ x, norm_mul, norm_exp_real]
  have e : ∑ i, a i * Complex.exp (-((r i - ρ) * x)) = ∑ i, a i * (Complex.exp (-((r i - ρ) * x)) - 1) := by
    simp only [mul_sub, mul_one, Finset.sum_sub_distrib, h0, sub_zero]
  rw [e]
  have h : ‖∑ i, a i * (Complex.exp (-((r i - ρ) * x)) - 1)‖ ≤ (∑ i, ‖a i‖ * ‖r i - ρ‖) * x := by
    refine (norm_sum_le _ _).trans ?_
    rw [Finset.sum_mul]
    refine Finset.sum_le_sum fun i _ => ?_
    rw [norm_mul, mul_assoc]
    refine mul_le_mul_of_nonneg_left ?_ (norm_nonneg _)
    refine (norm_exp_neg_sub_one_le ?_).trans (le_of_eq ?_)
    · simp
      exact mul_nonneg (by linarith [hρ i]) hx.le
    · rw [norm_mul, Complex.norm_real, Real.norm_of_nonneg hx.le]
  have := mul_le_mul_of_nonneg_left h (Real.exp_pos (-(ρ * x))).le
  linarith

lemma bound_two {ι : Type*} [Fintype ι] {a r : ι → ℂ} {ρ : ℝ} (hρ : ∀ i, ρ ≤ (r i).re) (h0 : ∑ i, a i = 0)
    (h1 : ∑ i, a i * r i = 0) {x : ℝ} (hx : 0 < x) :
    ‖∑ i, a i * Complex.exp (-r i * x)‖ ≤ (∑ i, ‖a i‖ * ‖r i - ρ‖ ^ 2) * (x ^ 2 * Real.exp (-(ρ * x))) := by
  rw [factor_rate a r ρ x, norm_mul, norm_exp_real]
  have e : ∑ i, a i * Complex.exp (-((r i - ρ) * x)) =
      ∑ i, a i * (Complex.exp (-((r i - ρ) * x)) - 1 + (r i - ρ) * x) := by
    have h2 : ∑ i, a i * ((r i - ρ) * x) = 0 := by
      have : ∑ i, a i * ((r i - ρ) * x) = (∑ i, a i * r i) * x - (∑ i, a i) * (ρ * x) := by
        rw [Finset.sum_mul, Finset.sum_mul, ← Finset.sum_sub_distrib]
        exact Finset.sum_congr rfl fun i _ => by ring
      rw [this, h0, h1]; simp
    have h3 : ∑ i, a i * (Complex.exp (-((r i - ρ) * x)) - 1 + (r i - ρ) * x) =
        ∑ i, a i * Complex.exp (-((r i - ρ) * x)) - ∑ i, a i + ∑ i, a i * ((r i - ρ) * x) := by
      rw [← Finset.sum_sub_distrib, ← Finset.sum_add_distrib]
      exact Finset.sum_congr rfl fun i _ => by ring
    rw [h3, h2, h0]; simp
  rw [e]
  have h : ‖∑ i, a i * (Complex.exp (-((r i - ρ) * x)) - 1 + (r i - ρ) * x)‖ ≤ (∑ i, ‖a i‖ * ‖r i - ρ‖ ^ 2) * x ^ 2 := by
    refine (norm_sum_le _ _).trans ?_
    rw [Finset.sum_mul]
    refine Finset.sum_le_sum fun i _ => ?_
    rw [norm_mul, mul_assoc]
    refine mul_le_mul_of_nonneg_left ?_ (norm_nonneg _)
    refine (norm_exp_neg_sub_one_add_le ?_).trans (le_of_eq ?_)
    · simp
      exact mul_nonneg (by linarith [hρ i]) hx.le
    · rw [norm_mul, Complex.norm_real, Real.norm_of_nonneg hx.le, mul_pow]
  have := mul_le_mul_of_nonneg_left h (Real.exp_pos (-(ρ * x))).le
  linarith

/-- The regularised gamma integral down to `s > -2`. -/
lemma mellin_two {ι : Type*} [Fintype ι] {s : ℝ} (hs : -2 < s) (hs0 : s ≠ 0) (hs1 : s ≠ -1) {a r : ι → ℂ}
    (hr : ∀ i, 0 < (r i).re) (h0 : ∑ i, a i = 0) (h1 : ∑ i, a i * r i = 0) : MellinExp s a r := by
  obtain ⟨ρ, hρ, hρr⟩ := exists_rate hr
  have one : ∀ {s : ℝ}, -1 < s → s ≠ 0 → ∀ a : ι → ℂ, ∑ i, a i = 0 → MellinExp s a r := by
    intro s hs hs0 a h0
    exact mellin_step hs0 (p := 1) (by push_cast; linarith) hr hρ (fun x hx => bound_one hρr h0 hx)
      (mellin_zero (by linarith) _ hr)
  exact mellin_step hs0 (p := 2) (by push_cast; linarith) hr hρ (fun x hx => bound_two hρr h0 h1 hx)
    (one (by linarith) (fun h => hs1 (by linarith)) _ h1)

end PyFENG
