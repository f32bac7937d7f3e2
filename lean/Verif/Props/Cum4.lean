import Verif.Model.Cum4
import Verif.Model.Bsm
import Verif.Props.Mgf2Mom
import Mathlib.Analysis.Complex.TaylorSeries
import Mathlib.Analysis.Complex.Liouville
import Mathlib.Analysis.Complex.RealDeriv
import Mathlib.Probability.Moments.MGFAnalytic
import Mathlib.Analysis.Real.Pi.Bounds
import Mathlib.Probability.Distributions.Poisson.Basic
import Mathlib.Analysis.Complex.ExponentialBounds

/-!
# C143: `logp_cum4_numeric`
-/

namespace PyFENG

open Real MeasureTheory ProbabilityTheory Set

namespace Cum4

/-- Derivatives of a function that is real on the real axis. -/
lemma iteratedDeriv_ofReal {K : ℂ → ℂ} {k : ℝ → ℝ} {R : ℝ} (hK : DifferentiableOn ℂ K (Metric.ball 0 R)) (hk : ∀ x : ℝ, |x| < R → K x = k x) (n : ℕ) :
    ∀ x : ℝ, |x| < R → iteratedDeriv n K x = ((iteratedDeriv n k x : ℝ) : ℂ) := by
  induction n with
  | zero => simpa only [iteratedDeriv_zero] using hk
  | succ n ih =>
    intro x hx
    have hx' : (x : ℂ) ∈ Metric.ball (0 : ℂ) R := by simpa [Complex.norm_real] using hx
    have han : AnalyticAt ℂ (iteratedDeriv n K) x := by
      have := (hK.analyticOnNhd Metric.isOpen_ball) x hx'
      rw [iteratedDeriv_eq_iterate]
      exact this.iterated_deriv n
    have hd := han.differentiableAt.hasDerivAt
    rw [iteratedDeriv_succ, iteratedDeriv_succ]
    set e' := deriv (iteratedDeriv n K) (x : ℂ) with he
    have h1 := hd.comp_ofReal
    have hev : (fun y : ℝ => iteratedDeriv n K y) =ᶠ[nhds x] fun y => ((iteratedDeriv n k y : ℝ) : ℂ) := by
      have : {y : ℝ | |y| < R} ∈ nhds x := (isOpen_lt continuous_abs continuous_const).mem_nhds hx
      filter_upwards [this] with y hy using ih y hy
    have h2 : HasDerivAt (fun y : ℝ => ((iteratedDeriv n k y : ℝ) : ℂ)) e' x := h1.congr_of_eventuallyEq hev.symm
    have h3 : HasDerivAt (iteratedDeriv n k) e'.re x := by
      have := hd.real_of_complex
      refine this.congr_of_eventuallyEq ?_
      filter_upwards [hev] with y hy
      rw [hy, Complex.ofReal_re]
    rw [h3.deriv]
    exact h2.unique h3.ofReal_comp

/-- The algorithm applied to an analytic function that is real on the real axis. -/
lemma raw_analytic {K : ℂ → ℂ} {k : ℝ → ℝ} {R M : ℝ} (hK : DifferentiableOn ℂ K (Metric.ball 0 R)) (hk : ∀ x : ℝ, |x| < R → K x = k x)
    (hM : ∀ z, ‖z‖ < R → ‖K z‖ ≤ M) {n l : ℕ} (hn : n ≠ 0) (hl : l ≠ 0) {alpha : ℝ} (ha : alpha ≠ 0) (haR : |alpha| < R) :
    |Mgf2Mom.momentRaw K n alpha l - iteratedDeriv n k 0| ≤ n.factorial * (M / |alpha| ^ n) * (1e-11 / (1 - 1e-11)) := by
  have ha' := abs_pos.2 ha
  have hR : 0 < R := ha'.trans haR
  have h0 := fun j => iteratedDeriv_ofReal hK hk j 0 (by simpa using hR)
  simp only [Complex.ofReal_zero] at h0
  set a : ℕ → ℝ := fun j => iteratedDeriv j k 0 / j.factorial with hadef
  have hr1 : Mgf2Mom.radius n l ≤ 1 := by
    unfold Mgf2Mom.radius
    refine rpow_le_one_of_one_le_of_nonpos (by norm_num) ?_
    rw [neg_div]
    exact neg_nonpos.2 (by positivity)
  have hT : Spec.TaylorOn a |alpha * Mgf2Mom.radius n l| K := by
    intro z hz
    have hzR : z ∈ Metric.ball (0 : ℂ) R := by
      rw [mem_ball_zero_iff, hz, abs_mul, abs_of_pos (Mgf2Mom.radius_pos n l)]
      exact lt_of_le_of_lt (mul_le_of_le_one_right ha'.le hr1) haR
    have := Complex.hasSum_taylorSeries_on_ball hK hzR
    refine this.congr_fun fun j => ?_
    rw [h0 j, sub_zero, smul_eq_mul, smul_eq_mul, hadef]
    push_cast
    ring
  have hb : ∀ j, |a j| * |alpha| ^ j ≤ M := by
    intro j
    have hcl : DiffContOnCl ℂ K (Metric.ball 0 |alpha|) := by
      refine DifferentiableOn.diffContOnCl ?_
      rw [closure_ball _ ha'.ne']
      exact hK.mono (Metric.closedBall_subset_ball haR)
    have h := Complex.norm_iteratedDeriv_le_of_forall_mem_sphere_norm_le j ha' hcl (C := M) (fun z hz => hM z (by
      rw [mem_sphere_zero_iff_norm] at hz; rw [hz]; exact haR))
    rw [h0 j, Complex.norm_real, norm_eq_abs] at h
    rw [hadef]
    simp only
    rw [abs_div, Nat.abs_cast]
    have hf : (0 : ℝ) < j.factorial := by exact_mod_cast j.factorial_pos
    have hp : 0 < |alpha| ^ j := by positivity
    rw [le_div_iff₀ hp] at h
    rw [div_mul_eq_mul_div, div_le_iff₀ hf]
    linarith
  have he := Mgf2Mom.moment_raw_error (C := M / |alpha| ^ n) hn hl ha hT (fun m hm => by
    have := hb (n + 2 * n * l * m)
    rw [pow_add, ← mul_assoc, mul_right_comm] at this
    rw [le_div_iff₀ (by positivity)]
    exact this)
  have hf : (n.factorial : ℝ) ≠ 0 := by exact_mod_cast n.factorial_ne_zero
  rwa [hadef, mul_div_cancel₀ _ hf] at he

/-- The unfolding of a successful run. -/
lemma ok_iff {f : ℂ → ℂ} {c1 c2 c3 c4 : ℝ} :
    logpCum4Numeric f = .ok (c1, c2, c3, c4) ↔ ∃ a1, seedAlpha (fun u => Complex.log (f u)) = .ok a1 ∧ a1 ≠ 0 ∧
      c1 = Mgf2Mom.momentRaw (fun u => Complex.log (f u)) 1 a1 1 ∧ c2 = Mgf2Mom.momentRaw (fun u => Complex.log (f u)) 2 a1 1 ∧
      c2 ≠ 0 ∧ 2 * c1 / c2 ≠ 0 ∧ c3 = Mgf2Mom.momentRaw (fun u => Complex.log (f u)) 3 (2 * c1 / c2) 1 ∧
      c3 ≠ 0 ∧ 3 * c2 / c3 ≠ 0 ∧ c4 = Mgf2Mom.momentRaw (fun u => Complex.log (f u)) 4 (3 * c2 / c3) 1 := by
  unfold logpCum4Numeric rawE divE
  simp only [bind, Except.bind, pure, Except.pure]
  constructor
  · intro h
    split at h
    · exact absurd h (by simp)
    rename_i a1 hs
    refine ⟨a1, hs, ?_⟩
    by_cases h1 : a1 = 0
    · simp [h1] at h
    simp only [h1, if_false] at h
    by_cases h2 : Mgf2Mom.momentRaw (fun u => Complex.log (f u)) 2 a1 1 = 0
    · simp [h2] at h
    simp only [h2, if_false] at h
    by_cases h3 : 2 * Mgf2Mom.momentRaw (fun u => Complex.log (f u)) 1 a1 1 / Mgf2Mom.momentRaw (fun u => Complex.log (f u)) 2 a1 1 = 0
    · simp only [h3, if_true] at h; exact absurd h (by simp)
    simp only [h3, if_false] at h
    generalize hc3 : Mgf2Mom.momentRaw (fun u => Complex.log (f u)) 3 (2 * Mgf2Mom.momentRaw (fun u => Complex.log (f u)) 1 a1 1 / Mgf2Mom.momentRaw (fun u => Complex.log (f u)) 2 a1 1) 1 = t3 at h
    by_cases h4 : t3 = 0
    · simp [h4] at h
    simp only [h4, if_false] at h
    by_cases h5 : 3 * Mgf2Mom.momentRaw (fun u => Complex.log (f u)) 2 a1 1 / t3 = 0
    · simp only [h5, if_true] at h; exact absurd h (by simp)
    simp only [h5, if_false, Except.ok.injEq, Prod.mk.injEq] at h
    obtain ⟨rfl, rfl, rfl, rfl⟩ := h
    exact ⟨h1, rfl, rfl, h2, h3, hc3.symm, h4, h5, rfl⟩
  · rintro ⟨a1, hs, h1, rfl, rfl, h2, h3, rfl, h4, h5, rfl⟩
    rw [hs]
    simp only [h1, if_false, h2, h3, h4, h5]

/-- **C143 (consistency).** The four numbers are the list computed by `Mgf2Mom(mgf).cumulants(4)`. -/
theorem cum4_eq_cumulants {f : ℂ → ℂ} {c1 c2 c3 c4 : ℝ} (h : logpCum4Numeric f = .ok (c1, c2, c3, c4)) :
    Mgf2Mom.cumulants ⟨f, 1, none, none⟩ 4 = [c1, c2, c3, c4] := by
  obtain ⟨a1, hs, e1, e2, e3, e4, e5, e6, e7, e8, e9⟩ := ok_iff.1 h
  unfold seedAlpha rawE divE at hs
  simp only [bind, Except.bind, one_ne_zero, if_false] at hs
  by_cases h1 : Mgf2Mom.momentRaw (fun u => Complex.log (f u)) 1 1 2 = 0
  · simp [h1] at hs
  simp only [h1, if_false] at hs
  by_cases h2 : 1.0 / Mgf2Mom.momentRaw (fun u => Complex.log (f u)) 1 1 2 = 0
  · simp only [h2, if_true] at hs; exact absurd hs (by simp)
  simp only [h2, if_false] at hs
  by_cases h3 : Mgf2Mom.momentRaw (fun u => Complex.log (f u)) 2 (1.0 / Mgf2Mom.momentRaw (fun u => Complex.log (f u)) 1 1 2) 1 = 0
  · simp only [h3, if_true] at hs; exact absurd hs (by simp)
  simp only [h3, if_false, Except.ok.injEq] at hs
  unfold Mgf2Mom.cumulants Mgf2Mom.run
  simp only [show ¬ (4 < 2) by norm_num, if_false]
  rw [hs, ← e2, ← e3]
  simp only [Mgf2Mom.runLoop, List.getD_cons_succ, List.getD_cons_zero, List.reverse_cons, List.reverse_nil, List.nil_append, List.cons_append]
  have x3 : ((3 : ℕ) : ℝ) - 1 = 2 := by norm_num
  have x4 : ((3 + 1 : ℕ) : ℝ) - 1 = 3 := by norm_num
  rw [x3, x4, ← e6, ← e9]

/-- Interior of the domain, analyticity and reality of the cumulant generating function. -/
lemma law_setup {mu : Measure ℝ} [IsProbabilityMeasure mu] {R : ℝ} (hi : Integrable (fun x => exp (R * |x|)) mu)
    (hs : ∀ z, ‖z‖ < R → complexMGF id mu z ∈ Complex.slitPlane) :
    (∀ x : ℝ, |x| < R → x ∈ interior (integrableExpSet id mu)) ∧ DifferentiableOn ℂ (fun u => Complex.log (complexMGF id mu u)) (Metric.ball 0 R) ∧
    ∀ x : ℝ, |x| < R → Complex.log (complexMGF id mu x) = ((cgf id mu x : ℝ) : ℂ) := by
  have hset : ∀ x : ℝ, |x| < R → x ∈ interior (integrableExpSet id mu) := by
    intro x hx
    have hsub : Ioo (-R) R ⊆ integrableExpSet id mu := by
      intro t ht
      show Integrable (fun ω => exp (t * id ω)) mu
      refine hi.mono' (by fun_prop) (ae_of_all _ fun y => ?_)
      rw [norm_of_nonneg (exp_pos _).le]
      refine exp_le_exp.2 ?_
      have : t * y ≤ |t| * |y| := by rw [← abs_mul]; exact le_abs_self _
      exact this.trans (mul_le_mul_of_nonneg_right (abs_le.2 ⟨ht.1.le, ht.2.le⟩) (abs_nonneg y))
    exact interior_maximal hsub isOpen_Ioo (abs_lt.1 hx)
  have hK : DifferentiableOn ℂ (fun u => Complex.log (complexMGF id mu u)) (Metric.ball 0 R) := by
    refine DifferentiableOn.clog ?_ (fun z hz => hs z (by simpa using hz))
    refine differentiableOn_complexMGF.mono fun z hz => ?_
    refine hset z.re (lt_of_le_of_lt (Complex.abs_re_le_norm z) (by simpa using hz))
  have hk : ∀ x : ℝ, |x| < R → Complex.log (complexMGF id mu x) = ((cgf id mu x : ℝ) : ℂ) := by
    intro x hx
    rw [complexMGF_ofReal, cgf, Complex.ofReal_log (mgf_nonneg)]
  exact ⟨hset, hK, hk⟩

/-- **C143 (accuracy).** Let `mu` be the law of `log(S_T/F)`, with `E exp(R |X|) < ∞`, and let its moment generating function avoid the cut of the logarithm on the disc of radius `R`, where
`|log M|` is at most `B`. If `logp_cum4_numeric` returns four numbers and the scales it chose are below `R`, each number is the corresponding cumulant of `mu` up to
`n! B / |alpha|^n * 1e-11/(1 - 1e-11)`; the first two cumulants are the mean and the variance. -/
theorem cum4_law {mu : Measure ℝ} [IsProbabilityMeasure mu] {R B : ℝ} (hi : Integrable (fun x => exp (R * |x|)) mu)
    (hs : ∀ z, ‖z‖ < R → complexMGF id mu z ∈ Complex.slitPlane) (hB : ∀ z, ‖z‖ < R → ‖Complex.log (complexMGF id mu z)‖ ≤ B)
    {c1 c2 c3 c4 a1 : ℝ} (h : logpCum4Numeric (complexMGF id mu) = .ok (c1, c2, c3, c4)) (ha : seedAlpha (fun u => Complex.log (complexMGF id mu u)) = .ok a1)
    (h1 : |a1| < R) (h3 : |2 * c1 / c2| < R) (h4 : |3 * c2 / c3| < R) :
    |c1 - iteratedDeriv 1 (cgf id mu) 0| ≤ B / |a1| * (1e-11 / (1 - 1e-11)) ∧
    |c2 - iteratedDeriv 2 (cgf id mu) 0| ≤ 2 * B / |a1| ^ 2 * (1e-11 / (1 - 1e-11)) ∧
    |c3 - iteratedDeriv 3 (cgf id mu) 0| ≤ 6 * B / |2 * c1 / c2| ^ 3 * (1e-11 / (1 - 1e-11)) ∧
    |c4 - iteratedDeriv 4 (cgf id mu) 0| ≤ 24 * B / |3 * c2 / c3| ^ 4 * (1e-11 / (1 - 1e-11)) ∧
    iteratedDeriv 1 (cgf id mu) 0 = ∫ x, x ∂mu ∧ iteratedDeriv 2 (cgf id mu) 0 = ∫ x, (x - ∫ y, y ∂mu) ^ 2 ∂mu := by
  obtain ⟨a1', ha', e1, e2, e3, e4, e5, e6, e7, e8, e9⟩ := ok_iff.1 h
  rw [ha] at ha'
  obtain rfl : a1 = a1' := by simpa using ha'
  have hR : 0 < R := (abs_pos.2 e1).trans h1
  obtain ⟨hset, hK, hk⟩ := law_setup hi hs
  have key := fun (n : ℕ) (hn : n ≠ 0) (al : ℝ) (hal : al ≠ 0) (hlt : |al| < R) => raw_analytic hK hk (M := B) hB (l := 1) hn one_ne_zero hal hlt
  have k1 := key 1 (by norm_num) a1 e1 h1
  have k2 := key 2 (by norm_num) a1 e1 h1
  have k3 := key 3 (by norm_num) _ e5 h3
  have k4 := key 4 (by norm_num) _ e8 h4
  rw [← e2] at k1; rw [← e3] at k2; rw [← e6] at k3; rw [← e9] at k4
  have m1 : deriv (cgf id mu) 0 = ∫ x, x ∂mu := by
    rw [deriv_cgf_zero (hset 0 (by simpa using hR))]; simp
  refine ⟨?_, ?_, ?_, ?_, ?_, ?_⟩
  · refine k1.trans (le_of_eq ?_); norm_num
  · refine k2.trans (le_of_eq ?_); norm_num [Nat.factorial]; ring
  · refine k3.trans (le_of_eq ?_); norm_num [Nat.factorial]; ring
  · refine k4.trans (le_of_eq ?_); norm_num [Nat.factorial]; ring
  · rw [iteratedDeriv_one, m1]
  · rw [iteratedDeriv_two_cgf_eq_integral (hset 0 (by simpa using hR)), m1]
    simp

/-- **C143 (conditional mean and variance).** If `cond_avgvar_mv_numeric` returns `(m, vs)` for a law `mu` of the average variance (same conditions), `m` is the mean and `vs m²` the variance of `mu`, up to
`B/|alpha| * 1e-11/(1 - 1e-11)` and `2 B/|alpha|² * 1e-11/(1 - 1e-11)`. -/
theorem mv_law {mu : Measure ℝ} [IsProbabilityMeasure mu] {R B : ℝ} (hi : Integrable (fun x => exp (R * |x|)) mu)
    (hs : ∀ z, ‖z‖ < R → complexMGF id mu z ∈ Complex.slitPlane) (hB : ∀ z, ‖z‖ < R → ‖Complex.log (complexMGF id mu z)‖ ≤ B)
    {m vs a1 : ℝ} (h : condAvgvarMvNumeric (complexMGF id mu) = .ok (m, vs)) (ha : seedAlpha (fun u => Complex.log (complexMGF id mu u)) = .ok a1)
    (h1 : |a1| < R) :
    |m - ∫ x, x ∂mu| ≤ B / |a1| * (1e-11 / (1 - 1e-11)) ∧
    |vs * m ^ 2 - ∫ x, (x - ∫ y, y ∂mu) ^ 2 ∂mu| ≤ 2 * B / |a1| ^ 2 * (1e-11 / (1 - 1e-11)) := by
  unfold condAvgvarMvNumeric rawE divE at h
  simp only [bind, Except.bind, pure, Except.pure] at h
  rw [ha] at h
  by_cases e1 : a1 = 0
  · simp [e1] at h
  simp only [e1, if_false] at h
  by_cases e2 : Mgf2Mom.momentRaw (fun u => Complex.log (complexMGF id mu u)) 1 a1 1 ^ 2 = 0
  · simp only [e2, if_true] at h; exact absurd h (by simp)
  simp only [e2, if_false, Except.ok.injEq, Prod.mk.injEq] at h
  obtain ⟨rfl, rfl⟩ := h
  have hR : 0 < R := (abs_pos.2 e1).trans h1
  obtain ⟨hset, hK, hk⟩ := law_setup hi hs
  have k1 := raw_analytic hK hk (M := B) hB (l := 1) (n := 1) one_ne_zero one_ne_zero e1 h1
  have k2 := raw_analytic hK hk (M := B) hB (l := 1) (n := 2) two_ne_zero one_ne_zero e1 h1
  have m1 : deriv (cgf id mu) 0 = ∫ x, x ∂mu := by
    rw [deriv_cgf_zero (hset 0 (by simpa using hR))]; simp
  have m2 : iteratedDeriv 2 (cgf id mu) 0 = ∫ x, (x - ∫ y, y ∂mu) ^ 2 ∂mu := by
    rw [iteratedDeriv_two_cgf_eq_integral (hset 0 (by simpa using hR)), m1]
    simp
  rw [iteratedDeriv_one, m1] at k1
  rw [m2] at k2
  rw [div_mul_cancel₀ _ e2]
  refine ⟨k1.trans (le_of_eq (by norm_num)), k2.trans (le_of_eq (by norm_num [Nat.factorial]; ring))⟩

/-- **C143 (zero skewness).** If the cumulant generating function is a linear term plus an even function on the circle used for the third cumulant, the computed third cumulant is exactly zero. -/
theorem symmetric_third_zero {K : ℂ → ℂ} {b alpha : ℝ} (hc : ∀ z, ‖z‖ = |alpha * Mgf2Mom.radius 3 1| → K (starRingEnd ℂ z) = starRingEnd ℂ (K z))
    (he : ∀ z, ‖z‖ = |alpha * Mgf2Mom.radius 3 1| → K (-z) + b * z = K z - b * z) :
    Mgf2Mom.momentRaw K 3 alpha 1 = 0 := by
  unfold Mgf2Mom.momentRaw
  simp only
  generalize alpha * Mgf2Mom.radius 3 1 = r at *
  have hs : Finset.Ico 1 (3 * 1) = {1, 2} := by decide
  rw [hs, Finset.sum_pair (by norm_num), Mgf2Mom.mul_one_lit, Mgf2Mom.mul_neg_one_lit]
  have x1 : Complex.exp (π * ((1 : ℕ) : ℂ) * Complex.I / (((3 : ℕ) : ℂ) * ((1 : ℕ) : ℂ))) = ⟨1 / 2, √3 / 2⟩ := by
    rw [show (π * ((1 : ℕ) : ℂ) * Complex.I / (((3 : ℕ) : ℂ) * ((1 : ℕ) : ℂ))) = ((π / 3 : ℝ) : ℂ) * Complex.I by push_cast; ring]
    apply Complex.ext
    · rw [Complex.exp_ofReal_mul_I_re, cos_pi_div_three]
    · rw [Complex.exp_ofReal_mul_I_im, sin_pi_div_three]
  have x2 : Complex.exp (π * ((2 : ℕ) : ℂ) * Complex.I / (((3 : ℕ) : ℂ) * ((1 : ℕ) : ℂ))) = ⟨-(1 / 2), √3 / 2⟩ := by
    rw [show (π * ((2 : ℕ) : ℂ) * Complex.I / (((3 : ℕ) : ℂ) * ((1 : ℕ) : ℂ))) = ((π - π / 3 : ℝ) : ℂ) * Complex.I by push_cast; ring]
    apply Complex.ext
    · rw [Complex.exp_ofReal_mul_I_re, cos_pi_sub, cos_pi_div_three]
    · rw [Complex.exp_ofReal_mul_I_im, sin_pi_sub, sin_pi_div_three]
  have y1 : Complex.exp (-π * ((1 : ℕ) : ℂ) * Complex.I / ((1 : ℕ) : ℂ)) = -1 := by
    rw [show (-π * ((1 : ℕ) : ℂ) * Complex.I / ((1 : ℕ) : ℂ)) = -(π * Complex.I) by push_cast; ring, Complex.exp_neg, Complex.exp_pi_mul_I]
    norm_num
  have y2 : Complex.exp (-π * ((2 : ℕ) : ℂ) * Complex.I / ((1 : ℕ) : ℂ)) = 1 := by
    rw [show (-π * ((2 : ℕ) : ℂ) * Complex.I / ((1 : ℕ) : ℂ)) = -(2 * π * Complex.I) by push_cast; ring, Complex.exp_neg, Complex.exp_two_pi_mul_I]
    norm_num
  rw [x1, x2, y1, y2]
  set w : ℂ := (r : ℂ) * ⟨1 / 2, √3 / 2⟩ with hw
  have hn : ‖(⟨1 / 2, √3 / 2⟩ : ℂ)‖ = 1 := by
    rw [← x1, show (π * ((1 : ℕ) : ℂ) * Complex.I / (((3 : ℕ) : ℂ) * ((1 : ℕ) : ℂ))) = ((π / 3 : ℝ) : ℂ) * Complex.I by push_cast; ring,
      Complex.norm_exp_ofReal_mul_I]
  have hwn : ‖w‖ = |r| := by rw [hw, norm_mul, hn, mul_one, Complex.norm_real, norm_eq_abs]
  have hw2 : (r : ℂ) * ⟨-(1 / 2), √3 / 2⟩ = -starRingEnd ℂ w := by
    apply Complex.ext <;> simp [hw]
  have hcw : ‖starRingEnd ℂ w‖ = |r| := by rw [Complex.norm_conj, hwn]
  have e1 := congrArg Complex.re (he _ hcw)
  have e2 := congrArg Complex.re (hc _ hwn)
  have e3 := congrArg Complex.re (he (r : ℂ) (by rw [Complex.norm_real, norm_eq_abs]))
  have hwre : w.re = r / 2 := by rw [hw]; simp; ring
  simp only [Complex.add_re, Complex.sub_re, Complex.mul_re, Complex.conj_re, Complex.conj_im, Complex.ofReal_re, Complex.ofReal_im, zero_mul, sub_zero] at e1 e2 e3
  rw [hw2]
  have hneg : ((-r : ℝ) : ℂ) = -(r : ℂ) := by push_cast; rfl
  rw [hneg, mul_one, mul_neg_one, Complex.neg_re]
  rw [hwre] at e1
  rw [e2] at e1
  have : (K (r : ℂ)).re + (-1) ^ 3 * (K (-(r : ℂ))).re + 2.0 * (-(K w).re + (K (-(starRingEnd ℂ) w)).re) = 0 := by
    norm_num
    linarith
  rw [this, mul_zero]

lemma err_bind {α β : Type} {x : Except String α} {g : α → Except String β} (hx : ∀ e, x = .error e → e = "nan") (hg : ∀ a e, g a = .error e → e = "nan") :
    ∀ e, (x >>= g) = .error e → e = "nan" := by
  intro e h
  rcases x with e' | a
  · have : e' = e := by simpa [bind, Except.bind] using h
    exact this ▸ hx e' rfl
  · exact hg a e h

lemma err_raw (f : ℂ → ℂ) (n : ℕ) (alpha : ℝ) (l : ℕ) : ∀ e, rawE f n alpha l = .error e → e = "nan" := by
  intro e h
  unfold rawE at h
  split_ifs at h
  simpa using h.symm

lemma err_div (x y : ℝ) : ∀ e, divE x y = .error e → e = "nan" := by
  intro e h
  unfold divE at h
  split_ifs at h
  simpa using h.symm

lemma err_nan {f : ℂ → ℂ} (h : ∀ c, logpCum4Numeric f ≠ .ok c) : logpCum4Numeric f = .error "nan" := by
  rcases hf : logpCum4Numeric f with e | c
  · have : e = "nan" := by
      refine err_bind (x := seedAlpha fun u => Complex.log (f u)) ?_ (fun a => ?_) e hf
      · exact err_bind (err_raw _ _ _ _) fun a => err_bind (err_div _ _) fun a => err_bind (err_raw _ _ _ _) fun a => err_div _ _
      · exact err_bind (err_raw _ _ _ _) fun a => err_bind (err_raw _ _ _ _) fun a => err_bind (err_div _ _) fun a => err_bind (err_raw _ _ _ _) fun a =>
          err_bind (err_div _ _) fun a => err_bind (err_raw _ _ _ _) fun a e h => by simp [pure, Except.pure] at h
    rw [this]
  · exact absurd hf (h c)

/-- **C143 (failure at zero skewness).** `logp_cum4_numeric` never returns four numbers when the cumulant generating function is a drift plus an even function on the circle used for the third
cumulant - as for a law of `log(S_T/F)` symmetric about its mean: the fourth scale `3 c2 / c3` divides by zero. -/
theorem symmetric_fails (f : ℂ → ℂ) (b c1 c2 c3 c4 : ℝ)
    (hc : ∀ z, ‖z‖ = |2 * c1 / c2 * Mgf2Mom.radius 3 1| → Complex.log (f (starRingEnd ℂ z)) = starRingEnd ℂ (Complex.log (f z)))
    (he : ∀ z, ‖z‖ = |2 * c1 / c2 * Mgf2Mom.radius 3 1| → Complex.log (f (-z)) + b * z = Complex.log (f z) - b * z) :
    logpCum4Numeric f ≠ .ok (c1, c2, c3, c4) := by
  intro h
  obtain ⟨a1, -, -, -, -, -, -, e6, e7, -⟩ := ok_iff.1 h
  exact e7 (e6.trans (symmetric_third_zero (b := b) hc he))

/-- Taylor coefficients of the Black-Scholes cumulant generating function. -/
noncomputable def bsmCoef (v : ℝ) (n : ℕ) : ℝ := if n = 1 then -v / 2 else if n = 2 then v / 2 else 0

lemma bsm_raw (m : MParams) {T : ℝ} (hv0 : 0 ≤ m.sigma ^ 2 * T) {n l : ℕ} (hn : n ≠ 0) (hl : l ≠ 0) {alpha : ℝ} (ha : alpha ≠ 0)
    (hw : m.sigma ^ 2 * T / 2 * (|alpha * Mgf2Mom.radius n l| ^ 2 + |alpha * Mgf2Mom.radius n l|) < π) :
    Mgf2Mom.momentRaw (fun u => Complex.log (Bsm.logpMgf m u T)) n alpha l = n.factorial * bsmCoef (m.sigma ^ 2 * T) n := by
  set v := m.sigma ^ 2 * T with hv
  have hT : Spec.TaylorOn (bsmCoef v) |alpha * Mgf2Mom.radius n l| (fun u => Complex.log (Bsm.logpMgf m u T)) := by
    intro z hz
    have hK : Complex.log (Bsm.logpMgf m z T) = (v / 2 : ℝ) * (z ^ 2 - z) := by
      have e : (-0.5 * (m.sigma : ℂ) ^ 2 * T * z * (1 - z)) = (v / 2 : ℝ) * (z ^ 2 - z) := by
        rw [hv]; push_cast; norm_num; ring
      unfold Bsm.logpMgf
      rw [e]
      have hb : |((v / 2 : ℝ) * (z ^ 2 - z) : ℂ).im| < π := by
        refine lt_of_le_of_lt (Complex.abs_im_le_norm _) (lt_of_le_of_lt ?_ hw)
        rw [norm_mul, Complex.norm_real, norm_of_nonneg (by positivity), ← hz]
        refine mul_le_mul_of_nonneg_left ?_ (by positivity)
        exact (norm_sub_le _ _).trans (by rw [norm_pow])
      exact Complex.log_exp (abs_lt.1 hb).1 (abs_lt.1 hb).2.le
    simp only [hK]
    have hs : HasSum (fun k => (bsmCoef v k : ℂ) * z ^ k) (∑ k ∈ Finset.range 3, (bsmCoef v k : ℂ) * z ^ k) := by
      refine hasSum_sum_of_ne_finset_zero fun k hk => ?_
      have hk : 3 ≤ k := by simpa using hk
      simp [bsmCoef, show k ≠ 1 by omega, show k ≠ 2 by omega]
    refine hs.congr_fun (fun k => rfl) |>.trans_eq ?_
    simp [Finset.sum_range_succ, bsmCoef]
    ring
  have h := Mgf2Mom.moment_raw_aliasing hn hl ha hT
  have h2 := hasSum_single (f := fun k : ℕ => (n.factorial : ℝ) * bsmCoef v (n + 2 * n * l * k) * (alpha ^ (2 * n * l) * 1e-11) ^ k) 0 (fun k hk => by
    have : 1 ≤ n * l * k := Nat.one_le_iff_ne_zero.2 (mul_ne_zero (mul_ne_zero hn hl) hk)
    have h3 : n + 2 * n * l * k = n + 2 * (n * l * k) := by ring
    have : 1 ≤ n := Nat.one_le_iff_ne_zero.2 hn
    simp [bsmCoef, show n + 2 * n * l * k ≠ 1 by omega, show n + 2 * n * l * k ≠ 2 by omega])
  have := h.unique h2
  simpa using this

/-- **C143 (Black-Scholes).** For every Black-Scholes model with `1e-5 ≤ sigma² T ≤ 3`, the first three numbers computed are exactly the cumulants `-sigma² T/2`, `sigma² T` and `0`, and because the third is
zero `logp_cum4_numeric` gives no result. -/
theorem bsm_fails (m : MParams) {T : ℝ} (h1 : 1e-5 ≤ m.sigma ^ 2 * T) (h2 : m.sigma ^ 2 * T ≤ 3) :
    logpCum4Numeric (fun u => Bsm.logpMgf m u T) = .error "nan" ∧
    seedAlpha (fun u => Complex.log (Bsm.logpMgf m u T)) = .ok (-1) ∧
    Mgf2Mom.momentRaw (fun u => Complex.log (Bsm.logpMgf m u T)) 1 (-1) 1 = -(m.sigma ^ 2 * T) / 2 ∧
    Mgf2Mom.momentRaw (fun u => Complex.log (Bsm.logpMgf m u T)) 2 (-1) 1 = m.sigma ^ 2 * T ∧
    Mgf2Mom.momentRaw (fun u => Complex.log (Bsm.logpMgf m u T)) 3 (-1) 1 = 0 := by
  have hvp : 0 < m.sigma ^ 2 * T := lt_of_lt_of_le (by norm_num) h1
  have hr1 : ∀ n l, Mgf2Mom.radius n l ≤ 1 := by
    intro n l
    unfold Mgf2Mom.radius
    refine rpow_le_one_of_one_le_of_nonpos (by norm_num) ?_
    rw [neg_div]
    exact neg_nonpos.2 (by positivity)
  have hpi := pi_gt_three
  have raw := fun (n l : ℕ) (hn : n ≠ 0) (hl : l ≠ 0) (al : ℝ) (ha : al ≠ 0) => bsm_raw m hvp.le (n := n) (l := l) hn hl (alpha := al) ha
  set v := m.sigma ^ 2 * T with hv
  have unit : ∀ n l al, |al| = 1 → v / 2 * (|al * Mgf2Mom.radius n l| ^ 2 + |al * Mgf2Mom.radius n l|) < π := by
    intro n l al hal
    rw [abs_mul, hal, one_mul, abs_of_pos (Mgf2Mom.radius_pos n l)]
    have := hr1 n l
    have hp := Mgf2Mom.radius_pos n l
    have : Mgf2Mom.radius n l ^ 2 + Mgf2Mom.radius n l ≤ 2 := by nlinarith
    nlinarith
  have k1 := raw 1 2 (by norm_num) (by norm_num) 1 one_ne_zero (unit 1 2 1 (by norm_num))
  have c1 := raw 1 1 (by norm_num) (by norm_num) (-1) (by norm_num) (unit 1 1 (-1) (by norm_num))
  have c2 := raw 2 1 (by norm_num) (by norm_num) (-1) (by norm_num) (unit 2 1 (-1) (by norm_num))
  have c3 := raw 3 1 (by norm_num) (by norm_num) (-1) (by norm_num) (unit 3 1 (-1) (by norm_num))
  have k2 := raw 2 1 (by norm_num) (by norm_num) (1.0 / (-v / 2)) (by
      refine div_ne_zero (by norm_num) ?_; linarith) (by
    have hr := hr1 2 1
    have hp := Mgf2Mom.radius_pos 2 1
    have h4 : Mgf2Mom.radius 2 1 ^ 4 = 1e-11 := by
      have := Mgf2Mom.radius_pow (n := 2) (l := 1) (by norm_num) (by norm_num)
      rw [show 2 * 2 * 1 = 4 by norm_num] at this
      rw [this, rpow_neg (by norm_num)]; norm_num
    have hsq : Mgf2Mom.radius 2 1 ^ 2 ≤ 1e-5 := by
      by_contra hcon
      push Not at hcon
      have : (1e-5 : ℝ) ^ 2 < (Mgf2Mom.radius 2 1 ^ 2) ^ 2 := by gcongr
      rw [← pow_mul, show 2 * 2 = 4 by norm_num, h4] at this
      norm_num at this
    have e : |1.0 / (-v / 2) * Mgf2Mom.radius 2 1| = 2 / v * Mgf2Mom.radius 2 1 := by
      rw [show (1.0 : ℝ) / (-v / 2) * Mgf2Mom.radius 2 1 = -(2 / v * Mgf2Mom.radius 2 1) by norm_num; field_simp, abs_neg, abs_of_pos (by positivity)]
    rw [e]
    generalize Mgf2Mom.radius 2 1 = r at *
    have e2 : v / 2 * ((2 / v * r) ^ 2 + 2 / v * r) = 2 * r ^ 2 / v + r := by field_simp
    rw [e2]
    have : 2 * r ^ 2 / v ≤ 2 := by rw [div_le_iff₀ hvp]; nlinarith
    linarith)
  simp only [bsmCoef, Nat.factorial, if_true] at k1 k2 c1 c2 c3
  norm_num at k1 c1 c2 c3
  rw [show 2 * (v / 2) = v by ring] at c2
  have k2' : Mgf2Mom.momentRaw (fun u => Complex.log (Bsm.logpMgf m u T)) 2 (1.0 / (-v / 2)) 1 = v := by
    rw [k2]; norm_num; ring
  have hseed : seedAlpha (fun u => Complex.log (Bsm.logpMgf m u T)) = .ok (-1) := by
    unfold seedAlpha rawE divE
    simp only [bind, Except.bind, one_ne_zero, if_false]
    rw [k1, if_neg (by linarith)]
    simp only
    rw [if_neg (div_ne_zero (by norm_num) (by linarith))]
    simp only
    rw [k2', if_neg hvp.ne']
    congr 1
    rw [div_eq_iff hvp.ne']; norm_num
  refine ⟨err_nan fun ⟨x1, x2, x3, x4⟩ h => ?_, hseed, c1, c2, c3⟩
  obtain ⟨a1, hs, -, e2, e3, -, -, e6, e7, -⟩ := ok_iff.1 h
  rw [hseed] at hs
  obtain rfl : -1 = a1 := by simpa using hs
  rw [c1] at e2; rw [c2] at e3
  have : 2 * x1 / x2 = -1 := by rw [e2, e3, div_eq_iff hvp.ne']; ring
  rw [this, c3] at e6
  exact e7 e6

example : logpCum4Numeric (fun u => Bsm.logpMgf ⟨1 / 5, 0, 0, false⟩ u 1) = .error "nan" := (bsm_fails ⟨1 / 5, 0, 0, false⟩ (by norm_num) (by norm_num)).1

/-! ### A case meeting the hypotheses of `cum4_law`: a Poisson law -/

/-- The Poisson law of mean `1/10` on the reals. -/
private noncomputable def exLaw : Measure ℝ := (poissonMeasure (1 / 10)).map (fun n : ℕ => (n : ℝ))

private instance : IsProbabilityMeasure exLaw := Measure.isProbabilityMeasure_map .of_discrete

private lemma ex_mgf (z : ℂ) : complexMGF id exLaw z = Complex.exp ((1 / 10 : ℝ) * (Complex.exp z - 1)) := by
  unfold complexMGF exLaw
  rw [integral_map .of_discrete (by fun_prop), integral_poissonMeasure]
  have h := ((NormedSpace.expSeries_div_hasSum_exp ((1 / 10 : ℝ) * Complex.exp z)).mul_left (Complex.exp (-(1 / 10 : ℝ))))
  rw [← Complex.exp_eq_exp_ℂ, ← Complex.exp_add, show (-((1 / 10 : ℝ) : ℂ) + (1 / 10 : ℝ) * Complex.exp z) = (1 / 10 : ℝ) * (Complex.exp z - 1) by ring] at h
  rw [← h.tsum_eq]
  refine tsum_congr fun n => ?_
  rw [Complex.real_smul]
  push_cast
  rw [id, mul_pow, ← Complex.exp_nat_mul, mul_comm z]
  simp
  ring

private lemma ex_int (R : ℝ) : Integrable (fun x => exp (R * |x|)) exLaw := by
  unfold exLaw
  rw [integrable_map_measure (by fun_prop) .of_discrete, integrable_poissonMeasure_iff]
  have h := ((NormedSpace.expSeries_div_hasSum_exp ((1 / 10 : ℝ) * exp R)).mul_left (exp (-(1 / 10 : ℝ)))).summable
  refine h.congr fun n => ?_
  simp only [Function.comp, norm_eq_abs, abs_exp, Nat.abs_cast]
  rw [mul_pow, ← exp_nat_mul, mul_comm R]
  simp
  ring

private lemma ex_norm {z : ℂ} {R : ℝ} (hz : ‖z‖ ≤ R) : ‖((1 / 10 : ℝ) : ℂ) * (Complex.exp z - 1)‖ ≤ 1 / 10 * (exp R - 1) := by
  rw [norm_mul, Complex.norm_real, norm_of_nonneg (by norm_num)]
  refine mul_le_mul_of_nonneg_left ?_ (by norm_num)
  have h := Complex.norm_exp_sub_sum_le_exp_norm_sub_sum z 1
  simp only [Finset.sum_range_one, pow_zero, Nat.factorial_zero, Nat.cast_one, div_one] at h
  have := exp_le_exp.2 hz
  linarith

private lemma ex_exp : exp (16 / 5) ≤ 26 := by
  have h1 : exp (16 / 5) = exp 1 ^ 3 * exp (1 / 5) := by rw [← exp_nat_mul, ← exp_add]; norm_num
  have h2 : exp (1 / 5) ≤ 5 / 4 := by
    have h := add_one_le_exp (-(1 / 5) : ℝ)
    rw [exp_neg] at h
    have hp := exp_pos (1 / 5 : ℝ)
    have h3 : (4 / 5 : ℝ) * exp (1 / 5) ≤ 1 := by
      have := mul_le_mul_of_nonneg_right h hp.le
      rw [inv_mul_cancel₀ hp.ne'] at this
      linarith
    linarith
  have h4 : exp 1 ≤ 2.72 := by have := exp_one_lt_d9; linarith
  rw [h1]
  calc exp 1 ^ 3 * exp (1 / 5) ≤ 2.72 ^ 3 * (5 / 4) := by gcongr
    _ ≤ 26 := by norm_num

private lemma ex_log {z : ℂ} (hz : ‖z‖ ≤ 16 / 5) : Complex.log (complexMGF id exLaw z) = ((1 / 10 : ℝ) : ℂ) * (Complex.exp z - 1) := by
  rw [ex_mgf]
  have h := (Complex.abs_im_le_norm _).trans (ex_norm hz)
  have := ex_exp
  have := pi_gt_three
  have hlt : |(((1 / 10 : ℝ) : ℂ) * (Complex.exp z - 1)).im| < π := by linarith
  exact Complex.log_exp (abs_lt.1 hlt).1 (abs_lt.1 hlt).2.le

private lemma ex_raw {n l : ℕ} (hn : n ≠ 0) (hn4 : n ≤ 4) (hl : l ≠ 0) {alpha : ℝ} (ha : 0 < alpha) (ha1 : alpha ≤ 11) (hr : alpha * Mgf2Mom.radius n l ≤ 16 / 5) :
    1 / 10 ≤ Mgf2Mom.momentRaw (fun u => Complex.log (complexMGF id exLaw u)) n alpha l ∧
    Mgf2Mom.momentRaw (fun u => Complex.log (complexMGF id exLaw u)) n alpha l ≤ 1 / 10 + 1e-5 := by
  set a : ℕ → ℝ := fun k => if k = 0 then 0 else 1 / 10 / k.factorial with had
  have hpos : 0 < alpha * Mgf2Mom.radius n l := mul_pos ha (Mgf2Mom.radius_pos n l)
  have hT : Spec.TaylorOn a |alpha * Mgf2Mom.radius n l| (fun u => Complex.log (complexMGF id exLaw u)) := by
    intro z hz
    rw [abs_of_pos hpos] at hz
    simp only [ex_log (hz.le.trans hr)]
    have h := (NormedSpace.expSeries_div_hasSum_exp z)
    rw [← Complex.exp_eq_exp_ℂ] at h
    have h1 := (h.sub (hasSum_ite_eq (0 : ℕ) (1 : ℂ))).mul_left ((1 / 10 : ℝ) : ℂ)
    refine h1.congr_fun fun k => ?_
    rw [had]
    by_cases hk : k = 0
    · simp [hk]
    · simp only [hk, if_false, sub_zero]; push_cast; ring
  have hfn : (0 : ℝ) < n.factorial := by exact_mod_cast n.factorial_pos
  have han : n.factorial * a n = 1 / 10 := by rw [had]; simp only [hn, if_false]; field_simp
  constructor
  · have h := Mgf2Mom.moment_raw_aliasing hn hl ha.ne' hT
    have h2 := h.summable.sum_le_tsum {0} (fun m _ => by
      have : 0 ≤ a (n + 2 * n * l * m) := by rw [had]; simp only; split_ifs <;> positivity
      positivity)
    rw [h.tsum_eq, Finset.sum_singleton] at h2
    simpa [han] using h2
  · have h := Mgf2Mom.moment_raw_error (C := 1 / 10 * exp 11) hn hl ha.ne' hT (fun m hm => by
      have hj : n + 2 * n * l * m ≠ 0 := by omega
      have e : |a (n + 2 * n * l * m)| = 1 / 10 / (n + 2 * n * l * m).factorial := by
        rw [had]; simp only [hj, if_false]; exact abs_of_pos (by positivity)
      rw [e, abs_of_pos ha, div_mul_eq_mul_div, mul_div_assoc]
      refine mul_le_mul_of_nonneg_left ?_ (by norm_num)
      have h1 := pow_div_factorial_le_exp alpha ha.le (2 * n * l * m)
      have h2 : ((2 * n * l * m).factorial : ℝ) ≤ (n + 2 * n * l * m).factorial := by exact_mod_cast Nat.factorial_le (by omega)
      have hp : (0 : ℝ) < (2 * n * l * m).factorial := by exact_mod_cast Nat.factorial_pos _
      calc alpha ^ (2 * n * l * m) / (n + 2 * n * l * m).factorial ≤ alpha ^ (2 * n * l * m) / (2 * n * l * m).factorial := by gcongr
        _ ≤ exp alpha := h1
        _ ≤ exp 11 := exp_le_exp.2 ha1)
    rw [han] at h
    have hf : (n.factorial : ℝ) ≤ 24 := by
      have := Nat.factorial_le hn4
      exact_mod_cast this
    have he : exp 11 ≤ 61000 := by
      have h4 : exp 1 ≤ 2.72 := by have := exp_one_lt_d9; linarith
      have h5 : exp 11 = exp 1 ^ 11 := by rw [← exp_nat_mul]; norm_num
      rw [h5]
      calc exp 1 ^ 11 ≤ 2.72 ^ 11 := by gcongr
        _ ≤ 61000 := by norm_num
    have hb : (n.factorial : ℝ) * (1 / 10 * exp 11) * (1e-11 / (1 - 1e-11)) ≤ 24 * (1 / 10 * 61000) * (1e-11 / (1 - 1e-11)) := by gcongr
    have := (abs_le.1 (h.trans hb)).2
    have hnum : (24 : ℝ) * (1 / 10 * 61000) * (1e-11 / (1 - 1e-11)) ≤ 1e-5 := by norm_num
    linarith

/-- The Poisson law of mean `1/10` meets every hypothesis of `cum4_law` with `R = 16/5`: the algorithm returns four numbers, with scales close to 2, 2 and 3. -/
example : ∃ c1 c2 c3 c4 a1 vs : ℝ, logpCum4Numeric (complexMGF id exLaw) = .ok (c1, c2, c3, c4) ∧ condAvgvarMvNumeric (complexMGF id exLaw) = .ok (c1, vs) ∧ seedAlpha (fun u => Complex.log (complexMGF id exLaw u)) = .ok a1 ∧
    |a1| < 16 / 5 ∧ |2 * c1 / c2| < 16 / 5 ∧ |3 * c2 / c3| < 16 / 5 ∧ Integrable (fun x => exp (16 / 5 * |x|)) exLaw ∧
    (∀ z, ‖z‖ < 16 / 5 → complexMGF id exLaw z ∈ Complex.slitPlane) ∧ ∀ z, ‖z‖ < 16 / 5 → ‖Complex.log (complexMGF id exLaw z)‖ ≤ 3 := by
  have hr1 : ∀ n l, Mgf2Mom.radius n l ≤ 1 := by
    intro n l
    unfold Mgf2Mom.radius
    refine rpow_le_one_of_one_le_of_nonpos (by norm_num) ?_
    rw [neg_div]
    exact neg_nonpos.2 (by positivity)
  have hsmall : ∀ n l al, 0 < al → al ≤ 16 / 5 → al * Mgf2Mom.radius n l ≤ 16 / 5 := fun n l al h0 h => by
    have := hr1 n l
    nlinarith [Mgf2Mom.radius_pos n l]
  have h4 : Mgf2Mom.radius 2 1 ≤ 1 / 10 := by
    have h := Mgf2Mom.radius_pow (n := 2) (l := 1) (by norm_num) (by norm_num)
    rw [show 2 * 2 * 1 = 4 by norm_num, rpow_neg (by norm_num)] at h
    by_contra hc
    push Not at hc
    have : (1 / 10 : ℝ) ^ 4 < Mgf2Mom.radius 2 1 ^ 4 := by gcongr
    rw [h] at this
    norm_num at this
  set K := fun u => Complex.log (complexMGF id exLaw u) with hK
  obtain ⟨k1l, k1u⟩ := ex_raw (n := 1) (l := 2) (by norm_num) (by norm_num) (by norm_num) (alpha := 1) one_pos (by norm_num) (hsmall 1 2 1 one_pos (by norm_num))
  rw [← hK] at k1l k1u
  set k1 := Mgf2Mom.momentRaw K 1 1 2 with hk1
  clear_value k1
  have hk1p : 0 < k1 := by linarith
  have ha0 : 0 < 1.0 / k1 := by positivity
  have ha0u : 1.0 / k1 ≤ 10 := by rw [div_le_iff₀ hk1p]; linarith
  obtain ⟨k2l, k2u⟩ := ex_raw (n := 2) (l := 1) (by norm_num) (by norm_num) (by norm_num) ha0 (by linarith) (by nlinarith [Mgf2Mom.radius_pos 2 1])
  rw [← hK] at k2l k2u
  set k2 := Mgf2Mom.momentRaw K 2 (1.0 / k1) 1 with hk2
  clear_value k2
  have hk2p : 0 < k2 := by linarith
  have ha1 : 0 < 2.0 * k1 / k2 := by positivity
  have ha1u : 2.0 * k1 / k2 ≤ 3 := by rw [div_le_iff₀ hk2p]; norm_num at *; linarith
  have hseed : seedAlpha K = .ok (2.0 * k1 / k2) := by
    unfold seedAlpha rawE divE
    simp only [bind, Except.bind, one_ne_zero, if_false]
    rw [← hk1, if_neg hk1p.ne']
    simp only
    rw [if_neg ha0.ne']
    simp only
    rw [← hk2, if_neg hk2p.ne']
  generalize 2.0 * k1 / k2 = a1 at *
  obtain ⟨c1l, c1u⟩ := ex_raw (n := 1) (l := 1) (by norm_num) (by norm_num) (by norm_num) ha1 (by linarith) (hsmall 1 1 a1 ha1 (by linarith))
  obtain ⟨c2l, c2u⟩ := ex_raw (n := 2) (l := 1) (by norm_num) (by norm_num) (by norm_num) ha1 (by linarith) (hsmall 2 1 a1 ha1 (by linarith))
  rw [← hK] at c1l c1u c2l c2u
  generalize hc1 : Mgf2Mom.momentRaw K 1 a1 1 = c1 at *
  generalize hc2 : Mgf2Mom.momentRaw K 2 a1 1 = c2 at *
  have hc1p : 0 < c1 := by linarith
  have hc2p : 0 < c2 := by linarith
  have ha3 : 0 < 2 * c1 / c2 := by positivity
  have ha3u : 2 * c1 / c2 ≤ 3 := by rw [div_le_iff₀ hc2p]; norm_num at *; linarith
  obtain ⟨c3l, c3u⟩ := ex_raw (n := 3) (l := 1) (by norm_num) (by norm_num) (by norm_num) ha3 (by linarith) (hsmall 3 1 _ ha3 (by linarith))
  rw [← hK] at c3l c3u
  generalize hc3 : Mgf2Mom.momentRaw K 3 (2 * c1 / c2) 1 = c3 at *
  have hc3p : 0 < c3 := by linarith
  have ha4 : 0 < 3 * c2 / c3 := by positivity
  have ha4u : 3 * c2 / c3 ≤ 3.1 := by rw [div_le_iff₀ hc3p]; norm_num at *; linarith
  refine ⟨c1, c2, c3, _, a1, c2 / c1 ^ 2, ok_iff.2 ⟨a1, hseed, ha1.ne', hc1.symm, hc2.symm, hc2p.ne', ha3.ne', hc3.symm, hc3p.ne', ha4.ne', rfl⟩, ?_, hseed, ?_, ?_, ?_, ex_int _, ?_, ?_⟩
  · unfold condAvgvarMvNumeric rawE divE
    simp only [bind, Except.bind, pure, Except.pure]
    rw [hseed]
    simp only [ha1.ne', if_false]
    rw [hc1, hc2, if_neg (by positivity)]
  · rw [abs_of_pos ha1]; linarith
  · rw [abs_of_pos ha3]; linarith
  · rw [abs_of_pos ha4]; norm_num at ha4u ⊢; linarith
  · intro z hz
    have hl := ex_log hz.le
    have hn := ex_norm hz.le
    have := ex_exp
    have hpi := pi_gt_three
    rw [Complex.mem_slitPlane_iff_arg]
    refine ⟨?_, by rw [ex_mgf]; exact Complex.exp_ne_zero _⟩
    intro h
    have him : (Complex.log (complexMGF id exLaw z)).im = π := by rw [Complex.log_im, h]
    rw [hl] at him
    have := (Complex.abs_im_le_norm _).trans hn
    rw [him, abs_of_pos pi_pos] at this
    linarith
  · intro z hz
    rw [ex_log hz.le]
    have := ex_norm hz.le
    have := ex_exp
    linarith

end Cum4

end PyFENG
