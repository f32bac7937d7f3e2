import Verif.Lemmas.InvGauss
import Verif.Props.DistGh
import Mathlib.Probability.Moments.ComplexMGF
import Mathlib.Probability.Distributions.Gamma
import Mathlib.Analysis.SpecialFunctions.Complex.LogDeriv
import Mathlib.Analysis.SpecialFunctions.Pow.Deriv
import Mathlib.Analysis.Analytic.IsolatedZeros
import Mathlib.Analysis.Analytic.Uniqueness
import Mathlib.Analysis.Complex.CauchyIntegral
import Mathlib.Analysis.Complex.Convex

/-!
# Brownian motion with drift at an independent random time

`Spec.subordLaw c θ σ G` is the law of `c + θ·V + σ·√V·Z` with `V ~ G` and an independent standard normal `Z`, i.e. of
`c + θ·V + σ·W_V`.  This file computes its moment generating function for gamma and inverse Gaussian times.
-/

namespace PyFENG

open Real MeasureTheory ProbabilityTheory Set Complex

/-- Specification: law of `c + θ V + σ W_V`, `V ~ G` independent of the Brownian motion `W`. -/
noncomputable def Spec.subordLaw (c θ σ : ℝ) (G : Measure ℝ) : Measure ℝ :=
  (G.prod (gaussianReal 0 1)).map (fun p => c + θ * p.1 + σ * √p.1 * p.2)

/-- Analytic continuation of a moment generating function from the real half line to the half plane. -/
lemma complexMGF_eq_of_mgf {G : Measure ℝ} {b : ℝ} {F : ℂ → ℂ}
    (hint : ∀ t : ℝ, t < b → Integrable (fun x => Real.exp (t * x)) G)
    (hF : DifferentiableOn ℂ F {z | z.re < b})
    (hm : ∀ t : ℝ, t < b → ((mgf id G t : ℝ) : ℂ) = F t) {z : ℂ} (hz : z.re < b) :
    complexMGF id G z = F z := by
  have hopen : IsOpen {z : ℂ | z.re < b} := isOpen_lt continuous_re continuous_const
  have hsub : Iio b ⊆ integrableExpSet id G := fun t ht => hint t ht
  have hsub' : Iio b ⊆ interior (integrableExpSet id G) := interior_maximal hsub isOpen_Iio
  have h1 : AnalyticOnNhd ℂ (complexMGF id G) {z | z.re < b} := fun w hw => analyticAt_complexMGF (hsub' hw)
  have h2 : AnalyticOnNhd ℂ F {z | z.re < b} := hF.analyticOnNhd hopen
  have hconv : IsPreconnected {z : ℂ | z.re < b} := (convex_halfSpace_re_lt b).isPreconnected
  have hmem : ((b - 1 : ℝ) : ℂ) ∈ {z : ℂ | z.re < b} := by
    change ((b - 1 : ℝ) : ℂ).re < b
    simp
  refine h1.eqOn_of_preconnected_of_frequently_eq h2 hconv hmem ?_ hz
  have hreal : ∀ t : ℝ, t < b → complexMGF id G t = F t := fun t ht => by
    rw [complexMGF_ofReal, hm t ht]
  have htend : Filter.Tendsto (fun t : ℝ => (t : ℂ)) (nhdsWithin (b - 1) {b - 1}ᶜ)
      (nhdsWithin ((b - 1 : ℝ) : ℂ) {((b - 1 : ℝ) : ℂ)}ᶜ) := by
    refine tendsto_nhdsWithin_iff.2 ⟨(continuous_ofReal.tendsto _).mono_left nhdsWithin_le_nhds, ?_⟩
    filter_upwards [self_mem_nhdsWithin] with t ht
    intro h
    exact ht (Complex.ofReal_injective h)
  refine htend.frequently ?_
  have he : ∀ᶠ t in nhdsWithin (b - 1) {b - 1}ᶜ, t < b :=
    mem_nhdsWithin_of_mem_nhds (Iio_mem_nhds (by linarith))
  exact (he.mono fun t ht => hreal t ht).frequently

/-- The moment generating function of `c + θ V + σ W_V` in terms of that of `V`. -/
lemma complexMGF_subordLaw {c θ σ : ℝ} {G : Measure ℝ} [IsProbabilityMeasure G]
    (hpos : ∀ᵐ x ∂G, 0 ≤ x) {u : ℂ}
    (hint : Integrable (fun x => Real.exp ((θ * u.re + σ ^ 2 * u.re ^ 2 / 2) * x)) G) :
    Integrable (fun x => Real.exp (u.re * x)) (Spec.subordLaw c θ σ G) ∧
    complexMGF id (Spec.subordLaw c θ σ G) u =
      Complex.exp (u * c) * complexMGF id G (θ * u + σ ^ 2 * u ^ 2 / 2) := by
  have hmeas : Measurable (fun p : ℝ × ℝ => c + θ * p.1 + σ * √p.1 * p.2) := by fun_prop
  have hX : Integrable (fun p : ℝ × ℝ => Real.exp (u.re * (c + θ * p.1 + σ * √p.1 * p.2)))
      (G.prod (gaussianReal 0 1)) := by
    rw [integrable_prod_iff (by fun_prop)]
    have hinner : ∀ x : ℝ, Integrable (fun z => Real.exp (u.re * (c + θ * x + σ * √x * z))) (gaussianReal 0 1) := by
      intro x
      have := (integrable_exp_mul_gaussianReal (μ := 0) (v := 1) (u.re * σ * √x)).const_mul
        (Real.exp (u.re * (c + θ * x)))
      refine this.congr (ae_of_all _ fun z => ?_)
      simp only
      rw [← Real.exp_add]; ring_nf
    refine ⟨ae_of_all _ hinner, ?_⟩
    refine (hint.const_mul (Real.exp (u.re * c))).congr ?_
    filter_upwards [hpos] with x hx
    have h1 := gaussE_exp_lin (u.re * σ * √x) (u.re * (c + θ * x))
    unfold Spec.gaussE at h1
    calc _ = Real.exp ((u.re * σ * √x) ^ 2 / 2 + u.re * (c + θ * x)) := by
          rw [← Real.exp_add]; congr 1
          rw [mul_pow, Real.sq_sqrt hx]; ring
      _ = _ := by
          rw [← h1]
          congr 1; ext z
          rw [norm_of_nonneg (Real.exp_pos _).le]
          ring_nf
  constructor
  · unfold Spec.subordLaw
    rw [integrable_map_measure (by fun_prop) hmeas.aemeasurable]
    exact hX
  · unfold complexMGF Spec.subordLaw
    rw [integral_map hmeas.aemeasurable (by fun_prop), integral_prod]
    · rw [← integral_const_mul]
      refine integral_congr_ae ?_
      filter_upwards [hpos] with x hx
      have h1 := complexMGF_id_gaussianReal (μ := 0) (v := 1) (u * σ * (√x : ℝ))
      unfold complexMGF at h1
      calc _ = ∫ z, Complex.exp (u * (c + θ * x)) * Complex.exp (u * σ * (√x : ℝ) * (id z : ℝ)) ∂(gaussianReal 0 1) := by
            congr 1; ext z
            rw [← Complex.exp_add]; congr 1
            simp; ring
        _ = _ := by
            rw [integral_const_mul, h1, ← Complex.exp_add, ← Complex.exp_add]
            congr 1
            have hs : ((√x : ℝ) : ℂ) ^ 2 = x := by
              rw [← Complex.ofReal_pow, Real.sq_sqrt hx]
            simp
            linear_combination (u ^ 2 * σ ^ 2 / 2) * hs
    · refine (hX.norm.mono' (by fun_prop) (ae_of_all _ fun p => ?_))
      rw [Complex.norm_exp, norm_of_nonneg (Real.exp_pos _).le]
      simp

/-! ## Gamma time -/

lemma gammaMeasure_pos {a r : ℝ} : ∀ᵐ x ∂(gammaMeasure a r), 0 ≤ x := by
  unfold gammaMeasure
  rw [ae_withDensity_iff (by unfold gammaPDF; fun_prop)]
  refine ae_of_all _ fun x hx => ?_
  by_contra h
  exact hx (gammaPDF_of_neg (not_le.1 h))

/-- Real moment generating function of the gamma law. -/
lemma gamma_mgf {a r t : ℝ} (ha : 0 < a) (hr : 0 < r) (ht : t < r) :
    Integrable (fun x => Real.exp (t * x)) (gammaMeasure a r) ∧
    mgf id (gammaMeasure a r) t = Real.exp (-a * Real.log (1 - t / r)) := by
  have hrt : 0 < r - t := by linarith
  have hval : mgf id (gammaMeasure a r) t = Real.exp (-a * Real.log (1 - t / r)) := by
    unfold mgf
    rw [DistGamma.integral_gamma ha hr]
    have e : ∀ x ∈ Ioi (0 : ℝ), x ^ (a - 1) * Real.exp (-(r * x)) * Real.exp (t * id x) =
        x ^ (a - 1) * Real.exp (-((r - t) * x)) := by
      intro x _
      rw [mul_assoc, ← Real.exp_add]
      congr 2
      simp; ring
    have h1 : (1 - t / r) = (r - t) / r := by field_simp
    rw [setIntegral_congr_fun measurableSet_Ioi e, integral_rpow_mul_exp_neg_mul_Ioi ha hrt, h1,
      neg_mul, Real.exp_neg, mul_comm a, ← Real.rpow_def_of_pos (by positivity),
      Real.div_rpow hrt.le hr.le, Real.div_rpow zero_le_one hrt.le, Real.one_rpow]
    have := (Real.Gamma_pos_of_pos ha).ne'
    have h2 : r ^ a ≠ 0 := (Real.rpow_pos_of_pos hr a).ne'
    have h3 : (r - t) ^ a ≠ 0 := (Real.rpow_pos_of_pos hrt a).ne'
    field_simp
  refine ⟨?_, hval⟩
  by_contra h
  have : mgf id (gammaMeasure a r) t = 0 := integral_undef h
  rw [this] at hval
  exact (Real.exp_pos _).ne hval

lemma gamma_complexMGF {a r : ℝ} (ha : 0 < a) (hr : 0 < r) {z : ℂ} (hz : z.re < r) :
    complexMGF id (gammaMeasure a r) z = Complex.exp (-a * Complex.log (1 - z / r)) := by
  have hslit : ∀ w : ℂ, w.re < r → (1 - w / r) ∈ slitPlane := by
    intro w hw
    left
    rw [Complex.sub_re, Complex.div_ofReal_re, Complex.one_re, sub_pos, div_lt_one hr]
    exact hw
  refine complexMGF_eq_of_mgf (F := fun z => Complex.exp (-a * Complex.log (1 - z / r)))
    (fun t ht => (gamma_mgf ha hr ht).1) ?_ (fun t ht => ?_) hz
  · intro w hw
    have : DifferentiableAt ℂ (fun z => Complex.exp (-a * Complex.log (1 - z / r))) w := by
      have h1 : DifferentiableAt ℂ (fun z : ℂ => 1 - z / r) w := by fun_prop
      exact ((h1.clog (hslit w hw)).const_mul _).cexp
    exact this.differentiableWithinAt
  · rw [(gamma_mgf ha hr ht).2]
    have : 0 < 1 - t / r := by rw [sub_pos, div_lt_one hr]; exact ht
    push_cast
    rw [Complex.ofReal_log this.le]
    push_cast
    rfl

/-! ## Inverse Gaussian time -/

lemma igMeasure_pos {mu lam : ℝ} : ∀ᵐ x ∂(Spec.igMeasure mu lam), 0 ≤ x := by
  unfold Spec.igMeasure
  have h : ∀ᵐ x ∂(volume.restrict (Ioi (0 : ℝ))), 0 ≤ x := by
    filter_upwards [ae_restrict_mem measurableSet_Ioi] with x hx using le_of_lt hx
  exact (withDensity_absolutelyContinuous _ _).ae_le h

/-- Real moment generating function of the inverse Gaussian law, by exponential tilting. -/
lemma ig_mgf {mu lam t : ℝ} (hm : 0 < mu) (hl : 0 < lam) (ht : t < lam / (2 * mu ^ 2)) :
    Integrable (fun x => Real.exp (t * x)) (Spec.igMeasure mu lam) ∧
    mgf id (Spec.igMeasure mu lam) t = Real.exp (lam / mu * (1 - √(1 - 2 * mu ^ 2 * t / lam))) := by
  have hpos : 0 < 1 - 2 * mu ^ 2 * t / lam := by
    rw [sub_pos, div_lt_one hl]
    rw [lt_div_iff₀ (by positivity)] at ht
    linarith
  set s := √(1 - 2 * mu ^ 2 * t / lam) with hs
  have hs0 : 0 < s := Real.sqrt_pos.2 hpos
  have hs2 : s ^ 2 = 1 - 2 * mu ^ 2 * t / lam := Real.sq_sqrt hpos.le
  have hval : mgf id (Spec.igMeasure mu lam) t = Real.exp (lam / mu * (1 - s)) := by
    have hmeas : ∀ m l : ℝ, Measurable (fun x => ENNReal.ofReal (Spec.igPDF m l x)) := by
      intro m l; unfold Spec.igPDF; fun_prop
    have hI : ∀ (m l : ℝ) (f : ℝ → ℝ), ∫ x, f x ∂(Spec.igMeasure m l) = ∫ x in Ioi 0, Spec.igPDF m l x * f x := by
      intro m l f
      unfold Spec.igMeasure
      rw [integral_withDensity_eq_integral_toReal_smul (hmeas m l) (ae_of_all _ fun _ => ENNReal.ofReal_lt_top)]
      refine setIntegral_congr_fun measurableSet_Ioi fun x _ => ?_
      simp only [smul_eq_mul]
      rw [ENNReal.toReal_ofReal (by unfold Spec.igPDF; positivity)]
    have hone : ∫ x in Ioi 0, Spec.igPDF (mu / s) lam x * 1 = 1 := by
      rw [← hI]
      have := DistInvGauss.isProbabilityMeasure (mu := mu / s) (lam := lam) (by positivity) hl
      simp
    unfold mgf
    have h2 := congrArg (fun y => Real.exp (lam / mu * (1 - s)) * y) hone
    rw [mul_one, ← integral_const_mul] at h2
    rw [hI, ← h2]
    refine setIntegral_congr_fun measurableSet_Ioi fun x hx => ?_
    have hx' : (0 : ℝ) < x := hx
    unfold Spec.igPDF
    change _ * Real.exp (t * x) = _ * (_ * 1)
    rw [mul_one]
    rw [mul_assoc, ← Real.exp_add, mul_left_comm, ← Real.exp_add]
    congr 2
    have : t = lam * (1 - s ^ 2) / (2 * mu ^ 2) := by rw [hs2]; field_simp; ring
    rw [this]
    field_simp
    ring
  refine ⟨?_, hval⟩
  by_contra h
  have : mgf id (Spec.igMeasure mu lam) t = 0 := integral_undef h
  rw [this] at hval
  exact (Real.exp_pos _).ne hval

lemma ig_complexMGF {mu lam : ℝ} (hm : 0 < mu) (hl : 0 < lam) {z : ℂ} (hz : z.re < lam / (2 * mu ^ 2)) :
    complexMGF id (Spec.igMeasure mu lam) z =
      Complex.exp (lam / mu * (1 - (1 - 2 * mu ^ 2 * z / lam) ^ (1 / 2 : ℂ))) := by
  have hre : ∀ w : ℂ, (1 - 2 * (mu : ℂ) ^ 2 * w / lam).re = 1 - 2 * mu ^ 2 * w.re / lam := by
    intro w
    rw [Complex.sub_re, Complex.div_ofReal_re, Complex.one_re]
    congr 2
    rw [show (2 : ℂ) * (mu : ℂ) ^ 2 = ((2 * mu ^ 2 : ℝ) : ℂ) by push_cast; rfl, Complex.re_ofReal_mul]
  have hpos : ∀ w : ℂ, w.re < lam / (2 * mu ^ 2) → 0 < 1 - 2 * mu ^ 2 * w.re / lam := by
    intro w hw
    rw [sub_pos, div_lt_one hl]
    rw [lt_div_iff₀ (by positivity)] at hw
    linarith
  refine complexMGF_eq_of_mgf (F := fun z => Complex.exp (lam / mu * (1 - (1 - 2 * mu ^ 2 * z / lam) ^ (1 / 2 : ℂ))))
    (fun t ht => (ig_mgf hm hl ht).1) ?_ (fun t ht => ?_) hz
  · intro w hw
    have : DifferentiableAt ℂ (fun z : ℂ => Complex.exp (lam / mu * (1 - (1 - 2 * mu ^ 2 * z / lam) ^ (1 / 2 : ℂ)))) w := by
      have h1 : DifferentiableAt ℂ (fun z : ℂ => 1 - 2 * mu ^ 2 * z / lam) w := by fun_prop
      have h2 := h1.cpow (differentiableAt_const (1 / 2 : ℂ)) (Or.inl (by rw [hre]; exact hpos w hw))
      exact ((h2.const_sub 1).const_mul _).cexp
    exact this.differentiableWithinAt
  · rw [(ig_mgf hm hl ht).2]
    have h0 := hpos (t : ℂ) (by simpa using ht)
    simp only [Complex.ofReal_re] at h0
    rw [Real.sqrt_eq_rpow]
    push_cast
    rw [Complex.ofReal_cpow h0.le]
    push_cast
    rfl

end PyFENG
