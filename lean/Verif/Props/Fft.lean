import Verif.Model.Fft
import Verif.Model.Levy
import Verif.Lemmas.Lewis
import Verif.Props.Bsm
import Verif.Props.Levy

/-!
# C54, C72: the Fourier pricers
-/

namespace PyFENG

open Real MeasureTheory ProbabilityTheory Set Filter Topology

namespace Fft

/-- **C54** (FFT).  Whatever the spline, call minus put is exactly `df * (fwd - strike)`. -/
theorem fft_parity (spline : ℝ → ℝ) (mp : MParams) {K S T : ℝ} (hS : S ≠ 0) :
    Spec.Parity (priceWith spline mp K S T 1) (priceWith spline mp K S T (-1)) (mp.df T) (mp.fwd S T) K := by
  have hf : mp.fwd S T ≠ 0 := by
    unfold MParams.fwd MParams.divf MParams.df
    cases mp.isFwd <;> simp [hS, Real.exp_ne_zero]
  unfold Spec.Parity priceWith assemble
  simp only [gt_iff_lt, zero_lt_one, if_true, show ¬ (0 : ℝ) < -1 by norm_num, if_false]
  field_simp
  ring

/-- **C54** (Simpson).  The same for `price_simpson`, whatever the MGF, grid size and cut-off. -/
theorem simpson_parity (mgf : ℂ → ℂ) (m : ℕ) (xLim : ℝ) (mp : MParams) {K S T : ℝ} (hS : S ≠ 0) :
    Spec.Parity (priceSimpson mgf m xLim mp K S T 1) (priceSimpson mgf m xLim mp K S T (-1)) (mp.df T) (mp.fwd S T) K := by
  have hf : mp.fwd S T ≠ 0 := by
    unfold MParams.fwd MParams.divf MParams.df
    cases mp.isFwd <;> simp [hS, Real.exp_ne_zero]
  unfold Spec.Parity priceSimpson assemble
  simp only [gt_iff_lt, zero_lt_one, if_true, show ¬ (0 : ℝ) < -1 by norm_num, if_false]
  generalize √(K / mp.fwd S T) / π * simpson _ _ _ = w
  field_simp
  ring

/-- The exact Lewis integral whose truncation and discretisation the pricers compute. -/
noncomputable def lewisIntegral (mgf : ℂ → ℂ) (logKk : ℝ) : ℝ := ∫ x in Ioi (0 : ℝ), lewisIntegrand mgf logKk x

/-- **C72.**  If `logp_mgf` is the MGF of a law `μ` of `log(S_T/F)` with `E[S_T] = F`, then with the exact Lewis integral
the pricing formula used by `price` and `price_simpson` is the discounted expected payoff, for every strike and for calls
and puts. -/
theorem lewis_price {μ : Measure ℝ} (hμ : Spec.IsMartingaleLaw μ) {mgf : ℂ → ℂ}
    (hm : ∀ x : ℝ, mgf (x * Complex.I + 0.5) = complexMGF id μ (x * Complex.I + 0.5)) (df : ℝ) {F K cp : ℝ} (hF : 0 < F)
    (hK : 0 < K) (hcp : Spec.IsCp cp) :
    assemble df F (K / F) cp (√(K / F) / π * lewisIntegral mgf (log (K / F))) = Spec.lawPrice μ df F K cp := by
  have := hμ.prob
  have hk : 0 < K / F := div_pos hK hF
  have hlew : √(K / F) / π * lewisIntegral mgf (log (K / F)) = ∫ x, min (rexp x) (K / F) ∂μ := by
    rw [lewis_min hμ.integrable hk]
    congr 1
    unfold lewisIntegral lewisIntegrand
    refine integral_congr_ae (Eventually.of_forall fun u => ?_)
    simp only
    rw [hm]
    congr 2
    · congr 1
      · congr 1; push_cast; ring
      · congr 1; norm_num; ring
    · norm_num
  have hmin : Integrable (fun x => min (rexp x) (K / F)) μ := by
    refine hμ.integrable.mono (by fun_prop) (Eventually.of_forall fun x => ?_)
    rw [Real.norm_eq_abs, Real.norm_eq_abs, abs_of_pos (lt_min (Real.exp_pos _) hk), abs_of_pos (Real.exp_pos _)]
    exact min_le_left _ _
  unfold assemble Spec.lawPrice
  rw [hlew]
  rcases hcp with rfl | rfl
  · have h1 : ∀ x, Spec.payoff 1 K (F * rexp x) = F * (rexp x - min (rexp x) (K / F)) := by
      intro x
      unfold Spec.payoff
      have : K = F * (K / F) := by field_simp
      rcases le_total (rexp x) (K / F) with h | h
      · rw [min_eq_left h, max_eq_right]
        · ring
        · have := mul_le_mul_of_nonneg_left h hF.le; rw [one_mul]; linarith
      · rw [min_eq_right h, max_eq_left]
        · rw [one_mul, mul_sub, ← this]
        · have := mul_le_mul_of_nonneg_left h hF.le; rw [one_mul]; linarith
    simp only [h1, gt_iff_lt, zero_lt_one, if_true]
    rw [integral_const_mul, integral_sub hμ.integrable hmin, hμ.mean_one]
    ring
  · have h1 : ∀ x, Spec.payoff (-1) K (F * rexp x) = F * (K / F - min (rexp x) (K / F)) := by
      intro x
      unfold Spec.payoff
      have : K = F * (K / F) := by field_simp
      rcases le_total (rexp x) (K / F) with h | h
      · rw [min_eq_left h, max_eq_left]
        · rw [mul_sub F, ← this]; ring
        · have := mul_le_mul_of_nonneg_left h hF.le; linarith
      · rw [min_eq_right h, max_eq_right]
        · ring
        · have := mul_le_mul_of_nonneg_left h hF.le; linarith
    simp only [h1, gt_iff_lt, show ¬ (0 : ℝ) < -1 by norm_num, if_false]
    rw [integral_const_mul, integral_sub (integrable_const _) hmin]
    simp
    ring

/-- **C72**, grid: the `k`-th value produced by the inverse FFT is exactly the Simpson-weighted sum of the Lewis integrand
at log-moneyness `-ks[k]` — the FFT introduces no approximation beyond the quadrature. -/
theorem grid_eq_quadrature (mgf : ℂ → ℂ) {n : ℕ} (hn : 0 < n) {X : ℝ} (hX : X ≠ 0) (k : ℕ) :
    gridValue mgf n X k = 1 / π * ∑ j ∈ Finset.range n,
      weight n (X / n) j * lewisIntegrand mgf (-knot n X k) (j * (X / n)) := by
  unfold gridValue ifft
  have hn' : (n : ℝ) ≠ 0 := by positivity
  have hnc : (n : ℂ) ≠ 0 := by exact_mod_cast hn.ne'
  have hXc : (X : ℂ) ≠ 0 := by exact_mod_cast hX
  simp only
  rw [show (1 / (n : ℂ)) = ((1 / n : ℝ) : ℂ) by push_cast; rfl, Complex.re_ofReal_mul, Complex.re_sum, ← mul_assoc,
    show (n : ℝ) / π * (1 / n) = 1 / π by field_simp]
  congr 1
  refine Finset.sum_congr rfl fun j _ => ?_
  unfold lewisIntegrand
  have hexp : Complex.exp (-1 * Complex.I * ((n * (2 * π / X) / 2 : ℝ) : ℂ) * ((j * (X / n) : ℝ) : ℂ))
      * Complex.exp (2 * π * Complex.I * j * k / n)
      = Complex.exp (-((-knot n X k : ℝ) : ℂ) * ((j * (X / n) : ℝ) : ℂ) * Complex.I) := by
    rw [← Complex.exp_add]
    congr 1
    unfold knot
    push_cast
    field_simp
  have hden : (((j * (X / n) : ℝ) : ℂ) ^ 2 + 0.25) = (((j * (X / n)) ^ 2 + 0.25 : ℝ) : ℂ) := by push_cast; norm_num
  rw [← hexp]
  set e1 := Complex.exp (-1 * Complex.I * ((n * (2 * π / X) / 2 : ℝ) : ℂ) * ((j * (X / n) : ℝ) : ℂ))
  set e2 := Complex.exp (2 * π * Complex.I * j * k / n)
  rw [hden]
  set M := mgf (((j * (X / n) : ℝ) : ℂ) * Complex.I + 0.5)
  set d := ((j : ℝ) * (X / n)) ^ 2 + 0.25
  set w := weight n (X / n) j
  rw [show e1 * M / (d : ℂ) * (w : ℂ) * e2 = ((w / d : ℝ) : ℂ) * (e1 * e2 * M) by push_cast; ring, Complex.re_ofReal_mul]
  ring

/-- **C72**, FFT price at the knots: at a strike whose log-moneyness is a grid point, `FftABC.price` is the pricing formula
with the quadrature sum in place of the Lewis integral. -/
theorem fft_price_at_knot {I : Interp} (hI : I.Exact) (mgf : ℂ → ℂ) {n : ℕ} {X : ℝ} (hX : X ≠ 0) {k : ℕ} (hk : k < n)
    (mp : MParams) {K S T cp : ℝ} (hKS : -log (K / mp.fwd S T) = knot n X k) :
    priceWith (buildInterp I mgf n X) mp K S T cp =
      assemble (mp.df T) (mp.fwd S T) (K / mp.fwd S T) cp (√(K / mp.fwd S T) / π * ∑ j ∈ Finset.range n,
        weight n (X / n) j * lewisIntegrand mgf (log (K / mp.fwd S T)) (j * (X / n))) := by
  unfold priceWith
  simp only
  congr 1
  rw [hKS, buildInterp, hI n _ _ k hk, grid_eq_quadrature mgf (by omega) hX]
  rw [show log (K / mp.fwd S T) = -knot n X k by linarith]
  ring

/-- Composite Simpson sums of a continuous function converge to its integral. -/
lemma simpson_tendsto {f : ℝ → ℝ} (hf : Continuous f) {X : ℝ} (hX : 0 < X) :
    Tendsto (fun m : ℕ => simpson (fun j => f (j * (X / (2 * m : ℕ)))) m (X / (2 * m : ℕ))) atTop (𝓝 (∫ x in (0 : ℝ)..X, f x)) := by
  have huc : UniformContinuousOn f (Icc 0 X) := isCompact_Icc.uniformContinuousOn_of_continuous hf.continuousOn
  rw [Metric.tendsto_atTop]
  intro ε hε
  obtain ⟨δ, hδ, hδf⟩ := Metric.uniformContinuousOn_iff.1 huc (ε / (2 * X)) (by positivity)
  obtain ⟨N, hN⟩ := exists_nat_gt (X / δ)
  refine ⟨N + 1, fun m hm => ?_⟩
  have hm0 : (0 : ℝ) < m := by exact_mod_cast (by omega : 0 < m)
  set h := X / (2 * m : ℕ) with hh
  have hhpos : 0 < h := by rw [hh]; push_cast; positivity
  have h2m : 2 * h * m = X := by rw [hh]; push_cast; field_simp
  have hhδ : 2 * h < δ := by
    have : (N : ℝ) + 1 ≤ m := by exact_mod_cast hm
    have h1 : X < δ * m := by
      have := (div_lt_iff₀ hδ).1 hN
      nlinarith
    have h3 : 2 * h * m < δ * m := by linarith
    exact lt_of_mul_lt_mul_right h3 hm0.le
  -- split the integral into panels
  have hsplit : ∫ x in (0 : ℝ)..X, f x = ∑ i ∈ Finset.range m, ∫ x in ((2 * i : ℕ) * h : ℝ)..((2 * (i + 1) : ℕ) * h : ℝ), f x := by
    rw [intervalIntegral.sum_integral_adjacent_intervals (a := fun i : ℕ => ((2 * i : ℕ) * h : ℝ))
      (fun i _ => hf.intervalIntegrable _ _)]
    congr 1
    · simp
    · push_cast; linarith
  rw [hsplit, Real.dist_eq]
  unfold simpson
  rw [← Finset.sum_sub_distrib]
  refine lt_of_le_of_lt (Finset.abs_sum_le_sum_abs _ _) ?_
  have hpanel : ∀ i ∈ Finset.range m,
      |h / 3 * (f ((2 * i : ℕ) * h) + 4 * f ((2 * i + 1 : ℕ) * h) + f ((2 * i + 2 : ℕ) * h))
        - ∫ x in ((2 * i : ℕ) * h : ℝ)..((2 * (i + 1) : ℕ) * h : ℝ), f x| ≤ ε / (2 * X) * (2 * h) := by
    intro i hi
    have him : (i : ℝ) + 1 ≤ m := by exact_mod_cast Finset.mem_range.1 hi
    have hi0 : (0 : ℝ) ≤ i := by positivity
    set a := ((2 * i : ℕ) * h : ℝ) with ha
    have ha' : a = 2 * i * h := by rw [ha]; push_cast; ring
    have hb : ((2 * (i + 1) : ℕ) * h : ℝ) = a + 2 * h := by rw [ha]; push_cast; ring
    have hc1 : ((2 * i + 1 : ℕ) * h : ℝ) = a + h := by rw [ha]; push_cast; ring
    have hc2 : ((2 * i + 2 : ℕ) * h : ℝ) = a + 2 * h := by rw [ha]; push_cast; ring
    have ha0 : 0 ≤ a := by rw [ha']; positivity
    have hbX : a + 2 * h ≤ X := by rw [ha', ← h2m]; nlinarith
    rw [hb, hc1, hc2]
    -- the panel rule is the integral of a constant-weighted sum
    have hconst : h / 3 * (f a + 4 * f (a + h) + f (a + 2 * h))
        = ∫ _x in a..(a + 2 * h), (f a + 4 * f (a + h) + f (a + 2 * h)) / 6 := by
      rw [intervalIntegral.integral_const, smul_eq_mul]; ring
    rw [hconst, ← intervalIntegral.integral_sub (by simp) (hf.intervalIntegrable _ _)]
    have hle := intervalIntegral.norm_integral_le_of_norm_le_const (a := a) (b := a + 2 * h) (C := ε / (2 * X))
      (f := fun x => (f a + 4 * f (a + h) + f (a + 2 * h)) / 6 - f x) (fun x hx => ?_)
    · rw [Real.norm_eq_abs] at hle
      have : |a + 2 * h - a| = 2 * h := by rw [abs_of_pos] <;> linarith
      rwa [this] at hle
    · rw [uIoc_of_le (by linarith)] at hx
      have hxI : x ∈ Icc 0 X := ⟨by linarith [hx.1], by linarith [hx.2]⟩
      have hclose : ∀ y, a ≤ y → y ≤ a + 2 * h → |f y - f x| ≤ ε / (2 * X) := by
        intro y hy1 hy2
        have := hδf y ⟨by linarith, by linarith⟩ x hxI (by
          rw [Real.dist_eq, abs_lt]; constructor <;> linarith [hx.1, hx.2])
        rw [Real.dist_eq] at this
        exact this.le
      have k1 := abs_le.1 (hclose a le_rfl (by linarith))
      have k2 := abs_le.1 (hclose (a + h) (by linarith) (by linarith))
      have k3 := abs_le.1 (hclose (a + 2 * h) (by linarith) le_rfl)
      rw [Real.norm_eq_abs, abs_le]
      constructor <;> linarith [k1.1, k1.2, k2.1, k2.2, k3.1, k3.2]
  calc _ ≤ ∑ i ∈ Finset.range m, ε / (2 * X) * (2 * h) := Finset.sum_le_sum hpanel
    _ = ε / 2 := by
      rw [Finset.sum_const, Finset.card_range, nsmul_eq_mul]
      have : (m : ℝ) * (ε / (2 * X) * (2 * h)) = ε / (2 * X) * (2 * h * m) := by ring
      rw [this, h2m]; field_simp
    _ < ε := by linarith

/-- The Lewis integrand of a martingale law is continuous and integrable. -/
lemma lewisIntegrand_cont {μ : Measure ℝ} (hμ : Spec.IsMartingaleLaw μ) {mgf : ℂ → ℂ}
    (hm : ∀ x : ℝ, mgf (x * Complex.I + 0.5) = complexMGF id μ (x * Complex.I + 0.5)) (L : ℝ) :
    Continuous (lewisIntegrand mgf L) ∧ IntegrableOn (lewisIntegrand mgf L) (Ioi 0) := by
  have := hμ.prob
  have hset : (0.5 : ℝ) ∈ interior (integrableExpSet id μ) := by
    have h0 : (0 : ℝ) ∈ integrableExpSet id μ := by simp [integrableExpSet]
    have h1 : (1 : ℝ) ∈ integrableExpSet id μ := by
      show Integrable (fun x => rexp (1 * id x)) μ
      simpa using hμ.integrable
    have : Icc (0 : ℝ) 1 ⊆ integrableExpSet id μ :=
      (convex_integrableExpSet (X := id) (μ := μ)).ordConnected.out h0 h1
    exact interior_mono this (by rw [interior_Icc]; constructor <;> norm_num)
  have hcont : Continuous fun x : ℝ => mgf (x * Complex.I + 0.5) := by
    have : (fun x : ℝ => mgf (x * Complex.I + 0.5)) = fun x : ℝ => complexMGF id μ (x * Complex.I + 0.5) := funext hm
    rw [this, continuous_iff_continuousAt]
    intro x
    have han := analyticAt_complexMGF (X := id) (μ := μ) (z := x * Complex.I + 0.5) (by
      have hh : (((x : ℂ) * Complex.I + 0.5).re : ℝ) = 0.5 := by
        rw [Complex.add_re, Complex.re_ofReal_mul, Complex.I_re, mul_zero, zero_add]
        norm_num
      rw [hh]; exact hset)
    exact ContinuousAt.comp (f := fun x : ℝ => (x : ℂ) * Complex.I + 0.5) (g := complexMGF id μ) han.continuousAt
      (by fun_prop)
  have hc : Continuous (lewisIntegrand mgf L) := by
    unfold lewisIntegrand
    refine Continuous.div ?_ (by fun_prop) (fun x => by positivity)
    refine Complex.continuous_re.comp (Continuous.mul (by fun_prop) hcont)
  refine ⟨hc, ?_⟩
  have hbound : ∀ x : ℝ, ‖mgf (x * Complex.I + 0.5)‖ ≤ ∫ y, rexp (0.5 * y) ∂μ := by
    intro x
    rw [hm]
    have := norm_complexMGF_le_mgf (X := id) (μ := μ) (z := x * Complex.I + 0.5)
    have hh : (((x : ℂ) * Complex.I + 0.5).re : ℝ) = 0.5 := by
      rw [Complex.add_re, Complex.re_ofReal_mul, Complex.I_re, mul_zero, zero_add]
      norm_num
    rw [hh] at this
    exact this
  have hi := (integrable_inv_sq_add_quarter.const_mul (∫ y, rexp (0.5 * y) ∂μ)).integrableOn (s := Ioi (0 : ℝ))
  refine hi.mono' hc.aestronglyMeasurable (Eventually.of_forall fun x => ?_)
  unfold lewisIntegrand
  rw [norm_div, Real.norm_eq_abs, Real.norm_eq_abs, abs_of_pos (show (0 : ℝ) < x ^ 2 + 0.25 by positivity), mul_one_div]
  rw [show (x ^ 2 + 0.25 : ℝ) = x ^ 2 + 1 / 4 by norm_num]
  refine div_le_div_of_nonneg_right ?_ (by positivity)
  refine (Complex.abs_re_le_norm _).trans ?_
  rw [norm_mul]
  have : ‖Complex.exp (-(L : ℂ) * x * Complex.I)‖ = 1 := by
    rw [show (-(L : ℂ) * x * Complex.I) = ((-L * x : ℝ) : ℂ) * Complex.I by push_cast; ring, Complex.norm_exp_ofReal_mul_I]
  rw [this, one_mul]
  exact hbound x

/-- **C72**, convergence: refining the grid and then removing the cut-off, `price_simpson` converges to the discounted
expected payoff under the law whose MGF it uses. -/
theorem simpson_converges {μ : Measure ℝ} (hμ : Spec.IsMartingaleLaw μ) {mgf : ℂ → ℂ}
    (hm : ∀ x : ℝ, mgf (x * Complex.I + 0.5) = complexMGF id μ (x * Complex.I + 0.5)) (mp : MParams) {K S T cp : ℝ}
    (hS : 0 < S) (hK : 0 < K) (hcp : Spec.IsCp cp) :
    ∃ P : ℝ → ℝ, (∀ X, 0 < X → Tendsto (fun m => priceSimpson mgf m X mp K S T cp) atTop (𝓝 (P X))) ∧
      Tendsto P atTop (𝓝 (Spec.lawPrice μ (Spec.discount mp.intr T) (Spec.forward mp.isFwd mp.intr mp.divr S T) K cp)) := by
  have hF : 0 < mp.fwd S T := mp.fwd_pos hS T
  obtain ⟨hc, hi⟩ := lewisIntegrand_cont hμ hm (log (K / mp.fwd S T))
  refine ⟨fun X => assemble (mp.df T) (mp.fwd S T) (K / mp.fwd S T) cp
    (√(K / mp.fwd S T) / π * ∫ x in (0 : ℝ)..X, lewisIntegrand mgf (log (K / mp.fwd S T)) x), fun X hX => ?_, ?_⟩
  · have := simpson_tendsto hc hX
    have h2 := ((this.const_mul (√(K / mp.fwd S T) / π)).const_sub (if cp > 0 then (1 : ℝ) else K / mp.fwd S T)).const_mul
      (mp.df T * mp.fwd S T)
    exact h2
  · have hlim := intervalIntegral_tendsto_integral_Ioi (a := (0 : ℝ)) hi tendsto_id
    have h2 := ((hlim.const_mul (√(K / mp.fwd S T) / π)).const_sub (if cp > 0 then (1 : ℝ) else K / mp.fwd S T)).const_mul
      (mp.df T * mp.fwd S T)
    have h3 := lewis_price hμ hm (mp.df T) hF hK hcp
    unfold assemble lewisIntegral at h3
    rw [h3] at h2
    rw [← mp.df_eq_spec, ← mp.forward_eq_spec, ← mp.fwd_eq_forward]
    exact h2

end Fft
end PyFENG
