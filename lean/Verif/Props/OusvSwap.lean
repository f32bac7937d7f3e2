import Verif.Props.OusvKlStep

/-!
# C115: the fair strike of the variance swap in the OUSV model
-/

namespace PyFENG

open Real MeasureTheory ProbabilityTheory Filter Topology
open scoped NNReal

namespace Ousv

section
variable {Ω : Type*} {mΩ : MeasurableSpace Ω} {P : Measure Ω} {W X : ℝ≥0 → Ω → ℝ}

/-- Expectations of functions of the volatility at one time. -/
lemma expect_X (m : Ousv) (hm : m.mr ≠ 0) (nz : Bool) {x0 : ℝ} (h : Spec.IsOU P W X m.mr (Spec.thetaOf m nz) m.vov x0) {T : ℝ≥0} (hT : 0 < T) {F : ℝ → ℝ} (hF : Continuous F) :
    ∫ ω, F (X T ω) ∂P = Spec.gaussE fun z => F (m.volStep T x0 z nz) := by
  obtain ⟨ζ, hζm, hζ, -, hstep⟩ := vol_step_exact m nz hm h 0 hT
  have h0 : ∀ᵐ ω ∂P, X T ω = m.volStep T x0 (ζ ω) nz := by
    filter_upwards [h.bm.law.eval_zero_ae_eq_zero] with ω hω
    have h2 := h.sde ω 0
    simp only [NNReal.coe_zero, intervalIntegral.integral_same, add_zero, hω, mul_zero] at h2
    have h3 := hstep ω
    rw [zero_add, h2] at h3
    exact h3
  have e4 : ∫ ω, F (X T ω) ∂P = ∫ ω, (fun z => F (m.volStep T x0 z nz)) (ζ ω) ∂P := by
    refine integral_congr_ae ?_
    filter_upwards [h0] with ω hω
    simp only [hω]
  rw [e4, ← integral_map (μ := P) (f := fun z => F (m.volStep T x0 z nz)) hζm.aemeasurable ?_, hζ]
  · rfl
  · refine Measurable.aestronglyMeasurable (hF.measurable.comp ?_)
    unfold volStep
    cases nz
    · simp only [Bool.false_eq_true, if_false]
      fun_prop
    · simp only [if_true]
      fun_prop

lemma int_pow_exp {κ : ℝ} (hκ : κ ≠ 0) (a0 a1 a2 a3 a4 T : ℝ) :
    ∫ t in (0:ℝ)..T, (a0 + a1 * exp (-(κ * t)) + a2 * exp (-(κ * t)) ^ 2 + a3 * exp (-(κ * t)) ^ 3 + a4 * exp (-(κ * t)) ^ 4) =
      a0 * T + a1 * ((1 - exp (-(κ * T))) / κ) + a2 * ((1 - exp (-(κ * T)) ^ 2) / (2 * κ)) + a3 * ((1 - exp (-(κ * T)) ^ 3) / (3 * κ)) + a4 * ((1 - exp (-(κ * T)) ^ 4) / (4 * κ)) := by
  have hd : ∀ t ∈ Set.uIcc 0 T, HasDerivAt (fun t => a0 * t + a1 * ((1 - exp (-(κ * t))) / κ) + a2 * ((1 - exp (-(κ * t)) ^ 2) / (2 * κ)) + a3 * ((1 - exp (-(κ * t)) ^ 3) / (3 * κ)) + a4 * ((1 - exp (-(κ * t)) ^ 4) / (4 * κ)))
      (a0 + a1 * exp (-(κ * t)) + a2 * exp (-(κ * t)) ^ 2 + a3 * exp (-(κ * t)) ^ 3 + a4 * exp (-(κ * t)) ^ 4) t := fun t _ => by
    have h1 : HasDerivAt (fun t => exp (-(κ * t))) (-(κ * exp (-(κ * t)))) t := by
      refine ((((hasDerivAt_id' t).const_mul κ).fun_neg).exp).congr_deriv ?_
      ring
    have h2 : ∀ k : ℕ, HasDerivAt (fun t => (1 - exp (-(κ * t)) ^ k)) (k * exp (-(κ * t)) ^ (k - 1) * (κ * exp (-(κ * t)))) t := fun k => by
      refine ((h1.fun_pow k).const_sub 1).congr_deriv ?_
      ring
    have h21 : HasDerivAt (fun t => (1 - exp (-(κ * t)))) (κ * exp (-(κ * t))) t := (h1.const_sub 1).congr_deriv (by ring)
    refine (((((hasDerivAt_id' t).const_mul a0).fun_add ((h21.div_const κ).const_mul a1)).fun_add (((h2 2).div_const (2 * κ)).const_mul a2)).fun_add (((h2 3).div_const (3 * κ)).const_mul a3)).fun_add
      (((h2 4).div_const (4 * κ)).const_mul a4) |>.congr_deriv ?_
    norm_num
    field_simp
  rw [intervalIntegral.integral_eq_sub_of_hasDerivAt hd (Continuous.intervalIntegrable (by fun_prop) _ _)]
  simp

/-- **C115.** `strike_var_swap_analytic(texp, dt)`: the fair strike of the continuously sampled swap is the expected time average of the variance, and the correction for the sampling interval is `dt` times
the time average of the expectation of `(r - σ²/2)² - ρ vov σ²`, the first-order term of the expected squared log return over `dt` (squared drift, and covariance of drift and return). -/
theorem strike_var_swap_correct (m : Ousv) (hm : m.mr ≠ 0) (h : Spec.IsOU P W X m.mr m.theta m.vov m.sigma) {T : ℝ} (hT : 0 < T) (dt : ℝ) :
    m.strikeVarSwap T dt = (1 / T * ∫ t in (0:ℝ)..T, ∫ ω, X t.toNNReal ω ^ 2 ∂P) +
      if |dt| ≤ 1e-8 then 0 else dt * (1 / T * ∫ t in (0:ℝ)..T, ∫ ω, ((m.intr - X t.toNNReal ω ^ 2 / 2) ^ 2 - m.rho * m.vov * X t.toNNReal ω ^ 2) ∂P) := by
  set κ := m.mr with hκ
  set x := κ * T with hx
  have hx0 : x ≠ 0 := mul_ne_zero hm hT.ne'
  set θ := m.theta with hθ
  set y := m.sigma - θ with hy
  set w := m.vov ^ 2 / (2 * κ) with hw
  -- moments at a time
  have hmom : ∀ (A B C : ℝ) (t : ℝ), 0 < t → ∫ ω, (A + B * X t.toNNReal ω ^ 2 + C * X t.toNNReal ω ^ 4) ∂P =
      (A + B * (θ ^ 2 + w) + C * (θ ^ 4 + 6 * θ ^ 2 * w + 3 * w ^ 2)) + (B * (2 * θ * y) + C * (4 * θ ^ 3 * y + 12 * θ * y * w)) * exp (-(κ * t))
        + (B * (y ^ 2 - w) + C * (6 * θ ^ 2 * y ^ 2 + 6 * y ^ 2 * w - 6 * θ ^ 2 * w - 6 * w ^ 2)) * exp (-(κ * t)) ^ 2 + C * (4 * θ * y ^ 3 - 12 * θ * y * w) * exp (-(κ * t)) ^ 3
        + C * (y ^ 4 - 6 * y ^ 2 * w + 3 * w ^ 2) * exp (-(κ * t)) ^ 4 := fun A B C t ht => by
    have hst : 0 ≤ (1 - exp (-(κ * t)) ^ 2) / (2 * κ) := by
      rw [← exp_nat_mul]
      push_cast
      rcases lt_or_gt_of_ne hm with h | h
      · exact div_nonneg_of_nonpos (by rw [sub_nonpos]; exact one_le_exp (by nlinarith)) (by linarith)
      · exact div_nonneg (by rw [sub_nonneg]; exact exp_le_one_iff.2 (by nlinarith)) (by linarith)
    have e := expect_X m hm true h (T := t.toNNReal) (by simpa using ht) (F := fun v => A + B * v ^ 2 + C * v ^ 4) (by fun_prop)
    rw [coe_toNNReal _ ht.le] at e
    obtain ⟨s, hs⟩ : ∃ s, s = √((1 - exp (-(κ * t)) ^ 2) / (2 * κ)) := ⟨_, rfl⟩
    have hs2 : s ^ 2 = (1 - exp (-(κ * t)) ^ 2) / (2 * κ) := by rw [hs]; exact sq_sqrt hst
    have hstep : ∀ z, m.volStep t m.sigma z true = (θ + y * exp (-(κ * t))) + m.vov * s * z := fun z => by
      unfold volStep
      simp only [if_true]
      rw [hs, neg_mul, ← hκ, ← hθ, ← hy]
      ring
    simp only [hstep] at e
    set a := θ + y * exp (-(κ * t)) with ha
    set b := m.vov * s with hb
    have hp := (gaussE_poly (A + B * a ^ 2 + C * a ^ 4) (2 * B * a * b + 4 * C * a ^ 3 * b) (B * b ^ 2 + 6 * C * a ^ 2 * b ^ 2) (4 * C * a * b ^ 3) (C * b ^ 4)).2
    have e2 : (Spec.gaussE fun z => A + B * (a + b * z) ^ 2 + C * (a + b * z) ^ 4) = _ := Eq.trans (congrArg Spec.gaussE (funext fun z => by ring)) hp
    rw [e, e2]
    have hb2 : b ^ 2 = w * (1 - exp (-(κ * t)) ^ 2) := by rw [hb, mul_pow, hs2, hw]; ring
    rw [show b ^ 4 = (b ^ 2) ^ 2 by ring, hb2, ha]
    ring
  have key : ∀ A B C : ℝ, ∫ t in (0:ℝ)..T, ∫ ω, (A + B * X t.toNNReal ω ^ 2 + C * X t.toNNReal ω ^ 4) ∂P = _ := fun A B C =>
    (intervalIntegral.integral_congr_ae (by
      rw [Set.uIoc_of_le hT.le]
      exact ae_of_all _ fun t ht => hmom A B C t ht.1)).trans (int_pow_exp hm _ _ _ _ _ T)
  have k2 := key 0 1 0
  have k4 := key (m.intr ^ 2) (-(m.intr + m.rho * m.vov)) (1 / 4)
  have e2 : (∫ t in (0:ℝ)..T, ∫ ω, X t.toNNReal ω ^ 2 ∂P) = ∫ t in (0:ℝ)..T, ∫ ω, (0 + 1 * X t.toNNReal ω ^ 2 + 0 * X t.toNNReal ω ^ 4) ∂P := by simp
  have e4 : (∫ t in (0:ℝ)..T, ∫ ω, ((m.intr - X t.toNNReal ω ^ 2 / 2) ^ 2 - m.rho * m.vov * X t.toNNReal ω ^ 2) ∂P) =
      ∫ t in (0:ℝ)..T, ∫ ω, (m.intr ^ 2 + -(m.intr + m.rho * m.vov) * X t.toNNReal ω ^ 2 + 1 / 4 * X t.toNNReal ω ^ 4) ∂P := by
    congr 1; ext t; congr 1; ext ω; ring
  rw [e2, e4, k2, k4]
  have hT0 := hT.ne'
  have hTx : T = x / κ := by rw [hx]; field_simp
  unfold strikeVarSwap
  rw [ite_not]
  obtain ⟨e, he⟩ : ∃ e, e = exp (-x) := ⟨_, rfl⟩
  have hK : m.avgvarM T (some m.sigma) true = 1 / T * ((0 + 1 * (θ ^ 2 + w) + 0 * (θ ^ 4 + 6 * θ ^ 2 * w + 3 * w ^ 2)) * T + (1 * (2 * θ * y) + 0 * (4 * θ ^ 3 * y + 12 * θ * y * w)) * ((1 - exp (-(κ * T))) / κ)
      + (1 * (y ^ 2 - w) + 0 * (6 * θ ^ 2 * y ^ 2 + 6 * y ^ 2 * w - 6 * θ ^ 2 * w - 6 * w ^ 2)) * ((1 - exp (-(κ * T)) ^ 2) / (2 * κ)) + 0 * (4 * θ * y ^ 3 - 12 * θ * y * w) * ((1 - exp (-(κ * T)) ^ 3) / (3 * κ))
      + 0 * (y ^ 4 - 6 * y ^ 2 * w + 3 * w ^ 2) * ((1 - exp (-(κ * T)) ^ 4) / (4 * κ))) := by
    unfold avgvarM phi2
    simp only [Option.getD_some, if_true]
    rw [← hκ, ← hx, exprel_neg' hx0, ← he, ← hy, ← hθ, hw]
    norm_num
    rw [hTx]
    field_simp
    ring
  split_ifs with hc
  · rw [add_zero, hK]
  · rw [← hK]
    have hsig : m.sigma = y + θ := by rw [hy]; ring
    have fin : ∀ c Q : ℝ, c = Q → m.avgvarM T (some m.sigma) true + c * dt = m.avgvarM T (some m.sigma) true + dt * Q := by rintro c Q rfl; ring
    refine fin _ _ ?_
    have hD2 : m.swapD2 T = 2 * x * m.avgvarM T (some m.sigma) true := by
      rw [hK]
      unfold swapD2
      simp only
      rw [← hκ, ← hx, ← he, ← hθ, hsig, hTx, hw]
      have : m.vov ^ 2 = w * (2 * κ) := by rw [hw]; field_simp
      field_simp
      ring
    have hvv : m.vov ^ 2 = w * (2 * κ) := by rw [hw]; field_simp
    have hD1 : m.swapD1 T = 1 / T * (1 / 4 * ((θ ^ 4 + 6 * θ ^ 2 * w + 3 * w ^ 2) * T + (4 * θ ^ 3 * y + 12 * θ * y * w) * ((1 - e) / κ)
        + (6 * θ ^ 2 * y ^ 2 + 6 * y ^ 2 * w - 6 * θ ^ 2 * w - 6 * w ^ 2) * ((1 - e ^ 2) / (2 * κ)) + (4 * θ * y ^ 3 - 12 * θ * y * w) * ((1 - e ^ 3) / (3 * κ))
        + (y ^ 4 - 6 * y ^ 2 * w + 3 * w ^ 2) * ((1 - e ^ 4) / (4 * κ)))) := by
      unfold swapD1
      simp only
      rw [← hκ, ← hx, ← he, ← hθ, hsig, hTx, hvv]
      clear_value w y θ x κ
      field_simp
      ring
    rw [hD1, hD2, ← hx, ← he]
    have hK2 := hK
    rw [← hx, ← he] at hK2
    rw [show m.vov / (2 * m.mr) * m.rho * (2 * x * m.avgvarM T (some m.sigma) true) / T = m.vov * m.rho * m.avgvarM T (some m.sigma) true by rw [hx, ← hκ]; field_simp, hK2]
    clear_value w y θ x κ
    field_simp
    ring

end

/-- A concrete use: daily sampling over one year. -/
example : ∃ (Ω : Type) (_ : MeasurableSpace Ω) (P : Measure Ω) (W X : ℝ≥0 → Ω → ℝ), Spec.IsOU P W X 4 0.2 0.1 0.3 ∧ ¬ |(1/365:ℝ)| ≤ 1e-8 :=
  ⟨_, _, _, _, _, Ou.isOU BmExist.isBM 4 0.2 0.1 0.3, by rw [abs_of_pos (by norm_num)]; norm_num⟩

/-- **C115.** The strike ignores the dividend yield, although the drift of the log price is `r - q - σ²/2`: models differing in `divr` only get the same strike. -/
theorem swap_ignores_divr (m : Ousv) (q T dt : ℝ) : ({ m with divr := q } : Ousv).strikeVarSwap T dt = m.strikeVarSwap T dt := rfl

end Ousv

end PyFENG
