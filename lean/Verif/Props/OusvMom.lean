import Verif.Model.Ousv
import Verif.Lemmas.OuProcess
import Verif.Props.SabrMom

/-!
# Moments of the Ornstein-Uhlenbeck volatility

The volatility of the model is the solution `Spec.IsOU` of `dσ_t = mr (θ - σ_t) dt + vov dW_t`.
-/

namespace PyFENG

open MeasureTheory ProbabilityTheory Real Set
open scoped NNReal ENNReal

namespace Ousv

variable {Ω : Type*} [mΩ : MeasurableSpace Ω] {P : Measure Ω} {W X : ℝ≥0 → Ω → ℝ}

/-- `θ` as used by the functions with the flag `nz_theta`. -/
def _root_.PyFENG.Spec.thetaOf (m : Ousv) (nz : Bool) : ℝ := if nz then m.theta else 0

lemma exprel_neg' {x : ℝ} (hx : x ≠ 0) : exprel (-x) = (1 - exp (-x)) / x := by
  unfold exprel
  rw [if_neg (neg_ne_zero.2 hx), div_neg, neg_div', neg_sub]

lemma int_laurent {κ : ℝ} (hκ : κ ≠ 0) (a2 a1 a0 b1 b2 T : ℝ) :
    ∫ s in (0:ℝ)..T, (a2 * exp (κ * s) ^ 2 + a1 * exp (κ * s) + a0 + b1 * exp (-(κ * s)) + b2 * exp (-(κ * s)) ^ 2) =
      a0 * T + a1 * (exp (κ * T) - 1) / κ + a2 * (exp (κ * T) ^ 2 - 1) / (2 * κ) + b1 * (1 - exp (-(κ * T))) / κ + b2 * (1 - exp (-(κ * T)) ^ 2) / (2 * κ) := by
  have h2 := intervalIntegral.integral_eq_sub_of_hasDerivAt (a := 0) (b := T)
    (f := fun s => a2 / (2 * κ) * exp (κ * s) ^ 2 + a1 / κ * exp (κ * s) + a0 * s - b1 / κ * exp (-(κ * s)) - b2 / (2 * κ) * exp (-(κ * s)) ^ 2)
    (f' := fun s => a2 * exp (κ * s) ^ 2 + a1 * exp (κ * s) + a0 + b1 * exp (-(κ * s)) + b2 * exp (-(κ * s)) ^ 2) (fun s _ => by
      have hd := ((hasDerivAt_id' s).const_mul κ).exp
      have hd' : HasDerivAt (fun s => exp (-(κ * s))) (exp (-(κ * s)) * -(κ * 1)) s := (((hasDerivAt_id' s).const_mul κ).fun_neg).exp
      refine (((((hd.fun_pow 2).const_mul (a2 / (2 * κ))).fun_add (hd.const_mul (a1 / κ))).fun_add ((hasDerivAt_id' s).const_mul a0)).fun_sub (hd'.const_mul (b1 / κ))
        |>.fun_sub ((hd'.fun_pow 2).const_mul (b2 / (2 * κ)))).congr_deriv ?_
      generalize exp (κ * s) = a
      generalize exp (-(κ * s)) = b
      norm_num
      field_simp) (Continuous.intervalIntegrable (by fun_prop) _ _)
  rw [h2]
  simp
  field_simp
  ring

section Law

variable {κ θ ξ x0 : ℝ} (h : Spec.IsOU P W X κ θ ξ x0)
include h

lemma isProb : IsProbabilityMeasure P := BmExp.isProb h.bm

lemma meas (t : ℝ≥0) : Measurable (X t) := by
  have : X t = fun ω => θ + (x0 - θ) * exp (-(κ * t)) + ξ * Ou.zed W κ t ω := by ext ω; exact h.eq t ω
  rw [this]
  exact measurable_const.add ((Ou.meas_zed h.bm κ t).const_mul ξ)

lemma mean (t : ℝ≥0) : Integrable (X t) P ∧ ∫ ω, X t ω ∂P = θ + (x0 - θ) * exp (-(κ * t)) := by
  haveI := isProb h
  have hz : Integrable (Ou.zed W κ t) P := (Ou.memLp_zed h.bm κ t).integrable (by norm_num)
  have : X t = fun ω => θ + (x0 - θ) * exp (-(κ * t)) + ξ * Ou.zed W κ t ω := by ext ω; exact h.eq t ω
  rw [this]
  refine ⟨(integrable_const _).add (hz.const_mul ξ), ?_⟩
  rw [integral_add (integrable_const _) (hz.const_mul ξ), integral_const_mul, Ou.mean_zed h.bm]
  simp

lemma memLp (t : ℝ≥0) : MemLp (X t) 2 P := by
  haveI := isProb h
  have : X t = fun ω => θ + (x0 - θ) * exp (-(κ * t)) + ξ * Ou.zed W κ t ω := by ext ω; exact h.eq t ω
  rw [this]
  have h1 : MemLp (fun _ : Ω => θ + (x0 - θ) * exp (-(κ * t))) 2 P := memLp_const _
  have h2 : MemLp (fun ω => ξ * Ou.zed W κ t ω) 2 P := (Ou.memLp_zed h.bm κ t).const_mul ξ
  exact h1.add h2

lemma second (hκ : κ ≠ 0) (t : ℝ≥0) : ∫ ω, X t ω ^ 2 ∂P = (θ + (x0 - θ) * exp (-(κ * t))) ^ 2 + ξ ^ 2 * ((1 - exp (-(κ * t)) ^ 2) / (2 * κ)) := by
  haveI := isProb h
  have hz : Integrable (Ou.zed W κ t) P := (Ou.memLp_zed h.bm κ t).integrable (by norm_num)
  have hz2 : Integrable (fun ω => Ou.zed W κ t ω * Ou.zed W κ t ω) P := (Ou.memLp_zed h.bm κ t).integrable_mul (Ou.memLp_zed h.bm κ t)
  set μ := θ + (x0 - θ) * exp (-(κ * t)) with hμ
  have e : ∀ ω, X t ω ^ 2 = (μ ^ 2 + (2 * μ * ξ) * Ou.zed W κ t ω) + ξ ^ 2 * (Ou.zed W κ t ω * Ou.zed W κ t ω) := fun ω => by rw [h.eq t ω]; ring
  simp_rw [e]
  rw [integral_add (f := fun ω => μ ^ 2 + (2 * μ * ξ) * Ou.zed W κ t ω) ((integrable_const _).add (hz.const_mul _)) (hz2.const_mul _),
    integral_add (integrable_const _) (hz.const_mul _), integral_const_mul, integral_const_mul, Ou.mean_zed h.bm, Ou.zed_mul h.bm hκ le_rfl]
  have e2 : exp (-(κ * ((t:ℝ) + t))) = exp (-(κ * t)) ^ 2 := by rw [← exp_nat_mul]; push_cast; ring_nf
  rw [e2]
  simp

lemma cont_X (ω : Ω) : Continuous fun s : ℝ => X s.toNNReal ω := (h.cont ω).comp continuous_real_toNNReal

lemma second_le (hκ : κ ≠ 0) {T : ℝ} (t : ℝ≥0) (ht : (t:ℝ) ≤ T) : ∫ ω, X t ω ^ 2 ∂P ≤ (|θ| + |x0 - θ| * exp (|κ| * T)) ^ 2 + ξ ^ 2 * ((1 + exp (|κ| * T) ^ 2) / (2 * |κ|)) := by
  rw [second h hκ]
  have hE : exp (-(κ * t)) ≤ exp (|κ| * T) := exp_le_exp.2 ((neg_le_abs _).trans (by
    rw [abs_mul, abs_of_nonneg (NNReal.coe_nonneg t)]; exact mul_le_mul_of_nonneg_left ht (abs_nonneg _)))
  have h0 := (exp_pos (-(κ * (t:ℝ)))).le
  gcongr ?_ + ξ ^ 2 * ?_
  · rw [← sq_abs]
    gcongr
    refine (abs_add_le _ _).trans ?_
    rw [abs_mul, abs_of_nonneg h0]
    gcongr
  · have hp : 0 < |κ| := abs_pos.2 hκ
    calc (1 - exp (-(κ * t)) ^ 2) / (2 * κ) ≤ |(1 - exp (-(κ * t)) ^ 2) / (2 * κ)| := le_abs_self _
      _ = |1 - exp (-(κ * t)) ^ 2| / (2 * |κ|) := by rw [abs_div, abs_mul]; norm_num
      _ ≤ (1 + exp (-(κ * t)) ^ 2) / (2 * |κ|) := by
        gcongr
        exact (abs_sub _ _).trans (by rw [abs_one, abs_of_nonneg (by positivity)])
      _ ≤ _ := by gcongr

lemma abs_mean_le (hκ : κ ≠ 0) {T : ℝ} (t : ℝ≥0) (ht : (t:ℝ) ≤ T) :
    ∫ ω, |X t ω| ∂P ≤ 1 + ((|θ| + |x0 - θ| * exp (|κ| * T)) ^ 2 + ξ ^ 2 * ((1 + exp (|κ| * T) ^ 2) / (2 * |κ|))) := by
  haveI := isProb h
  refine le_trans ?_ (add_le_add_right (second_le h hκ t ht) 1)
  have hs : Integrable (fun ω => X t ω ^ 2) P := (memLp h _).integrable_sq
  calc ∫ ω, |X t ω| ∂P ≤ ∫ ω, (1 + X t ω ^ 2) ∂P := by
        refine integral_mono (mean h _).1.abs ((integrable_const _).add hs) fun ω => ?_
        simp only
        nlinarith [sq_abs (X t ω), sq_nonneg (|X t ω| - 1), sq_nonneg (X t ω)]
    _ = _ := by rw [integral_add (integrable_const _) hs]; simp

/-- Expectations of the time integrals of the volatility and of the variance. -/
lemma time_int (hκ : κ ≠ 0) {T : ℝ} (hT : 0 ≤ T) :
    (Integrable (fun ω => ∫ s in (0:ℝ)..T, X s.toNNReal ω) P ∧ ∫ ω, (∫ s in (0:ℝ)..T, X s.toNNReal ω) ∂P = ∫ s in (0:ℝ)..T, ∫ ω, X s.toNNReal ω ∂P) ∧
    (Integrable (fun ω => ∫ s in (0:ℝ)..T, X s.toNNReal ω ^ 2) P ∧ ∫ ω, (∫ s in (0:ℝ)..T, X s.toNNReal ω ^ 2) ∂P = ∫ s in (0:ℝ)..T, ∫ ω, X s.toNNReal ω ^ 2 ∂P) := by
  haveI := isProb h
  constructor
  · refine Ou.fubini (fun u => meas h _) (fun ω => cont_X h ω) hT (C := 1 + ((|θ| + |x0 - θ| * exp (|κ| * T)) ^ 2 + ξ ^ 2 * ((1 + exp (|κ| * T) ^ 2) / (2 * |κ|)))) fun u hu => ⟨(mean h _).1, ?_⟩
    exact abs_mean_le h hκ u.toNNReal (by rw [coe_toNNReal _ hu.1.le]; exact hu.2)
  · refine Ou.fubini (fun u => (meas h _).pow_const 2) (fun ω => (cont_X h ω).pow 2) hT (C := ((|θ| + |x0 - θ| * exp (|κ| * T)) ^ 2 + ξ ^ 2 * ((1 + exp (|κ| * T) ^ 2) / (2 * |κ|)))) fun u hu => ⟨(memLp h _).integrable_sq, ?_⟩
    simp_rw [abs_of_nonneg (sq_nonneg (X u.toNNReal _))]
    exact second_le h hκ u.toNNReal (by rw [coe_toNNReal _ hu.1.le]; exact hu.2)

end Law

/-- **C110.** `avgvol_mv(texp, vol0)` and `avgvar_mv(texp, vol0)` return the expectations of the time averages of the volatility and of the variance over
`[0, texp]`, for every solution of the volatility equation started from `vol0` (`sigma` if omitted), with `theta` replaced by 0 when `nz_theta` is false. -/
theorem avg_correct (m : Ousv) (nz : Bool) (vol0 : Option ℝ) (hm : m.mr ≠ 0) {T : ℝ} (hT : 0 < T)
    (h : Spec.IsOU P W X m.mr (Spec.thetaOf m nz) m.vov (vol0.getD m.sigma)) :
    ∫ ω, (1 / T * ∫ s in (0:ℝ)..T, X s.toNNReal ω) ∂P = m.avgvolM T vol0 nz ∧
    ∫ ω, (1 / T * ∫ s in (0:ℝ)..T, X s.toNNReal ω ^ 2) ∂P = m.avgvarM T vol0 nz := by
  have hx : m.mr * T ≠ 0 := mul_ne_zero hm hT.ne'
  obtain ⟨⟨_, h1⟩, ⟨_, h2⟩⟩ := time_int h hm hT.le
  rw [integral_const_mul, integral_const_mul, h1, h2]
  have e1 : ∫ s in (0:ℝ)..T, ∫ ω, X s.toNNReal ω ∂P = ∫ s in (0:ℝ)..T, (0 * exp (m.mr * s) ^ 2 + 0 * exp (m.mr * s) + Spec.thetaOf m nz
      + (vol0.getD m.sigma - Spec.thetaOf m nz) * exp (-(m.mr * s)) + 0 * exp (-(m.mr * s)) ^ 2) :=
    intervalIntegral.integral_congr fun s hs => by
      rw [uIcc_of_le hT.le] at hs
      rw [(mean h _).2, coe_toNNReal _ hs.1]
      ring
  have e2 : ∫ s in (0:ℝ)..T, ∫ ω, X s.toNNReal ω ^ 2 ∂P = ∫ s in (0:ℝ)..T, (0 * exp (m.mr * s) ^ 2 + 0 * exp (m.mr * s) + (Spec.thetaOf m nz ^ 2 + m.vov ^ 2 / (2 * m.mr))
      + (2 * Spec.thetaOf m nz * (vol0.getD m.sigma - Spec.thetaOf m nz)) * exp (-(m.mr * s)) + ((vol0.getD m.sigma - Spec.thetaOf m nz) ^ 2 - m.vov ^ 2 / (2 * m.mr)) * exp (-(m.mr * s)) ^ 2) :=
    intervalIntegral.integral_congr fun s hs => by
      rw [uIcc_of_le hT.le] at hs
      rw [second h hm, coe_toNNReal _ hs.1]
      ring
  rw [e1, e2, int_laurent hm, int_laurent hm]
  unfold avgvolM avgvarM phi2 Spec.thetaOf
  rw [exprel_neg' hx]
  generalize exp (-(m.mr * T)) = E
  generalize vol0.getD m.sigma = v
  cases nz
  · constructor
    · simp; field_simp
    · simp; field_simp; ring
  · constructor
    · simp; field_simp; ring
    · simp; field_simp; ring

/-- **C110.** One step of `vol_step` is exact: for every solution of the volatility equation, the value at `s + dt` is `vol_step(dt, σ_s)` applied to a standard
normal variate which is independent of the whole path up to time `s`. -/
theorem vol_step_exact (m : Ousv) (nz : Bool) {x0 : ℝ} (hm : m.mr ≠ 0) (h : Spec.IsOU P W X m.mr (Spec.thetaOf m nz) m.vov x0) (s : ℝ≥0) {dt : ℝ≥0} (hdt : 0 < dt) :
    ∃ ζ : Ω → ℝ, Measurable ζ ∧ P.map ζ = gaussianReal 0 1 ∧ IndepFun (fun ω (u : Iic s) => X u ω) ζ P ∧ ∀ ω, X (s + dt) ω = m.volStep dt (X s ω) (ζ ω) nz := by
  obtain ⟨h1, h2, h3⟩ := Ou.innovation h.bm hm s hdt
  refine ⟨_, h1, h2, ?_, fun ω => ?_⟩
  · have e : (fun ω (u : Iic s) => X u ω) = (fun (y : Iic s → ℝ) (u : Iic s) => Spec.thetaOf m nz + (x0 - Spec.thetaOf m nz) * exp (-(m.mr * (u : ℝ≥0))) + m.vov * y u) ∘
        (fun ω (u : Iic s) => Ou.zed W m.mr u ω) := by
      ext ω u
      exact h.eq u ω
    rw [e]
    refine h3.comp (measurable_pi_lambda _ fun u => ?_) measurable_id
    exact measurable_const.add ((measurable_pi_apply u).const_mul _)
  · have hd' : (0:ℝ) < dt := by exact_mod_cast hdt
    have hv : 0 < (1 - exp (-(m.mr * dt)) ^ 2) / (2 * m.mr) := by
      rw [← exp_nat_mul]
      push_cast
      rcases lt_or_gt_of_ne hm with h | h
      · exact div_pos_of_neg_of_neg (by rw [sub_neg, one_lt_exp_iff]; nlinarith) (by linarith)
      · exact div_pos (by rw [sub_pos, exp_lt_one_iff]; nlinarith) (by linarith)
    have hE : exp (-(m.mr * ((s + dt : ℝ≥0) : ℝ))) = exp (-(m.mr * dt)) * exp (-(m.mr * s)) := by rw [← exp_add]; push_cast; ring_nf
    have hs : X (s + dt) ω = Spec.thetaOf m nz + (X s ω - Spec.thetaOf m nz) * exp (-(m.mr * dt)) + m.vov * (Ou.zed W m.mr (s + dt) ω - exp (-(m.mr * dt)) * Ou.zed W m.mr s ω) := by
      rw [h.eq (s + dt) ω, h.eq s ω, hE]
      ring
    have key : ∀ v z : ℝ, m.volStep dt v z nz = Spec.thetaOf m nz + (v - Spec.thetaOf m nz) * exp (-(m.mr * dt)) + m.vov * (√((1 - exp (-(m.mr * dt)) ^ 2) / (2 * m.mr)) * z) := by
      intro v z
      unfold volStep Spec.thetaOf
      rw [neg_mul]
      cases nz <;> simp <;> ring
    rw [hs, key, mul_div_cancel₀ _ (sqrt_pos.2 hv).ne']

/-- **C110.** The paths built by `vol_paths` from a Brownian path have exactly the finite-dimensional laws of the volatility of the model: any solution of the
volatility equation and the time-changed Brownian motion of the code agree in law at every finite set of times. -/
theorem vol_paths_law (m : Ousv) (hm : 0 < m.mr) (h : Spec.IsOU P W X m.mr m.theta m.vov m.sigma) {Ω' : Type*} [MeasurableSpace Ω'] {P' : Measure Ω'} {B : ℝ≥0 → Ω' → ℝ}
    (hB : Spec.IsBM P' B) (I : Finset ℝ≥0) :
    P.map (fun ω => I.restrict (X · ω)) = P'.map (fun ω => I.restrict fun t => m.volPath (fun s => B s.toNNReal ω) t) := by
  have hs2 : 0 < √(2 * m.mr) := sqrt_pos.2 (by linarith)
  have hsq : √(2 * m.mr) ^ 2 = 2 * m.mr := sq_sqrt (by linarith)
  set τ : ℝ≥0 → ℝ≥0 := fun t => (exp (m.mr * t) ^ 2 - 1).toNNReal with hτ
  have hτv : ∀ t : ℝ≥0, (τ t : ℝ) = exp (m.mr * t) ^ 2 - 1 := fun t => by
    refine coe_toNNReal _ ?_
    have : 1 ≤ exp (m.mr * t) := one_le_exp (by positivity)
    nlinarith
  set Y : ℝ≥0 → Ω' → ℝ := fun t ω => (1 / √(2 * m.mr) / exp (m.mr * t)) * B (τ t) ω with hY
  have hYl : ∀ t, Ou.Lim B (Y t) := fun t => (Ou.Lim.of (τ t)).smul _
  have hYg : IsGaussianProcess Y P' := Ou.isGaussianProcess_of_lim hB.law.isGaussianProcess hB.law.integral_eval hYl
  have hY0 : ∀ t, ∫ ω, Y t ω ∂P' = 0 := fun t => by rw [hY]; simp only; rw [integral_const_mul, hB.law.integral_eval, mul_zero]
  have hcov : ∀ s t, ∫ ω, Ou.zed W m.mr s ω * Ou.zed W m.mr t ω ∂P = ∫ ω, Y s ω * Y t ω ∂P' := by
    have main : ∀ s t : ℝ≥0, t ≤ s → ∫ ω, Ou.zed W m.mr s ω * Ou.zed W m.mr t ω ∂P = ∫ ω, Y s ω * Y t ω ∂P' := by
      intro s t hts
      rw [Ou.zed_mul h.bm hm.ne' hts]
      have e : ∀ ω, Y s ω * Y t ω = (1 / √(2 * m.mr) / exp (m.mr * s)) * (1 / √(2 * m.mr) / exp (m.mr * t)) * (B (τ s) ω * B (τ t) ω) := fun ω => by rw [hY]; ring
      simp_rw [e]
      have hmono : τ t ≤ τ s := by
        have hts' : (t:ℝ) ≤ s := by exact_mod_cast hts
        rw [hτ]
        simp only
        gcongr
      rw [integral_const_mul, Ou.W_mul hB, min_eq_right hmono, hτv]
      have hE3 : exp (-(m.mr * ((s:ℝ) - t))) = exp (m.mr * t) / exp (m.mr * s) := by rw [← exp_sub]; ring_nf
      have hE4 : exp (-(m.mr * ((s:ℝ) + t))) = 1 / (exp (m.mr * t) * exp (m.mr * s)) := by rw [← exp_add, exp_neg, one_div]; ring_nf
      rw [hE3, hE4]
      have h1 := (exp_pos (m.mr * (s:ℝ))).ne'
      have h3 := (exp_pos (m.mr * (t:ℝ))).ne'
      have hk := hm.ne'
      generalize exp (m.mr * (s:ℝ)) = a at *
      generalize exp (m.mr * (t:ℝ)) = b at *
      generalize √(2 * m.mr) = r at *
      rw [← hsq]
      field_simp
    intro s t
    rcases le_total t s with h1 | h1
    · exact main s t h1
    · have := main t s h1
      simp_rw [mul_comm (Ou.zed W m.mr s _), mul_comm (Y s _)]
      exact this
  have hfdd := Ou.fdd_eq (Ou.gauss_zed h.bm m.mr) hYg (Ou.mean_zed h.bm m.mr) hY0 hcov I
  have hg : Measurable fun (y : I → ℝ) (t : I) => m.theta + (m.sigma - m.theta) * exp (-(m.mr * (t : ℝ≥0))) + m.vov * y t :=
    measurable_pi_lambda _ fun t => measurable_const.add ((measurable_pi_apply t).const_mul _)
  have e1 : (fun ω => I.restrict (X · ω)) = (fun (y : I → ℝ) (t : I) => m.theta + (m.sigma - m.theta) * exp (-(m.mr * (t : ℝ≥0))) + m.vov * y t) ∘ fun ω => I.restrict (Ou.zed W m.mr · ω) := by
    ext ω t
    exact h.eq t ω
  have e2 : (fun ω => I.restrict fun t : ℝ≥0 => m.volPath (fun s => B s.toNNReal ω) t) =
      (fun (y : I → ℝ) (t : I) => m.theta + (m.sigma - m.theta) * exp (-(m.mr * (t : ℝ≥0))) + m.vov * y t) ∘ fun ω => I.restrict (Y · ω) := by
    ext ω t
    show m.volPath (fun s => B s.toNNReal ω) t = m.theta + (m.sigma - m.theta) * exp (-(m.mr * (t : ℝ≥0))) + m.vov * Y t ω
    rw [show m.volPath (fun s => B s.toNNReal ω) t = m.theta + (m.sigma - m.theta + m.vov / √(2 * m.mr) * B (τ t) ω) / exp (m.mr * (t : ℝ≥0)) from rfl, hY]
    simp only
    have hE : exp (-(m.mr * ((t : ℝ≥0) : ℝ))) = 1 / exp (m.mr * (t : ℝ≥0)) := by rw [exp_neg, one_div]
    rw [hE]
    generalize B (τ t) ω = b
    have h1 := (exp_pos (m.mr * ((t : ℝ≥0):ℝ))).ne'
    field_simp
    ring
  have hmz : AEMeasurable (fun ω => I.restrict (Ou.zed W m.mr · ω)) P := aemeasurable_pi_lambda _ fun t => (Ou.meas_zed h.bm m.mr t).aemeasurable
  have hmY : AEMeasurable (fun ω => I.restrict (Y · ω)) P' := aemeasurable_pi_lambda _ fun t => ((hB.meas _).const_mul _).aemeasurable
  rw [e1, e2, ← AEMeasurable.map_map_of_aemeasurable hg.aemeasurable hmz, ← AEMeasurable.map_map_of_aemeasurable hg.aemeasurable hmY, hfdd]

/-! ### Conditional expectations given the final volatility -/

/-- The regression coefficient `sinh(κ s) / sinh(κ T)`. -/
noncomputable def beta (κ T s : ℝ) : ℝ := sinh (κ * s) / sinh (κ * T)

lemma sinh_ne {x : ℝ} (hx : x ≠ 0) : sinh x ≠ 0 := by rw [Ne, ← sinh_zero, sinh_inj]; exact hx

/-- The conditional variance of the solution at time `s` given time `T`. -/
noncomputable def resVar (κ T s : ℝ) : ℝ := (1 - exp (-(κ * s)) ^ 2) / (2 * κ) - beta κ T s ^ 2 * ((1 - exp (-(κ * T)) ^ 2) / (2 * κ))

section Cond

variable (hW : Spec.IsBM P W)
include hW

lemma residual {κ : ℝ} (hκ : κ ≠ 0) {s T : ℝ≥0} (hs : s ≤ T) (hT : 0 < T) {φ : ℝ → ℝ} (hφ : Measurable φ) (hb : ∀ x, |φ x| ≤ 1) :
    ∫ ω, (Ou.zed W κ s ω - beta κ T s * Ou.zed W κ T ω) * φ (Ou.zed W κ T ω) ∂P = 0 ∧
    ∫ ω, (Ou.zed W κ s ω - beta κ T s * Ou.zed W κ T ω) * (Ou.zed W κ T ω * φ (Ou.zed W κ T ω)) ∂P = 0 ∧
    ∫ ω, (Ou.zed W κ s ω - beta κ T s * Ou.zed W κ T ω) ^ 2 * φ (Ou.zed W κ T ω) ∂P = resVar κ T s * ∫ ω, φ (Ou.zed W κ T ω) ∂P := by
  haveI := BmExp.isProb hW
  have hT' : (0:ℝ) < T := by exact_mod_cast hT
  have hx : κ * (T:ℝ) ≠ 0 := mul_ne_zero hκ hT'.ne'
  set Y := Ou.zed W κ T with hY
  set R : Ω → ℝ := fun ω => Ou.zed W κ s ω - beta κ T s * Y ω with hR
  have hRm : Measurable R := (Ou.meas_zed hW κ s).sub ((Ou.meas_zed hW κ T).const_mul _)
  have hYm : Measurable Y := Ou.meas_zed hW κ T
  have hL : ∀ t, MemLp (Ou.zed W κ t) 2 P := fun t => Ou.memLp_zed hW κ t
  have hi : ∀ a b, Integrable (fun ω => Ou.zed W κ a ω * Ou.zed W κ b ω) P := fun a b => (hL a).integrable_mul (hL b)
  have hRl : Ou.Lim W R := by
    have := (Ou.lim_zed hW κ s).add ((Ou.lim_zed hW κ T).smul (-(beta κ T s)))
    have e : (fun ω => Ou.zed W κ s ω + -(beta κ T s) * Ou.zed W κ T ω) = R := by ext ω; rw [hR, hY]; ring
    rwa [e] at this
  have hg : IsGaussianProcess (fun b : Bool => if b then R else Y) P :=
    Ou.isGaussianProcess_of_lim hW.law.isGaussianProcess hW.law.integral_eval fun b => by
      cases b
      · exact Ou.lim_zed hW κ T
      · exact hRl
  have hRL : MemLp R 2 P := (hg.hasGaussianLaw_eval true).memLp_two
  have hRi : Integrable R P := hRL.integrable (by norm_num)
  have hR0 : ∫ ω, R ω ∂P = 0 := by
    rw [hR]
    rw [integral_sub ((hL s).integrable (by norm_num)) (((hL T).integrable (by norm_num)).const_mul _), integral_const_mul, Ou.mean_zed hW, Ou.mean_zed hW]
    ring
  have hsh := sinh_ne hx
  have eS : sinh (κ * s) = (exp (κ * s) - exp (-(κ * s))) / 2 := sinh_eq _
  have eT : sinh (κ * T) = (exp (κ * T) - exp (-(κ * T))) / 2 := sinh_eq _
  have hcov : ∫ ω, R ω * Y ω ∂P = 0 := by
    have e : ∀ ω, R ω * Y ω = Ou.zed W κ T ω * Ou.zed W κ s ω - beta κ T s * (Ou.zed W κ T ω * Ou.zed W κ T ω) := fun ω => by rw [hR, hY]; ring
    simp_rw [e]
    rw [integral_sub (hi _ _) ((hi _ _).const_mul _), integral_const_mul, Ou.zed_mul hW hκ hs, Ou.zed_mul hW hκ le_rfl]
    unfold beta
    have hE1 : exp (-(κ * ((T:ℝ) - s))) = exp (κ * s) * exp (-(κ * T)) := by rw [← exp_add]; ring_nf
    have hE2 : exp (-(κ * ((T:ℝ) + s))) = exp (-(κ * s)) * exp (-(κ * T)) := by rw [← exp_add]; ring_nf
    have hE3 : exp (-(κ * ((T:ℝ) + T))) = exp (-(κ * T)) * exp (-(κ * T)) := by rw [← exp_add]; ring_nf
    have hE4 : exp (-(κ * ((T:ℝ) - T))) = exp (κ * T) * exp (-(κ * T)) := by rw [← exp_add]; ring_nf
    rw [hE1, hE2, hE3, hE4, ← sub_mul, ← sub_mul, show exp (κ * s) - exp (-(κ * s)) = 2 * sinh (κ * s) by rw [eS]; ring,
      show exp (κ * T) - exp (-(κ * T)) = 2 * sinh (κ * T) by rw [eT]; ring]
    field_simp
    ring
  have hind : IndepFun R Y P := by
    have := hg.hasGaussianLaw_prodMk (s := true) (t := false)
    refine HasGaussianLaw.indepFun_of_covariance_eq_zero this ?_
    have hc : cov[R, Y; P] = 0 := by
      rw [covariance_eq_sub hRL (hL T), hR0, zero_mul, sub_zero]
      exact hcov
    exact hc
  have hφi : ∀ f : Ω → ℝ, Integrable f P → Integrable (fun ω => f ω * φ (Y ω)) P := fun f hf =>
    hf.mul_bdd (c := 1) (hφ.comp hYm).aestronglyMeasurable (ae_of_all _ fun ω => hb _)
  refine ⟨?_, ?_, ?_⟩
  · have := (hind.comp (φ := id) (ψ := φ) measurable_id hφ).integral_fun_mul_eq_mul_integral hRm.aestronglyMeasurable (hφ.comp hYm).aestronglyMeasurable
    simp only [Function.comp, id] at this
    rw [this, hR0, zero_mul]
  · have hψ : Measurable fun y => y * φ y := measurable_id.mul hφ
    have := (hind.comp (φ := id) (ψ := fun y => y * φ y) measurable_id hψ).integral_fun_mul_eq_mul_integral hRm.aestronglyMeasurable (hψ.comp hYm).aestronglyMeasurable
    simp only [Function.comp, id] at this
    rw [this, hR0, zero_mul]
  · have := (hind.comp (φ := fun x => x ^ 2) (ψ := φ) (by fun_prop) hφ).integral_fun_mul_eq_mul_integral (hRm.pow_const 2).aestronglyMeasurable (hφ.comp hYm).aestronglyMeasurable
    simp only [Function.comp] at this
    rw [this]
    congr 1
    have e : ∀ ω, R ω ^ 2 = Ou.zed W κ s ω * Ou.zed W κ s ω - beta κ T s ^ 2 * (Ou.zed W κ T ω * Ou.zed W κ T ω) - 2 * beta κ T s * (R ω * Y ω) := fun ω => by rw [hR, hY]; ring
    simp_rw [e]
    rw [integral_sub (f := fun ω => Ou.zed W κ s ω * Ou.zed W κ s ω - beta κ T s ^ 2 * (Ou.zed W κ T ω * Ou.zed W κ T ω)) ((hi _ _).sub ((hi _ _).const_mul _)) (Integrable.const_mul (f := fun ω => R ω * Y ω) (hRL.integrable_mul (hL T)) _),
      integral_sub (hi _ _) ((hi _ _).const_mul _), integral_const_mul, integral_const_mul, hcov, Ou.zed_mul hW hκ le_rfl, Ou.zed_mul hW hκ le_rfl]
    unfold resVar
    have hE3 : ∀ t : ℝ, exp (-(κ * (t + t))) = exp (-(κ * t)) ^ 2 := fun t => by rw [← exp_nat_mul]; push_cast; ring_nf
    rw [hE3, hE3]
    simp

end Cond

/-- The pathwise integrals behind `cond_avgvolvar_m` (with `theta = 0`). -/
lemma cond_integrals (m : Ousv) (hm : m.mr ≠ 0) {T : ℝ} (hT : 0 < T) (vol0 volT : ℝ) :
    (1 / T * ∫ s in (0:ℝ)..T, (vol0 * exp (-(m.mr * s)) + beta m.mr T s * (volT - vol0 * exp (-(m.mr * T))))) = (m.condAvgvolvarM T vol0 volT false).1 ∧
    (1 / T * ∫ s in (0:ℝ)..T, ((vol0 * exp (-(m.mr * s)) + beta m.mr T s * (volT - vol0 * exp (-(m.mr * T)))) ^ 2 + m.vov ^ 2 * resVar m.mr T s)) = (m.condAvgvolvarM T vol0 volT false).2 := by
  have hx : m.mr * T ≠ 0 := mul_ne_zero hm hT.ne'
  have hsh := sinh_ne hx
  set S := sinh (m.mr * T) with hS
  set V := volT - vol0 * exp (-(m.mr * T)) with hV
  set vT := (1 - exp (-(m.mr * T)) ^ 2) / (2 * m.mr) with hvT
  have hpq : ∀ s : ℝ, exp (m.mr * s) * exp (-(m.mr * s)) = 1 := fun s => by rw [← exp_add]; simp
  have e1 : ∫ s in (0:ℝ)..T, (vol0 * exp (-(m.mr * s)) + beta m.mr T s * V) = ∫ s in (0:ℝ)..T, (0 * exp (m.mr * s) ^ 2 + V / (2 * S) * exp (m.mr * s) + 0
      + (vol0 - V / (2 * S)) * exp (-(m.mr * s)) + 0 * exp (-(m.mr * s)) ^ 2) := intervalIntegral.integral_congr fun s _ => by
    unfold beta
    rw [sinh_eq (m.mr * s)]
    field_simp
    ring
  have e2 : ∫ s in (0:ℝ)..T, ((vol0 * exp (-(m.mr * s)) + beta m.mr T s * V) ^ 2 + m.vov ^ 2 * resVar m.mr T s) =
      ∫ s in (0:ℝ)..T, (((V ^ 2 - m.vov ^ 2 * vT) / (4 * S ^ 2)) * exp (m.mr * s) ^ 2 + 0 * exp (m.mr * s)
        + ((vol0 - V / (2 * S)) * V / S + m.vov ^ 2 / (2 * m.mr) + m.vov ^ 2 * vT / (2 * S ^ 2))
        + 0 * exp (-(m.mr * s)) + ((vol0 - V / (2 * S)) ^ 2 - m.vov ^ 2 / (2 * m.mr) - m.vov ^ 2 * vT / (4 * S ^ 2)) * exp (-(m.mr * s)) ^ 2) := intervalIntegral.integral_congr fun s _ => by
    unfold beta resVar beta
    rw [sinh_eq (m.mr * s), ← hvT, ← hS]
    have h1 := hpq s
    have hq := (exp_pos (-(m.mr * s))).ne'
    rw [eq_div_of_mul_eq hq h1]
    clear_value V S vT
    generalize exp (-(m.mr * s)) = q at *
    field_simp
    ring
  rw [e1, e2, int_laurent hm, int_laurent hm]
  unfold condAvgvolvarM phi2
  simp only [Bool.false_eq_true, if_false, exprel_neg' hx]
  rw [← hS, ← hV, hvT]
  have hE0 := (exp_pos (-(m.mr * T))).ne'
  have hP : exp (m.mr * T) = 1 / exp (-(m.mr * T)) := eq_div_of_mul_eq hE0 (hpq T)
  have hC : cosh (m.mr * T) = (1 / exp (-(m.mr * T)) + exp (-(m.mr * T))) / 2 := by rw [cosh_eq, hP]
  have hS' : S = (1 / exp (-(m.mr * T)) - exp (-(m.mr * T))) / 2 := by rw [hS, sinh_eq, hP]
  have hE1 : exp (-(m.mr * T)) ≠ 1 := by rw [Ne, exp_eq_one_iff]; simpa using hx
  have hEp : 0 < 1 + exp (-(m.mr * T)) := by positivity
  clear_value V S vT
  rw [hP, hC]
  generalize exp (-(m.mr * T)) = E at *
  have hT0 := hT.ne'
  obtain ⟨u, hu⟩ : ∃ u, u = 1 - E := ⟨_, rfl⟩
  obtain ⟨w, hw⟩ : ∃ w, w = 1 + E := ⟨_, rfl⟩
  have hu0 : u ≠ 0 := by rw [hu, sub_ne_zero]; exact hE1.symm
  have hw0 : w ≠ 0 := by rw [hw]; exact hEp.ne'
  have hS2 : S = u * w / (2 * E) := by rw [hS', hu, hw]; field_simp; ring
  rw [← hu, ← hw, hS2]
  constructor
  · field_simp
    rw [hu, hw]
    ring
  · field_simp
    rw [hu, hw]
    ring

section CondExp

variable {κ θ ξ x0 : ℝ} (h : Spec.IsOU P W X κ θ ξ x0)
include h

/-- Conditional first and second moments at time `s` given time `T`, tested against bounded functions of the final value. -/
lemma cond_point (hκ : κ ≠ 0) {s T : ℝ≥0} (hs : s ≤ T) (hT : 0 < T) {φ : ℝ → ℝ} (hφ : Measurable φ) (hb : ∀ x, |φ x| ≤ 1) :
    ∫ ω, X s ω * φ (X T ω) ∂P = ∫ ω, (θ + (x0 - θ) * exp (-(κ * s)) + beta κ T s * (X T ω - θ - (x0 - θ) * exp (-(κ * T)))) * φ (X T ω) ∂P ∧
    ∫ ω, X s ω ^ 2 * φ (X T ω) ∂P = ∫ ω, ((θ + (x0 - θ) * exp (-(κ * s)) + beta κ T s * (X T ω - θ - (x0 - θ) * exp (-(κ * T)))) ^ 2 + ξ ^ 2 * resVar κ T s) * φ (X T ω) ∂P := by
  haveI := isProb h
  set μ := θ + (x0 - θ) * exp (-(κ * s)) with hμ
  set ψ : ℝ → ℝ := fun y => φ (θ + (x0 - θ) * exp (-(κ * T)) + ξ * y) with hψ
  have hψm : Measurable ψ := hφ.comp (by fun_prop)
  have hψX : ∀ ω, φ (X T ω) = ψ (Ou.zed W κ T ω) := fun ω => by rw [h.eq T ω]
  obtain ⟨r1, r2, r3⟩ := residual h.bm hκ hs hT hψm (fun x => hb _)
  have hXT : ∀ ω, X T ω - θ - (x0 - θ) * exp (-(κ * T)) = ξ * Ou.zed W κ T ω := fun ω => by rw [h.eq T ω]; ring
  set Y := Ou.zed W κ T with hY
  set R : Ω → ℝ := fun ω => Ou.zed W κ s ω - beta κ T s * Y ω with hR
  have hXs : ∀ ω, X s ω = μ + ξ * beta κ T s * Y ω + ξ * R ω := fun ω => by rw [h.eq s ω, hR, hμ]; ring
  simp_rw [hψX, hXT, hXs]
  have hL : ∀ t, MemLp (Ou.zed W κ t) 2 P := fun t => Ou.memLp_zed h.bm κ t
  have hYL : MemLp Y 2 P := hL T
  have hRL : MemLp R 2 P := (hL s).sub ((hL T).const_mul _)
  have hYm : Measurable Y := Ou.meas_zed h.bm κ T
  have hφi : ∀ f : Ω → ℝ, Integrable f P → Integrable (fun ω => f ω * ψ (Y ω)) P := fun f hf =>
    hf.mul_bdd (c := 1) (hψm.comp hYm).aestronglyMeasurable (ae_of_all _ fun ω => hb _)
  have i1 : Integrable (fun ω => μ + ξ * beta κ T s * Y ω) P := (integrable_const _).add ((hYL.integrable (by norm_num)).const_mul _)
  have i2 : Integrable R P := hRL.integrable (by norm_num)
  have iY2 : Integrable (fun ω => Y ω ^ 2) P := hYL.integrable_sq
  have iR2 : Integrable (fun ω => R ω ^ 2) P := hRL.integrable_sq
  have iRY : Integrable (fun ω => R ω * Y ω) P := hRL.integrable_mul hYL
  constructor
  · have e : ∀ ω, (μ + ξ * beta κ T s * Y ω + ξ * R ω) * ψ (Y ω) = (μ + ξ * beta κ T s * Y ω) * ψ (Y ω) + ξ * (R ω * ψ (Y ω)) := fun ω => by ring
    simp_rw [e]
    rw [integral_add (hφi _ i1) ((hφi _ i2).const_mul _), integral_const_mul, r1, mul_zero, add_zero]
    exact integral_congr_ae (ae_of_all _ fun ω => by simp only; ring)
  · have e : ∀ ω, (μ + ξ * beta κ T s * Y ω + ξ * R ω) ^ 2 * ψ (Y ω) = ((μ + ξ * beta κ T s * Y ω) ^ 2 * ψ (Y ω) + (2 * ξ * μ) * (R ω * ψ (Y ω)))
        + ((2 * ξ ^ 2 * beta κ T s) * (R ω * (Y ω * ψ (Y ω))) + ξ ^ 2 * (R ω ^ 2 * ψ (Y ω))) := fun ω => by ring
    have i3 : Integrable (fun ω => (μ + ξ * beta κ T s * Y ω) ^ 2) P := by
      have : (fun ω => (μ + ξ * beta κ T s * Y ω) ^ 2) = fun ω => μ ^ 2 + (2 * μ * (ξ * beta κ T s)) * Y ω + (ξ * beta κ T s) ^ 2 * Y ω ^ 2 := by ext ω; ring
      rw [this]
      exact ((integrable_const _).add ((hYL.integrable (by norm_num)).const_mul _)).add (iY2.const_mul _)
    have i4 : Integrable (fun ω => R ω * (Y ω * ψ (Y ω))) P := (hφi _ iRY).congr (ae_of_all _ fun ω => by simp only; ring)
    have e' : ∀ ω, ((μ + beta κ T s * (ξ * Y ω)) ^ 2 + ξ ^ 2 * resVar κ T s) * ψ (Y ω) = (μ + ξ * beta κ T s * Y ω) ^ 2 * ψ (Y ω) + (ξ ^ 2 * resVar κ T s) * ψ (Y ω) := fun ω => by ring
    have i5 : Integrable (fun ω => ψ (Y ω)) P := by simpa using hφi (fun _ => 1) (integrable_const _)
    simp_rw [e, e']
    rw [integral_add (f := fun ω => (μ + ξ * beta κ T s * Y ω) ^ 2 * ψ (Y ω) + (2 * ξ * μ) * (R ω * ψ (Y ω)))
        (g := fun ω => (2 * ξ ^ 2 * beta κ T s) * (R ω * (Y ω * ψ (Y ω))) + ξ ^ 2 * (R ω ^ 2 * ψ (Y ω)))
        ((hφi _ i3).add ((hφi _ i2).const_mul _)) ((i4.const_mul _).add ((hφi _ iR2).const_mul _)),
      integral_add (hφi _ i3) ((hφi _ i2).const_mul _), integral_add (i4.const_mul _) ((hφi _ iR2).const_mul _), integral_const_mul, integral_const_mul, integral_const_mul,
      r1, r2, r3, integral_add (hφi _ i3) (i5.const_mul _), integral_const_mul]
    ring

end CondExp

lemma cond_shift (m : Ousv) (T v0 vT : ℝ) (nz : Bool) : m.condAvgvolvarM T v0 vT nz =
    ((m.condAvgvolvarM T (v0 - Spec.thetaOf m nz) (vT - Spec.thetaOf m nz) false).1 + Spec.thetaOf m nz,
      (m.condAvgvolvarM T (v0 - Spec.thetaOf m nz) (vT - Spec.thetaOf m nz) false).2 + Spec.thetaOf m nz * (Spec.thetaOf m nz + 2 * (m.condAvgvolvarM T (v0 - Spec.thetaOf m nz) (vT - Spec.thetaOf m nz) false).1)) := by
  cases nz
  · simp [Spec.thetaOf]
  · simp [Spec.thetaOf, condAvgvolvarM]

/-- **C111.** `cond_avgvolvar_m(texp, vol_0, vol_t)` is, almost surely, the pair of conditional expectations of the average volatility and of the average variance
over `[0, texp]` given the final volatility `vol_t`, for every solution of the volatility equation started from `vol_0`. -/
theorem cond_avgvolvar_correct (m : Ousv) (nz : Bool) {x0 : ℝ} (hm : m.mr ≠ 0) {T : ℝ≥0} (hT : 0 < T) (h : Spec.IsOU P W X m.mr (Spec.thetaOf m nz) m.vov x0) :
    (fun ω => (m.condAvgvolvarM T x0 (X T ω) nz).1) =ᵐ[P] P[fun ω => 1 / T * ∫ s in (0:ℝ)..T, X s.toNNReal ω | MeasurableSpace.comap (X T) inferInstance] ∧
    (fun ω => (m.condAvgvolvarM T x0 (X T ω) nz).2) =ᵐ[P] P[fun ω => 1 / T * ∫ s in (0:ℝ)..T, X s.toNNReal ω ^ 2 | MeasurableSpace.comap (X T) inferInstance] := by
  haveI := isProb h
  have hT' : (0:ℝ) < T := by exact_mod_cast hT
  set θ := Spec.thetaOf m nz with hθ
  obtain ⟨⟨j1, k1⟩, ⟨j2, k2⟩⟩ := time_int h hm hT'.le
  have hle : MeasurableSpace.comap (X T) inferInstance ≤ mΩ := (meas h T).comap_le
  -- the formulas as path integrals
  set g1 : ℝ → ℝ → ℝ := fun s y => θ + (x0 - θ) * exp (-(m.mr * s)) + beta m.mr T s * (y - θ - (x0 - θ) * exp (-(m.mr * T))) with hg1
  have hbc : Continuous fun s => beta m.mr T s := by unfold beta; fun_prop
  have hrc : Continuous fun s => resVar m.mr T s := by unfold resVar; fun_prop
  have hg1c : ∀ y, Continuous fun s => g1 s y := fun y => by rw [hg1]; fun_prop
  have hF1 : ∀ y, (m.condAvgvolvarM T x0 y nz).1 = 1 / T * ∫ s in (0:ℝ)..T, g1 s y := by
    intro y
    rw [cond_shift, ← hθ, ← (cond_integrals m hm hT' (x0 - θ) (y - θ)).1]
    have : ∫ s in (0:ℝ)..T, g1 s y = (∫ s in (0:ℝ)..T, ((x0 - θ) * exp (-(m.mr * s)) + beta m.mr T s * (y - θ - (x0 - θ) * exp (-(m.mr * T))))) + ∫ s in (0:ℝ)..(T:ℝ), θ := by
      rw [← intervalIntegral.integral_add (Continuous.intervalIntegrable (by fun_prop) _ _) intervalIntegrable_const]
      exact intervalIntegral.integral_congr fun s _ => by rw [hg1]; ring
    rw [this, intervalIntegral.integral_const]
    simp only [sub_zero, smul_eq_mul]
    generalize (∫ s in (0:ℝ)..T, ((x0 - θ) * exp (-(m.mr * s)) + beta m.mr T s * (y - θ - (x0 - θ) * exp (-(m.mr * T))))) = J
    field_simp
  have hF2 : ∀ y, (m.condAvgvolvarM T x0 y nz).2 = 1 / T * ∫ s in (0:ℝ)..T, (g1 s y ^ 2 + m.vov ^ 2 * resVar m.mr T s) := by
    intro y
    rw [cond_shift, ← hθ, ← (cond_integrals m hm hT' (x0 - θ) (y - θ)).1, ← (cond_integrals m hm hT' (x0 - θ) (y - θ)).2]
    have : ∫ s in (0:ℝ)..T, (g1 s y ^ 2 + m.vov ^ 2 * resVar m.mr T s) =
        ((∫ s in (0:ℝ)..T, (((x0 - θ) * exp (-(m.mr * s)) + beta m.mr T s * (y - θ - (x0 - θ) * exp (-(m.mr * T)))) ^ 2 + m.vov ^ 2 * resVar m.mr T s))
        + ∫ s in (0:ℝ)..T, (2 * θ) * ((x0 - θ) * exp (-(m.mr * s)) + beta m.mr T s * (y - θ - (x0 - θ) * exp (-(m.mr * T))))) + ∫ s in (0:ℝ)..(T:ℝ), θ ^ 2 := by
      rw [← intervalIntegral.integral_add (Continuous.intervalIntegrable (by fun_prop) _ _) (Continuous.intervalIntegrable (by fun_prop) _ _),
        ← intervalIntegral.integral_add (Continuous.intervalIntegrable (by fun_prop) _ _) intervalIntegrable_const]
      exact intervalIntegral.integral_congr fun s _ => by rw [hg1]; ring
    rw [this, intervalIntegral.integral_const, intervalIntegral.integral_const_mul]
    simp only [sub_zero, smul_eq_mul]
    generalize (∫ s in (0:ℝ)..T, ((x0 - θ) * exp (-(m.mr * s)) + beta m.mr T s * (y - θ - (x0 - θ) * exp (-(m.mr * T))))) = J
    generalize (∫ s in (0:ℝ)..T, (((x0 - θ) * exp (-(m.mr * s)) + beta m.mr T s * (y - θ - (x0 - θ) * exp (-(m.mr * T)))) ^ 2 + m.vov ^ 2 * resVar m.mr T s)) = J2
    field_simp
    ring
  have hXL := memLp h T
  have hXi := (mean h T).1
  -- bounds of the coefficients on `[0, T]`
  obtain ⟨Cb, hCb⟩ := (isCompact_Icc (a := (0:ℝ)) (b := T)).exists_bound_of_continuousOn hbc.continuousOn
  obtain ⟨Cr, hCr⟩ := (isCompact_Icc (a := (0:ℝ)) (b := T)).exists_bound_of_continuousOn hrc.continuousOn
  obtain ⟨Ce, hCe⟩ := (isCompact_Icc (a := (0:ℝ)) (b := T)).exists_bound_of_continuousOn (f := fun s : ℝ => θ + (x0 - θ) * exp (-(m.mr * s))) (by fun_prop)
  have hm1 : ∀ s, Measurable fun ω => g1 s (X T ω) := fun s => by
    rw [hg1]
    exact measurable_const.add (((meas h T).sub_const _ |>.sub_const _).const_mul _)
  set D : Ω → ℝ := fun ω => |X T ω - θ - (x0 - θ) * exp (-(m.mr * T))| with hD
  have hDL : MemLp D 2 P := by
    have h1 : MemLp (fun ω => X T ω - θ) 2 P := hXL.sub (memLp_const θ)
    have h2 : MemLp (fun ω => X T ω - θ - (x0 - θ) * exp (-(m.mr * T))) 2 P := h1.sub (memLp_const _)
    exact h2.abs
  have hg1b : ∀ s ∈ Ioc (0:ℝ) T, ∀ ω, |g1 s (X T ω)| ≤ |Ce| + |Cb| * D ω := by
    intro s hs ω
    have hs' : s ∈ Icc (0:ℝ) T := ⟨hs.1.le, hs.2⟩
    rw [hg1]
    refine (abs_add_le _ _).trans (add_le_add ((hCe s hs').trans (le_abs_self _)) ?_)
    rw [abs_mul]
    exact mul_le_mul_of_nonneg_right ((hCb s hs').trans (le_abs_self _)) (abs_nonneg _)
  have hBL : MemLp (fun ω => |Ce| + |Cb| * D ω) 2 P := by
    have h1 : MemLp (fun _ : Ω => |Ce|) 2 P := memLp_const _
    exact h1.add (hDL.const_mul _)
  have hBi : Integrable (fun ω => |Ce| + |Cb| * D ω) P := hBL.integrable (by norm_num)
  have hg1i : ∀ s ∈ Ioc (0:ℝ) T, Integrable (fun ω => g1 s (X T ω)) P := fun s hs =>
    hBi.mono' (hm1 s).aestronglyMeasurable (ae_of_all _ fun ω => hg1b s hs ω)
  have hg2i : ∀ s ∈ Ioc (0:ℝ) T, Integrable (fun ω => g1 s (X T ω) ^ 2 + m.vov ^ 2 * resVar m.mr T s) P := fun s hs => by
    refine Integrable.add ?_ (integrable_const _)
    refine hBL.integrable_sq.mono' ((hm1 s).pow_const 2).aestronglyMeasurable (ae_of_all _ fun ω => ?_)
    rw [Real.norm_eq_abs, abs_pow]
    exact pow_le_pow_left₀ (abs_nonneg _) (hg1b s hs ω) 2
  -- one statement for both moments
  have core : ∀ (f G : ℝ → Ω → ℝ), (∀ s, Measurable (f s)) → (∀ ω, Continuous fun s => f s ω) → (∀ s, Measurable[MeasurableSpace.comap (X T) inferInstance] (G s)) → (∀ ω, Continuous fun s => G s ω) →
      (∃ C, ∀ s ∈ Ioc (0:ℝ) T, Integrable (f s) P ∧ ∫ ω, |f s ω| ∂P ≤ C) → (∃ C, ∀ s ∈ Ioc (0:ℝ) T, Integrable (G s) P ∧ ∫ ω, |G s ω| ∂P ≤ C) →
      (∀ s ∈ Ioc (0:ℝ) T, ∀ φ : ℝ → ℝ, Measurable φ → (∀ x, |φ x| ≤ 1) → ∫ ω, f s ω * φ (X T ω) ∂P = ∫ ω, G s ω * φ (X T ω) ∂P) →
      (fun ω => 1 / T * ∫ s in (0:ℝ)..T, G s ω) =ᵐ[P] P[fun ω => 1 / T * ∫ s in (0:ℝ)..T, f s ω | MeasurableSpace.comap (X T) inferInstance] := by
    rintro f G fm fc Gm Gc ⟨C1, f1⟩ ⟨C2, G1⟩ hfg
    have Gm' : ∀ s, Measurable (G s) := fun s => (Gm s).mono hle le_rfl
    have Fi := (Ou.fubini fm fc hT'.le f1).1
    have Gi := (Ou.fubini Gm' Gc hT'.le G1).1
    refine ae_eq_condExp_of_forall_setIntegral_eq hle (Fi.const_mul _) (fun _ _ _ => (Gi.const_mul _).integrableOn) ?_ ?_
    · rintro S ⟨A, hA, rfl⟩ _
      have hφm : Measurable (A.indicator (fun _ => (1:ℝ))) := measurable_const.indicator hA
      have hφb : ∀ x, |A.indicator (fun _ => (1:ℝ)) x| ≤ 1 := fun x => by by_cases hx : x ∈ A <;> simp [hx]
      have conv : ∀ H : ℝ → Ω → ℝ, (∀ s, Measurable (H s)) → (∀ ω, Continuous fun s => H s ω) → (∀ C, (∀ s ∈ Ioc (0:ℝ) T, Integrable (H s) P ∧ ∫ ω, |H s ω| ∂P ≤ C) →
          ∫ ω in X T ⁻¹' A, (1 / T * ∫ s in (0:ℝ)..T, H s ω) ∂P = 1 / T * ∫ s in (0:ℝ)..T, ∫ ω, H s ω * A.indicator (fun _ => (1:ℝ)) (X T ω) ∂P) := by
        intro H Hm Hc C HC
        have hF := Ou.fubini (P := P) (F := fun s ω => H s ω * A.indicator (fun _ => (1:ℝ)) (X T ω)) (C := C) (t := T) (fun s => (Hm s).mul (hφm.comp (meas h T)))
          (fun ω => (Hc ω).mul continuous_const) hT'.le (fun s hs => ⟨?_, ?_⟩)
        · rw [integral_const_mul, ← integral_indicator ((meas h T) hA), ← hF.2]
          congr 1
          refine integral_congr_ae (ae_of_all _ fun ω => ?_)
          simp only
          rw [intervalIntegral.integral_mul_const]
          by_cases hω : X T ω ∈ A
          · simp [indicator_of_mem, hω]
          · simp [indicator_of_notMem, hω]
        · exact (HC s hs).1.mul_bdd (c := 1) (hφm.comp (meas h T)).aestronglyMeasurable (ae_of_all _ fun ω => hφb _)
        · refine le_trans (integral_mono_of_nonneg (ae_of_all _ fun ω => abs_nonneg _) (HC s hs).1.abs (ae_of_all _ fun ω => ?_)) (HC s hs).2
          simp only
          rw [abs_mul]
          exact mul_le_of_le_one_right (abs_nonneg _) (hφb _)
      rw [conv G Gm' Gc C2 G1, conv f fm fc C1 f1]
      congr 1
      refine intervalIntegral.integral_congr_ae (ae_of_all _ fun s hs => ?_)
      rw [uIoc_of_le hT'.le] at hs
      exact (hfg s hs _ hφm hφb).symm
    · refine Measurable.aestronglyMeasurable ?_
      exact Measurable.const_mul (Ou.measurable_path_int (mΩ := MeasurableSpace.comap (X T) inferInstance) Gm Gc hT'.le) _
  have hXTm : Measurable[MeasurableSpace.comap (X T) inferInstance] (X T) := comap_measurable (X T)
  have hGm : ∀ s, Measurable[MeasurableSpace.comap (X T) inferInstance] fun ω => g1 s (X T ω) := fun s => by
    have : Measurable (g1 s) := by rw [hg1]; fun_prop
    exact this.comp hXTm
  have hcp : ∀ s ∈ Ioc (0:ℝ) T, ∀ φ : ℝ → ℝ, Measurable φ → (∀ x, |φ x| ≤ 1) → ∫ ω, X s.toNNReal ω * φ (X T ω) ∂P = ∫ ω, g1 s (X T ω) * φ (X T ω) ∂P ∧
      ∫ ω, X s.toNNReal ω ^ 2 * φ (X T ω) ∂P = ∫ ω, (g1 s (X T ω) ^ 2 + m.vov ^ 2 * resVar m.mr T s) * φ (X T ω) ∂P := by
    intro s hs φ hφ hb
    have := cond_point h hm (s := s.toNNReal) (Real.toNNReal_le_iff_le_coe.2 hs.2) hT hφ hb
    rw [coe_toNNReal _ hs.1.le] at this
    exact this
  have bnd1 : ∃ C, ∀ s ∈ Ioc (0:ℝ) T, Integrable (X s.toNNReal) P ∧ ∫ ω, |X s.toNNReal ω| ∂P ≤ C :=
    ⟨_, fun s hs => ⟨(mean h _).1, abs_mean_le h hm s.toNNReal (by rw [coe_toNNReal _ hs.1.le]; exact hs.2)⟩⟩
  have bnd2 : ∃ C, ∀ s ∈ Ioc (0:ℝ) T, Integrable (fun ω => X s.toNNReal ω ^ 2) P ∧ ∫ ω, |X s.toNNReal ω ^ 2| ∂P ≤ C :=
    ⟨_, fun s hs => ⟨(memLp h _).integrable_sq, by
      simp_rw [abs_of_nonneg (sq_nonneg (X s.toNNReal _))]
      exact second_le h hm s.toNNReal (T := T) (by rw [coe_toNNReal _ hs.1.le]; exact hs.2)⟩⟩
  constructor
  · simp_rw [hF1]
    refine core (fun s => X s.toNNReal) (fun s ω => g1 s (X T ω)) (fun s => meas h _) (cont_X h) hGm (fun ω => hg1c _) bnd1
      ⟨∫ ω, (|Ce| + |Cb| * D ω) ∂P, fun s hs => ⟨hg1i s hs, integral_mono (hg1i s hs).abs hBi fun ω => hg1b s hs ω⟩⟩ fun s hs φ hφ hb => (hcp s hs φ hφ hb).1
  · simp_rw [hF2]
    refine core (fun s ω => X s.toNNReal ω ^ 2) (fun s ω => g1 s (X T ω) ^ 2 + m.vov ^ 2 * resVar m.mr T s) (fun s => (meas h _).pow_const 2) (fun ω => (cont_X h ω).pow 2)
      (fun s => ((hGm s).pow_const 2).add_const _) (fun ω => ((hg1c _).pow 2).add (continuous_const.mul hrc)) bnd2
      ⟨∫ ω, ((|Ce| + |Cb| * D ω) ^ 2 + m.vov ^ 2 * |Cr|) ∂P, fun s hs => ⟨hg2i s hs, integral_mono (hg2i s hs).abs (hBL.integrable_sq.add (integrable_const _)) fun ω => ?_⟩⟩
      fun s hs φ hφ hb => (hcp s hs φ hφ hb).2
    simp only
    refine (abs_add_le _ _).trans (add_le_add ?_ ?_)
    · rw [abs_pow]
      exact pow_le_pow_left₀ (abs_nonneg _) (hg1b s hs ω) 2
    · rw [abs_mul, abs_of_nonneg (sq_nonneg m.vov)]
      exact mul_le_mul_of_nonneg_left ((hCr s ⟨hs.1.le, hs.2⟩).trans (le_abs_self _)) (sq_nonneg _)

/-- The hypotheses are met: the volatility equation has a solution for every parameter, on the space of `BmExist.isBM`; here with a negative mean reversion. -/
example : ∃ (Ω : Type) (_ : MeasurableSpace Ω) (P : Measure Ω) (W X : ℝ≥0 → Ω → ℝ), Spec.IsOU P W X (-2) 0.3 0.5 0.2 :=
  ⟨_, _, _, _, _, Ou.isOU BmExist.isBM (-2) 0.3 0.5 0.2⟩

end Ousv

end PyFENG
