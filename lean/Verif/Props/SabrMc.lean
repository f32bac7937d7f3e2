import Verif.Model.SabrMc
import Verif.Lemmas.FollmerExp
import Verif.Lemmas.ExMv
import Verif.Props.SabrCond
import Verif.Props.SabrInt
import Verif.Props.Nsvh
import Verif.Lemmas.MvGauss

/-!
# C123: conditional simulation of the SABR model (`SabrMcABC`, `SabrMcTimeDisc`)
-/

namespace PyFENG

open Real MeasureTheory ProbabilityTheory Filter Set Topology Spec
open scoped NNReal

variable {Ω : Type*} [MeasurableSpace Ω] {P : Measure Ω} {B : ℝ≥0 → Ω → ℝ}

namespace Sabr

/-- The value of a Brownian motion at a time is a scaled standard normal. -/
lemma gaussE_bm (hB : IsBM P B) {T : ℝ} (hT : 0 < T) {f : ℝ → ℝ} (hf : Measurable f) : ∫ ω, f (B T.toNNReal ω) ∂P = gaussE fun z => f (√T * z) := by
  have h1 := (hB.law.hasLaw_eval T.toNNReal).map_eq
  have h2 : gaussianReal 0 T.toNNReal = (gaussianReal 0 1).map fun z => √T * z := by
    rw [gaussianReal_map_const_mul]
    congr 1
    · simp
    · ext; simp [sq_sqrt hT.le, hT.le]
  rw [← integral_map (φ := B T.toNNReal) (hB.meas _).aemeasurable hf.aestronglyMeasurable, h1, h2, integral_map (by fun_prop) hf.aestronglyMeasurable]
  rfl

lemma vol_eq {vov T : ℝ} (hT : 0 < T) (ω : Ω) : sabrVol B vov T ω = exp (vov * √T * (B T.toNNReal ω / √T - vov * √T / 2)) := by
  unfold sabrVol
  congr 1
  have h := sqrt_pos.2 hT
  field_simp
  rw [sq_sqrt hT.le]

/-- **C123.** The volatility step: the draw is the exact ratio `σ_{t+dt}/σ_t = exp(vov B_dt - vov² dt/2)` of the SABR volatility, and the `log` option returns its logarithm. -/
theorem vol_step_law (m : Sabr) (hB : IsBM P B) {dt : ℝ} (hdt : 0 < dt) {φ : ℝ → ℝ} (hφ : Measurable φ) :
    volStep rngEx m dt false φ = ∫ ω, φ (sabrVol B m.vov dt ω) ∂P ∧ volStep rngEx m dt true φ = ∫ ω, φ (log (sabrVol B m.vov dt ω)) ∂P := by
  have hs := (sqrt_pos.2 hdt).ne'
  have key : ∀ ψ : ℝ → ℝ, Measurable ψ → ∫ ω, ψ (sabrVol B m.vov dt ω) ∂P = gaussE fun z => ψ (exp (m.vov * √dt * (z - m.vov * √dt / 2))) := fun ψ hψ => by
    simp only [vol_eq hdt]
    rw [gaussE_bm hB hdt (f := fun x => ψ (exp (m.vov * √dt * (x / √dt - m.vov * √dt / 2)))) (hψ.comp (by fun_prop))]
    simp only [mul_div_cancel_left₀ _ hs]
  refine ⟨?_, ?_⟩
  · rw [key φ hφ]; rfl
  · rw [key (fun x => φ (log x)) (hφ.comp measurable_log)]
    simp only [log_exp]; rfl

/-- **C123.** On almost every volatility path of the model, the spot and volatility ratios computed from the exact terminal volatility and the exact integrated variance are those of the SABR dynamics: with `I = ∫ (σ_t/σ_0) dZ_t`
(a limit of Riemann sums along the path), the conditional forward ratio is `exp(ρ σ_0 I - ρ² σ_0²/2 ∫ (σ_t/σ_0)² dt)` for `beta = 1` and `1 + ρ (σ_0/F) I` for `beta = 0`, and the conditional volatility ratio is
`√(1-ρ²) √((1/T) ∫ (σ_t/σ_0)² dt)`. -/
theorem mc_result_correct (m : Sabr) (hB : IsBM P B) (hv : m.vov ≠ 0) {T : ℝ≥0} (hT : 0 < T) (F : ℝ) :
    ∀ᵐ ω ∂P, ∃ I, IsPathIntegral (fun t => sabrVol B m.vov t ω) (fun t => B t.toNNReal ω) T (fun n => 2 ^ n) I ∧
      let A := ∫ t in (0:ℝ)..T, sabrVol B m.vov t ω ^ 2
      (m.beta = 1 → m.mcResult T F (sabrVol B m.vov T ω, A) = (exp (m.rho * m.sigma * I - (m.rho * m.sigma) ^ 2 / 2 * A), √(1 - m.rho ^ 2) * √(1 / T * A))) ∧
      (m.beta = 0 → m.mcResult T F (sabrVol B m.vov T ω, A) = (1 + m.rho * (m.sigma / F) * I, √(1 - m.rho ^ 2) * √(1 / T * A))) := by
  have hT' : (0:ℝ) < T := by exact_mod_cast hT
  have h0 : ∀ᵐ ω ∂P, B 0 ω = 0 := hB.law.eval_zero_ae_eq_zero
  filter_upwards [Follmer.bm_path hB hT, h0] with ω hq h0
  have hc : Continuous fun t : ℝ => B t.toNNReal ω := (hB.cont ω).comp continuous_real_toNNReal
  have hI := Follmer.exp_integral hT' hc hq hv
  simp only [Real.toNNReal_zero, h0, mul_zero, exp_zero] at hI
  refine ⟨_, hI, ?_, ?_⟩
  · intro hb
    have h1 : ¬ npIsclose m.beta 0 := by rw [hb]; unfold npIsclose; norm_num
    unfold mcResult vars
    simp only [if_neg h1, hb, sub_self, rpow_zero, div_one]
    refine Prod.ext ?_ ?_
    · simp only
      congr 1
      show _ = m.rho * m.sigma * ((sabrVol B m.vov T ω - 1) / m.vov) - _
      generalize sabrVol B m.vov T ω = x
      generalize (∫ t in (0:ℝ)..T, sabrVol B m.vov t ω ^ 2) = A
      norm_num
      field_simp
    · simp only
      rw [one_div_mul_eq_div]
  · intro hb
    have h1 : npIsclose m.beta 0 := by rw [hb]; exact close_self 0
    unfold mcResult vars
    simp only [if_pos h1, hb, sub_zero, rpow_one]
    refine Prod.ext ?_ ?_
    · simp only
      show _ = 1 + m.rho * (m.sigma / F) * ((sabrVol B m.vov T ω - 1) / m.vov)
      ring
    · simp only
      rw [one_div_mul_eq_div]

/-- The loop of `cond_spot_sigma` run on recorded steps. -/
noncomputable def mcReplay : ℝ → ℝ → StateM (List (ℝ × ℝ)) (ℝ × ℝ) := fun _ _ s => (s.headD (0, 0), s.tail)

/-- **C123.** The loop keeps the last volatility and accumulates the integral `Σ avgvar dt`, whatever the steps return. -/
theorem mc_loop_sums (l : List (ℝ × ℝ × ℝ)) (v a : ℝ) :
    ((mcLoop (M := StateM (List (ℝ × ℝ))) mcReplay (l.map fun p => p.1) (v, a)).run (l.map fun p => p.2)).1 =
      ((l.getLast?.map fun p => p.2.1).getD v, a + (l.map fun p => p.2.2 * p.1).sum) := by
  induction l generalizing v a with
  | nil => simp [mcLoop, StateT.run, pure, StateT.pure]
  | cons p l ih =>
    have h : (mcLoop (M := StateM (List (ℝ × ℝ))) mcReplay ((p :: l).map fun p => p.1) (v, a)).run ((p :: l).map fun p => p.2) =
        (mcLoop (M := StateM (List (ℝ × ℝ))) mcReplay (l.map fun p => p.1) (p.2.1, a + p.2.2 * p.1)).run (l.map fun p => p.2) := rfl
    rw [h, ih]
    simp only [List.map_cons, List.sum_cons, add_assoc, List.getLast?_cons]
    cases l.getLast? <;> simp

/-- **C123.** If each step returns the exact volatility at its end and the exact average of the squared volatility over the step, the loop returns the exact terminal volatility and integral over the whole grid. -/
theorem mc_loop_exact {σ : ℝ → ℝ} (hσ : Continuous σ) (l : List ℝ) (hl : l.Pairwise (· < ·)) (s a : ℝ) (hs : ∀ t ∈ l, s < t) :
    ∃ dts : List ℝ, dts = List.zipWith (fun t u => t - u) l (s :: l) ∧
    ((mcLoop (M := StateM (List (ℝ × ℝ))) mcReplay dts (σ s, a)).run (List.zipWith (fun t u => (σ t, (∫ r in u..t, σ r ^ 2) / (t - u))) l (s :: l))).1 =
      (σ (l.getLastD s), a + ∫ r in s..(l.getLastD s), σ r ^ 2) := by
  refine ⟨_, rfl, ?_⟩
  induction l generalizing s a with
  | nil => simp [mcLoop, StateT.run, pure, StateT.pure]
  | cons t l ih =>
    have h1 : s < t := hs t (by simp)
    have h : (mcLoop (M := StateM (List (ℝ × ℝ))) mcReplay (List.zipWith (fun t u => t - u) (t :: l) (s :: t :: l)) (σ s, a)).run (List.zipWith (fun t u => (σ t, (∫ r in u..t, σ r ^ 2) / (t - u))) (t :: l) (s :: t :: l)) =
        (mcLoop (M := StateM (List (ℝ × ℝ))) mcReplay (List.zipWith (fun t u => t - u) l (t :: l)) (σ t, a + (∫ r in s..t, σ r ^ 2) / (t - s) * (t - s))).run (List.zipWith (fun t u => (σ t, (∫ r in u..t, σ r ^ 2) / (t - u))) l (t :: l)) := rfl
    rw [h, ih (List.Pairwise.of_cons hl) t _ fun u hu => (List.pairwise_cons.1 hl).1 u hu, div_mul_cancel₀ _ (sub_pos.2 h1).ne', List.getLastD_cons]
    have hi : ∀ a b : ℝ, IntervalIntegrable (fun r => σ r ^ 2) volume a b := fun a b => (hσ.pow 2).intervalIntegrable a b
    rw [add_assoc, intervalIntegral.integral_add_adjacent_intervals (hi _ _) (hi _ _)]

/-- **C123.** The trapezoidal scheme: the volatility after the step has the exact law, and the average variance is the mean of the squares at the two ends. -/
theorem step_trapez_correct (m : Sabr) (hB : IsBM P B) {dt σ0 : ℝ} (hdt : 0 < dt) {φ : ℝ × ℝ → ℝ} (hφ : Measurable φ) :
    ∃ D, mcStepTd rngEx m 0 dt σ0 = .ok D ∧
      D φ = ∫ ω, φ (σ0 * sabrVol B m.vov dt ω, (σ0 ^ 2 + (σ0 * sabrVol B m.vov dt ω) ^ 2) / 2) ∂P := by
  refine ⟨_, by rw [mcStepTd, if_pos rfl], ?_⟩
  rw [← (vol_step_law m hB hdt (φ := fun x => φ (σ0 * x, (σ0 ^ 2 + (σ0 * x) ^ 2) / 2)) (hφ.comp (by fun_prop))).1]
  show gaussE (fun _ => gaussE fun z => φ (σ0 * exp (m.vov * √dt * (z - m.vov * √dt / 2)), (σ0 ^ 2 + (σ0 * exp (m.vov * √dt * (z - m.vov * √dt / 2))) ^ 2) / 2)) =
    gaussE fun z => φ (σ0 * exp (m.vov * √dt * (z - m.vov * √dt / 2)), (σ0 ^ 2 + (σ0 * exp (m.vov * √dt * (z - m.vov * √dt / 2))) ^ 2) / 2)
  generalize (gaussE fun z => φ (σ0 * exp (m.vov * √dt * (z - m.vov * √dt / 2)), (σ0 ^ 2 + (σ0 * exp (m.vov * √dt * (z - m.vov * √dt / 2))) ^ 2) / 2)) = c
  rw [gaussE, integral_const]
  simp

lemma trap_bound {x : ℝ} (hx : 0 < x) : (exp x - 1) / x ≤ (1 + exp x) / 2 ∧ (1 + exp x) / 2 - (exp x - 1) / x ≤ x ^ 2 * exp x / 4 := by
  have key : ∀ (f f' : ℝ → ℝ), f 0 = 0 → (∀ y, HasDerivAt f (f' y) y) → (∀ y, 0 < y → 0 ≤ f' y) → ∀ y, 0 ≤ y → 0 ≤ f y := fun f f' h0 hd hp y hy => by
    have hm : MonotoneOn f (Ici 0) := by
      refine monotoneOn_of_deriv_nonneg (convex_Ici 0) (fun z _ => (hd z).continuousAt.continuousWithinAt) (fun z _ => (hd z).differentiableAt.differentiableWithinAt) fun z hz => ?_
      rw [interior_Ici] at hz
      rw [(hd z).deriv]; exact hp z hz
    rw [← h0]; exact hm self_mem_Ici hy hy
  have he := Real.hasDerivAt_exp
  have h1 : ∀ y, 0 ≤ y → 0 ≤ 1 - exp y + y * exp y := key _ (fun y => y * exp y) (by simp) (fun y => ((((hasDerivAt_const y (1:ℝ)).fun_sub (he y)).fun_add ((hasDerivAt_id' y).fun_mul (he y)))).congr_deriv (by ring)) fun y hy => by positivity
  have h2 : ∀ y, 0 ≤ y → 0 ≤ y + y * exp y - 2 * exp y + 2 := key _ (fun y => 1 - exp y + y * exp y) (by simp)
    (fun y => (((((hasDerivAt_id' y).fun_add ((hasDerivAt_id' y).fun_mul (he y))).fun_sub ((he y).const_mul 2))).add_const 2).congr_deriv (by ring)) fun y hy => h1 y hy.le
  have g1 : ∀ y, 0 ≤ y → 0 ≤ exp y - 1 := fun y hy => by linarith [add_one_le_exp y]
  have g2 : ∀ y, 0 ≤ y → 0 ≤ 3 * y ^ 2 * exp y / 2 + y ^ 3 * exp y / 2 - (1 - exp y + y * exp y) := key _ (fun y => 2 * y * exp y + 3 * y ^ 2 * exp y + y ^ 3 * exp y / 2) (by simp) (fun y => by
    have d := ((((((hasDerivAt_pow 2 y).const_mul 3).fun_mul (he y)).div_const 2).fun_add ((((hasDerivAt_pow 3 y).fun_mul (he y))).div_const 2)).fun_sub (((hasDerivAt_const y (1:ℝ)).fun_sub (he y)).fun_add ((hasDerivAt_id' y).fun_mul (he y))))
    exact d.congr_deriv (by push_cast; ring)) fun y hy => by positivity
  have g3 : ∀ y, 0 ≤ y → 0 ≤ y ^ 3 * exp y / 2 - (y + y * exp y - 2 * exp y + 2) := key _ (fun y => 3 * y ^ 2 * exp y / 2 + y ^ 3 * exp y / 2 - (1 - exp y + y * exp y)) (by simp) (fun y => by
    have d := (((hasDerivAt_pow 3 y).fun_mul (he y)).div_const 2).fun_sub (((((hasDerivAt_id' y).fun_add ((hasDerivAt_id' y).fun_mul (he y))).fun_sub ((he y).const_mul 2))).add_const 2)
    exact d.congr_deriv (by push_cast; ring)) fun y hy => g2 y hy.le
  constructor
  · rw [div_le_div_iff₀ hx two_pos]; linarith [h2 x hx.le]
  · rw [div_sub_div _ _ two_ne_zero hx.ne', div_le_div_iff₀ (by positivity) (by norm_num)]
    nlinarith [g3 x hx.le]

/-- **C123.** The trapezoidal average variance is biased upwards, by at most `σ_0² x² e^x/4` with `x = vov² dt`: against the exact mean `σ_0² E[(1/dt)∫ (σ_t/σ_0)² dt]`. -/
theorem step_trapez_bias (m : Sabr) (hB : IsBM P B) (hv : m.vov ≠ 0) {dt σ0 : ℝ} (hdt : 0 < dt) :
    let bias := stepTrapez rngEx m dt σ0 (fun r => r.2) - σ0 ^ 2 * ∫ ω, sabrAvgVar B m.vov dt ω ∂P
    0 ≤ bias ∧ bias ≤ σ0 ^ 2 * ((m.vov ^ 2 * dt) ^ 2 * exp (m.vov ^ 2 * dt) / 4) := by
  have hx : 0 < m.vov ^ 2 * dt := by positivity
  have hm : ∫ ω, sabrAvgVar B m.vov dt ω ∂P = (exp (m.vov ^ 2 * dt) - 1) / (m.vov ^ 2 * dt) := by
    have h1 := (mom_val hv hdt).1
    have h2 := (mom_avg hB m.vov hdt 1).2
    simp only [pow_one] at h2 h1
    rw [h2, h1]
  have e1 : stepTrapez rngEx m dt σ0 (fun r => r.2) = σ0 ^ 2 * ((1 + exp (m.vov ^ 2 * dt)) / 2) := by
    show gaussE (fun z => (σ0 ^ 2 + (σ0 * exp (m.vov * √dt * (z - m.vov * √dt / 2))) ^ 2) / 2) = _
    have : ∀ z, (σ0 ^ 2 + (σ0 * exp (m.vov * √dt * (z - m.vov * √dt / 2))) ^ 2) / 2 = σ0 ^ 2 / 2 + σ0 ^ 2 / 2 * exp (-(m.vov ^ 2 * dt)) * exp (2 * (m.vov * √dt) * z) := fun z => by
      have : exp (m.vov * √dt * (z - m.vov * √dt / 2)) ^ 2 = exp (-(m.vov ^ 2 * dt)) * exp (2 * (m.vov * √dt) * z) := by
        rw [← exp_nat_mul, ← exp_add]
        congr 1
        push_cast
        linear_combination (-m.vov ^ 2) * sq_sqrt hdt.le
      rw [mul_pow, this]; ring
    simp only [this]
    have hi : Integrable (fun z : ℝ => exp (2 * (m.vov * √dt) * z)) (gaussianReal 0 1) := integrable_exp_mul_gaussianReal _
    rw [gaussE, integral_add (integrable_const _) (hi.const_mul _), integral_const, integral_const_mul]
    rw [(Nsvh.gaussE_exp (2 * (m.vov * √dt))).2]
    simp only [probReal_univ, one_smul]
    have e : exp (-(m.vov ^ 2 * dt)) * exp ((2 * (m.vov * √dt)) ^ 2 / 2) = exp (m.vov ^ 2 * dt) := by
      rw [← exp_add]; congr 1
      linear_combination (2 * m.vov ^ 2) * sq_sqrt hdt.le
    rw [mul_assoc, e]; ring
  intro bias
  have hb : bias = σ0 ^ 2 * ((1 + exp (m.vov ^ 2 * dt)) / 2 - (exp (m.vov ^ 2 * dt) - 1) / (m.vov ^ 2 * dt)) := by
    show stepTrapez rngEx m dt σ0 (fun r => r.2) - σ0 ^ 2 * ∫ ω, sabrAvgVar B m.vov dt ω ∂P = _
    rw [e1, hm]; ring
  obtain ⟨b1, b2⟩ := trap_bound hx
  rw [hb]
  exact ⟨mul_nonneg (sq_nonneg _) (by linarith), mul_le_mul_of_nonneg_left b2 (sq_nonneg _)⟩

lemma inner_chen {a vs : ℝ} (hvs : 0 ≤ vs) (A b C : ℝ) :
    gaussE (fun z => A + b * (a * exp (√(log (1 + vs)) * (z - √(log (1 + vs)) / 2))) + C * (a * exp (√(log (1 + vs)) * (z - √(log (1 + vs)) / 2))) ^ 2) = A + b * a + C * (a ^ 2 * (1 + vs)) := by
  set s := √(log (1 + vs)) with hs
  have hs2 : s ^ 2 = log (1 + vs) := sq_sqrt (log_nonneg (by linarith))
  have e : ∀ z, A + b * (a * exp (s * (z - s / 2))) + C * (a * exp (s * (z - s / 2))) ^ 2 = A + b * a * exp (-(s ^ 2 / 2)) * exp (s * z) + C * a ^ 2 * exp (-s ^ 2) * exp (2 * s * z) := fun z => by
    have e1 : exp (s * (z - s / 2)) = exp (-(s ^ 2 / 2)) * exp (s * z) := by rw [← exp_add]; congr 1; ring
    have e2 : exp (s * (z - s / 2)) ^ 2 = exp (-s ^ 2) * exp (2 * s * z) := by rw [← exp_nat_mul, ← exp_add]; congr 1; push_cast; ring
    rw [mul_pow, e2, e1]; ring
  simp only [e]
  obtain ⟨i1, j1⟩ := Nsvh.gaussE_exp s
  obtain ⟨i2, j2⟩ := Nsvh.gaussE_exp (2 * s)
  have I1 : Integrable (fun z => A + b * a * exp (-(s ^ 2 / 2)) * exp (s * z)) (gaussianReal 0 1) := (integrable_const _).add (i1.const_mul _)
  rw [gaussE, integral_add I1 (i2.const_mul _), integral_add (integrable_const _) (i1.const_mul _), integral_const, integral_const_mul, integral_const_mul, j1, j2]
  simp only [probReal_univ, one_smul]
  have e3 : exp (-(s ^ 2 / 2)) * exp (s ^ 2 / 2) = 1 := by rw [← exp_add]; simp
  have e4 : exp (-s ^ 2) * exp ((2 * s) ^ 2 / 2) = 1 + vs := by
    rw [← exp_add, show -s ^ 2 + (2 * s) ^ 2 / 2 = s ^ 2 by ring, hs2, exp_log (by linarith)]
  rw [mul_assoc (b * a), e3, mul_assoc (C * a ^ 2), e4]; ring

lemma mfn_pos {z k : ℝ} (hk : 0.01 < k) : 0 < condAvgvarMfn z k := by
  have hk0 : 0 < k := by norm_num at hk; linarith
  unfold condAvgvarMfn
  rw [if_pos (by rw [abs_of_pos hk0]; exact hk)]
  have : 0 < ncdf (-|z| + k) - ncdf (-|z| - k) := sub_pos.2 (strictMono_ncdf (by linarith))
  positivity

/-- **C123.** The scheme of Chen et al. (2012): jointly with the volatility at the end of the step, whose law is exact, the average variance has the exact conditional mean and variance given that volatility
(every function of the terminal volatility times a polynomial of degree two in the average variance has the exact expectation), as soon as `vov² dt ≥ 0.01` (below, `cond_avgvar_mvsk` switches to truncated expansions). -/
theorem step_chen_correct (m : Sabr) (hB : IsBM P B) (hv : 0 < m.vov) {dt σ0 : ℝ} (hdt : 0 < dt) (hbig : 0.01 ≤ (m.vov * √dt) ^ 2) {φ : ℝ → ℝ} (hφ : Measurable φ) {K : ℝ} (hK : ∀ x, |φ x| ≤ K) (A b C : ℝ) :
    ∃ D, mcStepTd rngEx m 1 dt σ0 = .ok D ∧
      D (fun r => φ r.1 * (A + b * r.2 + C * r.2 ^ 2)) =
        ∫ ω, φ (σ0 * sabrVol B m.vov dt ω) * (A + b * (σ0 ^ 2 * sabrAvgVar B m.vov dt ω) + C * (σ0 ^ 2 * sabrAvgVar B m.vov dt ω) ^ 2) ∂P := by
  haveI := BmExp.isProb hB
  refine ⟨_, by rw [mcStepTd, if_neg (by norm_num), if_pos rfl], ?_⟩
  have hs := (sqrt_pos.2 hdt).ne'
  have hs1 : 0.01 < m.vov * √dt := by
    have hs0 : 0 < m.vov * √dt := mul_pos hv (sqrt_pos.2 hdt)
    norm_num at hbig ⊢
    nlinarith
  set s := m.vov * √dt with hsd
  set G : ℝ → ℝ := fun z => gaussE fun z2 => φ (σ0 * exp (s * (z - s / 2))) *
    (A + b * (σ0 ^ 2 * (condAvgvarMvsk s (z - s / 2)).1 * exp (√(log (1 + (condAvgvarMvsk s (z - s / 2)).2.1)) * (z2 - √(log (1 + (condAvgvarMvsk s (z - s / 2)).2.1)) / 2))) +
      C * (σ0 ^ 2 * (condAvgvarMvsk s (z - s / 2)).1 * exp (√(log (1 + (condAvgvarMvsk s (z - s / 2)).2.1)) * (z2 - √(log (1 + (condAvgvarMvsk s (z - s / 2)).2.1)) / 2))) ^ 2) with hG
  show gaussE (fun _ => gaussE G) = _
  have c1 : gaussE (fun _ => gaussE G) = gaussE G := by
    generalize gaussE G = c
    rw [gaussE, integral_const]; simp
  rw [c1]
  -- the value of the inner expectation
  have hneg : ¬ s ^ 2 < 0.01 := not_lt.2 hbig
  have r1pos : ∀ z, 0 < (condAvgvarRaw s z).1 := fun z => mfn_pos hs1
  have alg : ∀ z, (condAvgvarMvsk s z).1 = (condAvgvarMnc s z).1 ∧ (condAvgvarMvsk s z).1 ^ 2 * (1 + (condAvgvarMvsk s z).2.1) = (condAvgvarMnc s z).2.1 := fun z => by
    have := r1pos z
    unfold condAvgvarMvsk condAvgvarMnc
    simp only [if_neg hneg]
    refine ⟨trivial, ?_⟩
    field_simp
    ring
  set G' : ℝ → ℝ := fun z => φ (σ0 * exp (s * (z - s / 2))) * (A + b * (σ0 ^ 2 * (condAvgvarMnc s (z - s / 2)).1) + C * (σ0 ^ 4 * (condAvgvarMnc s (z - s / 2)).2.1)) with hG'
  have inner : ∀ z, 0 ≤ (condAvgvarMvsk s (z - s / 2)).2.1 → G z = G' z := fun z hz => by
    rw [hG, hG']
    simp only
    have := inner_chen (a := σ0 ^ 2 * (condAvgvarMvsk s (z - s / 2)).1) hz A b C
    rw [gaussE, integral_const_mul]
    unfold gaussE at this
    rw [this, ← (alg (z - s / 2)).2, ← (alg (z - s / 2)).1]
    ring
  -- transport to the probability space
  obtain ⟨m1, m2, -, -⟩ := measurable_mnc s
  have hvol : ∀ ω, log (sabrVol B m.vov dt ω) / s = B dt.toNNReal ω / √dt - s / 2 := fun ω => by
    rw [vol_eq hdt, log_exp, ← hsd, mul_div_cancel_left₀ _ (by norm_num at hs1; linarith : s ≠ 0)]
  have hmeasG' : Measurable G' := by
    have a1 : Measurable fun z => (condAvgvarMnc s (z - s / 2)).1 := m1.comp (by fun_prop)
    have a2 : Measurable fun z => (condAvgvarMnc s (z - s / 2)).2.1 := m2.comp (by fun_prop)
    have a3 : Measurable fun z => φ (σ0 * exp (s * (z - s / 2))) := hφ.comp (by fun_prop)
    exact a3.mul ((measurable_const.add ((a1.const_mul _).const_mul _)).add ((a2.const_mul _).const_mul _))
  have mv := cond_avgvar_mvsk_correct hB hdt hv hbig
  have hpos : ∀ᵐ ω ∂P, 0 ≤ (condAvgvarMvsk s (B dt.toNNReal ω / √dt - s / 2)).2.1 := by
    filter_upwards [mv] with ω hω
    rw [← hvol ω, ← hω.var_eq]
    refine div_nonneg ?_ (sq_nonneg _)
    unfold centralMoment
    exact integral_nonneg fun x => by simp only [Pi.pow_apply]; positivity
  have hlawZ : P.map (fun ω => B dt.toNNReal ω / √dt) = gaussianReal 0 1 := by
    have h1 := (hB.law.hasLaw_eval dt.toNNReal).map_eq
    have h2 : (fun ω => B dt.toNNReal ω / √dt) = (fun x => x / √dt) ∘ B dt.toNNReal := rfl
    rw [h2, ← Measure.map_map (by fun_prop) (hB.meas _), h1, gaussianReal_map_div_const]
    congr 1
    · simp
    · ext
      push_cast
      rw [Real.coe_toNNReal _ hdt.le, sq_sqrt hdt.le, div_self hdt.ne']
  have mvsM : Measurable fun z => (condAvgvarMvsk s (z - s / 2)).2.1 := by
    have e : (fun z => (condAvgvarMvsk s (z - s / 2)).2.1) = fun z => (condAvgvarMnc s (z - s / 2)).2.1 / (condAvgvarMnc s (z - s / 2)).1 ^ 2 - 1 := by
      funext z
      have h0 : (condAvgvarMnc s (z - s / 2)).1 ≠ 0 := (mul_pos (r1pos _) (exp_pos _)).ne'
      obtain ⟨q1, q2⟩ := alg (z - s / 2)
      rw [q1] at q2
      rw [eq_sub_iff_add_eq, eq_div_iff (pow_ne_zero 2 h0), ← q2]
      ring
    rw [e]
    exact ((m2.comp (by fun_prop)).div ((m1.comp (by fun_prop)).pow_const 2)).sub_const _
  have hGG : G =ᵐ[gaussianReal 0 1] G' := by
    rw [← hlawZ]
    have : ∀ᵐ z ∂(P.map fun ω => B dt.toNNReal ω / √dt), 0 ≤ (condAvgvarMvsk s (z - s / 2)).2.1 := by
      exact (ae_map_iff (p := fun z => 0 ≤ (condAvgvarMvsk s (z - s / 2)).2.1) ((hB.meas _).div_const _).aemeasurable (mvsM measurableSet_Ici)).2 hpos
    filter_upwards [this] with z hz using inner z hz
  rw [gaussE, integral_congr_ae hGG, ← hlawZ, integral_map ((hB.meas _).div_const _).aemeasurable hmeasG'.aestronglyMeasurable]
  -- the tower property
  obtain ⟨h1, h2, -, -⟩ := cond_avgvar_mnc_correct hB hdt hv hs1
  have hVm := measurable_vol hB m.vov dt
  have hle : MeasurableSpace.comap (sabrVol B m.vov dt) inferInstance ≤ (inferInstance : MeasurableSpace Ω) := hVm.comap_le
  have i1 : Integrable (sabrAvgVar B m.vov dt) P := by simpa using (mom_avg hB m.vov hdt 1).1
  have i2 := (mom_avg hB m.vov hdt 2).1
  have hpsi : Measurable[MeasurableSpace.comap (sabrVol B m.vov dt) inferInstance] fun ω => φ (σ0 * sabrVol B m.vov dt ω) :=
    (hφ.comp (measurable_const_mul σ0)).comp (comap_measurable _)
  have tower : ∀ f : Ω → ℝ, Integrable f P → Integrable (fun ω => φ (σ0 * sabrVol B m.vov dt ω) * f ω) P ∧
      Integrable (fun ω => φ (σ0 * sabrVol B m.vov dt ω) * (P[f | MeasurableSpace.comap (sabrVol B m.vov dt) inferInstance]) ω) P ∧
      ∫ ω, φ (σ0 * sabrVol B m.vov dt ω) * f ω ∂P = ∫ ω, φ (σ0 * sabrVol B m.vov dt ω) * (P[f | MeasurableSpace.comap (sabrVol B m.vov dt) inferInstance]) ω ∂P := fun f hf => by
    have hb : ∀ᵐ ω ∂P, ‖φ (σ0 * sabrVol B m.vov dt ω)‖ ≤ K := ae_of_all _ fun ω => hK _
    have j1 : Integrable (fun ω => φ (σ0 * sabrVol B m.vov dt ω) * f ω) P := hf.bdd_mul (hpsi.mono hle le_rfl).aestronglyMeasurable hb
    have j2 := condExp_mul_of_stronglyMeasurable_left (m := MeasurableSpace.comap (sabrVol B m.vov dt) inferInstance) (μ := P) hpsi.stronglyMeasurable (g := f) j1 hf
    refine ⟨j1, integrable_condExp.bdd_mul (hpsi.mono hle le_rfl).aestronglyMeasurable hb, ?_⟩
    rw [← integral_condExp hle]
    exact integral_congr_ae j2
  obtain ⟨t1, t1', t1e⟩ := tower _ i1
  obtain ⟨t2, t2', t2e⟩ := tower _ i2
  obtain ⟨t0, -, -⟩ := tower (fun _ => 1) (integrable_const _)
  have eR : ∀ ω, φ (σ0 * sabrVol B m.vov dt ω) * (A + b * (σ0 ^ 2 * sabrAvgVar B m.vov dt ω) + C * (σ0 ^ 2 * sabrAvgVar B m.vov dt ω) ^ 2) =
      A * (φ (σ0 * sabrVol B m.vov dt ω) * 1) + b * σ0 ^ 2 * (φ (σ0 * sabrVol B m.vov dt ω) * sabrAvgVar B m.vov dt ω) + C * σ0 ^ 4 * (φ (σ0 * sabrVol B m.vov dt ω) * sabrAvgVar B m.vov dt ω ^ 2) := fun ω => by ring
  have eL : ∀ᵐ ω ∂P, G' (B dt.toNNReal ω / √dt) =
      A * (φ (σ0 * sabrVol B m.vov dt ω) * 1) + b * σ0 ^ 2 * (φ (σ0 * sabrVol B m.vov dt ω) * (P[fun ω => sabrAvgVar B m.vov dt ω | MeasurableSpace.comap (sabrVol B m.vov dt) inferInstance]) ω) +
        C * σ0 ^ 4 * (φ (σ0 * sabrVol B m.vov dt ω) * (P[fun ω => sabrAvgVar B m.vov dt ω ^ 2 | MeasurableSpace.comap (sabrVol B m.vov dt) inferInstance]) ω) := by
    filter_upwards [h1, h2] with ω k1 k2
    rw [← k1, ← k2, hG']
    simp only
    rw [← hsd, hvol ω, vol_eq hdt, ← hsd]
    ring
  rw [integral_congr_ae eL]
  simp only [eR]
  have I2 : Integrable (fun ω => A * (φ (σ0 * sabrVol B m.vov dt ω) * 1) + b * σ0 ^ 2 * (φ (σ0 * sabrVol B m.vov dt ω) * sabrAvgVar B m.vov dt ω)) P := (t0.const_mul A).add (t1.const_mul _)
  have I2' : Integrable (fun ω => A * (φ (σ0 * sabrVol B m.vov dt ω) * 1) + b * σ0 ^ 2 * (φ (σ0 * sabrVol B m.vov dt ω) * (P[fun ω => sabrAvgVar B m.vov dt ω | MeasurableSpace.comap (sabrVol B m.vov dt) inferInstance]) ω)) P := (t0.const_mul A).add (t1'.const_mul _)
  rw [integral_add I2' (t2'.const_mul _), integral_add (t0.const_mul A) (t1'.const_mul _), integral_add I2 (t2.const_mul _), integral_add (t0.const_mul A) (t1.const_mul _)]
  simp only [integral_const_mul]
  rw [t1e, t2e]

/-- **C123 (disagreement).** Another scheme number does not raise the documented `ValueError` (it is created but not raised): the step fails on the unbound `avgvar`. -/
theorem step_invalid (m : Sabr) {scheme : ℤ} (h0 : scheme ≠ 0) (h1 : scheme ≠ 1) (dt σ0 : ℝ) : mcStepTd rngEx m scheme dt σ0 = .error .unboundLocal := by
  unfold mcStepTd
  rw [if_neg h0, if_neg h1]

end Sabr

end PyFENG
