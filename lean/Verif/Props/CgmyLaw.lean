import Verif.Lemmas.LevyLaw
import Verif.Props.Fft
import Verif.Lemmas.Subord
import Verif.Model.CgmyCos
import Verif.Props.Levy2
import Verif.Props.CosModels
import Verif.Props.CosLimit
import Mathlib.Analysis.SpecialFunctions.ImproperIntegrals

/-!
# C33, C140: existence of the CGMY law, and the CGMY COS interval
-/

namespace PyFENG

open Real MeasureTheory Set Filter Topology ProbabilityTheory

namespace Cgmy

lemma density_nonneg {C G M Y : ℝ} (hC : 0 < C) (x : ℝ) : 0 ≤ Spec.cgmyDensity C G M Y x := by
  unfold Spec.cgmyDensity
  split_ifs <;> positivity

lemma density_meas (C G M Y : ℝ) : Measurable (Spec.cgmyDensity C G M Y) := by
  unfold Spec.cgmyDensity
  refine Measurable.ite measurableSet_Ioi (by fun_prop) (Measurable.ite measurableSet_Iio (by fun_prop) measurable_const)

lemma tail_int (p : ℝ) {r ε : ℝ} (hr : 0 < r) (hε : 0 < ε) : IntegrableOn (fun x => exp (-r * x) / x ^ p) (Ioi ε) := by
  refine integrable_of_isBigO_exp_neg (a := ε) (b := r / 2) (by positivity) ?_ ?_
  · refine ContinuousOn.div (by fun_prop) (ContinuousOn.rpow_const continuousOn_id fun x hx => Or.inl ?_) fun x hx => ?_
    · exact (hε.trans_le hx).ne'
    · exact (rpow_pos_of_pos (hε.trans_le hx) p).ne'
  · have h := (isLittleO_rpow_exp_pos_mul_atTop (-p) (show 0 < r / 2 by positivity)).isBigO
    have h2 := (Asymptotics.isBigO_refl (fun x : ℝ => exp (-r * x)) atTop).mul h
    refine (h2.congr' ?_ ?_)
    · filter_upwards [eventually_gt_atTop 0] with x hx
      rw [rpow_neg hx.le, div_eq_mul_inv]
    · filter_upwards with x
      rw [← exp_add]; congr 1; ring

lemma density_big {C G M Y : ℝ} {c : ℝ} (hc0 : -G < c) (hc1 : c < M) (n : ℕ) : IntegrableOn (fun x => exp (c * x) * Spec.cgmyDensity C G M Y x) (LevyLaw.big n) := by
  have hε : (0:ℝ) < 1 / ((n : ℝ) + 1) := by positivity
  set ε := 1 / ((n : ℝ) + 1) with hεd
  have hbig : LevyLaw.big n = Ioi ε ∪ Iio (-ε) := by
    ext x
    show ε < |x| ↔ _
    rw [lt_abs]
    simp only [mem_union, mem_Ioi, mem_Iio]
    constructor <;> rintro (h | h)
    · exact Or.inl h
    · exact Or.inr (by linarith)
    · exact Or.inl h
    · exact Or.inr (by linarith)
  have e1 : EqOn (fun x => exp (c * x) * Spec.cgmyDensity C G M Y x) (fun x => C * (exp (-(M - c) * x) / x ^ (1 + Y))) (Ioi ε) := fun x hx => by
    have hx : 0 < x := hε.trans hx
    simp only [Spec.cgmyDensity, if_pos hx]
    rw [show -(M - c) * x = c * x + -M * x by ring, exp_add]
    ring
  have e2 : EqOn (fun x => exp (c * -x) * Spec.cgmyDensity C G M Y (-x)) (fun x => C * (exp (-(G + c) * x) / x ^ (1 + Y))) (Ioi ε) := fun x hx => by
    have hx : 0 < x := hε.trans hx
    simp only [Spec.cgmyDensity, if_neg (show ¬ (0 : ℝ) < -x by linarith), if_pos (show -x < 0 by linarith)]
    rw [abs_neg, abs_of_pos hx, show -(G + c) * x = c * -x + G * -x by ring, exp_add]
    ring
  have j1 : IntegrableOn (fun x => exp (c * x) * Spec.cgmyDensity C G M Y x) (Ioi ε) := (integrableOn_congr_fun e1 measurableSet_Ioi).2 ((tail_int _ (by linarith) hε).const_mul _)
  have j2 : IntegrableOn (fun x => exp (c * -x) * Spec.cgmyDensity C G M Y (-x)) (Ioi ε) := (integrableOn_congr_fun e2 measurableSet_Ioi).2 ((tail_int _ (by linarith) hε).const_mul _)
  have j2' : IntegrableOn (fun x => exp (c * x) * Spec.cgmyDensity C G M Y x) (Iio (-ε)) := by
    have hmp := Measure.measurePreserving_neg (volume : Measure ℝ)
    have hpre : (fun x : ℝ => -x) ⁻¹' (Iio (-ε)) = Ioi ε := by ext x; simp
    exact (hmp.integrableOn_comp_preimage (Homeomorph.neg ℝ).measurableEmbedding (f := fun x => exp (c * x) * Spec.cgmyDensity C G M Y x) (s := Iio (-ε))).1
      (by rw [show (Neg.neg ⁻¹' (Iio (-ε))) = Ioi ε from hpre]; exact j2)
  rw [hbig]
  exact j1.union j2'

lemma logpMgf_diff {C G M Y : ℝ} {m : CgmyParams} (h : init C G M Y = .ok m) (T : ℝ) {u : ℂ} (hu0 : -G < u.re) (hu1 : u.re < M) : DifferentiableAt ℂ (fun u => logpMgf m u T) u := by
  obtain ⟨hC, hG, hM, hY, rfl⟩ := init_ok h
  unfold logpMgf
  simp only
  have h1 : DifferentiableAt ℂ (fun u : ℂ => ((M : ℂ) - u) ^ (Y : ℂ)) u :=
    DifferentiableAt.cpow (by fun_prop) (by fun_prop) (Or.inl (by simp; linarith))
  have h2 : DifferentiableAt ℂ (fun u : ℂ => ((G : ℂ) + u) ^ (Y : ℂ)) u :=
    DifferentiableAt.cpow (by fun_prop) (by fun_prop) (Or.inl (by simp; linarith))
  fun_prop

/-- **C33 (CGMY).** `logp_mgf` is a genuine moment generating function: for every accepted model (`Y ≠ 0, 1`) and maturity there is a probability law of the log-return with `E[S_T] = F`, whose moment generating
function is `logp_mgf(·, T)` on the whole strip `-G < Re u < M`, and whose characteristic function is `logp_cf`. -/
theorem law_exists {C G M Y : ℝ} {m : CgmyParams} (h : init C G M Y = .ok m) (hY0 : Y ≠ 0) (hY1 : Y ≠ 1) {T : ℝ} (hT : 0 ≤ T) :
    ∃ μ : Measure ℝ, Spec.IsMartingaleLaw μ ∧ (∀ u : ℂ, -G < u.re → u.re < M → Integrable (fun x : ℝ => Complex.exp (u * x)) μ ∧ logpMgf m u T = ∫ x : ℝ, Complex.exp (u * x) ∂μ) ∧
      Cos.IsCf (fun u => logpMgf m (Complex.I * u) T) μ := by
  obtain ⟨hC, hG, hM, hY, hm⟩ := init_ok h
  have hk : ∀ {u : ℂ}, -G < u.re → u.re < M → Integrable (fun x : ℝ => (Complex.exp (u * x) - 1 - u * (Complex.exp x - 1)) * (((T * Spec.cgmyDensity C G M Y x : ℝ)) : ℂ)) ∧
      logpMgf m u T = Complex.exp (∫ x : ℝ, (Complex.exp (u * x) - 1 - u * (Complex.exp x - 1)) * (((T * Spec.cgmyDensity C G M Y x : ℝ)) : ℂ)) := fun {u} h0 h1 => by
    obtain ⟨a, b⟩ := logpMgf_levy_khintchine h hY0 hY1 h0 h1 T
    have e : (fun x : ℝ => (Complex.exp (u * x) - 1 - u * (Complex.exp x - 1)) * (((T * Spec.cgmyDensity C G M Y x : ℝ)) : ℂ)) =
        fun x : ℝ => (T : ℂ) * ((Complex.exp (u * x) - 1 - u * (Complex.exp x - 1)) * Spec.cgmyDensity C G M Y x) := by
      ext x; push_cast; ring
    rw [e, integral_const_mul, b]
    exact ⟨a.const_mul _, rfl⟩
  have hcx : ∀ t : ℝ, (fun x : ℝ => (Complex.exp ((t * Complex.I) * x) - 1 - (t * Complex.I) * (Complex.exp x - 1)) * (((T * Spec.cgmyDensity C G M Y x : ℝ)) : ℂ)) =
      fun x : ℝ => (Complex.exp (t * x * Complex.I) - 1 - t * Complex.I * (Complex.exp x - 1)) * (((T * Spec.cgmyDensity C G M Y x : ℝ)) : ℂ) := fun t => by
    ext x; rw [show (t : ℂ) * Complex.I * x = t * x * Complex.I by ring]
  have hre : ∀ t : ℝ, ((t : ℂ) * Complex.I).re = 0 := fun t => by simp
  have ht := fun t : ℝ => hk (u := t * Complex.I) (by rw [hre]; linarith) (by rw [hre]; linarith)
  simp only [hcx] at ht
  obtain ⟨μ, hμ, hcf, hmom⟩ := LevyLaw.exists_levy (k := fun x => T * Spec.cgmyDensity C G M Y x) (fun x => mul_nonneg hT (density_nonneg hC x)) ((density_meas C G M Y).const_mul T)
    (fun n => by
      have := (density_big (C := C) (Y := Y) (c := 0) (by linarith : -G < 0) (by linarith : (0:ℝ) < M) n).const_mul T
      simp only [zero_mul, exp_zero, one_mul] at this
      exact this)
    (I := Ioo (-G) M) ⟨by linarith, hM⟩
    (fun c hc n => by
      have := (density_big (C := C) (Y := Y) hc.1 hc.2 n).const_mul T
      refine Integrable.congr this (ae_of_all _ fun x => ?_)
      ring)
    (fun c hc => by
      have := (hk (u := (c : ℂ)) (by simpa using hc.1) (by simpa using hc.2)).1.re
      refine this.congr (ae_of_all _ fun x => ?_)
      simp only
      rw [show (Complex.exp ((c : ℂ) * x) - 1 - c * (Complex.exp x - 1)) * (((T * Spec.cgmyDensity C G M Y x : ℝ)) : ℂ) = (((exp (c * x) - 1 - c * (exp x - 1)) * (T * Spec.cgmyDensity C G M Y x) : ℝ) : ℂ) by push_cast; rfl]
      exact Complex.ofReal_re _)
    (fun t => (ht t).1)
    (by
      have e : (fun t : ℝ => Complex.exp (∫ x : ℝ, (Complex.exp (t * x * Complex.I) - 1 - t * Complex.I * (Complex.exp x - 1)) * (((T * Spec.cgmyDensity C G M Y x : ℝ)) : ℂ))) =
          (fun u => logpMgf m u T) ∘ fun t : ℝ => (t : ℂ) * Complex.I := by
        ext t; exact (ht t).2.symm
      rw [e]
      refine ContinuousAt.comp ?_ (by fun_prop)
      refine (logpMgf_diff h T ?_ ?_).continuousAt <;> simp <;> linarith)
  have hset : Ioo (-G) M ⊆ interior (integrableExpSet id μ) := by
    refine interior_maximal (fun c hc => hmom c hc) isOpen_Ioo
  have hS : IsOpen {z : ℂ | z.re ∈ Ioo (-G) M} := isOpen_Ioo.preimage Complex.continuous_re
  have hpc : IsPreconnected {z : ℂ | z.re ∈ Ioo (-G) M} := ((convex_Ioo (-G) M).is_linear_preimage Complex.reLm.isLinear).isPreconnected
  have hf : AnalyticOnNhd ℂ (complexMGF id μ) {z : ℂ | z.re ∈ Ioo (-G) M} := (differentiableOn_complexMGF.mono fun z hz => hset hz).analyticOnNhd hS
  have hg : AnalyticOnNhd ℂ (fun u => logpMgf m u T) {z : ℂ | z.re ∈ Ioo (-G) M} :=
    DifferentiableOn.analyticOnNhd (fun z hz => (logpMgf_diff h T hz.1 hz.2).differentiableWithinAt) hS
  have hax : ∀ t : ℝ, complexMGF id μ (t * Complex.I) = logpMgf m (t * Complex.I) T := fun t => by
    rw [(ht t).2, ← hcf t, charFun_apply_real]
    unfold complexMGF
    congr 1
    ext x
    simp only [id]
    congr 1
    ring
  have heq : EqOn (complexMGF id μ) (fun u => logpMgf m u T) {z : ℂ | z.re ∈ Ioo (-G) M} := by
    refine hf.eqOn_of_preconnected_of_frequently_eq hg hpc (z₀ := 0) (by simp; constructor <;> linarith) ?_
    have htd : Tendsto (fun t : ℝ => (t : ℂ) * Complex.I) (𝓝[≠] 0) (𝓝[≠] 0) := by
      refine tendsto_nhdsWithin_iff.2 ⟨?_, ?_⟩
      · have : ContinuousAt (fun t : ℝ => (t : ℂ) * Complex.I) 0 := by fun_prop
        have h := this.tendsto
        simp only [Complex.ofReal_zero, zero_mul] at h
        exact h.mono_left nhdsWithin_le_nhds
      · filter_upwards [self_mem_nhdsWithin] with t ht
        simpa using ht
    exact htd.frequently (Eventually.frequently (Eventually.of_forall hax))
  have hfull : ∀ u : ℂ, -G < u.re → u.re < M → Integrable (fun x : ℝ => Complex.exp (u * x)) μ ∧ logpMgf m u T = ∫ x : ℝ, Complex.exp (u * x) ∂μ := fun u h0 h1 => by
    refine ⟨?_, (heq (show u ∈ {z : ℂ | z.re ∈ Ioo (-G) M} from ⟨h0, h1⟩)).symm⟩
    refine (hmom u.re ⟨h0, h1⟩).mono' (by fun_prop) (ae_of_all _ fun x => ?_)
    rw [Complex.norm_exp]
    simp
  refine ⟨μ, ⟨hμ, by simpa using hmom 1 ⟨by linarith, hM⟩, ?_⟩, hfull, fun u => ?_⟩
  · have h1 := (hfull 1 (by simp; linarith) (by simpa using hM)).2
    rw [(logpMgf_normalised h T 0 0 0).2.1] at h1
    have e : ∫ x : ℝ, Complex.exp (1 * x) ∂μ = ((∫ x, exp x ∂μ : ℝ) : ℂ) := by
      rw [show ((∫ x, exp x ∂μ : ℝ) : ℂ) = ∫ x : ℝ, ((exp x : ℝ) : ℂ) ∂μ from (integral_ofReal (𝕜 := ℂ)).symm]
      congr 1
      ext x
      push_cast
      rw [one_mul]
    rw [e] at h1
    exact_mod_cast h1.symm
  · exact (hfull (Complex.I * u) (by simp; linarith) (by simp; linarith)).2

/-- A concrete accepted model. -/
example : ∃ (m : CgmyParams) (μ : Measure ℝ), init 0.1 5 5 0.5 = .ok m ∧ Spec.IsMartingaleLaw μ ∧ logpMgf m (1 / 2) 2 = ∫ x : ℝ, Complex.exp (1 / 2 * x) ∂μ := by
  obtain ⟨m, hm⟩ : ∃ m, init 0.1 5 5 0.5 = .ok m := by unfold init; norm_num
  obtain ⟨μ, h1, h2, -⟩ := law_exists hm (by norm_num) (by norm_num) (T := 2) (by norm_num)
  exact ⟨m, μ, hm, h1, (h2 (1 / 2) (by norm_num) (by norm_num)).2⟩

/-- The half moment decays exponentially in the maturity. -/
lemma half_moment {C G M Y : ℝ} {m : CgmyParams} (h : init C G M Y = .ok m) (hY0 : Y ≠ 0) (hY1 : Y ≠ 1) : ∃ δ > 0, ∀ T : ℝ, logpMgf m (1 / 2) T = ((exp (-(δ * T)) : ℝ) : ℂ) := by
  obtain ⟨hC, hG, hM, hY, hm⟩ := init_ok h
  have h2 : ((1 / 2 : ℂ)).re = 1 / 2 := by norm_num
  have key := fun T => logpMgf_levy_khintchine h hY0 hY1 (u := 1 / 2) (by rw [h2]; linarith) (by rw [h2]; linarith) T
  have e : (fun x : ℝ => (Complex.exp (1 / 2 * x) - 1 - 1 / 2 * (Complex.exp x - 1)) * (Spec.cgmyDensity C G M Y x : ℂ)) = fun x : ℝ => ((-(1 / 2 * (exp (x / 2) - 1) ^ 2 * Spec.cgmyDensity C G M Y x) : ℝ) : ℂ) := by
    ext x
    have h3 : Complex.exp (x : ℂ) = Complex.exp (1 / 2 * x) ^ 2 := by rw [← Complex.exp_nat_mul]; congr 1; push_cast; ring
    rw [h3]
    push_cast
    rw [show (x : ℂ) / 2 = 1 / 2 * x by ring]
    ring
  simp only [e] at key
  have hint : Integrable fun x : ℝ => 1 / 2 * (exp (x / 2) - 1) ^ 2 * Spec.cgmyDensity C G M Y x := by
    have := (key 0).1.re.neg
    refine this.congr (ae_of_all _ fun x => ?_)
    simp only [Pi.neg_apply]
    have : RCLike.re ((-(1 / 2 * (exp (x / 2) - 1) ^ 2 * Spec.cgmyDensity C G M Y x) : ℝ) : ℂ) = -(1 / 2 * (exp (x / 2) - 1) ^ 2 * Spec.cgmyDensity C G M Y x) := Complex.ofReal_re _
    rw [this, neg_neg]
  refine ⟨∫ x, 1 / 2 * (exp (x / 2) - 1) ^ 2 * Spec.cgmyDensity C G M Y x, ?_, fun T => ?_⟩
  · have h0 : ∀ x, 0 ≤ 1 / 2 * (exp (x / 2) - 1) ^ 2 * Spec.cgmyDensity C G M Y x := fun x => mul_nonneg (by positivity) (density_nonneg hC x)
    rw [gt_iff_lt, integral_pos_iff_support_of_nonneg h0 hint]
    refine lt_of_lt_of_le (by simp : (0 : ENNReal) < volume (Ioo (0:ℝ) 1)) (measure_mono fun x hx => ?_)
    have hx0 : 0 < x := hx.1
    have hd : 0 < Spec.cgmyDensity C G M Y x := by
      unfold Spec.cgmyDensity; rw [if_pos hx0]; positivity
    have he : 1 < exp (x / 2) := one_lt_exp_iff.2 (by positivity)
    have : 0 < 1 / 2 * (exp (x / 2) - 1) ^ 2 * Spec.cgmyDensity C G M Y x := by
      have : 0 < exp (x / 2) - 1 := by linarith
      positivity
    exact this.ne'
  · rw [(key T).2, show (∫ x : ℝ, ((-(1 / 2 * (exp (x / 2) - 1) ^ 2 * Spec.cgmyDensity C G M Y x) : ℝ) : ℂ)) = ((∫ x : ℝ, -(1 / 2 * (exp (x / 2) - 1) ^ 2 * Spec.cgmyDensity C G M Y x) : ℝ) : ℂ) from integral_ofReal (𝕜 := ℂ),
      integral_neg]
    push_cast
    congr 1
    ring

end Cgmy

namespace Cos

/-- **C140.** Shape of the CGMY interval: for `0 < Y` (and `L > 0`) it is a genuine interval around zero; for an accepted model with `Y < 0` its end points are reversed, and for `Y = 0` it is a point. -/
theorem cgmyRange_shape {L : ℝ} (hL : 0 < L) {Y : ℝ} :
    (0 < Y → (cgmyRange L Y).1 < 0 ∧ 0 < (cgmyRange L Y).2) ∧ (Y < 0 → (cgmyRange L Y).2 < (cgmyRange L Y).1) ∧ (Y = 0 → (cgmyRange L Y).1 = (cgmyRange L Y).2) := by
  have hn : ∀ y : ℝ, y ≤ 0 → ¬ isClose198 y := fun y hy h => by
    unfold isClose198 at h
    rw [abs_le] at h
    norm_num at h
    linarith [h.1]
  unfold cgmyRange
  refine ⟨fun h => ?_, fun h => ?_, fun h => ?_⟩
  · split_ifs
    · norm_num
    · have := mul_pos hL h
      constructor <;> simp only <;> linarith
  · rw [if_neg (hn Y h.le)]
    have := mul_neg_of_pos_of_neg hL h
    simp only
    linarith
  · rw [if_neg (hn Y h.le), h]
    simp

/-- **C140 is false: maturity is ignored.** The default CGMY interval does not depend on the maturity, while the log-return drifts to minus infinity. For every accepted model with `0 < Y`, `Y ≠ 1`, every `L` and every moneyness
`κ = K/F` above the lower end `e^a` of the interval, there is a maturity beyond which the COS put price, however many terms are used, stays below the exact price of the CGMY law by at least `df F e^a / 4`. -/
theorem cgmyCos_put_wrong {C G M Y : ℝ} {m : CgmyParams} (h : Cgmy.init C G M Y = .ok m) (hY0 : 0 < Y) (hY1 : Y ≠ 1) {L : ℝ} (hL : 0 < L) {κ : ℝ} (hκ : exp (cgmyRange L Y).1 ≤ κ) :
    ∃ T0, ∀ T, T0 ≤ T → ∃ μ : Measure ℝ, Spec.IsMartingaleLaw μ ∧ IsCf (fun u => Cgmy.logpMgf m (Complex.I * u) T) μ ∧ ∀ (mp : MParams) {S : ℝ}, 0 < S →
      let F := Spec.forward mp.isFwd mp.intr mp.divr S T
      let df := Spec.discount mp.intr T
      ∃ P, Tendsto (fun n => priceFO (fun u => Cgmy.logpMgf m (Complex.I * u) T) (cgmyRange L Y).1 (cgmyRange L Y).2 n mp (κ * F) S T (-1)) atTop (𝓝 P) ∧
        P + df * F * exp (cgmyRange L Y).1 / 4 ≤ Spec.lawPrice μ df F (κ * F) (-1) := by
  obtain ⟨δ, hδ, hmom⟩ := Cgmy.half_moment h hY0.ne' hY1
  obtain ⟨hC, hG, hM, hY, -⟩ := Cgmy.init_ok h
  obtain ⟨ha, hb⟩ := (cgmyRange_shape hL (Y := Y)).1 hY0
  set a := (cgmyRange L Y).1 with had
  set b := (cgmyRange L Y).2 with hbd
  have hκ0 : 0 < κ := (exp_pos a).trans_le hκ
  have hlim : Tendsto (fun T => exp (-((a - log 2) / 2)) * exp (-(δ * T)) * κ) atTop (𝓝 0) := by
    have h1 : Tendsto (fun T => exp (-(δ * T))) atTop (𝓝 0) := tendsto_exp_neg_atTop_nhds_zero.comp (tendsto_id.const_mul_atTop hδ)
    have h2 := (h1.const_mul (exp (-((a - log 2) / 2)))).mul_const κ
    simpa using h2
  obtain ⟨T1, hT1⟩ := eventually_atTop.1 (hlim.eventually (gt_mem_nhds (show 0 < exp a / 4 by positivity)))
  refine ⟨max T1 0, fun T hT => ?_⟩
  obtain ⟨μ, hmart, hmgf, hcf⟩ := Cgmy.law_exists h hY0.ne' hY1 (T := T) ((le_max_right _ _).trans hT)
  have hsmall := hT1 T ((le_max_left _ _).trans hT)
  refine ⟨μ, hmart, hcf, fun mp {S} hS => ?_⟩
  intro F df
  haveI := hmart.prob
  have hF : 0 < F := by
    have := mp.fwd_pos hS T
    rwa [mp.fwd_eq_forward, mp.forward_eq_spec] at this
  have hdf : 0 < df := exp_pos _
  refine ⟨_, priceFO_tendsto hcf (ha.trans hb) mp hS (mul_pos hκ0 hF) (Or.inr rfl), ?_⟩
  have hea := exp_pos a
  have hhalf : ∫ x, exp (x / 2) ∂μ = exp (-(δ * T)) := by
    have h1 := (hmgf (1 / 2) (by norm_num; linarith) (by norm_num; linarith)).2
    rw [hmom T] at h1
    have e : ∫ x : ℝ, Complex.exp (1 / 2 * x) ∂μ = ((∫ x, exp (x / 2) ∂μ : ℝ) : ℂ) := by
      rw [show ((∫ x, exp (x / 2) ∂μ : ℝ) : ℂ) = ∫ x : ℝ, ((exp (x / 2) : ℝ) : ℂ) ∂μ from (integral_ofReal (𝕜 := ℂ)).symm]
      congr 1
      ext x
      push_cast
      congr 1
      ring
    rw [e] at h1
    exact_mod_cast h1.symm
  have hhi : Integrable (fun x => exp (x / 2)) μ := by
    refine Integrable.of_integral_ne_zero ?_
    rw [hhalf]
    exact (exp_pos _).ne'
  -- the COS price is at most `df F (κ - e^a)`
  have hup : Spec.lawPrice (μ.map (Spec.fold a b)) df F (κ * F) (-1) ≤ df * (F * (κ - exp a)) := by
    unfold Spec.lawPrice
    refine mul_le_mul_of_nonneg_left ?_ hdf.le
    have hcont : Continuous fun x => Spec.payoff (-1) (κ * F) (F * exp x) := by unfold Spec.payoff; fun_prop
    rw [integral_map (fold_cont a b).aemeasurable hcont.aestronglyMeasurable]
    calc ∫ x, Spec.payoff (-1) (κ * F) (F * exp (Spec.fold a b x)) ∂μ ≤ ∫ _, F * (κ - exp a) ∂μ := by
          refine integral_mono_of_nonneg (ae_of_all _ fun x => le_max_right _ _) (integrable_const _) (ae_of_all _ fun x => ?_)
          have h1 := exp_le_exp.2 (fold_mem (ha.trans hb) x).1
          unfold Spec.payoff
          refine max_le ?_ (mul_nonneg hF.le (by linarith))
          nlinarith
      _ = _ := by simp
  -- the exact price
  have hlo : df * (F * (κ - exp a / 2) * (1 - exp (-((a - log 2) / 2)) * exp (-(δ * T)))) ≤ Spec.lawPrice μ df F (κ * F) (-1) := by
    unfold Spec.lawPrice
    refine mul_le_mul_of_nonneg_left ?_ hdf.le
    have hpi : Integrable (fun x => Spec.payoff (-1) (κ * F) (F * exp x)) μ := by
      refine Integrable.of_bound (C := κ * F) (by unfold Spec.payoff; fun_prop) (ae_of_all _ fun x => ?_)
      unfold Spec.payoff
      rw [Real.norm_of_nonneg (le_max_right _ _)]
      refine max_le ?_ (by positivity)
      have := mul_pos hF (exp_pos x)
      linarith
    have hli : Integrable (fun x => F * (κ - exp a / 2) * (1 - exp (-((a - log 2) / 2)) * exp (x / 2))) μ := ((integrable_const 1).sub (hhi.const_mul _)).const_mul _
    calc _ = ∫ x, F * (κ - exp a / 2) * (1 - exp (-((a - log 2) / 2)) * exp (x / 2)) ∂μ := by
          rw [integral_const_mul, integral_sub (integrable_const _) (hhi.const_mul _), integral_const_mul, hhalf]
          simp
      _ ≤ _ := by
          refine integral_mono hli hpi fun x => ?_
          simp only
          rw [← exp_add]
          unfold Spec.payoff
          have hc : 0 ≤ F * (κ - exp a / 2) := mul_nonneg hF.le (by linarith)
          rcases le_total x (a - log 2) with hx | hx
          · refine le_trans ?_ (le_max_left _ _)
            have h1 : exp x ≤ exp a / 2 := by
              calc exp x ≤ exp (a - log 2) := exp_le_exp.2 hx
                _ = _ := by rw [exp_sub, exp_log two_pos]
            have h2 := exp_pos (-((a - log 2) / 2) + x / 2)
            calc _ ≤ F * (κ - exp a / 2) * 1 := by gcongr; linarith
              _ ≤ _ := by nlinarith
          · refine le_trans ?_ (le_max_right _ _)
            have h2 : 1 ≤ exp (-((a - log 2) / 2) + x / 2) := one_le_exp (by linarith)
            exact mul_nonpos_of_nonneg_of_nonpos hc (by linarith)
  set q := exp (-((a - log 2) / 2)) * exp (-(δ * T)) with hq
  have hq0 : 0 < q := by rw [hq]; positivity
  have hfin : df * (F * (κ - exp a)) + df * F * exp a / 4 ≤ df * (F * (κ - exp a / 2) * (1 - q)) := by
    have : F * (κ - exp a) + F * exp a / 4 ≤ F * (κ - exp a / 2) * (1 - q) := by
      have h1 : q * (κ - exp a / 2) ≤ exp a / 4 := by nlinarith
      have h2 : κ - exp a + exp a / 4 ≤ (κ - exp a / 2) * (1 - q) := by nlinarith
      nlinarith
    nlinarith
  linarith

/-- **C140.** The adaptive Heston interval (used by the Le Floc'h pricer) is the generic one with `L ≥ 10`; it contains the mean and misses at most one percent of the law. -/
theorem hestonTruncRange_correct {μ : Measure ℝ} [IsProbabilityMeasure μ] (h0 : (0 : ℝ) ∈ interior (integrableExpSet id μ)) {c : ℝ × ℝ × ℝ × ℝ} (hc : Spec.IsCum4 μ c) (hc2 : 0 < c.2.1) (T : ℝ) :
    ((hestonTruncRange none T c).1 < c.1 ∧ c.1 < (hestonTruncRange none T c).2) ∧ μ.real (Icc (hestonTruncRange none T c).1 (hestonTruncRange none T c).2)ᶜ ≤ 1 / 100 ∧
    ∀ l, hestonTruncRange (some l) T c = truncRange l c := by
  have e : hestonTruncRange none T c = truncRange (hestonL none T) c := rfl
  have hL : 10 ≤ hestonL none T := ((hestonL_spec none T).2 rfl).1
  have hs : 0 < √(|c.2.1| + √|c.2.2.2|) := sqrt_pos.2 (by have := abs_pos.2 hc2.ne'; positivity)
  refine ⟨?_, ?_, fun l => rfl⟩
  · have := mul_pos (show 0 < hestonL none T by linarith) hs
    unfold hestonTruncRange
    constructor <;> simp only <;> linarith
  · rw [e]
    refine (truncRange_chebyshev h0 hc hc2 (by linarith)).trans ?_
    exact one_div_le_one_div_of_le (by norm_num) (by nlinarith)

/-- A concrete instance of the defect. -/
example : ∃ m, Cgmy.init 1 5 10 0.5 = .ok m ∧ ∃ T0, ∀ T, T0 ≤ T → ∃ μ : Measure ℝ, Spec.IsMartingaleLaw μ ∧ IsCf (fun u => Cgmy.logpMgf m (Complex.I * u) T) μ := by
  obtain ⟨m, hm⟩ : ∃ m, Cgmy.init 1 5 10 0.5 = .ok m := by unfold Cgmy.init; norm_num
  obtain ⟨T0, hT⟩ := cgmyCos_put_wrong hm (by norm_num) (by norm_num) (L := 12) (by norm_num) (κ := 1)
    (exp_le_one_iff.2 ((cgmyRange_shape (L := 12) (by norm_num)).1 (by norm_num)).1.le)
  refine ⟨m, hm, T0, fun T h => ?_⟩
  obtain ⟨μ, h1, h2, -⟩ := hT T h
  exact ⟨μ, h1, h2⟩

end Cos
namespace Fft

/-- **C72 (CGMY).** For every accepted CGMY model (`Y ≠ 0, 1`) there is a law of the log-return with `E[S_T] = F` and moment generating function `logp_mgf` on the strip `-G < Re u < M`, and `CgmyFft.price_simpson` converges to the
discounted expected payoff under it. -/
theorem cgmy_simpson_converges {C G M Y : ℝ} {m : CgmyParams} (h : Cgmy.init C G M Y = .ok m) (hY0 : Y ≠ 0) (hY1 : Y ≠ 1) (mp : MParams)
    {K S T cp : ℝ} (hS : 0 < S) (hK : 0 < K) (hcp : Spec.IsCp cp) (hT : 0 ≤ T) :
    ∃ μ : Measure ℝ, Spec.IsMartingaleLaw μ ∧ (∀ u : ℂ, -G < u.re → u.re < M → Cgmy.logpMgf m u T = ∫ x : ℝ, Complex.exp (u * x) ∂μ) ∧ ∃ P : ℝ → ℝ,
      (∀ X, 0 < X → Tendsto (fun k => priceSimpson (fun u => Cgmy.logpMgf m u T) k X mp K S T cp) atTop (𝓝 (P X))) ∧
      Tendsto P atTop (𝓝 (Spec.lawPrice μ (Spec.discount mp.intr T) (Spec.forward mp.isFwd mp.intr mp.divr S T) K cp)) := by
  obtain ⟨hC, hG, hM, hY, hm⟩ := Cgmy.init_ok h
  obtain ⟨μ, hmart, hmgf, -⟩ := Cgmy.law_exists h hY0 hY1 hT
  refine ⟨μ, hmart, fun u h0 h1 => (hmgf u h0 h1).2, simpson_converges hmart (mgf := fun u => Cgmy.logpMgf m u T) (fun x => ?_) mp hS hK hcp⟩
  have hre : ((x : ℂ) * Complex.I + 0.5).re = 1 / 2 := by simp; norm_num
  exact (hmgf _ (by rw [hre]; linarith) (by rw [hre]; linarith)).2

example : ∃ m, Cgmy.init 1 5 10 0.5 = .ok m ∧ ∃ μ : Measure ℝ, Spec.IsMartingaleLaw μ ∧ ∃ P : ℝ → ℝ,
    ∀ X, 0 < X → Tendsto (fun k => priceSimpson (fun u => Cgmy.logpMgf m u 1) k X ⟨1, 0, 0, false⟩ 100 100 1 1) atTop (𝓝 (P X)) := by
  obtain ⟨m, hm⟩ : ∃ m, Cgmy.init 1 5 10 0.5 = .ok m := by unfold Cgmy.init; norm_num
  obtain ⟨μ, h1, -, P, h2, -⟩ := cgmy_simpson_converges hm (by norm_num) (by norm_num) ⟨1, 0, 0, false⟩ (K := 100) (S := 100) (T := 1) (cp := 1) (by norm_num) (by norm_num) (Or.inl rfl) (by norm_num)
  exact ⟨m, hm, μ, h1, P, h2⟩

end Fft

end PyFENG
