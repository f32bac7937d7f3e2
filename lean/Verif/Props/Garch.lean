import Verif.Model.Garch
import Verif.Lemmas.GarchProcess
import Verif.Lemmas.Brownian
import Verif.Props.OusvMom

/-!
# C121: GARCH diffusion, mean and variance of the average variance
-/

namespace PyFENG

open MeasureTheory ProbabilityTheory Real Set
open scoped NNReal ENNReal

namespace GarchDiff

variable {Ω : Type*} [mΩ : MeasurableSpace Ω] {P : Measure Ω} {B V : ℝ≥0 → Ω → ℝ} {κ θ ξ v0 : ℝ}

section Law

variable (h : Spec.IsGarch P B V κ θ ξ v0)
include h

lemma cont_V (ω : Ω) : Continuous fun s : ℝ => V s.toNNReal ω := (h.cont ω).comp continuous_real_toNNReal

lemma int_mean (hκ : κ ≠ 0) {T : ℝ} (hT : 0 ≤ T) :
    Integrable (fun ω => ∫ s in (0:ℝ)..T, V s.toNNReal ω) P ∧ ∫ ω, (∫ s in (0:ℝ)..T, V s.toNNReal ω) ∂P = θ * T + (v0 - θ) * (1 - exp (-(κ * T))) / κ := by
  haveI := BmExp.isProb h.bm
  obtain ⟨C, hC⟩ := isCompact_Icc.exists_bound_of_continuousOn (s := Icc 0 T) (f := fun t : ℝ => θ + (v0 - θ) * exp (-(κ * t))) (by fun_prop)
  obtain ⟨h1, h2⟩ := Ou.fubini (P := P) (F := fun u ω => V u.toNNReal ω) (fun u => GarchP.meas h _) (cont_V h) hT (C := C) (fun u hu => by
    refine ⟨(GarchP.mean h hκ _).1, ?_⟩
    simp_rw [abs_of_pos (h.pos _ _)]
    rw [(GarchP.mean h hκ _).2, coe_toNNReal _ hu.1.le]
    exact (le_abs_self _).trans (hC u ⟨hu.1.le, hu.2⟩))
  refine ⟨h1, h2.trans ?_⟩
  have e : ∀ u ∈ uIcc 0 T, ∫ ω, V u.toNNReal ω ∂P = 0 * exp (κ * u) ^ 2 + 0 * exp (κ * u) + θ + (v0 - θ) * exp (-(κ * u)) + 0 * exp (-(κ * u)) ^ 2 := fun u hu => by
    rw [uIcc_of_le hT] at hu
    rw [(GarchP.mean h hκ _).2, coe_toNNReal _ hu.1]
    ring
  rw [intervalIntegral.integral_congr e, Ousv.int_laurent hκ]
  ring

lemma int_second (hκ : κ ≠ 0) {p q : ℝ} (hp : p = κ - ξ ^ 2) (hq : q = 2 * κ - ξ ^ 2) (hp0 : p ≠ 0) (hq0 : q ≠ 0) {T : ℝ} (hT : 0 ≤ T) :
    Integrable (fun ω => (∫ s in (0:ℝ)..T, V s.toNNReal ω) ^ 2) P ∧ ∫ ω, (∫ s in (0:ℝ)..T, V s.toNNReal ω) ^ 2 ∂P =
      2 * ∫ t in (0:ℝ)..T, ∫ s in (0:ℝ)..t, (exp (-(κ * (t - s))) * (2 * κ * θ ^ 2 / q + 2 * κ * θ * (v0 - θ) / p * exp (-(κ * s)) +
        (v0 ^ 2 - 2 * κ * θ * (v0 - θ) / p - 2 * κ * θ ^ 2 / q) * exp (-(q * s))) + θ * (1 - exp (-(κ * (t - s)))) * (θ + (v0 - θ) * exp (-(κ * s)))) := by
  haveI := BmExp.isProb h.bm
  have sec := GarchP.second h hκ hp hq hp0 hq0
  obtain ⟨C, hC⟩ := isCompact_Icc.exists_bound_of_continuousOn (s := Icc 0 T) (f := fun t : ℝ => 2 * κ * θ ^ 2 / q + 2 * κ * θ * (v0 - θ) / p * exp (-(κ * t)) +
        (v0 ^ 2 - 2 * κ * θ * (v0 - θ) / p - 2 * κ * θ ^ 2 / q) * exp (-(q * t))) (by fun_prop)
  have bd : ∀ u : ℝ≥0, (u:ℝ) ≤ T → ∫ ω, V u ω ^ 2 ∂P ≤ C := fun u hu => by
    rw [(sec u).2]; exact (le_abs_self _).trans (hC u ⟨u.2, hu⟩)
  have ml : ∀ u : ℝ≥0, MemLp (V u) 2 P := fun u => (memLp_two_iff_integrable_sq (GarchP.meas h u).aestronglyMeasurable).2 (sec u).1
  have im : ∀ u v : ℝ≥0, Integrable (fun ω => V u ω * V v ω) P := fun u v => (ml u).integrable_mul (ml v)
  have bm2 : ∀ u v : ℝ≥0, (u:ℝ) ≤ T → (v:ℝ) ≤ T → ∫ ω, V u ω * V v ω ∂P ≤ C := fun u v hu hv => by
    have : ∫ ω, V u ω * V v ω ∂P ≤ ∫ ω, (1 / 2 * V u ω ^ 2 + 1 / 2 * V v ω ^ 2) ∂P :=
      integral_mono (im u v) (((sec u).1.const_mul _).add ((sec v).1.const_mul _)) fun ω => by
        simp only
        nlinarith [sq_nonneg (V u ω - V v ω)]
    rw [integral_add ((sec u).1.const_mul _) ((sec v).1.const_mul _), integral_const_mul, integral_const_mul] at this
    linarith [bd u hu, bd v hv]
  -- the inner integral
  have inner : ∀ t : ℝ≥0, (t:ℝ) ≤ T → Integrable (fun ω => ∫ s in (0:ℝ)..t, V s.toNNReal ω * V t ω) P ∧
      ∫ ω, (∫ s in (0:ℝ)..t, V s.toNNReal ω * V t ω) ∂P = ∫ s in (0:ℝ)..t, ∫ ω, V s.toNNReal ω * V t ω ∂P := fun t ht =>
    Ou.fubini (P := P) (F := fun s ω => V s.toNNReal ω * V t ω) (fun u => (GarchP.meas h _).mul (GarchP.meas h _)) (fun ω => (cont_V h ω).mul continuous_const) t.2 (C := C)
      fun u hu => ⟨im _ _, by
        simp_rw [abs_of_pos (mul_pos (h.pos _ _) (h.pos _ _))]
        exact bm2 _ _ (by rw [coe_toNNReal _ hu.1.le]; exact hu.2.trans ht) ht⟩
  have inval : ∀ t : ℝ≥0, ∫ s in (0:ℝ)..t, ∫ ω, V s.toNNReal ω * V t ω ∂P = ∫ s in (0:ℝ)..t, (exp (-(κ * (t - s))) * (2 * κ * θ ^ 2 / q + 2 * κ * θ * (v0 - θ) / p * exp (-(κ * s)) +
        (v0 ^ 2 - 2 * κ * θ * (v0 - θ) / p - 2 * κ * θ ^ 2 / q) * exp (-(q * s))) + θ * (1 - exp (-(κ * (t - s)))) * (θ + (v0 - θ) * exp (-(κ * s)))) := fun t => by
    refine intervalIntegral.integral_congr fun s hs => ?_
    rw [uIcc_of_le (NNReal.coe_nonneg t)] at hs
    rw [GarchP.cross h hκ (s := s.toNNReal) (t := t) (by rw [← NNReal.coe_le_coe, coe_toNNReal _ hs.1]; exact hs.2) (sec _).1, (sec _).2, (GarchP.mean h hκ _).2, coe_toNNReal _ hs.1]
  -- the square
  have hcI : ∀ ω, Continuous fun t : ℝ => ∫ s in (0:ℝ)..t, V s.toNNReal ω := fun ω =>
    intervalIntegral.continuous_primitive (fun a b => (cont_V h ω).intervalIntegrable a b) 0
  have sqr : ∀ ω, (∫ s in (0:ℝ)..T, V s.toNNReal ω) ^ 2 = 2 * ∫ t in (0:ℝ)..T, (∫ s in (0:ℝ)..(t.toNNReal : ℝ), V s.toNNReal ω * V t.toNNReal ω) := fun ω => by
    have ft := intervalIntegral.integral_eq_sub_of_hasDerivAt (a := 0) (b := T) (f := fun t => (∫ s in (0:ℝ)..t, V s.toNNReal ω) ^ 2)
      (f' := fun t => 2 * ((∫ s in (0:ℝ)..t, V s.toNNReal ω) * V t.toNNReal ω)) (fun t _ => by
        have := (intervalIntegral.integral_hasDerivAt_right ((cont_V h ω).intervalIntegrable 0 t) ((cont_V h ω).stronglyMeasurableAtFilter _ _) (cont_V h ω).continuousAt).fun_pow 2
        refine this.congr_deriv ?_
        norm_num
        ring) ((((hcI ω).mul (cont_V h ω)).const_mul 2).intervalIntegrable _ _)
    rw [intervalIntegral.integral_same, intervalIntegral.integral_const_mul] at ft
    rw [zero_pow two_ne_zero, sub_zero] at ft
    rw [← ft]
    congr 1
    refine intervalIntegral.integral_congr fun t ht => ?_
    rw [uIcc_of_le hT] at ht
    rw [intervalIntegral.integral_mul_const, coe_toNNReal _ ht.1]
  obtain ⟨o1, o2⟩ := Ou.fubini (P := P) (F := fun t ω => ∫ s in (0:ℝ)..(t.toNNReal : ℝ), V s.toNNReal ω * V t.toNNReal ω)
    (fun u => Ou.measurable_path_int (F := fun s ω => V s.toNNReal ω * V u.toNNReal ω) (fun v => (GarchP.meas h _).mul (GarchP.meas h _)) (fun ω => (cont_V h ω).mul continuous_const) (NNReal.coe_nonneg _))
    (fun ω => by
      simp_rw [intervalIntegral.integral_mul_const]
      exact ((hcI ω).comp (continuous_subtype_val.comp continuous_real_toNNReal)).mul (cont_V h ω)) hT (C := T * C) (fun t ht => by
      have ht' : ((t.toNNReal : ℝ≥0) : ℝ) ≤ T := by rw [coe_toNNReal _ ht.1.le]; exact ht.2
      refine ⟨(inner t.toNNReal ht').1, ?_⟩
      have hn : ∀ ω, 0 ≤ ∫ s in (0:ℝ)..(t.toNNReal : ℝ), V s.toNNReal ω * V t.toNNReal ω := fun ω =>
        intervalIntegral.integral_nonneg (NNReal.coe_nonneg _) fun s _ => (mul_pos (h.pos _ _) (h.pos _ _)).le
      simp_rw [abs_of_nonneg (hn _)]
      rw [(inner t.toNNReal ht').2]
      have hC0 : 0 ≤ C := (integral_nonneg fun ω => (mul_pos (h.pos _ ω) (h.pos _ ω)).le).trans (bm2 0 0 (by simpa using hT) (by simpa using hT))
      have hb := intervalIntegral.norm_integral_le_of_norm_le_const (a := 0) (b := (t.toNNReal : ℝ)) (C := C) (f := fun s => ∫ ω, V s.toNNReal ω * V t.toNNReal ω ∂P) (fun s hs => by
        rw [uIoc_of_le (NNReal.coe_nonneg _)] at hs
        rw [Real.norm_eq_abs, abs_of_nonneg (integral_nonneg fun ω => (mul_pos (h.pos _ _) (h.pos _ _)).le)]
        exact bm2 _ _ (by rw [coe_toNNReal _ hs.1.le]; exact hs.2.trans ht') ht')
      refine (le_abs_self _).trans (hb.trans ?_)
      rw [sub_zero, abs_of_nonneg (NNReal.coe_nonneg _), mul_comm]
      exact mul_le_mul_of_nonneg_right ht' hC0)
  simp_rw [sqr]
  refine ⟨o1.const_mul 2, ?_⟩
  rw [integral_const_mul, o2]
  congr 1
  refine intervalIntegral.integral_congr fun t ht => ?_
  rw [uIcc_of_le hT] at ht
  have ht' : ((t.toNNReal : ℝ≥0) : ℝ) ≤ T := by rw [coe_toNNReal _ ht.1]; exact ht.2
  rw [(inner t.toNNReal ht').2, inval, coe_toNNReal _ ht.1]

end Law

lemma inner_int (hκ : κ ≠ 0) {p q : ℝ} (hpq : q = κ + p) (hp0 : p ≠ 0) (a0 a1 a2 w t : ℝ) :
    ∫ s in (0:ℝ)..t, (exp (-(κ * (t - s))) * (a0 + a1 * exp (-(κ * s)) + a2 * exp (-(q * s))) + θ * (1 - exp (-(κ * (t - s)))) * (θ + w * exp (-(κ * s)))) =
      (a0 - θ ^ 2) * (1 - exp (-(κ * t))) / κ + (a1 - θ * w) * t * exp (-(κ * t)) + a2 * (exp (-(κ * t)) - exp (-(q * t))) / p + θ ^ 2 * t + θ * w * (1 - exp (-(κ * t))) / κ := by
  have ft := intervalIntegral.integral_eq_sub_of_hasDerivAt (a := 0) (b := t)
    (f := fun s => (a0 - θ ^ 2) / κ * exp (-(κ * (t - s))) + (a1 - θ * w) * exp (-(κ * t)) * s - a2 / p * exp (-(κ * t)) * exp (-(p * s)) + θ ^ 2 * s - θ * w / κ * exp (-(κ * s)))
    (f' := fun s => exp (-(κ * (t - s))) * (a0 + a1 * exp (-(κ * s)) + a2 * exp (-(q * s))) + θ * (1 - exp (-(κ * (t - s)))) * (θ + w * exp (-(κ * s)))) (fun s _ => by
      have d1 : HasDerivAt (fun s => exp (-(κ * (t - s)))) (exp (-(κ * (t - s))) * κ) s := by
        refine ((((hasDerivAt_id' s).const_sub t).const_mul κ).fun_neg).exp.congr_deriv ?_
        ring
      have d2 : ∀ c : ℝ, HasDerivAt (fun s => exp (-(c * s))) (exp (-(c * s)) * -c) s := fun c => by
        refine (((hasDerivAt_id' s).const_mul c).fun_neg).exp.congr_deriv ?_
        ring
      refine (((((d1.const_mul ((a0 - θ ^ 2) / κ)).fun_add ((hasDerivAt_id' s).const_mul ((a1 - θ * w) * exp (-(κ * t))))).fun_sub ((d2 p).const_mul (a2 / p * exp (-(κ * t))))).fun_add
        ((hasDerivAt_id' s).const_mul (θ ^ 2))).fun_sub ((d2 κ).const_mul (θ * w / κ))).congr_deriv ?_
      have e1 : exp (-(κ * (t - s))) * exp (-(κ * s)) = exp (-(κ * t)) := by rw [← exp_add]; congr 1; ring
      have e2 : exp (-(κ * (t - s))) * exp (-(q * s)) = exp (-(κ * t)) * exp (-(p * s)) := by rw [← exp_add, ← exp_add, hpq]; congr 1; ring
      generalize exp (-(κ * (t - s))) = A at *
      generalize exp (-(κ * s)) = b at *
      generalize exp (-(κ * t)) = c at *
      generalize exp (-(q * s)) = d at *
      generalize exp (-(p * s)) = f at *
      have : (a0 - θ ^ 2) / κ * (A * κ) + (a1 - θ * w) * c * 1 - a2 / p * c * (f * -p) + θ ^ 2 * 1 - θ * w / κ * (b * -κ) = (a0 - θ ^ 2) * A + (a1 - θ * w) * c + a2 * (c * f) + θ ^ 2 + θ * w * b := by
        field_simp
        ring
      rw [this, ← e2, ← e1]
      ring) (Continuous.intervalIntegrable (by fun_prop) _ _)
  rw [ft]
  have e2 : exp (-(q * t)) = exp (-(κ * t)) * exp (-(p * t)) := by rw [← exp_add, hpq]; congr 1; ring
  simp only [sub_self, mul_zero, neg_zero, exp_zero, sub_zero]
  rw [e2]
  generalize exp (-(κ * t)) = c at *
  generalize exp (-(p * t)) = f at *
  field_simp
  ring

lemma outer_int (hκ : κ ≠ 0) {q : ℝ} (hq0 : q ≠ 0) (c0 c1 c2 c3 c4 T : ℝ) :
    ∫ t in (0:ℝ)..T, (c0 + c1 * t + c2 * exp (-(κ * t)) + c3 * t * exp (-(κ * t)) + c4 * exp (-(q * t))) =
      c0 * T + c1 * T ^ 2 / 2 + c2 * (1 - exp (-(κ * T))) / κ + c3 * (1 - exp (-(κ * T)) * (1 + κ * T)) / κ ^ 2 + c4 * (1 - exp (-(q * T))) / q := by
  have ft := intervalIntegral.integral_eq_sub_of_hasDerivAt (a := 0) (b := T)
    (f := fun t => c0 * t + c1 / 2 * t ^ 2 - c2 / κ * exp (-(κ * t)) - c3 / κ ^ 2 * (exp (-(κ * t)) * (1 + κ * t)) - c4 / q * exp (-(q * t)))
    (f' := fun t => c0 + c1 * t + c2 * exp (-(κ * t)) + c3 * t * exp (-(κ * t)) + c4 * exp (-(q * t))) (fun s _ => by
      have d2 : ∀ c : ℝ, HasDerivAt (fun s => exp (-(c * s))) (exp (-(c * s)) * -c) s := fun c => by
        refine (((hasDerivAt_id' s).const_mul c).fun_neg).exp.congr_deriv ?_
        ring
      refine ((((((hasDerivAt_id' s).const_mul c0).fun_add (((hasDerivAt_id' s).fun_pow 2).const_mul (c1 / 2))).fun_sub ((d2 κ).const_mul (c2 / κ))).fun_sub
        (((d2 κ).fun_mul (((hasDerivAt_id' s).const_mul κ).const_add 1)).const_mul (c3 / κ ^ 2))).fun_sub ((d2 q).const_mul (c4 / q))).congr_deriv ?_
      generalize exp (-(κ * s)) = b at *
      generalize exp (-(q * s)) = d at *
      norm_num
      field_simp
      ring) (Continuous.intervalIntegrable (by fun_prop) _ _)
  rw [ft]
  simp only [mul_zero, neg_zero, exp_zero]
  field_simp
  ring

/-- **C121.** `GarchUncorrBaroneAdesi2004.avgvar_mv(texp, var0)` returns the mean and the variance of the time average of the variance over `[0, texp]`, for every solution of
`dv = mr(theta - v) dt + vov v dB` started from `var0`.  The closed form divides by `vov² - mr` and `vov² - 2 mr`, hence the two hypotheses. -/
theorem avgvar_mv_correct (m : GarchDiff) {var0 T : ℝ} (hm : m.mr ≠ 0) (h1 : m.vov ^ 2 ≠ m.mr) (h2 : m.vov ^ 2 ≠ 2 * m.mr) (hT : 0 < T)
    (h : Spec.IsGarch P B V m.mr m.theta m.vov var0) :
    ∫ ω, (1 / T * ∫ s in (0:ℝ)..T, V s.toNNReal ω) ∂P = (m.avgvarMv T var0).1 ∧
    variance (fun ω => 1 / T * ∫ s in (0:ℝ)..T, V s.toNNReal ω) P = (m.avgvarMv T var0).2 := by
  haveI := BmExp.isProb h.bm
  obtain ⟨i1, e1⟩ := int_mean h hm hT.le
  obtain ⟨p, hp⟩ : ∃ p, p = m.mr - m.vov ^ 2 := ⟨_, rfl⟩
  obtain ⟨q, hq⟩ : ∃ q, q = 2 * m.mr - m.vov ^ 2 := ⟨_, rfl⟩
  have hp0 : p ≠ 0 := by rw [hp]; exact sub_ne_zero.2 (Ne.symm h1)
  have hq0 : q ≠ 0 := by rw [hq]; exact sub_ne_zero.2 (Ne.symm h2)
  have hpq : q = m.mr + p := by rw [hp, hq]; ring
  obtain ⟨i2, e2⟩ := int_second h hm hp hq hp0 hq0 hT.le
  have hx : m.mr * T ≠ 0 := mul_ne_zero hm hT.ne'
  have M1 : ∫ ω, (1 / T * ∫ s in (0:ℝ)..T, V s.toNNReal ω) ∂P = (m.avgvarMv T var0).1 := by
    rw [integral_const_mul, e1]
    simp only [avgvarMv]
    rw [Ousv.exprel_neg' hx]
    field_simp
  refine ⟨M1, ?_⟩
  have mL : MemLp (fun ω => 1 / T * ∫ s in (0:ℝ)..T, V s.toNNReal ω) 2 P := by
    have : MemLp (fun ω => ∫ s in (0:ℝ)..T, V s.toNNReal ω) 2 P :=
      (memLp_two_iff_integrable_sq i1.aestronglyMeasurable).2 i2
    exact this.const_mul _
  rw [variance_eq_sub mL, M1]
  have sq : ∫ ω, ((fun ω => 1 / T * ∫ s in (0:ℝ)..T, V s.toNNReal ω) ^ 2) ω ∂P = 1 / T ^ 2 * ∫ ω, (∫ s in (0:ℝ)..T, V s.toNNReal ω) ^ 2 ∂P := by
    rw [← integral_const_mul]
    refine integral_congr_ae (ae_of_all _ fun ω => ?_)
    simp only [Pi.pow_apply]
    ring
  rw [sq, e2]
  simp_rw [inner_int hm hpq hp0]
  obtain ⟨a0, ha0⟩ : ∃ a0, a0 = 2 * m.mr * m.theta ^ 2 / q := ⟨_, rfl⟩
  obtain ⟨a1, ha1⟩ : ∃ a1, a1 = 2 * m.mr * m.theta * (var0 - m.theta) / p := ⟨_, rfl⟩
  have e3 : ∀ t : ℝ, (2 * m.mr * m.theta ^ 2 / q - m.theta ^ 2) * (1 - exp (-(m.mr * t))) / m.mr + (2 * m.mr * m.theta * (var0 - m.theta) / p - m.theta * (var0 - m.theta)) * t * exp (-(m.mr * t)) +
      (var0 ^ 2 - 2 * m.mr * m.theta * (var0 - m.theta) / p - 2 * m.mr * m.theta ^ 2 / q) * (exp (-(m.mr * t)) - exp (-(q * t))) / p + m.theta ^ 2 * t + m.theta * (var0 - m.theta) * (1 - exp (-(m.mr * t))) / m.mr =
      ((a0 - m.theta ^ 2) / m.mr + m.theta * (var0 - m.theta) / m.mr) + m.theta ^ 2 * t + (-(a0 - m.theta ^ 2) / m.mr + (var0 ^ 2 - a1 - a0) / p - m.theta * (var0 - m.theta) / m.mr) * exp (-(m.mr * t)) +
        (a1 - m.theta * (var0 - m.theta)) * t * exp (-(m.mr * t)) + -((var0 ^ 2 - a1 - a0) / p) * exp (-(q * t)) := fun t => by
    rw [← ha0, ← ha1]
    ring
  simp_rw [e3]
  rw [outer_int hm hq0]
  simp only [avgvarMv]
  rw [Ousv.exprel_neg' hx]
  have t1 : m.vov * m.vov - m.mr = -p := by rw [hp]; ring
  have t2 : m.vov * m.vov - 2 * m.mr = -q := by rw [hq]; ring
  have t3 : m.vov * m.vov = m.mr - p := by rw [hp]; ring
  have t4 : exp (-q * T) = exp (-(q * T)) := by rw [neg_mul]
  rw [t1, t2, t3, t4, ha0, ha1]
  generalize exp (-(m.mr * T)) = E
  generalize exp (-(q * T)) = Q
  have hT0 := hT.ne'
  clear e3 ha0 ha1 sq mL M1 e1 e2 i1 i2 t1 t2 t3 t4 hx h h1 h2 hp hq
  generalize m.mr = κ at *
  generalize m.theta = θ at *
  field_simp
  subst hpq
  ring

end GarchDiff

end PyFENG
