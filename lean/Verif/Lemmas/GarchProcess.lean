import Verif.Lemmas.BmExp
import Verif.Lemmas.OuProcess

/-!
# The GARCH diffusion
-/

namespace PyFENG

open MeasureTheory ProbabilityTheory Real Set
open scoped NNReal ENNReal

/-- Specification: `V` solves the GARCH diffusion `dV = κ(θ - V) dt + ξ V dB`, `V_0 = v0`, written for the logarithm,
`d log V = (κθ/V - κ - ξ²/2) dt + ξ dB`, where the noise is additive. -/
structure Spec.IsGarch {Ω : Type*} [MeasurableSpace Ω] (P : Measure Ω) (B V : ℝ≥0 → Ω → ℝ) (κ θ ξ v0 : ℝ) : Prop where
  bm : Spec.IsBM P B
  v0pos : 0 < v0
  pos : ∀ t ω, 0 < V t ω
  cont : ∀ ω, Continuous fun t => V t ω
  sde : ∀ (t : ℝ≥0) ω, log (V t ω) = log v0 + (∫ s in (0:ℝ)..t, (κ * θ / V s.toNNReal ω - κ - ξ ^ 2 / 2)) + ξ * B t ω

namespace GarchP

variable {Ω : Type*} [mΩ : MeasurableSpace Ω] {P : Measure Ω} {B V : ℝ≥0 → Ω → ℝ} {κ θ ξ v0 : ℝ}

/-- The explicit solution. -/
noncomputable def sol (B : ℝ≥0 → Ω → ℝ) (κ θ ξ v0 : ℝ) (t : ℝ≥0) (ω : Ω) : ℝ :=
  exp (ξ * B t ω - (κ + ξ ^ 2 / 2) * t) * (v0 + κ * θ * Spec.expFunctional B (-ξ) (κ + ξ ^ 2 / 2) t ω)

lemma eq_sol (h : Spec.IsGarch P B V κ θ ξ v0) (t : ℝ≥0) (ω : Ω) : V t ω = sol B κ θ ξ v0 t ω := by
  have hc : Continuous fun s : ℝ => V s.toNNReal ω := (h.cont ω).comp continuous_real_toNNReal
  have hci : Continuous fun s : ℝ => κ * θ / V s.toNNReal ω := continuous_const.div hc fun s => (h.pos _ ω).ne'
  set D : ℝ → ℝ := fun t => ∫ s in (0:ℝ)..t, κ * θ / V s.toNNReal ω with hD
  have hd : ∀ s, HasDerivAt D (κ * θ / V s.toNNReal ω) s := fun s =>
    intervalIntegral.integral_hasDerivAt_right (hci.intervalIntegrable _ _) (hci.stronglyMeasurableAtFilter _ _) hci.continuousAt
  have key : ∀ s : ℝ, 0 ≤ s → V s.toNNReal ω = v0 * exp (D s) * exp (ξ * B s.toNNReal ω - (κ + ξ ^ 2 / 2) * s) := fun s hs => by
    have := h.sde s.toNNReal ω
    rw [coe_toNNReal _ hs] at this
    have e : ∫ u in (0:ℝ)..s, (κ * θ / V u.toNNReal ω - κ - ξ ^ 2 / 2) = D s - (κ + ξ ^ 2 / 2) * s := by
      have : ∀ u : ℝ, κ * θ / V u.toNNReal ω - κ - ξ ^ 2 / 2 = κ * θ / V u.toNNReal ω - (κ + ξ ^ 2 / 2) := fun u => by ring
      simp_rw [this]
      rw [intervalIntegral.integral_sub (hci.intervalIntegrable _ _) (by simp)]
      simp [hD]
      ring
    rw [e] at this
    rw [← exp_log (h.pos s.toNNReal ω), this, exp_add, exp_add, exp_log h.v0pos]
    rw [mul_assoc, mul_assoc, ← exp_add, ← exp_add]
    congr 2
    ring
  have ft := intervalIntegral.integral_eq_sub_of_hasDerivAt (a := 0) (b := (t:ℝ)) (f := fun s => v0 * exp (D s))
    (f' := fun s => κ * θ * exp (-ξ * B s.toNNReal ω + (κ + ξ ^ 2 / 2) * s)) (fun s hs => by
      rw [uIcc_of_le (NNReal.coe_nonneg t)] at hs
      refine ((hd s).exp.const_mul v0).congr_deriv ?_
      have h1 := key s hs.1
      have h2 := (h.pos s.toNNReal ω).ne'
      have e : exp (-ξ * B s.toNNReal ω + (κ + ξ ^ 2 / 2) * s) = (exp (ξ * B s.toNNReal ω - (κ + ξ ^ 2 / 2) * s))⁻¹ := by
        rw [← exp_neg]; congr 1; ring
      rw [e]
      have h3 := (exp_pos (ξ * B s.toNNReal ω - (κ + ξ ^ 2 / 2) * s)).ne'
      generalize exp (ξ * B s.toNNReal ω - (κ + ξ ^ 2 / 2) * s) = G at *
      rw [mul_div_assoc', mul_div_assoc', eq_comm, eq_div_iff h2, h1]
      field_simp) (((BmExp.continuous_path h.bm (-ξ) (κ + ξ ^ 2 / 2) ω).const_mul (κ * θ)).intervalIntegrable _ _)
  rw [intervalIntegral.integral_const_mul] at ft
  have hD0 : D 0 = 0 := intervalIntegral.integral_same
  rw [hD0, exp_zero, mul_one] at ft
  have := key t t.2
  rw [toNNReal_coe] at this
  rw [this, sol, Spec.expFunctional, ft]
  ring

/-- The explicit solution solves the equation when `κθ ≥ 0`. -/
theorem isGarch (hB : Spec.IsBM P B) (hv : 0 < v0) (hk : 0 ≤ κ * θ) : Spec.IsGarch P B (sol B κ θ ξ v0) κ θ ξ v0 := by
  set μ := κ + ξ ^ 2 / 2 with hμ
  have hA : ∀ (t : ℝ) ω, 0 ≤ t → 0 < v0 + κ * θ * Spec.expFunctional B (-ξ) μ t ω := fun t ω ht => by
    have := BmExp.A_nonneg hB (-ξ) μ ht ω
    positivity
  have hpos : ∀ (t : ℝ≥0) ω, 0 < sol B κ θ ξ v0 t ω := fun t ω => mul_pos (exp_pos _) (hA t ω t.2)
  have hcont : ∀ ω, Continuous fun t => sol B κ θ ξ v0 t ω := fun ω => by
    have h1 : Continuous fun t : ℝ≥0 => Spec.expFunctional B (-ξ) μ t ω := (BmExp.continuous_A hB (-ξ) μ ω).comp continuous_subtype_val
    have h2 := hB.cont ω
    have h3 : Continuous fun t : ℝ≥0 => exp (ξ * B t ω - μ * t) := ((h2.const_mul ξ).sub (continuous_subtype_val.const_mul μ)).rexp
    exact h3.mul (continuous_const.add (h1.const_mul (κ * θ)))
  refine ⟨hB, hv, hpos, hcont, fun t ω => ?_⟩
  have hci : Continuous fun s : ℝ => κ * θ / sol B κ θ ξ v0 s.toNNReal ω := continuous_const.div ((hcont ω).comp continuous_real_toNNReal) fun s => (hpos _ ω).ne'
  have ft := intervalIntegral.integral_eq_sub_of_hasDerivAt (a := 0) (b := (t:ℝ)) (f := fun s => log (v0 + κ * θ * Spec.expFunctional B (-ξ) μ s ω))
    (f' := fun s => κ * θ / sol B κ θ ξ v0 s.toNNReal ω) (fun s hs => by
      rw [uIcc_of_le (NNReal.coe_nonneg t)] at hs
      have := hA s ω hs.1
      refine ((((BmExp.hasDerivAt_A hB (-ξ) μ ω s).const_mul (κ * θ)).const_add v0).log this.ne').congr_deriv ?_
      rw [sol, coe_toNNReal _ hs.1, ← hμ]
      have e : exp (-ξ * B s.toNNReal ω + μ * s) = (exp (ξ * B s.toNNReal ω - μ * s))⁻¹ := by rw [← exp_neg]; congr 1; ring
      rw [e]
      have h3 := (exp_pos (ξ * B s.toNNReal ω - μ * s)).ne'
      generalize exp (ξ * B s.toNNReal ω - μ * s) = G at *
      field_simp) (hci.intervalIntegrable _ _)
  have h0 : Spec.expFunctional B (-ξ) μ 0 ω = 0 := intervalIntegral.integral_same
  rw [h0, mul_zero, add_zero] at ft
  have e : ∫ u in (0:ℝ)..t, (κ * θ / sol B κ θ ξ v0 u.toNNReal ω - κ - ξ ^ 2 / 2) = (∫ u in (0:ℝ)..t, κ * θ / sol B κ θ ξ v0 u.toNNReal ω) - μ * t := by
    have : ∀ u : ℝ, κ * θ / sol B κ θ ξ v0 u.toNNReal ω - κ - ξ ^ 2 / 2 = κ * θ / sol B κ θ ξ v0 u.toNNReal ω - μ := fun u => by rw [hμ]; ring
    simp_rw [this]
    rw [intervalIntegral.integral_sub (hci.intervalIntegrable _ _) (by simp)]
    simp
    ring
  rw [e, ft, sol, log_mul (exp_pos _).ne' (hA t ω t.2).ne', log_exp]
  ring

section Moments

variable (h : Spec.IsGarch P B V κ θ ξ v0)
include h

lemma meas (t : ℝ≥0) : Measurable (V t) := by
  have : V t = sol B κ θ ξ v0 t := by ext ω; exact eq_sol h t ω
  rw [this]
  have h1 := BmExp.measurable_A h.bm (-ξ) (κ + ξ ^ 2 / 2) t.2
  have h2 := h.bm.meas t
  exact ((h2.const_mul ξ).sub_const _).exp.mul (measurable_const.add (h1.const_mul (κ * θ)))

lemma meas_past (t : ℝ≥0) : Measurable[MeasurableSpace.comap (fun ω (u : Iic t) => B u ω) inferInstance] (V t) := by
  have : V t = sol B κ θ ξ v0 t := by ext ω; exact eq_sol h t ω
  rw [this]
  have h1 := BmExp.measurable_A_past h.bm (-ξ) (κ + ξ ^ 2 / 2) t
  have h2 := BmExp.measurable_B_past h.bm t
  exact ((h2.const_mul ξ).sub_const _).exp.mul (measurable_const.add (h1.const_mul (κ * θ)))

lemma mean (hκ : κ ≠ 0) (t : ℝ≥0) : Integrable (V t) P ∧ ∫ ω, V t ω ∂P = θ + (v0 - θ) * exp (-(κ * t)) := by
  set μ := κ + ξ ^ 2 / 2 with hμ
  obtain ⟨i0, e0⟩ := BmExp.integral_mom h.bm (-ξ) μ 0 ξ t
  obtain ⟨i1, e1⟩ := BmExp.integral_mom h.bm (-ξ) μ 1 ξ t
  have e : V t = fun ω => v0 * exp (-(μ * t)) * (Spec.expFunctional B (-ξ) μ t ω ^ 0 * exp (ξ * B t ω)) +
      κ * θ * exp (-(μ * t)) * (Spec.expFunctional B (-ξ) μ t ω ^ 1 * exp (ξ * B t ω)) := by
    ext ω
    rw [eq_sol h, sol, sub_eq_add_neg, exp_add]
    ring
  rw [e]
  refine ⟨(i0.const_mul _).add (i1.const_mul _), ?_⟩
  rw [integral_add (i0.const_mul _) (i1.const_mul _), integral_const_mul, integral_const_mul, e0, e1, BmExp.mom_succ]
  simp only [BmExp.mom]
  have ei : ∫ s in (0:ℝ)..t, exp ((ξ + -ξ) ^ 2 * s / 2) * exp ((μ - ξ ^ 2 / 2) * s) = (exp (κ * t) - 1) / κ := by
    have : ∀ s : ℝ, exp ((ξ + -ξ) ^ 2 * s / 2) * exp ((μ - ξ ^ 2 / 2) * s) = exp (κ * s) * 1 := fun s => by
      rw [← exp_add, mul_one, hμ]; congr 1; ring
    simp_rw [this]
    rw [Ou.int_exp hκ]
    simp
  rw [ei]
  have e3 : exp (-(μ * t)) * exp (ξ ^ 2 * t / 2) = exp (-(κ * t)) := by rw [← exp_add, hμ]; congr 1; ring
  have e4 : exp (-(κ * t)) * exp (κ * t) = 1 := by rw [← exp_add]; simp
  generalize exp (-(μ * t)) = a at *
  generalize exp (ξ ^ 2 * t / 2) = b at *
  generalize exp (-(κ * t)) = c at *
  generalize exp (κ * t) = d at *
  rw [← e3] at e4 ⊢
  push_cast
  field_simp
  linear_combination θ * e4

lemma second (hκ : κ ≠ 0) {p q : ℝ} (hp : p = κ - ξ ^ 2) (hq : q = 2 * κ - ξ ^ 2) (hp0 : p ≠ 0) (hq0 : q ≠ 0) (t : ℝ≥0) :
    Integrable (fun ω => V t ω ^ 2) P ∧ ∫ ω, V t ω ^ 2 ∂P =
      2 * κ * θ ^ 2 / q + 2 * κ * θ * (v0 - θ) / p * exp (-(κ * t)) + (v0 ^ 2 - 2 * κ * θ * (v0 - θ) / p - 2 * κ * θ ^ 2 / q) * exp (-(q * t)) := by
  set μ := κ + ξ ^ 2 / 2 with hμ
  obtain ⟨i0, e0⟩ := BmExp.integral_mom h.bm (-ξ) μ 0 (2 * ξ) t
  obtain ⟨i1, e1⟩ := BmExp.integral_mom h.bm (-ξ) μ 1 (2 * ξ) t
  obtain ⟨i2, e2⟩ := BmExp.integral_mom h.bm (-ξ) μ 2 (2 * ξ) t
  have e : (fun ω => V t ω ^ 2) = fun ω => (v0 ^ 2 * exp (-(2 * μ * t)) * (Spec.expFunctional B (-ξ) μ t ω ^ 0 * exp (2 * ξ * B t ω)) +
      2 * v0 * (κ * θ) * exp (-(2 * μ * t)) * (Spec.expFunctional B (-ξ) μ t ω ^ 1 * exp (2 * ξ * B t ω))) +
      (κ * θ) ^ 2 * exp (-(2 * μ * t)) * (Spec.expFunctional B (-ξ) μ t ω ^ 2 * exp (2 * ξ * B t ω)) := by
    ext ω
    rw [eq_sol h, sol, mul_pow, ← exp_nat_mul]
    have : exp (((2:ℕ):ℝ) * (ξ * B t ω - (κ + ξ ^ 2 / 2) * t)) = exp (-(2 * μ * t)) * exp (2 * ξ * B t ω) := by
      rw [← exp_add, hμ]; congr 1; push_cast; ring
    rw [this]
    ring
  have i01 : Integrable (fun ω => v0 ^ 2 * exp (-(2 * μ * t)) * (Spec.expFunctional B (-ξ) μ t ω ^ 0 * exp (2 * ξ * B t ω)) +
      2 * v0 * (κ * θ) * exp (-(2 * μ * t)) * (Spec.expFunctional B (-ξ) μ t ω ^ 1 * exp (2 * ξ * B t ω))) P := (i0.const_mul (v0 ^ 2 * exp (-(2 * μ * t)))).add (i1.const_mul (2 * v0 * (κ * θ) * exp (-(2 * μ * t))))
  rw [e]
  refine ⟨i01.add (i2.const_mul _), ?_⟩
  rw [integral_add i01 (i2.const_mul _), integral_add (i0.const_mul _) (i1.const_mul _), integral_const_mul, integral_const_mul, integral_const_mul, e0, e1, e2]
  have m1 : ∀ s : ℝ, BmExp.mom (-ξ) μ 1 (2 * ξ + -ξ) s = exp (ξ ^ 2 * s / 2) * ((exp (κ * s) - 1) / κ) := fun s => by
    rw [BmExp.mom_succ]
    have : ∀ u : ℝ, BmExp.mom (-ξ) μ 0 (2 * ξ + -ξ + -ξ) u * exp ((μ - (2 * ξ + -ξ) ^ 2 / 2) * u) = exp (κ * u) * 1 := fun u => by
      rw [BmExp.mom, ← exp_add, mul_one, hμ]; congr 1; ring
    simp_rw [this]
    rw [Ou.int_exp hκ, show (2 * ξ + -ξ) = ξ by ring]
    simp
  have m1' : BmExp.mom (-ξ) μ 1 (2 * ξ) t = exp (2 * ξ ^ 2 * t) * ((exp (p * t) - 1) / p) := by
    rw [BmExp.mom_succ]
    have : ∀ u : ℝ, BmExp.mom (-ξ) μ 0 (2 * ξ + -ξ) u * exp ((μ - (2 * ξ) ^ 2 / 2) * u) = exp (p * u) * 1 := fun u => by
      rw [BmExp.mom, ← exp_add, mul_one, hμ, hp]; congr 1; ring
    simp_rw [this]
    rw [Ou.int_exp hp0, show (2 * ξ) ^ 2 * (t:ℝ) / 2 = 2 * ξ ^ 2 * t by ring]
    simp
  have m2 : BmExp.mom (-ξ) μ 2 (2 * ξ) t = 2 * exp (2 * ξ ^ 2 * t) / κ * ((exp (q * t) - 1) / q - (exp (p * t) - 1) / p) := by
    rw [BmExp.mom_succ]
    have : ∀ u : ℝ, BmExp.mom (-ξ) μ 1 (2 * ξ + -ξ) u * exp ((μ - (2 * ξ) ^ 2 / 2) * u) = exp (q * u) * (1 / κ) - exp (p * u) * (1 / κ) := fun u => by
      rw [m1]
      have a1 : exp (ξ ^ 2 * u / 2) * exp ((μ - (2 * ξ) ^ 2 / 2) * u) = exp (p * u) := by rw [← exp_add, hμ, hp]; congr 1; ring
      have a2 : exp (p * u) * exp (κ * u) = exp (q * u) := by rw [← exp_add, hp, hq]; congr 1; ring
      rw [← a2, ← a1]
      ring
    simp_rw [this]
    rw [intervalIntegral.integral_sub ((by fun_prop : Continuous fun u => exp (q * u) * (1 / κ)).intervalIntegrable _ _) ((by fun_prop : Continuous fun u => exp (p * u) * (1 / κ)).intervalIntegrable _ _),
      Ou.int_exp hp0, Ou.int_exp hq0, show (2 * ξ) ^ 2 * (t:ℝ) / 2 = 2 * ξ ^ 2 * t by ring]
    simp
    ring
  have m0 : BmExp.mom (-ξ) μ 0 (2 * ξ) t = exp (2 * ξ ^ 2 * t) := by rw [BmExp.mom]; congr 1; ring
  rw [m0, m1', m2]
  have a1 : exp (-(2 * μ * t)) * exp (2 * ξ ^ 2 * t) = exp (-(q * t)) := by rw [← exp_add, hμ, hq]; congr 1; ring
  have a2 : exp (-(q * t)) * exp (p * t) = exp (-(κ * t)) := by rw [← exp_add, hp, hq]; congr 1; ring
  have a3 : exp (-(q * t)) * exp (q * t) = 1 := by rw [← exp_add]; simp
  clear_value μ
  clear e i01 i0 i1 i2 e0 e1 e2 m0 m1 m1' m2
  generalize exp (-(2 * μ * t)) = A at *
  generalize exp (2 * ξ ^ 2 * t) = b at *
  generalize exp (-(κ * t)) = c at *
  generalize exp (-(q * t)) = d at *
  generalize exp (p * t) = f at *
  generalize exp (q * t) = g at *
  rw [← a2]
  have l : v0 ^ 2 * A * b + 2 * v0 * (κ * θ) * A * (b * ((f - 1) / p)) + (κ * θ) ^ 2 * A * (2 * b / κ * ((g - 1) / q - (f - 1) / p)) =
      (A * b) * v0 ^ 2 + 2 * v0 * (κ * θ) * ((A * b) * f - A * b) / p + 2 * κ * θ ^ 2 * (((A * b) * g - A * b) / q - ((A * b) * f - A * b) / p) := by
    field_simp
  rw [l, a1, a3]
  field_simp
  ring

omit h in
/-- A past functional times a later growth factor. -/
lemma past_mul (hB : Spec.IsBM P B) {s t : ℝ≥0} (hst : s ≤ t) {f : Ω → ℝ} (hf : Measurable[MeasurableSpace.comap (fun ω (u : Iic s) => B u ω) inferInstance] f)
    (h0 : ∀ ω, 0 ≤ f ω) (hi : Integrable f P) (b : ℝ) :
    Integrable (fun ω => f ω * exp (b * (B t ω - B s ω))) P ∧ ∫ ω, f ω * exp (b * (B t ω - B s ω)) ∂P = (∫ ω, f ω ∂P) * exp (b ^ 2 * (t - s) / 2) := by
  have hm : Measurable fun ω => f ω * exp (b * (B t ω - B s ω)) :=
    (hf.mono (BmExp.past_le hB s) le_rfl).mul ((((hB.meas t).sub (hB.meas s)).const_mul b).exp)
  have hn : ∀ ω, 0 ≤ f ω * exp (b * (B t ω - B s ω)) := fun ω => mul_nonneg (h0 ω) (exp_pos _).le
  have hl := BmExp.lintegral_past_mul hB hst (f := fun ω => ENNReal.ofReal (f ω)) hf.ennreal_ofReal b
  simp_rw [← ENNReal.ofReal_mul (h0 _)] at hl
  rw [← ofReal_integral_eq_lintegral_ofReal hi (ae_of_all _ h0), ← ENNReal.ofReal_mul (integral_nonneg h0)] at hl
  have hi2 : Integrable (fun ω => f ω * exp (b * (B t ω - B s ω))) P := by
    refine ⟨hm.aestronglyMeasurable, ?_⟩
    rw [hasFiniteIntegral_iff_ofReal (Filter.Eventually.of_forall hn), hl]
    exact ENNReal.ofReal_lt_top
  refine ⟨hi2, ?_⟩
  rw [integral_eq_lintegral_of_nonneg_ae (Filter.Eventually.of_forall hn) hm.aestronglyMeasurable, hl,
    ENNReal.toReal_ofReal (mul_nonneg (integral_nonneg h0) (exp_pos _).le)]

lemma cross (hκ : κ ≠ 0) {s t : ℝ≥0} (hst : s ≤ t) (h2 : Integrable (fun ω => V s ω ^ 2) P) :
    ∫ ω, V s ω * V t ω ∂P = exp (-(κ * (t - s))) * (∫ ω, V s ω ^ 2 ∂P) + θ * (1 - exp (-(κ * (t - s)))) * ∫ ω, V s ω ∂P := by
  haveI := BmExp.isProb h.bm
  set μ := κ + ξ ^ 2 / 2 with hμ
  have hst' : (s:ℝ) ≤ t := by exact_mod_cast hst
  have hsub : ((t - s : ℝ≥0) : ℝ) = t - s := NNReal.coe_sub hst
  -- the decomposition of the path
  have dec : ∀ ω, V s ω * V t ω = exp (-(μ * (t - s))) * (V s ω ^ 2 * exp (ξ * (B t ω - B s ω))) +
      κ * θ * ∫ u in (0:ℝ)..(t - s : ℝ), exp (-(μ * (t - s - u))) * (V s ω * exp (ξ * (B t ω - B (s + u.toNNReal) ω))) := fun ω => by
    have hc := BmExp.continuous_path h.bm (-ξ) μ ω
    have hA : Spec.expFunctional B (-ξ) μ t ω = Spec.expFunctional B (-ξ) μ s ω + ∫ u in (0:ℝ)..(t - s : ℝ), exp (-ξ * B (s + u.toNNReal) ω + μ * (s + u)) := by
      unfold Spec.expFunctional
      rw [← intervalIntegral.integral_add_adjacent_intervals (hc.intervalIntegrable 0 s) (hc.intervalIntegrable s t)]
      congr 1
      have := intervalIntegral.integral_comp_add_left (a := 0) (b := (t - s : ℝ)) (fun u => exp (-ξ * B u.toNNReal ω + μ * u)) (s:ℝ)
      rw [add_zero, add_sub_cancel] at this
      rw [← this]
      refine intervalIntegral.integral_congr fun u hu => ?_
      rw [uIcc_of_le (sub_nonneg.2 hst')] at hu
      rw [Real.toNNReal_add (NNReal.coe_nonneg s) hu.1, Real.toNNReal_coe]
    have hs := eq_sol h s ω
    have ht := eq_sol h t ω
    rw [sol, ← hμ] at hs ht
    rw [hA] at ht
    have e1 : ∀ u : ℝ, exp (-(μ * (t - s - u))) * (V s ω * exp (ξ * (B t ω - B (s + u.toNNReal) ω))) =
        V s ω * exp (ξ * B t ω - μ * t) * exp (-ξ * B (s + u.toNNReal) ω + μ * (s + u)) := fun u => by
      rw [mul_left_comm, mul_assoc, ← exp_add, ← exp_add]; congr 2; ring
    simp_rw [e1]
    rw [intervalIntegral.integral_const_mul]
    generalize (∫ u in (0:ℝ)..(t - s : ℝ), exp (-ξ * B (s + u.toNNReal) ω + μ * (s + u))) = J at *
    have e2 : exp (-(μ * (t - s))) * (V s ω ^ 2 * exp (ξ * (B t ω - B s ω))) = V s ω * exp (ξ * B t ω - μ * t) * (v0 + κ * θ * Spec.expFunctional B (-ξ) μ s ω) := by
      have : exp (ξ * B t ω - μ * t) = exp (-(μ * (t - s))) * exp (ξ * (B t ω - B s ω)) * exp (ξ * B s ω - μ * s) := by
        rw [← exp_add, ← exp_add]; congr 1; ring
      rw [this, sq]
      linear_combination exp (-(μ * (t - s))) * exp (ξ * (B t ω - B s ω)) * V s ω * hs
    rw [e2]
    linear_combination V s ω * ht
  obtain ⟨j1, f1⟩ := past_mul h.bm hst (f := fun ω => V s ω ^ 2) ((meas_past h s).pow_const 2) (fun ω => sq_nonneg _) h2 ξ
  have hm := mean h hκ s
  have pm : ∀ u : ℝ, u ∈ Icc 0 (t - s : ℝ) → Integrable (fun ω => V s ω * exp (ξ * (B t ω - B (s + u.toNNReal) ω))) P ∧
      ∫ ω, V s ω * exp (ξ * (B t ω - B (s + u.toNNReal) ω)) ∂P = (∫ ω, V s ω ∂P) * exp (ξ ^ 2 * (t - s - u) / 2) := fun u hu => by
    have hr : s + u.toNNReal ≤ t := by
      rw [← NNReal.coe_le_coe, NNReal.coe_add, coe_toNNReal _ hu.1]; linarith [hu.2]
    have hmono : MeasurableSpace.comap (fun ω (v : Iic s) => B v ω) inferInstance ≤ MeasurableSpace.comap (fun ω (v : Iic (s + u.toNNReal)) => B v ω) inferInstance := by
      rw [← measurable_iff_comap_le]
      refine @measurable_pi_lambda _ _ _ (MeasurableSpace.comap (fun ω (v : Iic (s + u.toNNReal)) => B v ω) inferInstance) _ _ fun v => ?_
      exact BmExp.eval_comap (fun ω (v : Iic (s + u.toNNReal)) => B v ω) ⟨v.1, mem_Iic.2 ((mem_Iic.1 v.2).trans le_self_add)⟩
    have := past_mul h.bm hr (f := V s) ((meas_past h s).mono hmono le_rfl) (fun ω => (h.pos s ω).le) hm.1 ξ
    rw [NNReal.coe_add, coe_toNNReal _ hu.1] at this
    rw [show (t:ℝ) - s - u = t - (s + u) by ring]
    exact this
  have hfub := Ou.fubini (P := P) (F := fun u ω => exp (-(μ * (t - s - u))) * (V s ω * exp (ξ * (B t ω - B (s + u.toNNReal) ω)))) (t := (t - s : ℝ))
    (C := exp (|μ| * (t - s)) * ((∫ ω, V s ω ∂P) * exp (ξ ^ 2 * (t - s) / 2)))
    (fun u => ((meas h s).mul ((((h.bm.meas t).sub (h.bm.meas _)).const_mul ξ).exp)).const_mul _)
    (fun ω => by
      have c1 : Continuous fun u : ℝ => B (s + u.toNNReal) ω := (h.bm.cont ω).comp (continuous_const.add continuous_real_toNNReal)
      have c2 : Continuous fun u : ℝ => exp (ξ * (B t ω - B (s + u.toNNReal) ω)) := ((continuous_const.sub c1).const_mul ξ).rexp
      exact (by fun_prop : Continuous fun u : ℝ => exp (-(μ * (t - s - u)))).mul (c2.const_mul (V s ω))) (sub_nonneg.2 hst') (fun u hu => by
      obtain ⟨k1, k2⟩ := pm u ⟨hu.1.le, hu.2⟩
      refine ⟨k1.const_mul _, ?_⟩
      have hn : ∀ ω, |exp (-(μ * (t - s - u))) * (V s ω * exp (ξ * (B t ω - B (s + u.toNNReal) ω)))| = exp (-(μ * (t - s - u))) * (V s ω * exp (ξ * (B t ω - B (s + u.toNNReal) ω))) :=
        fun ω => abs_of_nonneg (mul_nonneg (exp_pos _).le (mul_nonneg (h.pos s ω).le (exp_pos _).le))
      simp_rw [hn]
      rw [integral_const_mul, k2]
      have hv : 0 ≤ ∫ ω, V s ω ∂P := integral_nonneg fun ω => (h.pos s ω).le
      have hu2 := hu.2
      have hu1 := hu.1
      refine mul_le_mul (exp_le_exp.2 ?_) (mul_le_mul_of_nonneg_left (exp_le_exp.2 ?_) hv) (mul_nonneg hv (exp_pos _).le) (exp_pos _).le
      · refine (neg_le_abs _).trans ?_
        rw [abs_mul, abs_of_nonneg (by linarith : (0:ℝ) ≤ t - s - u)]
        have : (t:ℝ) - s - u ≤ t - s := by linarith
        gcongr
      · have : (t:ℝ) - s - u ≤ t - s := by linarith
        gcongr)
  have hint : ∫ u in (0:ℝ)..(t - s : ℝ), ∫ ω, exp (-(μ * (t - s - u))) * (V s ω * exp (ξ * (B t ω - B (s + u.toNNReal) ω))) ∂P =
      (1 - exp (-(κ * (t - s)))) / κ * ∫ ω, V s ω ∂P := by
    have : ∀ u ∈ uIcc (0:ℝ) (t - s : ℝ), ∫ ω, exp (-(μ * (t - s - u))) * (V s ω * exp (ξ * (B t ω - B (s + u.toNNReal) ω))) ∂P =
        exp (κ * u) * (exp (-(κ * (t - s))) * ∫ ω, V s ω ∂P) := fun u hu => by
      rw [uIcc_of_le (sub_nonneg.2 hst')] at hu
      rw [integral_const_mul, (pm u hu).2]
      have : exp (-(μ * (t - s - u))) * exp (ξ ^ 2 * (t - s - u) / 2) = exp (κ * u) * exp (-(κ * (t - s))) := by
        rw [← exp_add, ← exp_add, hμ]; congr 1; ring
      linear_combination (∫ ω, V s ω ∂P) * this
    rw [intervalIntegral.integral_congr this, Ou.int_exp hκ]
    have a : exp (-(κ * (t - s))) * exp (κ * (t - s)) = 1 := by rw [← exp_add]; simp
    rw [mul_zero, exp_zero]
    field_simp
    linear_combination (∫ ω, V s ω ∂P) * a
  simp_rw [dec]
  rw [integral_add (j1.const_mul _) (hfub.1.const_mul _), integral_const_mul, integral_const_mul, f1, hfub.2, hint]
  have : exp (-(μ * (t - s))) * exp (ξ ^ 2 * (t - s) / 2) = exp (-(κ * (t - s))) := by rw [← exp_add, hμ]; congr 1; ring
  rw [← this]
  field_simp

end Moments

end GarchP

end PyFENG
