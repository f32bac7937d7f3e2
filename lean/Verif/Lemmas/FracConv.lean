import Mathlib.MeasureTheory.Function.Floor
import Verif.Lemmas.FracInt
import Verif.Props.RoughAdams

/-!
# Convergence of product-integration schemes for fractional integral equations

An a-priori error bound by a Gronwall argument with the exponential weight `exp(λ t)`, where `λ^α` is at least four times the Lipschitz constant.
-/

namespace PyFENG

open Real MeasureTheory intervalIntegral Set Filter Topology

namespace FracConv

/-- The kernel times a bounded measurable function is integrable. -/
lemma kernel_mul_ii {α : ℝ} (hα : 0 < α) {t B : ℝ} (ht : 0 ≤ t) {g : ℝ → ℂ} (hg : Measurable g) (hb : ∀ s, 0 < s → s ≤ t → ‖g s‖ ≤ B) :
    IntervalIntegrable (fun s => (((t - s) ^ (α - 1) : ℝ) : ℂ) * g s) volume 0 t := by
  have hk := FracInt.ofReal_ii (FracInt.kernel_integrable hα t 0 t)
  rw [intervalIntegrable_iff, uIoc_of_le ht] at hk ⊢
  exact hk.mul_bdd (c := B) hg.aestronglyMeasurable ((ae_restrict_iff' measurableSet_Ioc).2 (ae_of_all _ fun s hs => hb s hs.1 hs.2))

/-- The fractional integral of an exponential. -/
lemma frac_exp {α l : ℝ} (hα : 0 < α) (hl : 0 < l) {t : ℝ} (ht : 0 ≤ t) :
    ∫ s in (0:ℝ)..t, (t - s) ^ (α - 1) * exp (l * s) ≤ exp (l * t) * (Gamma α / l ^ α) := by
  have e1 : ∫ s in (0:ℝ)..t, (t - s) ^ (α - 1) * exp (l * s) = ∫ x in (0:ℝ)..t, x ^ (α - 1) * exp (l * (t - x)) := by
    have := integral_comp_sub_left (a := 0) (b := t) (fun x => x ^ (α - 1) * exp (l * (t - x))) t
    simp only [sub_sub_cancel, sub_self, sub_zero] at this
    exact this
  have e2 : ∫ x in (0:ℝ)..t, x ^ (α - 1) * exp (l * (t - x)) = exp (l * t) * ∫ x in (0:ℝ)..t, x ^ (α - 1) * exp (-(l * x)) := by
    rw [← intervalIntegral.integral_const_mul]
    congr 1
    funext x
    rw [show l * (t - x) = l * t + -(l * x) by ring, exp_add]; ring
  rw [e1, e2]
  refine mul_le_mul_of_nonneg_left ?_ (exp_pos _).le
  have hG := integral_rpow_mul_exp_neg_mul_Ioi hα hl
  have hval : (1 / l) ^ α * Gamma α = Gamma α / l ^ α := by rw [one_div, inv_rpow hl.le]; ring
  have hint : IntegrableOn (fun x => x ^ (α - 1) * exp (-(l * x))) (Ioi 0) := by
    refine Integrable.of_integral_ne_zero ?_
    rw [hG, hval]
    have := Gamma_pos_of_pos hα
    positivity
  rw [integral_of_le ht, ← hval, ← hG]
  refine setIntegral_mono_set hint ?_ (Ioc_subset_Ioi_self.eventuallyLE)
  exact (ae_restrict_iff' measurableSet_Ioi).2 (ae_of_all _ fun x hx => by
    have hx : (0:ℝ) < x := hx
    show (0:ℝ) ≤ _
    positivity)

/-- Fractional integrals of close functions are close. -/
lemma fracInt_close {α l A B t : ℝ} (hα : 0 < α) (hl : 0 < l) (hA : 0 ≤ A) (ht : 0 ≤ t) {f1 f2 : ℝ → ℂ}
    (h1 : IntervalIntegrable (fun s => (((t - s) ^ (α - 1) : ℝ) : ℂ) * f1 s) volume 0 t)
    (h2 : IntervalIntegrable (fun s => (((t - s) ^ (α - 1) : ℝ) : ℂ) * f2 s) volume 0 t)
    (hb : ∀ s, 0 < s → s < t → ‖f1 s - f2 s‖ ≤ A * exp (l * s) + B) :
    ‖Spec.fracInt α f1 t - Spec.fracInt α f2 t‖ ≤ A * exp (l * t) / l ^ α + B * (t ^ α / Gamma (α + 1)) := by
  have hG := Gamma_pos_of_pos hα
  unfold Spec.fracInt
  rw [← sub_div, ← integral_sub h1 h2, norm_div, Complex.norm_real, norm_of_nonneg hG.le]
  have hkE : IntervalIntegrable (fun s => (t - s) ^ (α - 1) * exp (l * s)) volume 0 t :=
    (FracInt.kernel_integrable hα t 0 t).mul_continuousOn (by fun_prop)
  have hle : ‖∫ s in (0:ℝ)..t, ((((t - s) ^ (α - 1) : ℝ) : ℂ) * f1 s - (((t - s) ^ (α - 1) : ℝ) : ℂ) * f2 s)‖
      ≤ ∫ s in (0:ℝ)..t, (A * ((t - s) ^ (α - 1) * exp (l * s)) + B * (t - s) ^ (α - 1)) := by
    refine norm_integral_le_of_norm_le ht ?_ ((hkE.const_mul A).add ((FracInt.kernel_integrable hα t 0 t).const_mul B))
    filter_upwards [(measure_singleton t : volume {t} = 0) |> compl_mem_ae_iff.2] with s hs hm
    have hst : s < t := lt_of_le_of_ne hm.2 hs
    have hk : 0 ≤ (t - s) ^ (α - 1) := rpow_nonneg (by linarith) _
    rw [← mul_sub, norm_mul, Complex.norm_real, norm_of_nonneg hk]
    nlinarith [mul_le_mul_of_nonneg_left (hb s hm.1 hst) hk]
  rw [integral_add (hkE.const_mul A) ((FracInt.kernel_integrable hα t 0 t).const_mul B), intervalIntegral.integral_const_mul, intervalIntegral.integral_const_mul, FracInt.kernel_int hα] at hle
  have h3 := mul_le_mul_of_nonneg_left (frac_exp hα hl ht) hA
  have h4 : ((t - 0) ^ α - (t - t) ^ α) / α = t ^ α / α := by rw [sub_zero, sub_self, zero_rpow hα.ne', sub_zero]
  rw [h4] at hle
  rw [div_le_iff₀ hG, Gamma_add_one hα.ne']
  refine hle.trans ?_
  have e : (A * exp (l * t) / l ^ α + B * (t ^ α / (α * Gamma α))) * Gamma α = A * (exp (l * t) * (Gamma α / l ^ α)) + B * (t ^ α / α) := by
    field_simp
  rw [e]
  linarith

lemma measurable_step (δ : ℝ) (y : ℕ → ℂ) : Measurable (Spec.stepFn δ y) :=
  (measurable_from_nat (f := y)).comp (Nat.measurable_floor.comp (measurable_id.div_const δ))

lemma measurable_lin (δ : ℝ) (y : ℕ → ℂ) : Measurable (Spec.linFn δ y) := by
  have hfl : Measurable fun s : ℝ => ⌊s / δ⌋₊ := Nat.measurable_floor.comp (measurable_id.div_const δ)
  have h1 : Measurable fun s : ℝ => y ⌊s / δ⌋₊ := (measurable_from_nat (f := y)).comp hfl
  have h2 : Measurable fun s : ℝ => y (⌊s / δ⌋₊ + 1) := (measurable_from_nat (f := fun j => y (j + 1))).comp hfl
  have h3 : Measurable fun s : ℝ => (⌊s / δ⌋₊ : ℝ) := (measurable_from_nat (f := fun j : ℕ => (j : ℝ))).comp hfl
  unfold Spec.linFn
  exact h1.add ((Complex.measurable_ofReal.comp ((measurable_id.div_const δ).sub h3)).mul (h2.sub h1))

lemma floor_le_of {δ t : ℝ} (hδ : 0 < δ) {k : ℕ} (ht : t ≤ k * δ) : ⌊t / δ⌋₊ ≤ k := by
  refine Nat.floor_le_of_le ?_
  rwa [div_le_iff₀ hδ]

lemma step_ii {α δ : ℝ} (hα : 0 < α) (hδ : 0 < δ) (y : ℕ → ℂ) (k : ℕ) :
    IntervalIntegrable (fun s => ((((k:ℝ) * δ - s) ^ (α - 1) : ℝ) : ℂ) * Spec.stepFn δ y s) volume 0 (k * δ) := by
  refine kernel_mul_ii hα (by positivity) (measurable_step δ y) (B := ∑ j ∈ Finset.range (k + 1), ‖y j‖) fun s _ hs => ?_
  exact Finset.single_le_sum (f := fun j => ‖y j‖) (fun _ _ => norm_nonneg _) (Finset.mem_range.2 (Nat.lt_succ_of_le (floor_le_of hδ hs)))

lemma frac_mem {δ s : ℝ} (hδ : 0 < δ) (hs : 0 ≤ s) : 0 ≤ s / δ - ⌊s / δ⌋₊ ∧ s / δ - ⌊s / δ⌋₊ ≤ 1 := by
  have h1 := Nat.floor_le (div_nonneg hs hδ.le)
  have h2 := Nat.lt_floor_add_one (s / δ)
  constructor <;> linarith

lemma lin_ii {α δ : ℝ} (hα : 0 < α) (hδ : 0 < δ) (y : ℕ → ℂ) (k : ℕ) :
    IntervalIntegrable (fun s => ((((k:ℝ) * δ - s) ^ (α - 1) : ℝ) : ℂ) * Spec.linFn δ y s) volume 0 (k * δ) := by
  set B := ∑ j ∈ Finset.range (k + 2), ‖y j‖ with hB
  have hy : ∀ j, j ≤ k + 1 → ‖y j‖ ≤ B := fun j hj => Finset.single_le_sum (f := fun j => ‖y j‖) (fun _ _ => norm_nonneg _) (Finset.mem_range.2 (by omega))
  refine kernel_mul_ii hα (by positivity) (measurable_lin δ y) (B := B + 1 * (B + B)) fun s hs0 hs => ?_
  have hk := floor_le_of hδ hs
  obtain ⟨f0, f1⟩ := frac_mem hδ hs0.le
  unfold Spec.linFn
  refine (norm_add_le _ _).trans (add_le_add (hy _ (by omega)) ?_)
  rw [norm_mul, Complex.norm_real, norm_of_nonneg f0]
  exact mul_le_mul f1 ((norm_sub_le _ _).trans (add_le_add (hy _ (by omega)) (hy _ (by omega)))) (norm_nonneg _) zero_le_one

/-- A convex combination of two values close to `z` is close to `z`. -/
lemma lin_close {a b z : ℂ} {θ r : ℝ} (h0 : 0 ≤ θ) (h1 : θ ≤ 1) (ha : ‖a - z‖ ≤ r) (hb : ‖b - z‖ ≤ r) : ‖a + ((θ : ℝ) : ℂ) * (b - a) - z‖ ≤ r := by
  have e : a + ((θ : ℝ) : ℂ) * (b - a) - z = ((1 - θ : ℝ) : ℂ) * (a - z) + ((θ : ℝ) : ℂ) * (b - z) := by push_cast; ring
  rw [e]
  refine (norm_add_le _ _).trans ?_
  rw [norm_mul, norm_mul, Complex.norm_real, Complex.norm_real, norm_of_nonneg h0, norm_of_nonneg (by linarith : (0:ℝ) ≤ 1 - θ)]
  nlinarith [mul_le_mul_of_nonneg_left ha (by linarith : (0:ℝ) ≤ 1 - θ), mul_le_mul_of_nonneg_left hb h0]

end FracConv

end PyFENG
