import Mathlib.Analysis.SpecialFunctions.Gamma.Beta
import Mathlib.Analysis.SpecialFunctions.ImproperIntegrals
import Mathlib.Analysis.SpecialFunctions.Integrals.Basic

/-!
# Riemann–Liouville fractional integrals
-/

namespace PyFENG

open Real MeasureTheory intervalIntegral Set

/-- The Riemann–Liouville fractional integral of order `α` from `0`: `(1/Γ(α)) ∫₀ᵗ (t - s)^(α-1) f(s) ds`. -/
noncomputable def Spec.fracInt (α : ℝ) (f : ℝ → ℂ) (t : ℝ) : ℂ := (∫ s in (0:ℝ)..t, (((t - s) ^ (α - 1) : ℝ) : ℂ) * f s) / (Gamma α : ℂ)

namespace FracInt

/-- The kernel is integrable. -/
lemma kernel_integrable {α : ℝ} (hα : 0 < α) (t a b : ℝ) : IntervalIntegrable (fun s => (t - s) ^ (α - 1)) volume a b := by
  have := (intervalIntegrable_rpow' (r := α - 1) (by linarith) (a := t - a) (b := t - b)).comp_sub_left t
  simpa using this

lemma ofReal_ii {f : ℝ → ℝ} {a b : ℝ} (h : IntervalIntegrable f volume a b) : IntervalIntegrable (fun s => ((f s : ℝ) : ℂ)) volume a b := ⟨h.1.ofReal, h.2.ofReal⟩

lemma kernel_int {α : ℝ} (hα : 0 < α) (t a b : ℝ) : ∫ s in a..b, (t - s) ^ (α - 1) = ((t - a) ^ α - (t - b) ^ α) / α := by
  rw [integral_comp_sub_left (fun x => x ^ (α - 1)) t, integral_rpow (Or.inl (by linarith))]
  congr 1 <;> ring_nf

lemma kernel_intC {α : ℝ} (hα : 0 < α) (t a b : ℝ) : ∫ s in a..b, (((t - s) ^ (α - 1) : ℝ) : ℂ) = ((((t - a) ^ α - (t - b) ^ α) / α : ℝ) : ℂ) := by
  rw [intervalIntegral.integral_ofReal, kernel_int hα]

/-- The real Beta integral on `[0, t]`. -/
lemma beta_int {α p : ℝ} (hα : 0 < α) (hp : 0 ≤ p) {t : ℝ} (ht : 0 < t) :
    ∫ s in (0:ℝ)..t, (t - s) ^ (α - 1) * s ^ p = t ^ (p + α) * (Gamma α * Gamma (p + 1) / Gamma (p + α + 1)) := by
  have h := Complex.betaIntegral_scaled ((p + 1 : ℝ) : ℂ) (α : ℂ) ht
  have h2 := Complex.betaIntegral_eq_Gamma_mul_div ((p + 1 : ℝ) : ℂ) (α : ℂ) (by simp; linarith) (by simpa using hα)
  rw [h2] at h
  have e : ∀ x ∈ uIcc (0:ℝ) t, ((x : ℂ) ^ (((p + 1 : ℝ) : ℂ) - 1) * ((t : ℂ) - x) ^ ((α : ℂ) - 1)) = (((t - x) ^ (α - 1) * x ^ p : ℝ) : ℂ) := fun x hx => by
    rw [uIcc_of_le ht.le] at hx
    rw [Complex.ofReal_mul, Complex.ofReal_cpow (by linarith [hx.2]), Complex.ofReal_cpow hx.1, mul_comm]
    push_cast
    congr 2
    ring
  rw [integral_congr e, intervalIntegral.integral_ofReal] at h
  have h3 : (((t ^ (p + α) * (Gamma α * Gamma (p + 1) / Gamma (p + α + 1)) : ℝ)) : ℂ) = (t : ℂ) ^ (((p + 1 : ℝ) : ℂ) + (α : ℂ) - 1) * (Complex.Gamma ((p + 1 : ℝ) : ℂ) * Complex.Gamma (α : ℂ) / Complex.Gamma (((p + 1 : ℝ) : ℂ) + (α : ℂ))) := by
    rw [show (((p + 1 : ℝ) : ℂ) + (α : ℂ)) = ((p + α + 1 : ℝ) : ℂ) by push_cast; ring, show (((p + α + 1 : ℝ) : ℂ) - 1) = ((p + α : ℝ) : ℂ) by push_cast; ring,
      Complex.Gamma_ofReal, Complex.Gamma_ofReal, Complex.Gamma_ofReal, ← Complex.ofReal_cpow ht.le]
    push_cast
    ring
  rw [← h3] at h
  exact_mod_cast h

/-- The fractional integral of a power. -/
lemma frac_pow {α p : ℝ} (hα : 0 < α) (hp : 0 ≤ p) {t : ℝ} (ht : 0 < t) :
    Spec.fracInt α (fun s => ((s ^ p : ℝ) : ℂ)) t = ((Gamma (p + 1) / Gamma (p + α + 1) * t ^ (p + α) : ℝ) : ℂ) := by
  unfold Spec.fracInt
  have e : ∀ s, (((t - s) ^ (α - 1) : ℝ) : ℂ) * ((s ^ p : ℝ) : ℂ) = (((t - s) ^ (α - 1) * s ^ p : ℝ) : ℂ) := fun s => by push_cast; rfl
  simp only [e]
  rw [intervalIntegral.integral_ofReal, beta_int hα hp ht, ← Complex.ofReal_div]
  congr 1
  have := (Gamma_pos_of_pos hα).ne'
  field_simp

lemma integrable_pow {α p : ℝ} (hα : 0 < α) (hp : 0 ≤ p) (t : ℝ) : IntervalIntegrable (fun s => (t - s) ^ (α - 1) * s ^ p) volume 0 t :=
  (kernel_integrable hα t 0 t).mul_continuousOn (continuous_id.rpow_const fun _ => Or.inr hp).continuousOn

/-- The Gamma ratio of the recursion is bounded. -/
lemma gamma_ratio {α p : ℝ} (hα : 0 < α) (hp : 0 ≤ p) : Gamma (p + 1) / Gamma (p + α + 1) ≤ 1 / Gamma (α + 1) := by
  have h1 := beta_int hα hp one_pos
  have h0 : ∫ s in (0:ℝ)..1, (1 - s) ^ (α - 1) * s ^ p ≤ ∫ s in (0:ℝ)..1, (1 - s) ^ (α - 1) := by
    refine integral_mono_on zero_le_one (integrable_pow hα hp 1) (kernel_integrable hα 1 0 1) fun s hs => ?_
    exact mul_le_of_le_one_right (rpow_nonneg (by linarith [hs.2]) _) (rpow_le_one hs.1 hs.2 hp)
  rw [h1, kernel_int hα, one_rpow, one_mul] at h0
  have hG := Gamma_pos_of_pos hα
  rw [sub_zero, one_rpow, sub_self, zero_rpow hα.ne', sub_zero, mul_div_assoc, ← le_div_iff₀' hG] at h0
  refine h0.trans_eq ?_
  rw [Gamma_add_one hα.ne']
  field_simp

end FracInt

end PyFENG
