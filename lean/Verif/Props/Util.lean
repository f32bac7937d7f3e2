import Verif.Model.Util
import Mathlib.Analysis.SpecialFunctions.Integrals.Basic

/-!
# C47: `powrel` / `logrel` are averages of a power in every branch
-/

namespace PyFENG

open Real

/-- Specification: average of `t^(a-1)` over the interval between 1 and `1+x` (its limit 1 at `x = 0`). -/
noncomputable def Spec.avgPow (x a : ℝ) : ℝ := if x = 0 then 1 else (1 / x) * ∫ t in (1:ℝ)..(1 + x), t ^ (a - 1)

lemma uIcc_pos {x : ℝ} (hx : -1 < x) : (0:ℝ) ∉ Set.uIcc 1 (1 + x) := by
  rw [Set.mem_uIcc]; push Not
  constructor <;> intro h <;> linarith

/-- **C47.** `powrel(x, a)` is the average of `t^(a-1)` over `[1, 1+x]`, in every branch. -/
theorem powrel_correct (x a : ℝ) (hx : -1 < x) : powrel x a = .ok (Spec.avgPow x a) := by
  unfold powrel Spec.avgPow
  have h1 : 0 < 1 + x := by linarith
  rw [if_neg (by push Not; exact hx)]
  simp only
  congr 1
  by_cases h0 : x = 0
  · simp [h0]
  · by_cases ha : a = 0
    · subst ha
      simp only [h0, ne_eq, not_false_eq_true, not_true_eq_false, and_false, and_self, if_true, if_false]
      have : ∀ t ∈ Set.uIcc 1 (1 + x), t ^ ((0:ℝ) - 1) = t⁻¹ := fun t _ => by
        rw [zero_sub, rpow_neg_one]
      rw [intervalIntegral.integral_congr this, integral_inv (uIcc_pos hx)]
      field_simp
    · simp only [h0, ha, ne_eq, not_false_eq_true, and_self, and_false, if_true, if_false]
      rw [integral_rpow (Or.inr ⟨fun h => ha (by linarith), uIcc_pos hx⟩), sub_add_cancel, one_rpow,
        rpow_def_of_pos h1, mul_comm (log _) a]
      field_simp

/-- **C47.** `logrel(x)` is the average of `1/t` over `[1, 1+x]`. -/
theorem logrel_correct (x : ℝ) (hx : -1 < x) : logrel x = .ok (Spec.avgPow x 0) := by
  have h := powrel_correct x 0 hx
  rw [← h]
  unfold logrel powrel
  simp only [ne_eq, not_true_eq_false, and_false, and_true, if_false]

/-- **C47.** Both raise exactly on `x ≤ -1`. -/
theorem rel_domain (x a : ℝ) : ((∃ e, powrel x a = .error e) ↔ x ≤ -1) ∧ ((∃ e, logrel x = .error e) ↔ x ≤ -1) := by
  constructor
  · constructor
    · rintro ⟨e, he⟩
      by_contra h
      rw [powrel_correct x a (by linarith)] at he
      cases he
    · intro h
      exact ⟨_, by unfold powrel; rw [if_pos (by push Not; exact h)]⟩
  · constructor
    · rintro ⟨e, he⟩
      by_contra h
      rw [logrel_correct x (by linarith)] at he
      cases he
    · intro h
      exact ⟨_, by unfold logrel; rw [if_pos (by push Not; exact h)]⟩

/-- **C47.** The averages are positive. -/
theorem powrel_pos (x a : ℝ) (hx : -1 < x) : 0 < Spec.avgPow x a := by
  unfold Spec.avgPow
  split_ifs with h0
  · norm_num
  · have hc : ∀ u v : ℝ, 0 < u → u < v → 0 < ∫ t in u..v, t ^ (a - 1) := by
      intro u v hu huv
      refine intervalIntegral.intervalIntegral_pos_of_pos_on ?_ (fun t ht => rpow_pos_of_pos (hu.trans ht.1) _) huv
      refine ContinuousOn.intervalIntegrable fun t ht => ?_
      rw [Set.uIcc_of_le huv.le] at ht
      exact (continuousAt_rpow_const _ _ (Or.inl (show t ≠ 0 from fun h0 => by linarith [ht.1]))).continuousWithinAt
    rcases lt_or_gt_of_ne h0 with h | h
    · have := hc (1 + x) 1 (by linarith) (by linarith)
      rw [intervalIntegral.integral_symm]
      have h2 : 1 / x < 0 := one_div_neg.2 h
      nlinarith
    · have := hc 1 (1 + x) one_pos (by linarith)
      positivity

end PyFENG
