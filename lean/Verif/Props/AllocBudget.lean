import Verif.Props.Alloc

/-!
# C49: budgets accepted by `RiskParity` for which `fit_ccd` cannot succeed
-/

namespace PyFENG

namespace Alloc

variable {n : ℕ}

lemma sum_riskShare {cov : Fin n → Fin n → ℝ} {w : Fin n → ℝ} (h : 0 < Spec.portVar cov w) : ∑ i, Spec.riskShare cov w i = 1 := by
  unfold Spec.riskShare
  rw [← Finset.sum_div, div_eq_one_iff_eq h.ne']
  unfold Spec.portVar
  refine Finset.sum_congr rfl fun i _ => ?_
  rw [Finset.mul_sum]
  exact Finset.sum_congr rfl fun j _ => by ring

/-- **C49.**  `fit_ccd` returns weights only if the budget sums to one within `n * tol`: for every correlation matrix, volatilities, signs and tolerance. -/
theorem fitCcd_budget_sum (m : RiskParity n) (hσ : ∀ i, 0 < m.sigma i) {tol err : ℝ} {w : Fin n → ℝ} {k : ℕ} (h : fitCcd m tol = .ok w err k) (hn : 0 < n) :
    |∑ i, m.budget i - 1| < n * tol := by
  obtain ⟨hp, he, -, -⟩ := fitCcd_riskParity m hσ h
  have e1 : ∑ i, m.budget i - 1 = ∑ i, -(Spec.riskShare m.cov w i - m.budget i) := by
    rw [Finset.sum_neg_distrib, Finset.sum_sub_distrib, sum_riskShare hp.var_pos]; ring
  have hn' : (0:ℝ) < n := by exact_mod_cast hn
  calc |∑ i, m.budget i - 1| ≤ ∑ i, |-(Spec.riskShare m.cov w i - m.budget i)| := by rw [e1]; exact Finset.abs_sum_le_sum_abs _ _
    _ ≤ ∑ _i : Fin n, err := Finset.sum_le_sum fun i _ => by rw [abs_neg]; exact hp.shares i
    _ = n * err := by simp
    _ < n * tol := mul_lt_mul_of_pos_left he hn'

/-- **C49** (disagreement).  The budget `[0.5, 0.500005]` passes the validation of `RiskParity` (numpy's `isclose`), but with the default tolerance `1e-6` `fit_ccd` returns weights for no correlation
matrix, volatilities or signs at all. -/
theorem fitCcd_accepted_budget_fails :
    ∃ b : Fin 2 → ℝ, initBudget (some [0.5, 0.500005]) = some b ∧ ∀ m : RiskParity 2, m.budget = b → (∀ i, 0 < m.sigma i) → ∀ w err k, fitCcd m 1e-6 ≠ .ok w err k := by
  refine ⟨fun i => [0.5, 0.500005].getD i 0, ?_, fun m hm hσ w err k h => ?_⟩
  · refine if_pos ⟨rfl, ?_⟩
    norm_num [abs_of_pos]
  · have := fitCcd_budget_sum m hσ h (by norm_num)
    rw [hm] at this
    norm_num [Fin.sum_univ_two, abs_of_pos] at this

end Alloc

end PyFENG
