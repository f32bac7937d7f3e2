import Mathlib.Algebra.BigOperators.Field
import Verif.Model.Alloc
import Mathlib.Analysis.Calculus.Deriv.Mul
import Mathlib.Analysis.Calculus.Deriv.Add
import Mathlib.Analysis.Calculus.Deriv.Inv
import Mathlib.Analysis.Calculus.Deriv.Pow

/-!
# C49: risk-parity portfolios
-/

namespace PyFENG

open Real

/-- Portfolio variance. -/
noncomputable def Spec.portVar {n : ℕ} (cov : Fin n → Fin n → ℝ) (w : Fin n → ℝ) : ℝ := ∑ i, ∑ j, w i * cov i j * w j

/-- Share of asset `i` in the portfolio variance: `w_i (Σ w)_i / (w'Σw)`. -/
noncomputable def Spec.riskShare {n : ℕ} (cov : Fin n → Fin n → ℝ) (w : Fin n → ℝ) (i : Fin n) : ℝ :=
  w i * (∑ j, cov i j * w j) / Spec.portVar cov w

/-- A risk-parity portfolio up to `tol`: fully invested, positive variance, and every risk share within `tol` of its budget. -/
structure Spec.IsRiskParity {n : ℕ} (cov : Fin n → Fin n → ℝ) (budget w : Fin n → ℝ) (tol : ℝ) : Prop where
  invested : ∑ i, w i = 1
  var_pos : 0 < Spec.portVar cov w
  shares : ∀ i, |Spec.riskShare cov w i - budget i| ≤ tol

namespace Alloc

variable {n : ℕ}

lemma dot_mulVec (M : Fin n → Fin n → ℝ) (w : Fin n → ℝ) : dot w (mulVec M w) = Spec.portVar M w := by
  unfold dot mulVec Spec.portVar dot
  refine Finset.sum_congr rfl fun i _ => ?_
  rw [Finset.mul_sum]
  exact Finset.sum_congr rfl fun j _ => by ring

lemma le_maxErr (rc b : Fin n → ℝ) (i : Fin n) : |rc i - b i| ≤ maxErr rc b :=
  le_ciSup (f := fun i => |rc i - b i|) (Set.finite_range _).bddAbove i

lemma finish_ok {x w : Fin n → ℝ} {err e : ℝ} {k k' : ℕ} (h : finish x err k = .ok w e k') :
    ∑ j, x j ≠ 0 ∧ w = (fun i => x i / ∑ j, x j) ∧ e = err ∧ k' = k := by
  unfold finish at h
  split at h
  · cases h
  · rename_i h0
    injection h with h1 h2 h3
    exact ⟨h0, h1.symm, h2.symm, h3.symm⟩

lemma portVar_smul (cov : Fin n → Fin n → ℝ) (w : Fin n → ℝ) (c : ℝ) :
    Spec.portVar cov (fun i => w i / c) = Spec.portVar cov w / c ^ 2 := by
  unfold Spec.portVar
  rw [Finset.sum_div]
  refine Finset.sum_congr rfl fun i _ => ?_
  rw [Finset.sum_div]
  refine Finset.sum_congr rfl fun j _ => ?_
  by_cases hc : c = 0
  · simp [hc]
  · field_simp

lemma riskShare_smul (cov : Fin n → Fin n → ℝ) (w : Fin n → ℝ) {c : ℝ} (hc : c ≠ 0) (i : Fin n) :
    Spec.riskShare cov (fun i => w i / c) i = Spec.riskShare cov w i := by
  unfold Spec.riskShare
  rw [portVar_smul]
  have : ∑ j, cov i j * (w j / c) = (∑ j, cov i j * w j) / c := by
    rw [Finset.sum_div]; exact Finset.sum_congr rfl fun j _ => by ring
  rw [this]
  field_simp

/-- Risk shares do not depend on the unit of each asset: covariance weights `x/σ` and correlation weights `x` agree. -/
lemma share_unscale (m : RiskParity n) (hσ : ∀ i, 0 < m.sigma i) (x : Fin n → ℝ) :
    Spec.portVar m.cov (fun i => x i / m.sigma i) = Spec.portVar m.cor x ∧
      ∀ i, Spec.riskShare m.cov (fun i => x i / m.sigma i) i = Spec.riskShare m.cor x i := by
  have h1 : Spec.portVar m.cov (fun i => x i / m.sigma i) = Spec.portVar m.cor x := by
    unfold Spec.portVar RiskParity.cov
    refine Finset.sum_congr rfl fun i _ => Finset.sum_congr rfl fun j _ => ?_
    have := (hσ i).ne'
    have := (hσ j).ne'
    field_simp
  refine ⟨h1, fun i => ?_⟩
  unfold Spec.riskShare
  rw [h1]
  congr 1
  have : ∑ j, m.cov i j * (x j / m.sigma j) = m.sigma i * ∑ j, m.cor i j * x j := by
    rw [Finset.mul_sum]
    refine Finset.sum_congr rfl fun j _ => ?_
    unfold RiskParity.cov
    have := (hσ j).ne'
    field_simp
  rw [this]
  have := (hσ i).ne'
  field_simp

/-- **C49** (coordinate step).  With unit diagonal and a legal sign, each coordinate update of `fit_ccd` makes the updated
asset's risk contribution equal to its budget exactly. -/
theorem ccdCoord_solves (m : RiskParity n) (hd : ∀ i, m.cor i i = 1) (hls : ∀ i, m.longshort i ^ 2 = 1)
    {ww ww' : Fin n → ℝ} {i : Fin n} (h : ccdCoord m (some ww) i = some ww') :
    ww' i * (∑ j, m.cor i j * ww' j) = m.budget i ∧ ∀ j ≠ i, ww' j = ww j := by
  unfold ccdCoord at h
  simp only at h
  split at h
  · cases h
  rename_i hneg
  simp only [Option.some.injEq] at h
  set a := (dot (m.cor i) ww - ww i) / 2 with ha
  have hsum : ∑ j, m.cor i j * ww' j = ww' i + 2 * a := by
    have e1 : ∑ j, m.cor i j * ww' j = m.cor i i * ww' i + ∑ j ∈ Finset.univ.erase i, m.cor i j * ww' j :=
      (Finset.add_sum_erase _ _ (Finset.mem_univ i)).symm
    have e2 : dot (m.cor i) ww = m.cor i i * ww i + ∑ j ∈ Finset.univ.erase i, m.cor i j * ww j :=
      (Finset.add_sum_erase _ _ (Finset.mem_univ i)).symm
    have e3 : ∑ j ∈ Finset.univ.erase i, m.cor i j * ww' j = ∑ j ∈ Finset.univ.erase i, m.cor i j * ww j := by
      refine Finset.sum_congr rfl fun j hj => ?_
      rw [← h, Function.update_of_ne (Finset.ne_of_mem_erase hj)]
    rw [e1, e3, hd, ha]
    rw [hd] at e2
    linarith
  have hwi : ww' i = m.longshort i * √(a * a + m.budget i) - a := by rw [← h, Function.update_self]
  refine ⟨?_, fun j hj => by rw [← h, Function.update_of_ne hj]⟩
  rw [hsum, hwi]
  have hsq := Real.sq_sqrt (not_lt.1 hneg)
  linear_combination m.longshort i ^ 2 * hsq + (a * a + m.budget i) * hls i

/-- **C49.**  Whenever `fit_ccd` reports convergence with finite weights, the weights are fully invested and every risk share
is within the tolerance of its budget.  For every correlation matrix, budget, sign vector and tolerance. -/
theorem fitCcd_riskParity (m : RiskParity n) (hσ : ∀ i, 0 < m.sigma i) {tol err : ℝ} {w : Fin n → ℝ} {k : ℕ}
    (h : fitCcd m tol = .ok w err k) :
    Spec.IsRiskParity m.cov m.budget w err ∧ err < tol ∧ 1 ≤ k ∧ k ≤ 1023 := by
  have key : ∀ fuel k0 ww, ccdLoop m tol fuel k0 ww = .ok w err k →
      Spec.IsRiskParity m.cov m.budget w err ∧ err < tol ∧ k0 ≤ k ∧ k < k0 + fuel := by
    intro fuel
    induction fuel with
    | zero => intro k0 ww h; cases h
    | succ fuel ih =>
      intro k0 ww h
      rw [ccdLoop] at h
      split at h
      · cases h
      rename_i w1 _
      simp only at h
      split at h
      · cases h
      rename_i hq
      have hq : 0 < Spec.portVar m.cor w1 := by rw [← dot_mulVec]; exact not_le.1 hq
      split at h
      · rename_i herr
        obtain ⟨hs, hw, he, hk⟩ := finish_ok h
        rw [dot_mulVec] at hs hw he herr
        set vv := √(Spec.portVar m.cor w1) with hvv
        have hvpos : 0 < vv := Real.sqrt_pos.2 hq
        set x : Fin n → ℝ := fun i => w1 i / vv with hx
        set s := ∑ j, x j / m.sigma j with hsdef
        have hu := share_unscale m hσ x
        have hvx : Spec.portVar m.cor x = 1 := by
          rw [hx, portVar_smul, hvv, Real.sq_sqrt hq.le, div_self hq.ne']
        refine ⟨⟨?_, ?_, ?_⟩, he ▸ herr, by omega, by omega⟩
        · rw [hw]
          rw [← Finset.sum_div]
          exact div_self hs
        · rw [hw, portVar_smul, hu.1, hvx]
          positivity
        · intro i
          rw [hw]
          have h1 := riskShare_smul m.cov (fun j => x j / m.sigma j) hs i
          rw [h1, hu.2 i, he]
          refine le_trans (le_of_eq ?_) (le_maxErr (fun i => x i * (mulVec m.cor w1 i / vv)) m.budget i)
          unfold Spec.riskShare
          rw [hvx, div_one]
          congr 2
          unfold mulVec dot
          rw [Finset.sum_div]
          congr 1
          exact Finset.sum_congr rfl fun j _ => by rw [hx]; ring
      · obtain ⟨h1, h2, h3, h4⟩ := ih _ _ h
        exact ⟨h1, h2, by omega, by omega⟩
  unfold fitCcd at h
  split at h
  · cases h
  · obtain ⟨h1, h2, h3, h4⟩ := key _ _ _ h
    exact ⟨h1, h2, h3, by omega⟩

/-- `M` is positive definite. -/
def Spec.IsPosDef (M : Fin n → Fin n → ℝ) : Prop := ∀ x : Fin n → ℝ, x ≠ 0 → 0 < Spec.portVar M x

lemma sweep_fold (m : RiskParity n) (hb : ∀ i, 0 < m.budget i) (hls : ∀ i, m.longshort i = 1 ∨ m.longshort i = -1)
    (l : List (Fin n)) (ww : Fin n → ℝ) (P : Fin n → Prop) (hP : ∀ j, P j → 0 < m.longshort j * ww j) :
    ∃ ww', l.foldl (ccdCoord m) (some ww) = some ww' ∧ ∀ j, (P j ∨ j ∈ l) → 0 < m.longshort j * ww' j := by
  induction l generalizing ww P with
  | nil => exact ⟨ww, rfl, fun j hj => hP j (by simpa using hj)⟩
  | cons i l ih =>
    rw [List.foldl_cons]
    set a := (dot (m.cor i) ww - ww i) / 2 with ha
    have hpos : 0 < a * a + m.budget i := by nlinarith [mul_self_nonneg a, hb i]
    have hstep : ccdCoord m (some ww) i = some (Function.update ww i (m.longshort i * √(a * a + m.budget i) - a)) := by
      simp only [ccdCoord, ← ha]
      rw [if_neg (not_lt.2 hpos.le)]
    rw [hstep]
    have hi : 0 < m.longshort i * (m.longshort i * √(a * a + m.budget i) - a) := by
      have h1 : |a| < √(a * a + m.budget i) := by
        apply Real.lt_sqrt_of_sq_lt
        rw [sq_abs]
        nlinarith [hb i]
      have h2 := abs_lt.1 h1
      rcases hls i with h | h <;> rw [h] <;> linarith
    obtain ⟨ww', h1, h2⟩ := ih (Function.update ww i (m.longshort i * √(a * a + m.budget i) - a)) (fun j => P j ∨ j = i) (by
      intro j hj
      by_cases hji : j = i
      · subst hji; rwa [Function.update_self]
      · rw [Function.update_of_ne hji]; exact hP j (hj.resolve_right hji))
    refine ⟨ww', h1, fun j hj => h2 j ?_⟩
    rcases hj with h | h
    · exact Or.inl (Or.inl h)
    · rcases List.mem_cons.1 h with h | h
      · exact Or.inl (Or.inr h)
      · exact Or.inr h

/-- A full sweep never fails for positive budgets, and gives every asset its requested sign. -/
lemma sweep_ok (m : RiskParity n) (hb : ∀ i, 0 < m.budget i) (hls : ∀ i, m.longshort i = 1 ∨ m.longshort i = -1)
    (ww : Fin n → ℝ) : ∃ ww', ccdSweep m ww = some ww' ∧ ∀ j, 0 < m.longshort j * ww' j := by
  obtain ⟨ww', h1, h2⟩ := sweep_fold m hb hls (List.finRange n) ww (fun _ => False) (by simp)
  exact ⟨ww', h1, fun j => h2 j (Or.inr (List.mem_finRange j))⟩

/-- **C49** (signs).  With positive budgets the returned weights have either all the requested signs or all the opposite
signs; with a long-only request they are all positive. -/
theorem fitCcd_signs (m : RiskParity n) (hσ : ∀ i, 0 < m.sigma i) (hb : ∀ i, 0 < m.budget i)
    (hls : ∀ i, m.longshort i = 1 ∨ m.longshort i = -1) {tol err : ℝ} {w : Fin n → ℝ} {k : ℕ}
    (h : fitCcd m tol = .ok w err k) :
    ((∀ i, 0 < m.longshort i * w i) ∨ (∀ i, m.longshort i * w i < 0)) ∧
      ((∀ i, m.longshort i = 1) → ∀ i, 0 < w i) := by
  have key : ∀ fuel k0 ww, ccdLoop m tol fuel k0 ww = .ok w err k →
      ∃ x : Fin n → ℝ, (∀ i, 0 < m.longshort i * x i) ∧ ∑ j, x j ≠ 0 ∧ w = fun i => x i / ∑ j, x j := by
    intro fuel
    induction fuel with
    | zero => intro k0 ww h; cases h
    | succ fuel ih =>
      intro k0 ww h
      rw [ccdLoop] at h
      obtain ⟨w1, hw1, hs⟩ := sweep_ok m hb hls ww
      rw [hw1] at h
      simp only at h
      split at h
      · cases h
      rename_i hq
      split at h
      · obtain ⟨hsum, hw, -, -⟩ := finish_ok h
        refine ⟨_, fun i => ?_, hsum, hw⟩
        have h1 := hs i
        have h2 : 0 < √(dot w1 (mulVec m.cor w1)) := Real.sqrt_pos.2 (not_le.1 hq)
        have h3 := hσ i
        rw [show m.longshort i * (w1 i / √(dot w1 (mulVec m.cor w1)) / m.sigma i)
          = m.longshort i * w1 i / √(dot w1 (mulVec m.cor w1)) / m.sigma i by ring]
        positivity
      · exact ih _ _ h
  unfold fitCcd at h
  split at h
  · cases h
  obtain ⟨x, hx, hs, hw⟩ := key _ _ _ h
  constructor
  · rcases lt_or_gt_of_ne hs with h0 | h0
    · right
      intro i
      rw [hw, ← mul_div_assoc]
      exact div_neg_of_pos_of_neg (hx i) h0
    · left
      intro i
      rw [hw, ← mul_div_assoc]
      exact div_pos (hx i) h0
  · intro h1 i
    have hxp : ∀ j, 0 < x j := fun j => by simpa [h1 j] using hx j
    rw [hw]
    exact div_pos (hxp i) (Finset.sum_pos (fun j _ => hxp j) ⟨i, Finset.mem_univ i⟩)

/-- **C49** (no numerical failure).  For a positive definite correlation matrix and positive budgets no sweep produces a NaN and
the rescaling never divides by zero: `fit_ccd` can only end by converging or by using up its 1023 iterations. -/
theorem ccd_wellDefined (m : RiskParity n) (hn : 0 < n) (hpd : Spec.IsPosDef m.cor) (hb : ∀ i, 0 < m.budget i)
    (hls : ∀ i, m.longshort i = 1 ∨ m.longshort i = -1) (ww : Fin n → ℝ) :
    ∃ ww', ccdSweep m ww = some ww' ∧ 0 < dot ww' (mulVec m.cor ww') := by
  obtain ⟨w1, h1, h2⟩ := sweep_ok m hb hls ww
  refine ⟨w1, h1, ?_⟩
  rw [dot_mulVec]
  refine hpd w1 fun h => ?_
  have := h2 ⟨0, hn⟩
  rw [h] at this
  simp at this

/-- The concrete two-asset, zero-correlation model used in the examples below. -/
noncomputable def exRP (ls : Fin 2 → ℝ) : RiskParity 2 := ⟨![![1, 0], ![0, 1]], ![1, 1], ![1/2, 1/2], ls⟩

lemma exRP_fit (ls : Fin 2 → ℝ) (hls : ∀ i, ls i ^ 2 = 1) {tol : ℝ} (ht : 0 < tol) :
    fitCcd (exRP ls) tol = finish (fun i => ls i * √(1 / 2)) 0 1 := by
  have hs : (0 : ℝ) < ∑ i, ∑ j, (exRP ls).cor i j := by simp [Fin.sum_univ_two, exRP]
  unfold fitCcd
  rw [if_neg (not_le.2 hs), ccdLoop]
  have hsw : ∀ ww, ccdSweep (exRP ls) ww = some fun i => ls i * √(1 / 2) := by
    intro ww
    unfold ccdSweep
    have hfr : List.finRange 2 = [0, 1] := by decide
    rw [hfr]
    simp only [List.foldl_cons, List.foldl_nil]
    have e0 : ccdCoord (exRP ls) (some ww) 0 = some (Function.update ww 0 (ls 0 * √(1/2))) := by
      simp [ccdCoord, dot, Fin.sum_univ_two, exRP]
    have e1 : ∀ v, ccdCoord (exRP ls) (some v) 1 = some (Function.update v 1 (ls 1 * √(1/2))) := by
      intro v
      simp [ccdCoord, dot, Fin.sum_univ_two, exRP]
    rw [e0, e1]
    congr 1
    ext i
    fin_cases i <;> simp
  rw [hsw]
  have hh : √(1 / 2 : ℝ) ^ 2 = 1 / 2 := Real.sq_sqrt (by norm_num)
  have hmv : mulVec (exRP ls).cor (fun i => ls i * √(1 / 2)) = fun i => ls i * √(1 / 2) := by
    ext i; fin_cases i <;> simp [mulVec, dot, Fin.sum_univ_two, exRP]
  have hq : dot (fun i => ls i * √(1 / 2)) (fun i => ls i * √(1 / 2)) = 1 := by
    simp only [dot, Fin.sum_univ_two]
    linear_combination (ls 0 ^ 2 + ls 1 ^ 2) * hh + 1 / 2 * hls 0 + 1 / 2 * hls 1
  simp only [hmv, hq, Real.sqrt_one, div_one]
  rw [if_neg (by norm_num)]
  have he : maxErr (fun i => ls i * √(1 / 2) * (ls i * √(1 / 2))) (exRP ls).budget = 0 := by
    have : ∀ i, ls i * √(1 / 2) * (ls i * √(1 / 2)) - (exRP ls).budget i = 0 := by
      intro i
      have hb : (exRP ls).budget i = 1 / 2 := by fin_cases i <;> simp [exRP]
      rw [hb]
      linear_combination (ls i ^ 2) * hh + 1 / 2 * hls i
    unfold maxErr
    simp only [this, abs_zero]
    exact ciSup_const
  rw [he, if_pos ht]
  congr 1
  ext i
  have : (exRP ls).sigma i = 1 := by fin_cases i <;> simp [exRP]
  rw [this, div_one]

/-- Non-vacuity: the long-only example converges at once to equal weights. -/
example {tol : ℝ} (ht : 0 < tol) : ∃ w, fitCcd (exRP fun _ => 1) tol = .ok w 0 1 ∧ ∀ i, w i = 1 / 2 := by
  have hs : √(1 / 2 : ℝ) ≠ 0 := by positivity
  rw [exRP_fit _ (by simp) ht, finish, if_neg (by simp only [Fin.sum_univ_two]; intro h; apply hs; linarith)]
  refine ⟨_, rfl, fun i => ?_⟩
  simp only [Fin.sum_univ_two]
  field_simp
  norm_num

/-- **C49 fails for market-neutral requests**: with one long and one short asset of equal risk, `fit_ccd` "converges" but divides
by a zero sum, so the weights it returns are not finite. -/
theorem fitCcd_marketNeutral_nonFinite {tol : ℝ} (ht : 0 < tol) :
    fitCcd (exRP ![1, -1]) tol = .nonFinite := by
  rw [exRP_fit _ (by intro i; fin_cases i <;> simp) ht, finish, if_pos (by simp [Fin.sum_univ_two])]

/-- **C49 fails for short portfolios**: an all-short request is answered with an all-long portfolio (the normalisation by the
negative sum flips the signs). -/
theorem fitCcd_short_returns_long {tol : ℝ} (ht : 0 < tol) :
    ∃ w, fitCcd (exRP fun _ => -1) tol = .ok w 0 1 ∧ ∀ i, 0 < w i := by
  have hs : 0 < √(1 / 2 : ℝ) := by positivity
  rw [exRP_fit _ (by simp) ht, finish, if_neg (by simp only [Fin.sum_univ_two]; intro h; linarith)]
  refine ⟨_, rfl, fun i => ?_⟩
  simp only [Fin.sum_univ_two]
  exact div_pos_of_neg_of_neg (by linarith) (by linarith)

/-! ### The original CCD -/

/-- **C49** (`fit_ccd_original`).  On convergence the weights are fully invested; the incrementally maintained `cov_ww` equals
`cov @ ww`, so with `v` the volatility of the unnormalised solution every risk share times `v` is within the tolerance of
the budget, and `v` itself is within `n * err` of the sum of the budgets. -/
theorem fitCcdOriginal_riskParity (m : RiskParity n) {tol err : ℝ} {w : Fin n → ℝ} {k : ℕ}
    (h : fitCcdOriginal m tol = .ok w err k) :
    err < tol ∧ ∑ i, w i = 1 ∧ 0 < Spec.portVar m.cov w ∧
      ∃ v > 0, (∀ i, |Spec.riskShare m.cov w i * v - m.budget i| ≤ err) ∧ |v - ∑ i, m.budget i| ≤ n * err := by
  -- invariant of the state
  let Inv : OrigState n → Prop := fun s => s.covWw = mulVec m.cov s.ww ∧ 0 < Spec.portVar m.cov s.ww ∧
    s.vv = √(Spec.portVar m.cov s.ww)
  have hcoord : ∀ s i s', Inv s → origCoord m (some s) i = some s' → Inv s' := by
    intro s i s' hs h
    unfold origCoord at h
    simp only at h
    split at h
    · cases h
    split at h
    · cases h
    rename_i hq
    simp only [Option.some.injEq] at h
    have hcw : ∀ wi : ℝ, (fun j => s.covWw j + m.cov j i * (wi - s.ww i)) = mulVec m.cov (Function.update s.ww i wi) := by
      intro wi
      ext j
      rw [hs.1]
      unfold mulVec dot
      have e1 := (Finset.add_sum_erase Finset.univ (fun l => m.cov j l * s.ww l) (Finset.mem_univ i)).symm
      have e2 := (Finset.add_sum_erase Finset.univ (fun l => m.cov j l * Function.update s.ww i wi l) (Finset.mem_univ i)).symm
      have e3 : ∑ l ∈ Finset.univ.erase i, m.cov j l * Function.update s.ww i wi l = ∑ l ∈ Finset.univ.erase i, m.cov j l * s.ww l :=
        Finset.sum_congr rfl fun l hl => by rw [Function.update_of_ne (Finset.ne_of_mem_erase hl)]
      rw [e1, e2, e3, Function.update_self]
      ring
    rw [hcw] at hq h
    rw [dot_mulVec] at hq h
    subst h
    exact ⟨rfl, not_le.1 hq, rfl⟩
  have hfold : ∀ (l : List (Fin n)) s s', Inv s → l.foldl (origCoord m) (some s) = some s' → Inv s' := by
    intro l
    induction l with
    | nil => intro s s' hs h; simp only [List.foldl_nil, Option.some.injEq] at h; exact h ▸ hs
    | cons i l ih =>
      intro s s' hs h
      rw [List.foldl_cons] at h
      cases hc : origCoord m (some s) i with
      | none =>
        rw [hc] at h
        have : ∀ l : List (Fin n), l.foldl (origCoord m) none = none := by
          intro l; induction l with
          | nil => rfl
          | cons j l ih => rw [List.foldl_cons]; exact ih
        rw [this] at h
        cases h
      | some s1 => rw [hc] at h; exact ih s1 s' (hcoord s i s1 hs hc) h
  have key : ∀ fuel k0 s, Inv s → origLoop m tol fuel k0 s = .ok w err k →
      ∃ s1, Inv s1 ∧ ∑ j, s1.ww j ≠ 0 ∧ (w = fun i => s1.ww i / ∑ j, s1.ww j) ∧ err < tol ∧
        err = maxErr (fun i => s1.ww i * s1.covWw i / s1.vv) m.budget := by
    intro fuel
    induction fuel with
    | zero => intro k0 s _ h; cases h
    | succ fuel ih =>
      intro k0 s hs h
      rw [origLoop] at h
      split at h
      · cases h
      rename_i s1 hs1
      have hI := hfold _ s s1 hs hs1
      simp only at h
      split at h
      · rename_i herr
        obtain ⟨h1, h2, h3, -⟩ := finish_ok h
        exact ⟨s1, hI, h1, h2, h3 ▸ herr, h3⟩
      · exact ih _ _ hI h
  unfold fitCcdOriginal at h
  simp only at h
  split at h
  · cases h
  rename_i hq
  rw [dot_mulVec] at hq h
  obtain ⟨s, ⟨hI1, hI2, hI3⟩, hsum, hw, hlt, herr⟩ := key _ _ _ ⟨rfl, not_le.1 hq, rfl⟩ h
  have hv : 0 < s.vv := by rw [hI3]; exact Real.sqrt_pos.2 hI2
  have hsq : s.vv ^ 2 = Spec.portVar m.cov s.ww := by rw [hI3, Real.sq_sqrt hI2.le]
  have hshare : ∀ i, Spec.riskShare m.cov w i * s.vv = s.ww i * s.covWw i / s.vv := by
    intro i
    rw [hw, riskShare_smul m.cov s.ww hsum i]
    unfold Spec.riskShare
    rw [← hsq, hI1]
    unfold mulVec dot
    field_simp
  have hbound : ∀ i, |Spec.riskShare m.cov w i * s.vv - m.budget i| ≤ err := by
    intro i
    rw [hshare, herr]
    exact le_maxErr (fun i => s.ww i * s.covWw i / s.vv) m.budget i
  refine ⟨hlt, ?_, ?_, s.vv, hv, hbound, ?_⟩
  · rw [hw, ← Finset.sum_div]; exact div_self hsum
  · rw [hw, portVar_smul]; positivity
  · have htot : ∑ i, Spec.riskShare m.cov w i * s.vv = s.vv := by
      simp only [hshare]
      rw [← Finset.sum_div]
      have : ∑ i, s.ww i * s.covWw i = s.vv ^ 2 := by
        rw [hsq, ← dot_mulVec, ← hI1]; rfl
      rw [this]
      field_simp
    calc |s.vv - ∑ i, m.budget i| = |∑ i, (Spec.riskShare m.cov w i * s.vv - m.budget i)| := by
          rw [Finset.sum_sub_distrib, htot]
      _ ≤ ∑ i, |Spec.riskShare m.cov w i * s.vv - m.budget i| := Finset.abs_sum_le_sum_abs _ _
      _ ≤ ∑ _i : Fin n, err := Finset.sum_le_sum fun i _ => hbound i
      _ = n * err := by simp

/-! ### Newton -/

/-- **C49** (`fit_ccd_original`, coordinate update): if the running `cov_ww` is consistent with the weights, the new weight
solves its quadratic equation (its risk contribution is the budgeted share of the portfolio volatility), has the requested sign of
root, the other weights are untouched, and `cov_ww` and `vv` are again consistent. -/
theorem origCoord_solves (m : RiskParity n) (hls : ∀ i, m.longshort i ^ 2 = 1) {s s' : OrigState n} {i : Fin n}
    (hc : s.covWw = mulVec m.cov s.ww) (hii : 0 < m.cov i i) (h : origCoord m (some s) i = some s') :
    s'.ww i * (∑ j, m.cov i j * s'.ww j) = s.vv * m.budget i ∧ (∀ j ≠ i, s'.ww j = s.ww j) ∧
      s'.covWw = mulVec m.cov s'.ww ∧ s'.vv ^ 2 = ∑ k, s'.ww k * ∑ j, m.cov k j * s'.ww j := by
  unfold origCoord at h
  simp only at h
  split at h
  · cases h
  rename_i hneg
  split at h
  · cases h
  rename_i hq
  simp only [Option.some.injEq] at h
  set a := (s.covWw i - m.cov i i * s.ww i) / 2 with ha
  set x := (m.longshort i * √(a * a + m.cov i i * s.vv * m.budget i) - a) / m.cov i i with hx
  have hww : s'.ww = Function.update s.ww i x := by rw [← h]
  have hcov : ∀ k, s'.covWw k = ∑ j, m.cov k j * s'.ww j := by
    intro k
    rw [← h]
    simp only
    rw [hc]
    unfold mulVec dot
    rw [← Finset.add_sum_erase _ _ (Finset.mem_univ i), ← Finset.add_sum_erase _ (fun j => m.cov k j * _) (Finset.mem_univ i),
      Function.update_self]
    have e3 : ∑ j ∈ Finset.univ.erase i, m.cov k j * Function.update s.ww i x j = ∑ j ∈ Finset.univ.erase i, m.cov k j * s.ww j :=
      Finset.sum_congr rfl fun j hj => by rw [Function.update_of_ne (Finset.ne_of_mem_erase hj)]
    rw [e3]
    ring
  have hcov' : s'.covWw = mulVec m.cov s'.ww := funext hcov
  refine ⟨?_, fun j hj => by rw [hww, Function.update_of_ne hj], hcov', ?_⟩
  · rw [← hcov, ← h]
    simp only [Function.update_self]
    have hsq := Real.sq_sqrt (not_lt.1 hneg)
    have e : s.covWw i + m.cov i i * (x - s.ww i) = m.cov i i * x + 2 * a := by rw [ha]; ring
    rw [e]
    have hcx : m.cov i i * x = m.longshort i * √(a * a + m.cov i i * s.vv * m.budget i) - a := by
      rw [hx]; field_simp
    have key : m.cov i i * (x * (m.cov i i * x + 2 * a)) = m.cov i i * (s.vv * m.budget i) := by
      rw [show m.cov i i * (x * (m.cov i i * x + 2 * a)) = (m.cov i i * x) * (m.cov i i * x + 2 * a) by ring, hcx]
      linear_combination m.longshort i ^ 2 * hsq + (a * a + m.cov i i * s.vv * m.budget i) * hls i
    exact mul_left_cancel₀ hii.ne' key
  · have hv : s'.vv = √(dot s'.ww s'.covWw) := by rw [← h]
    have hq' : 0 < dot s'.ww s'.covWw := by rw [← h]; exact not_le.1 hq
    rw [hv, Real.sq_sqrt hq'.le]
    unfold dot
    exact Finset.sum_congr rfl fun k _ => by rw [hcov]

/-- **C49** (`fit_newton`, Jacobian): the Jacobian handed to the solver is the derivative of the residual. -/
theorem newton_jacobian_correct (cov : Fin n → Fin n → ℝ) (bud w : Fin n → ℝ) (i j : Fin n) (hw : w i ≠ 0) :
    HasDerivAt (fun t => newtonVal (Function.update w j t) cov bud i) (newtonJacobian w cov bud i j) (w j) := by
  unfold newtonVal newtonJacobian mulVec dot
  have h1 : HasDerivAt (fun t => ∑ l, cov i l * Function.update w j t l) (cov i j) (w j) := by
    have : (fun t => ∑ l, cov i l * Function.update w j t l)
        = fun t => cov i j * t + ∑ l ∈ Finset.univ.erase j, cov i l * w l := by
      ext t
      rw [← Finset.add_sum_erase Finset.univ _ (Finset.mem_univ j), Function.update_self]
      congr 1
      exact Finset.sum_congr rfl fun l hl => by rw [Function.update_of_ne (Finset.ne_of_mem_erase hl)]
    rw [this]
    simpa using ((hasDerivAt_id' (w j)).const_mul (cov i j)).add_const (∑ l ∈ Finset.univ.erase j, cov i l * w l)
  by_cases hij : i = j
  · subst hij
    simp only [Function.update_self, if_true]
    have h2 : HasDerivAt (fun t => bud i / t) (-(bud i / (w i * w i))) (w i) := by
      have := (hasDerivAt_inv hw).const_mul (bud i)
      simp only [← div_eq_mul_inv] at this
      refine this.congr_deriv ?_
      field_simp
    exact (h1.sub h2).congr_deriv (by ring)
  · simp only [if_neg hij, add_zero]
    have : (fun t => ∑ l, cov i l * Function.update w j t l - bud i / Function.update w j t i)
        = fun t => ∑ l, cov i l * Function.update w j t l - bud i / w i := by
      ext t; rw [Function.update_of_ne hij]
    rw [this]
    exact h1.sub_const _

/-- **C49** (`fit_newton`, solution): an exact root of the residual with unit total budget gives an exact risk-parity
portfolio after normalisation. -/
theorem fitNewton_riskParity (root) (m : RiskParity n) (hσ : ∀ i, 0 < m.sigma i) (hb : ∑ i, m.budget i = 1)
    (x : Fin n → ℝ) (hroot : root (fun w => newtonVal w m.cor m.budget) (newtonInit m)
      (fun w => newtonJacobian w m.cor m.budget) = x) (hx : ∀ i, x i ≠ 0)
    (h0 : ∀ i, newtonVal x m.cor m.budget i = 0) {w : Fin n → ℝ} {err : ℝ} {k : ℕ} (h : fitNewton root m = .ok w err k) :
    Spec.IsRiskParity m.cov m.budget w 0 := by
  unfold fitNewton at h
  simp only [hroot] at h
  obtain ⟨hs, hw, -, -⟩ := finish_ok h
  have hu := share_unscale m hσ x
  have hrc : ∀ i, x i * ∑ j, m.cor i j * x j = m.budget i := by
    intro i
    have := h0 i
    unfold newtonVal mulVec dot at this
    have hxi := hx i
    field_simp at this
    linarith
  have hv : Spec.portVar m.cor x = 1 := by
    rw [← hb, ← dot_mulVec]
    exact Finset.sum_congr rfl fun i _ => hrc i
  refine ⟨?_, ?_, fun i => ?_⟩
  · rw [hw, ← Finset.sum_div]; exact div_self hs
  · rw [hw, portVar_smul, hu.1, hv]; positivity
  · rw [hw, riskShare_smul m.cov (fun j => x j / m.sigma j) hs i, hu.2]
    unfold Spec.riskShare
    rw [hv, hrc]
    simp

/-- **C49 fails for `fit_newton` with short positions**: the long/short signs are ignored altogether, whatever the solver. -/
theorem fitNewton_ignores_longshort (root) (m : RiskParity n) (ls : Fin n → ℝ) :
    fitNewton root { m with longshort := ls } = fitNewton root m := rfl

end Alloc
end PyFENG
