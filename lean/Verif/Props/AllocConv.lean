import Verif.Props.Alloc
import Mathlib.Analysis.SpecialFunctions.Log.Basic
import Mathlib.Topology.Algebra.Order.Floor
import Mathlib.LinearAlgebra.Matrix.DotProduct

/-!
# C49: convergence of `fit_ccd`
-/

namespace PyFENG

open Real

namespace Alloc

variable {n : ℕ}

/-! ### The quadratic form -/

lemma portVar_eq (C : Fin n → Fin n → ℝ) (w : Fin n → ℝ) : Spec.portVar C w = ∑ i, w i * ∑ j, C i j * w j := by
  unfold Spec.portVar
  refine Finset.sum_congr rfl fun i _ => ?_
  rw [Finset.mul_sum]
  exact Finset.sum_congr rfl fun j _ => by ring

lemma portVar_update (C : Fin n → Fin n → ℝ) (hsym : ∀ i j, C i j = C j i) (w : Fin n → ℝ) (i : Fin n) (x : ℝ) :
    Spec.portVar C (Function.update w i x) = Spec.portVar C w + 2 * (x - w i) * (∑ j, C i j * w j) + (x - w i) ^ 2 * C i i := by
  set d := x - w i with hd
  have e : ∀ k, Function.update w i x k = w k + if k = i then d else 0 := fun k => by
    by_cases h : k = i
    · subst h; rw [Function.update_self, if_pos rfl, hd]; ring
    · rw [Function.update_of_ne h, if_neg h, add_zero]
  unfold Spec.portVar
  simp only [e, add_mul, mul_add, Finset.sum_add_distrib, ite_mul, mul_ite, zero_mul, mul_zero, Finset.sum_ite_eq', Finset.mem_univ, if_true]
  have e1 : ∑ k, w k * C k i * d = d * ∑ j, C i j * w j := by
    rw [Finset.mul_sum]; exact Finset.sum_congr rfl fun k _ => by rw [hsym k i]; ring
  have e2 : ∑ k, (if k = i then ∑ j, d * C k j * w j else 0) = d * ∑ j, C i j * w j := by
    rw [Finset.sum_ite_eq', if_pos (Finset.mem_univ _), Finset.mul_sum]; exact Finset.sum_congr rfl fun k _ => by ring
  have e3 : ∑ k, ∑ j, (if k = i then d * C k j * w j else 0) = d * ∑ j, C i j * w j := by
    rw [← e2]; exact Finset.sum_congr rfl fun k _ => by split_ifs <;> simp
  simp only [e1, e3]
  ring

/-- A positive definite form dominates a multiple of the sum of squares. -/
lemma posDef_bound (hn : 0 < n) {C : Fin n → Fin n → ℝ} (hpd : Spec.IsPosDef C) : ∃ c > 0, ∀ w, c * ∑ i, w i ^ 2 ≤ Spec.portVar C w := by
  set K : Set (Fin n → ℝ) := {w | ∑ i, w i ^ 2 = 1} with hK
  have hKc : IsCompact K := by
    refine (isCompact_Icc (a := fun _ : Fin n => (-1:ℝ)) (b := fun _ => 1)).of_isClosed_subset (isClosed_eq (by fun_prop) continuous_const) fun w hw => ?_
    have hw : ∑ i, w i ^ 2 = 1 := hw
    have : ∀ i, w i ^ 2 ≤ 1 := fun i => by rw [← hw]; exact Finset.single_le_sum (f := fun i => w i ^ 2) (fun _ _ => sq_nonneg _) (Finset.mem_univ i)
    exact ⟨fun i => by have := this i; nlinarith, fun i => by have := this i; nlinarith⟩
  have hKn : K.Nonempty := ⟨fun i => if i = ⟨0, hn⟩ then 1 else 0, by simp [hK]⟩
  have hcont : Continuous (Spec.portVar C) := by unfold Spec.portVar; fun_prop
  obtain ⟨w0, hw0, hmin⟩ := hKc.exists_isMinOn hKn hcont.continuousOn
  have hw0' : ∑ i, w0 i ^ 2 = 1 := hw0
  refine ⟨Spec.portVar C w0, hpd w0 fun h => ?_, fun w => ?_⟩
  · rw [h] at hw0'; simp at hw0'
  · have hs : 0 ≤ ∑ i, w i ^ 2 := Finset.sum_nonneg fun _ _ => sq_nonneg _
    rcases hs.eq_or_lt with h0 | h0
    · have hz : w = 0 := by
        ext i
        have := (Finset.sum_eq_zero_iff_of_nonneg (fun i _ => sq_nonneg (w i))).1 h0.symm i (Finset.mem_univ i)
        simpa using this
      rw [hz]; simp [Spec.portVar]
    · have hv := Real.sqrt_pos.2 h0
      have hm := hmin (show (fun i => w i / √(∑ i, w i ^ 2)) ∈ K by
        show ∑ i, (w i / √(∑ i, w i ^ 2)) ^ 2 = 1
        simp only [div_pow, Real.sq_sqrt hs]
        rw [← Finset.sum_div, div_self h0.ne'])
      simp only [Set.mem_setOf_eq] at hm
      rw [portVar_smul, Real.sq_sqrt hs, le_div_iff₀ h0] at hm
      exact hm

/-! ### The objective function of the descent -/

/-- The convex function that `fit_ccd` minimises: half the variance minus the budget-weighted logarithms of the weights. -/
noncomputable def ccdObj (m : RiskParity n) (w : Fin n → ℝ) : ℝ := Spec.portVar m.cor w / 2 - ∑ i, m.budget i * log (w i)

/-- What the convergence theorems assume: a symmetric positive definite correlation matrix, positive budgets that sum to one, and signs. -/
structure Spec.CcdProblem (m : RiskParity n) : Prop where
  pos : 0 < n
  symm : ∀ i j, m.cor i j = m.cor j i
  diag : ∀ i, m.cor i i = 1
  posDef : Alloc.Spec.IsPosDef m.cor
  budget_pos : ∀ i, 0 < m.budget i
  budget_sum : ∑ i, m.budget i = 1
  sign : ∀ i, m.longshort i = 1 ∨ m.longshort i = -1

/-- Weights with the requested signs. -/
def Orthant (m : RiskParity n) (w : Fin n → ℝ) : Prop := ∀ i, 0 < m.longshort i * w i

lemma Orthant.ne {m : RiskParity n} {w : Fin n → ℝ} (h : Orthant m w) (i : Fin n) : w i ≠ 0 := fun h0 => by have := h i; rw [h0] at this; simp at this

lemma Orthant.ratio {m : RiskParity n} {w w' : Fin n → ℝ} (h : Orthant m w) (h' : Orthant m w') (i : Fin n) : 0 < w i / w' i := by
  have e : w i / w' i = (m.longshort i * w i) / (m.longshort i * w' i) := by
    have : m.longshort i ≠ 0 := fun h0 => by have := h i; rw [h0] at this; simp at this
    have := h'.ne i
    field_simp
  rw [e]
  exact div_pos (h i) (h' i)

/-- The objective is coercive. -/
lemma obj_coercive {m : RiskParity n} (P : Spec.CcdProblem m) : ∃ c > 0, ∃ S, ∀ w, c * ∑ i, w i ^ 2 - S ≤ ccdObj m w := by
  obtain ⟨l, hl, h⟩ := posDef_bound P.pos P.posDef
  refine ⟨l / 4, by positivity, ∑ i, m.budget i ^ 2 / l, fun w => ?_⟩
  have hlog : ∀ i, m.budget i * log (w i) ≤ l / 4 * w i ^ 2 + m.budget i ^ 2 / l := fun i => by
    have h1 : log (w i) ≤ |w i| := by
      rw [← log_abs]
      rcases (abs_nonneg (w i)).eq_or_lt with h0 | h0
      · rw [← h0]; simp
      · have := log_le_sub_one_of_pos h0; linarith
    have h2 := mul_le_mul_of_nonneg_left h1 (P.budget_pos i).le
    have h3 : m.budget i * |w i| ≤ l / 4 * w i ^ 2 + m.budget i ^ 2 / l := by
      rw [← sq_abs (w i)]
      have : l / 4 * |w i| ^ 2 + m.budget i ^ 2 / l - m.budget i * |w i| = (l * |w i| / 2 - m.budget i) ^ 2 / l := by field_simp; ring
      have h4 : 0 ≤ (l * |w i| / 2 - m.budget i) ^ 2 / l := by positivity
      linarith
    linarith
  have hsum := Finset.sum_le_sum fun i (_ : i ∈ Finset.univ) => hlog i
  rw [Finset.sum_add_distrib, ← Finset.mul_sum] at hsum
  have := h w
  unfold ccdObj
  linarith

/-- One coordinate update lowers the objective by at least half the squared step. -/
lemma coord_descent {m : RiskParity n} (P : Spec.CcdProblem m) {w w' : Fin n → ℝ} (hw : Orthant m w) {i : Fin n} (h : ccdCoord m (some w) i = some w') :
    Orthant m w' ∧ (w' i - w i) ^ 2 / 2 ≤ ccdObj m w - ccdObj m w' ∧ (∀ j ≠ i, w' j = w j) ∧ ∑ j, m.cor i j * w' j = m.budget i / w' i := by
  have hls : ∀ i, m.longshort i ^ 2 = 1 := fun i => by rcases P.sign i with h | h <;> rw [h] <;> norm_num
  obtain ⟨h1, h2⟩ := ccdCoord_solves m P.diag hls h
  have hor : Orthant m w' := by
    intro j
    by_cases hj : j = i
    · subst hj
      unfold ccdCoord at h
      simp only at h
      split at h
      · cases h
      simp only [Option.some.injEq] at h
      set a := (dot (m.cor j) w - w j) / 2
      have e : w' j = m.longshort j * √(a * a + m.budget j) - a := by rw [← h, Function.update_self]
      have hlt : |a| < √(a * a + m.budget j) := by
        rw [← Real.sqrt_sq_eq_abs]
        exact Real.sqrt_lt_sqrt (sq_nonneg _) (by nlinarith [P.budget_pos j])
      have := abs_lt.1 hlt
      rw [e]
      rcases P.sign j with h | h <;> rw [h] <;> linarith
    · rw [h2 j hj]; exact hw j
  refine ⟨hor, ?_, h2, by rw [eq_div_iff (hor.ne i), mul_comm]; exact h1⟩
  have hx := hor.ne i
  have hupd : w = Function.update w' i (w i) := by
    ext j
    by_cases hj : j = i
    · subst hj; rw [Function.update_self]
    · rw [Function.update_of_ne hj, h2 j hj]
  have hpv := portVar_update m.cor P.symm w' i (w i)
  rw [← hupd, P.diag, show ∑ j, m.cor i j * w' j = m.budget i / w' i by rw [eq_div_iff hx, mul_comm]; exact h1] at hpv
  have hlog : ∑ j, m.budget j * log (w j) - ∑ j, m.budget j * log (w' j) = m.budget i * log (w i / w' i) := by
    rw [← Finset.sum_sub_distrib, Finset.sum_eq_single i (fun j _ hj => by rw [h2 j hj, sub_self]) (fun h => absurd (Finset.mem_univ i) h), log_div (hw.ne i) hx]
    ring
  have hl := log_le_sub_one_of_pos (hw.ratio hor i)
  have hl2 := mul_le_mul_of_nonneg_left hl (P.budget_pos i).le
  unfold ccdObj
  have e : 2 * (w i - w' i) * (m.budget i / w' i) = 2 * (m.budget i * (w i / w' i - 1)) := by field_simp
  rw [e] at hpv
  nlinarith

/-- The sweep over a list of coordinates. -/
lemma sweep_descent {m : RiskParity n} (P : Spec.CcdProblem m) {B : ℝ} (hB : ∀ i j, |m.cor i j| ≤ B) (hB0 : 0 ≤ B) (l : List (Fin n)) (hl : l.Nodup) :
    ∀ w, Orthant m w → ∀ w', l.foldl (ccdCoord m) (some w) = some w' → Orthant m w' ∧ ccdObj m w' ≤ ccdObj m w ∧ (∀ j, j ∉ l → w' j = w j) ∧
      (∀ j, |w' j - w j| ≤ √(2 * (ccdObj m w - ccdObj m w'))) ∧ ∀ i ∈ l, |∑ j, m.cor i j * w' j - m.budget i / w' i| ≤ B * n * √(2 * (ccdObj m w - ccdObj m w')) := by
  induction l with
  | nil =>
    intro w hw w' h
    simp only [List.foldl_nil, Option.some.injEq] at h
    subst h
    exact ⟨hw, le_rfl, fun _ _ => rfl, fun j => by simp, by simp⟩
  | cons i l ih =>
    intro w hw w' h
    rw [List.foldl_cons] at h
    obtain ⟨hil, hl'⟩ := List.nodup_cons.1 hl
    cases h1 : ccdCoord m (some w) i with
    | none =>
      rw [h1] at h
      have : ∀ l : List (Fin n), l.foldl (ccdCoord m) none = none := fun l => by
        induction l with
        | nil => rfl
        | cons a l ih => rw [List.foldl_cons]; exact ih
      rw [this] at h; cases h
    | some w1 =>
      rw [h1] at h
      obtain ⟨o1, d1, s1, r1⟩ := coord_descent P hw h1
      obtain ⟨o2, d2, s2, t2, r2⟩ := ih hl' w1 o1 w' h
      have hw1 : ccdObj m w1 ≤ ccdObj m w := by nlinarith [sq_nonneg (w1 i - w i)]
      have mono : √(2 * (ccdObj m w1 - ccdObj m w')) ≤ √(2 * (ccdObj m w - ccdObj m w')) := Real.sqrt_le_sqrt (by linarith)
      refine ⟨o2, d2.trans hw1, fun j hj => ?_, fun j => ?_, fun j hj => ?_⟩
      · rw [List.mem_cons, not_or] at hj
        rw [s2 j hj.2, s1 j hj.1]
      · by_cases hj : j = i
        · subst hj
          rw [s2 j hil]
          refine Real.abs_le_sqrt ?_
          linarith
        · rw [← s1 j hj]
          exact (t2 j).trans mono
      · rcases List.mem_cons.1 hj with rfl | hj
        · rw [s2 j hil, ← r1, ← Finset.sum_sub_distrib]
          refine (Finset.abs_sum_le_sum_abs _ _).trans ?_
          have : ∀ k ∈ Finset.univ, |m.cor j k * w' k - m.cor j k * w1 k| ≤ B * √(2 * (ccdObj m w - ccdObj m w')) := fun k _ => by
            rw [← mul_sub, abs_mul]
            exact mul_le_mul (hB j k) ((t2 k).trans mono) (abs_nonneg _) hB0
          refine (Finset.sum_le_card_nsmul _ _ _ this).trans (le_of_eq ?_)
          rw [Finset.card_univ, Fintype.card_fin, nsmul_eq_mul]; ring
        · exact (r2 j hj).trans (mul_le_mul_of_nonneg_left mono (by positivity))

/-- The rescaling step minimises the objective along the ray. -/
lemma rescale_descent {m : RiskParity n} (P : Spec.CcdProblem m) {w : Fin n → ℝ} (hw : Orthant m w) (hq : 0 < Spec.portVar m.cor w) :
    Orthant m (fun i => w i / √(Spec.portVar m.cor w)) ∧ ccdObj m (fun i => w i / √(Spec.portVar m.cor w)) ≤ ccdObj m w := by
  set q := Spec.portVar m.cor w with hqd
  have hv := Real.sqrt_pos.2 hq
  refine ⟨fun i => by rw [← mul_div_assoc]; exact div_pos (hw i) hv, ?_⟩
  unfold ccdObj
  rw [portVar_smul, Real.sq_sqrt hq.le, ← hqd, div_self hq.ne']
  have e : ∑ i, m.budget i * log (w i / √q) = ∑ i, m.budget i * log (w i) - log √q := by
    have : ∀ i, m.budget i * log (w i / √q) = m.budget i * log (w i) - m.budget i * log √q := fun i => by rw [log_div (hw.ne i) hv.ne']; ring
    simp only [this, Finset.sum_sub_distrib]
    rw [← Finset.sum_mul, P.budget_sum, one_mul]
  rw [e, log_sqrt hq.le]
  have := log_le_sub_one_of_pos hq
  linarith

/-- One pass of the outer loop on weights with the right signs and a bounded objective: either the stopping criterion holds, or the objective has dropped by at least a fixed amount. -/
lemma pass_descent {m : RiskParity n} (P : Spec.CcdProblem m) {tol : ℝ} (ht : 0 < tol) (M : ℝ) : ∃ c > 0, ∀ w w1, Orthant m w → ccdObj m w ≤ M → ccdSweep m w = some w1 →
    0 < Spec.portVar m.cor w1 ∧ Orthant m (fun i => w1 i / √(Spec.portVar m.cor w1)) ∧
    (ccdObj m (fun i => w1 i / √(Spec.portVar m.cor w1)) ≤ ccdObj m w - c ∨
      ∀ i, |w1 i * (∑ j, m.cor i j * w1 j) / Spec.portVar m.cor w1 - m.budget i| < tol) ∧ ccdObj m (fun i => w1 i / √(Spec.portVar m.cor w1)) ≤ M := by
  obtain ⟨c0, hc0, S, hS⟩ := obj_coercive P
  set B : ℝ := ∑ i, ∑ j, |m.cor i j| with hB
  have hBij : ∀ i j, |m.cor i j| ≤ B := fun i j =>
    (Finset.single_le_sum (f := fun j => |m.cor i j|) (fun _ _ => abs_nonneg _) (Finset.mem_univ j)).trans
      (Finset.single_le_sum (f := fun i => ∑ j, |m.cor i j|) (fun _ _ => Finset.sum_nonneg fun _ _ => abs_nonneg _) (Finset.mem_univ i))
  have hB0 : 0 ≤ B := Finset.sum_nonneg fun _ _ => Finset.sum_nonneg fun _ _ => abs_nonneg _
  set R : ℝ := √((M + S) / c0) with hR
  have hR0 : 0 ≤ R := Real.sqrt_nonneg _
  have hn0 : (0:ℝ) < n := by exact_mod_cast P.pos
  set r0 : ℝ := min (1 / (2 * (n * R + 1))) (tol / (2 * (n + 1) * (R + 1))) with hr0d
  have hr0 : 0 < r0 := lt_min (by positivity) (by positivity)
  set c : ℝ := (r0 / (B * n + 1)) ^ 2 / 2 with hc
  have hcpos : 0 < c := by positivity
  refine ⟨c, hcpos, fun w w1 hw hM h => ?_⟩
  obtain ⟨o1, d1, -, -, r1⟩ := sweep_descent P hBij hB0 _ (List.nodup_finRange n) w hw w1 h
  have hq : 0 < Spec.portVar m.cor w1 := P.posDef w1 fun h0 => by have := o1.ne ⟨0, P.pos⟩; rw [h0] at this; simp at this
  obtain ⟨o2, d2⟩ := rescale_descent P o1 hq
  refine ⟨hq, o2, ?_, d2.trans (d1.trans hM)⟩
  by_cases hδ : ccdObj m w1 ≤ ccdObj m w - c
  · exact Or.inl (d2.trans hδ)
  right
  have hδ := not_le.1 hδ
  set q := Spec.portVar m.cor w1 with hqd
  -- the residual
  have hsq : √(2 * (ccdObj m w - ccdObj m w1)) ≤ r0 / (B * n + 1) := by
    refine Real.sqrt_le_iff.2 ⟨by positivity, ?_⟩
    have : 2 * c = (r0 / (B * n + 1)) ^ 2 := by rw [hc]; ring
    linarith
  have hres : ∀ i, |∑ j, m.cor i j * w1 j - m.budget i / w1 i| ≤ r0 := fun i => by
    refine (r1 i (List.mem_finRange i)).trans ((mul_le_mul_of_nonneg_left hsq (by positivity)).trans ?_)
    rw [mul_div_assoc', div_le_iff₀ (by positivity)]
    nlinarith [mul_nonneg hB0 hn0.le]
  have hwR : ∀ i, |w1 i| ≤ R := fun i => by
    refine Real.abs_le_sqrt ?_
    rw [le_div_iff₀ hc0]
    have h1 := hS w1
    have h2 := Finset.single_le_sum (f := fun i => w1 i ^ 2) (fun _ _ => sq_nonneg _) (Finset.mem_univ i)
    nlinarith
  have hrc : ∀ i, |w1 i * (∑ j, m.cor i j * w1 j) - m.budget i| ≤ R * r0 := fun i => by
    have e : w1 i * (∑ j, m.cor i j * w1 j) - m.budget i = w1 i * (∑ j, m.cor i j * w1 j - m.budget i / w1 i) := by have := o1.ne i; field_simp
    rw [e, abs_mul]
    exact mul_le_mul (hwR i) (hres i) (abs_nonneg _) hR0
  have hq1 : |q - 1| ≤ n * (R * r0) := by
    rw [hqd, portVar_eq, ← P.budget_sum, ← Finset.sum_sub_distrib]
    refine (Finset.abs_sum_le_sum_abs _ _).trans ((Finset.sum_le_card_nsmul _ _ _ fun i _ => hrc i).trans (le_of_eq ?_))
    rw [Finset.card_univ, Fintype.card_fin, nsmul_eq_mul]
  have hr1 : n * (R * r0) ≤ 1 / 2 := by
    have h1 : r0 ≤ 1 / (2 * (n * R + 1)) := min_le_left _ _
    rw [le_div_iff₀ (by positivity)] at h1
    nlinarith
  have hr2 : 2 * ((n + 1) * (R * r0)) < tol := by
    have h1 : r0 ≤ tol / (2 * (n + 1) * (R + 1)) := min_le_right _ _
    rw [le_div_iff₀ (by positivity)] at h1
    nlinarith
  have hq2 : 1 / 2 ≤ q := by have := abs_le.1 hq1; linarith
  intro i
  have hbi : m.budget i ≤ 1 := by rw [← P.budget_sum]; exact Finset.single_le_sum (f := m.budget) (fun i _ => (P.budget_pos i).le) (Finset.mem_univ i)
  have e : w1 i * (∑ j, m.cor i j * w1 j) / q - m.budget i = ((w1 i * (∑ j, m.cor i j * w1 j) - m.budget i) - m.budget i * (q - 1)) / q := by field_simp; ring
  rw [e, abs_div, abs_of_pos hq, div_lt_iff₀ hq]
  have h1 := abs_sub (w1 i * (∑ j, m.cor i j * w1 j) - m.budget i) (m.budget i * (q - 1))
  have h2 : |m.budget i * (q - 1)| ≤ n * (R * r0) := by
    rw [abs_mul, abs_of_pos (P.budget_pos i)]
    have := mul_le_mul_of_nonneg_right hbi (abs_nonneg (q - 1))
    linarith
  have h3 := hrc i
  nlinarith

lemma ccdLoop_terminates {m : RiskParity n} (P : Spec.CcdProblem m) {tol : ℝ} (ht : 0 < tol) (M : ℝ) : ∃ K : ℕ, ∀ fuel ≥ K, ∀ k w, Orthant m w → ccdObj m w ≤ M → ccdLoop m tol fuel k w ≠ .notConverged := by
  obtain ⟨c, hc, hpass⟩ := pass_descent P ht M
  obtain ⟨c0, hc0, S, hS⟩ := obj_coercive P
  have hlow : ∀ w, -S ≤ ccdObj m w := fun w => by
    have h0 : 0 ≤ ∑ i, w i ^ 2 := Finset.sum_nonneg fun _ _ => sq_nonneg _
    have := hS w; nlinarith [mul_nonneg hc0.le h0]
  have main : ∀ fuel : ℕ, ∀ k w, Orthant m w → ccdObj m w ≤ M → ccdObj m w < fuel * c - S → ccdLoop m tol fuel k w ≠ .notConverged := fun fuel => by
    induction fuel with
    | zero =>
      intro k w _ _ h
      have := hlow w
      simp only [Nat.cast_zero, zero_mul] at h
      linarith
    | succ fuel ih =>
      intro k w hw hM h
      obtain ⟨w1, hw1, -⟩ := sweep_ok m P.budget_pos P.sign w
      obtain ⟨hq, ho, hd, hM'⟩ := hpass w w1 hw hM hw1
      rw [ccdLoop, hw1]
      simp only
      rw [dot_mulVec, if_neg (not_le.2 hq)]
      split
      · unfold finish; split <;> simp
      · rename_i herr
        refine ih _ _ ho hM' ?_
        rcases hd with hd | hd
        · push_cast at h; linarith
        · refine absurd ?_ herr
          have : Nonempty (Fin n) := ⟨⟨0, P.pos⟩⟩
          obtain ⟨i, hi⟩ := Finite.exists_max fun i => |w1 i / √(Spec.portVar m.cor w1) * (mulVec m.cor w1 i / √(Spec.portVar m.cor w1)) - m.budget i|
          refine lt_of_le_of_lt (ciSup_le hi) ?_
          have h2 := hd i
          have e : w1 i / √(Spec.portVar m.cor w1) * (mulVec m.cor w1 i / √(Spec.portVar m.cor w1)) = w1 i * (∑ j, m.cor i j * w1 j) / Spec.portVar m.cor w1 := by
            rw [div_mul_div_comm, Real.mul_self_sqrt hq.le]; rfl
          rwa [e]
  obtain ⟨K, hK⟩ := exists_nat_gt ((M + S) / c)
  rw [div_lt_iff₀ hc] at hK
  refine ⟨K, fun fuel hf k w hw hM => main fuel k w hw hM ?_⟩
  have : (K:ℝ) * c ≤ fuel * c := mul_le_mul_of_nonneg_right (by exact_mod_cast hf) hc.le
  linarith

/-- `fit_ccd` with the iteration limit 1023 of the code replaced by `N`. -/
noncomputable def ccdMax (m : RiskParity n) (tol : ℝ) (N : ℕ) : FitResult n :=
  if ∑ i, ∑ j, m.cor i j ≤ 0 then .notConverged else ccdLoop m tol N 1 fun _ => 1 / √(∑ i, ∑ j, m.cor i j)

lemma ccdMax_code (m : RiskParity n) (tol : ℝ) : fitCcd m tol = ccdMax m tol 1023 := rfl

/-- **C49** (convergence).  For every symmetric positive definite correlation matrix, positive budget with sum one and sign vector, and every tolerance, the iteration of `fit_ccd` meets its stopping
criterion after finitely many passes: with a large enough iteration limit it never returns `None`. -/
theorem ccd_terminates (m : RiskParity n) (P : Spec.CcdProblem m) {tol : ℝ} (ht : 0 < tol) : ∃ N : ℕ, ∀ N' ≥ N, ccdMax m tol N' ≠ .notConverged := by
  have hs : 0 < ∑ i, ∑ j, m.cor i j := by
    have := P.posDef (fun _ => 1) (fun h => by have := congrFun h ⟨0, P.pos⟩; simp at this)
    simpa [Spec.portVar] using this
  set w0 : Fin n → ℝ := fun _ => 1 / √(∑ i, ∑ j, m.cor i j)
  obtain ⟨w1, hw1, ho1⟩ := sweep_ok m P.budget_pos P.sign w0
  have hq : 0 < Spec.portVar m.cor w1 := P.posDef w1 fun h0 => by have := ho1 ⟨0, P.pos⟩; rw [h0] at this; simp at this
  obtain ⟨ho, -⟩ := rescale_descent P (w := w1) ho1 hq
  obtain ⟨K, hK⟩ := ccdLoop_terminates P ht (ccdObj m (fun i => w1 i / √(Spec.portVar m.cor w1)))
  refine ⟨K + 1, fun N hN => ?_⟩
  obtain ⟨N, rfl⟩ := Nat.exists_eq_add_of_le' (show 1 ≤ N by omega)
  unfold ccdMax
  rw [if_neg (not_le.2 hs), ccdLoop, hw1]
  simp only
  rw [dot_mulVec, if_neg (not_le.2 hq)]
  split
  · unfold finish; split <;> simp
  · exact hK N (by omega) _ _ ho le_rfl

/-- The state in which the loop stops. -/
lemma ccdLoop_spec {m : RiskParity n} (P : Spec.CcdProblem m) {tol : ℝ} : ∀ fuel k w, ccdLoop m tol fuel k w ≠ .notConverged →
    ∃ (x : Fin n → ℝ) (err : ℝ) (k' : ℕ), Orthant m x ∧ Spec.portVar m.cor x = 1 ∧ err < tol ∧ (∀ i, |x i * (∑ j, m.cor i j * x j) - m.budget i| ≤ err) ∧
      ccdLoop m tol fuel k w = finish (fun i => x i / m.sigma i) err k' := by
  intro fuel
  induction fuel with
  | zero => intro k w h; exact absurd rfl h
  | succ fuel ih =>
    intro k w h
    obtain ⟨w1, hw1, ho⟩ := sweep_ok m P.budget_pos P.sign w
    have hq : 0 < Spec.portVar m.cor w1 := P.posDef w1 fun h0 => by have := ho ⟨0, P.pos⟩; rw [h0] at this; simp at this
    rw [ccdLoop, hw1] at h ⊢
    simp only at h ⊢
    rw [dot_mulVec, if_neg (not_le.2 hq)] at h ⊢
    split at h
    · rename_i herr
      rw [if_pos herr]
      refine ⟨_, _, k, (rescale_descent P ho hq).1, by rw [portVar_smul, Real.sq_sqrt hq.le, div_self hq.ne'], herr, fun i => ?_, rfl⟩
      refine le_trans (le_of_eq ?_) (le_maxErr (fun i => w1 i / √(Spec.portVar m.cor w1) * (mulVec m.cor w1 i / √(Spec.portVar m.cor w1))) m.budget i)
      congr 2
      unfold mulVec dot
      rw [Finset.sum_div]
      congr 1
      exact Finset.sum_congr rfl fun j _ => by ring
    · rename_i herr
      rw [if_neg herr]
      exact ih _ _ h

/-- Stability: weights with almost the right risk contributions are close to the weights with the right ones. -/
lemma contrib_stable {m : RiskParity n} (P : Spec.CcdProblem m) : ∃ D ≥ 0, ∃ t0 > 0, ∀ x y t, Orthant m x → Orthant m y → Spec.portVar m.cor x = 1 → t ≤ t0 →
    (∀ i, |x i * (∑ j, m.cor i j * x j) - m.budget i| ≤ t) → (∀ i, y i * (∑ j, m.cor i j * y j) = m.budget i) → ∀ i, (x i - y i) ^ 2 ≤ D * t := by
  obtain ⟨l, hl, hlb⟩ := posDef_bound P.pos P.posDef
  set R : ℝ := √(1 / l) with hR
  set B : ℝ := ∑ i, ∑ j, |m.cor i j| with hB
  have : Nonempty (Fin n) := ⟨⟨0, P.pos⟩⟩
  obtain ⟨i0, hi0⟩ := Finite.exists_min m.budget
  set D : ℝ := (∑ i, 4 * B * R ^ 2 / m.budget i) / l with hD
  have hB0 : 0 ≤ B := Finset.sum_nonneg fun _ _ => Finset.sum_nonneg fun _ _ => abs_nonneg _
  have hR0 : 0 ≤ R := Real.sqrt_nonneg _
  refine ⟨D, div_nonneg (Finset.sum_nonneg fun i _ => div_nonneg (by positivity) (P.budget_pos i).le) hl.le, m.budget i0 / 2, by have := P.budget_pos i0; positivity, ?_⟩
  intro x y t hx hy hx1 ht hxt hye i
  have bound : ∀ z, Spec.portVar m.cor z = 1 → ∀ i, |z i| ≤ R := fun z hz i => by
    refine Real.abs_le_sqrt ?_
    rw [le_div_iff₀ hl]
    have h1 := hlb z
    have h2 := Finset.single_le_sum (f := fun i => z i ^ 2) (fun _ _ => sq_nonneg _) (Finset.mem_univ i)
    nlinarith
  have hy1 : Spec.portVar m.cor y = 1 := by rw [portVar_eq, ← P.budget_sum]; exact Finset.sum_congr rfl fun i _ => hye i
  have hxR := bound x hx1
  have hyR := bound y hy1
  have ht0 : 0 ≤ t := (abs_nonneg _).trans (hxt i0)
  have hCx : ∀ i, |∑ j, m.cor i j * x j| ≤ B * R := fun i => by
    refine (Finset.abs_sum_le_sum_abs _ _).trans ?_
    refine (Finset.sum_le_sum fun j (_ : j ∈ Finset.univ) => (show |m.cor i j * x j| ≤ |m.cor i j| * R by rw [abs_mul]; exact mul_le_mul_of_nonneg_left (hxR j) (abs_nonneg _))).trans ?_
    rw [← Finset.sum_mul]
    exact mul_le_mul_of_nonneg_right (Finset.single_le_sum (f := fun i => ∑ j, |m.cor i j|) (fun _ _ => Finset.sum_nonneg fun _ _ => abs_nonneg _) (Finset.mem_univ i)) hR0
  have hinv : ∀ i, 1 / |x i| ≤ 2 * B * R / m.budget i := fun i => by
    have hb := P.budget_pos i
    have h1 := (abs_le.1 (hxt i)).1
    have h2 : m.budget i / 2 ≤ |x i| * (B * R) := by
      have h3 : x i * (∑ j, m.cor i j * x j) ≤ |x i| * (B * R) := by
        refine (le_abs_self _).trans ?_
        rw [abs_mul]
        exact mul_le_mul_of_nonneg_left (hCx i) (abs_nonneg _)
      have := hi0 i
      linarith
    rw [div_le_div_iff₀ (abs_pos.2 (hx.ne i)) hb]
    linarith
  have hterm : ∀ i, (x i - y i) * (∑ j, m.cor i j * (x j - y j)) ≤ t * (4 * B * R ^ 2 / m.budget i) := fun i => by
    set e := x i * (∑ j, m.cor i j * x j) - m.budget i with he
    have hxi := hx.ne i
    have hyi := hy.ne i
    have e1 : ∑ j, m.cor i j * (x j - y j) = (m.budget i + e) / x i - m.budget i / y i := by
      simp only [mul_sub, Finset.sum_sub_distrib]
      have h1 : ∑ j, m.cor i j * x j = (m.budget i + e) / x i := by rw [he]; field_simp; ring
      have h2 : ∑ j, m.cor i j * y j = m.budget i / y i := by rw [← hye i]; field_simp
      rw [h1, h2]
    have e2 : (x i - y i) * ((m.budget i + e) / x i - m.budget i / y i) = -(m.budget i * (x i - y i) ^ 2 / (x i * y i)) + e * (x i - y i) / x i := by field_simp; ring
    rw [e1, e2]
    have hxy : 0 < x i * y i := by
      have h1 := hx.ratio hy i
      have : x i * y i = x i / y i * y i ^ 2 := by field_simp
      rw [this]; positivity
    have h3 : 0 ≤ m.budget i * (x i - y i) ^ 2 / (x i * y i) := div_nonneg (mul_nonneg (P.budget_pos i).le (sq_nonneg _)) hxy.le
    have h4 : e * (x i - y i) / x i ≤ t * (2 * R) * (2 * B * R / m.budget i) := by
      refine (le_abs_self _).trans ?_
      rw [abs_div, abs_mul, div_eq_mul_one_div]
      have h5 : |x i - y i| ≤ 2 * R := (abs_sub _ _).trans (by linarith [hxR i, hyR i])
      exact mul_le_mul (mul_le_mul (hxt i) h5 (abs_nonneg _) ht0) (hinv i) (by positivity) (by positivity)
    have h6 : t * (2 * R) * (2 * B * R / m.budget i) = t * (4 * B * R ^ 2 / m.budget i) := by ring
    linarith
  have hsum := Finset.sum_le_sum fun i (_ : i ∈ Finset.univ) => hterm i
  rw [← portVar_eq m.cor fun i => x i - y i, ← Finset.mul_sum] at hsum
  have h7 := (hlb fun i => x i - y i).trans hsum
  have h8 := Finset.single_le_sum (f := fun i => (x i - y i) ^ 2) (fun _ _ => sq_nonneg _) (Finset.mem_univ i)
  rw [hD, div_mul_eq_mul_div, le_div_iff₀ hl]
  nlinarith

/-- Weights with exactly the budgeted risk contributions exist. -/
lemma contrib_exists {m : RiskParity n} (P : Spec.CcdProblem m) : ∃ y, Orthant m y ∧ ∀ i, y i * (∑ j, m.cor i j * y j) = m.budget i := by
  have hseq : ∀ k : ℕ, ∃ x, Orthant m x ∧ Spec.portVar m.cor x = 1 ∧ ∀ i, |x i * (∑ j, m.cor i j * x j) - m.budget i| ≤ 1 / ((k:ℝ) + 1) := fun k => by
    obtain ⟨N, hN⟩ := ccd_terminates m P (tol := 1 / ((k:ℝ) + 1)) (by positivity)
    have h := hN N le_rfl
    unfold ccdMax at h
    split at h
    · exact absurd rfl h
    · obtain ⟨x, err, k', h1, h2, h3, h4, -⟩ := ccdLoop_spec P _ _ _ h
      exact ⟨x, h1, h2, fun i => (h4 i).trans h3.le⟩
  choose x hx1 hx2 hx3 using hseq
  obtain ⟨l, hl, hlb⟩ := posDef_bound P.pos P.posDef
  have hmem : ∀ k, x k ∈ Set.Icc (fun _ : Fin n => -√(1 / l)) (fun _ => √(1 / l)) := fun k => by
    have : ∀ i, |x k i| ≤ √(1 / l) := fun i => by
      refine Real.abs_le_sqrt ?_
      rw [le_div_iff₀ hl]
      have h1 := hlb (x k)
      have h2 := Finset.single_le_sum (f := fun i => x k i ^ 2) (fun _ _ => sq_nonneg _) (Finset.mem_univ i)
      nlinarith [hx2 k]
    exact ⟨fun i => (abs_le.1 (this i)).1, fun i => (abs_le.1 (this i)).2⟩
  obtain ⟨y, -, φ, hφ, hlim⟩ := isCompact_Icc.tendsto_subseq hmem
  have hye : ∀ i, y i * (∑ j, m.cor i j * y j) = m.budget i := fun i => by
    have hc : Continuous fun z : Fin n → ℝ => z i * (∑ j, m.cor i j * z j) - m.budget i := by fun_prop
    have h1 := (hc.tendsto y).comp hlim
    have h2 : Filter.Tendsto (fun k : ℕ => 1 / ((φ k : ℝ) + 1)) Filter.atTop (nhds 0) := tendsto_one_div_add_atTop_nhds_zero_nat.comp hφ.tendsto_atTop
    have h3 : Filter.Tendsto ((fun z : Fin n → ℝ => z i * (∑ j, m.cor i j * z j) - m.budget i) ∘ x ∘ φ) Filter.atTop (nhds 0) :=
      squeeze_zero_norm (fun k => by rw [Real.norm_eq_abs]; exact hx3 (φ k) i) h2
    have := tendsto_nhds_unique h1 h3
    linarith
  refine ⟨y, fun i => ?_, hye⟩
  have hc : Continuous fun z : Fin n → ℝ => m.longshort i * z i := by fun_prop
  have h1 : 0 ≤ m.longshort i * y i := ge_of_tendsto' ((hc.tendsto y).comp hlim) fun k => (hx1 (φ k) i).le
  have h2 : y i ≠ 0 := fun h0 => by have := hye i; rw [h0, zero_mul] at this; exact (P.budget_pos i).ne this
  have h3 : m.longshort i ≠ 0 := by rcases P.sign i with h | h <;> rw [h] <;> norm_num
  exact lt_of_le_of_ne h1 (mul_ne_zero h3 h2).symm

/-- **C49** (well-posedness).  For a positive definite correlation matrix there is exactly one long-only portfolio whose risk shares are the budget. -/
theorem riskParity_exists_unique (m : RiskParity n) (P : Spec.CcdProblem m) (hσ : ∀ i, 0 < m.sigma i) (hls : ∀ i, m.longshort i = 1) :
    ∃! w : Fin n → ℝ, (∀ i, 0 < w i) ∧ _root_.PyFENG.Spec.IsRiskParity m.cov m.budget w 0 := by
  obtain ⟨y, hy, hye⟩ := contrib_exists P
  have hyp : ∀ i, 0 < y i := fun i => by simpa [hls i] using hy i
  have hy1 : Spec.portVar m.cor y = 1 := by rw [portVar_eq, ← P.budget_sum]; exact Finset.sum_congr rfl fun i _ => hye i
  have hne : (Finset.univ : Finset (Fin n)).Nonempty := ⟨⟨0, P.pos⟩, Finset.mem_univ _⟩
  set s := ∑ j, y j / m.sigma j with hs
  have hs0 : 0 < s := Finset.sum_pos (fun j _ => div_pos (hyp j) (hσ j)) hne
  have hu := share_unscale m hσ y
  refine ⟨fun i => y i / m.sigma i / s, ⟨fun i => div_pos (div_pos (hyp i) (hσ i)) hs0, ?_, ?_, fun i => ?_⟩, ?_⟩
  · rw [← Finset.sum_div]; exact div_self hs0.ne'
  · rw [portVar_smul, hu.1, hy1]; positivity
  · rw [riskShare_smul m.cov (fun j => y j / m.sigma j) hs0.ne', hu.2 i]
    unfold Spec.riskShare
    rw [hy1, div_one, hye i, sub_self, abs_zero]
  · rintro w ⟨hw, hinv, hvar, hsh⟩
    set v := Spec.portVar m.cov w with hv
    set x : Fin n → ℝ := fun i => m.sigma i * w i / √v with hx
    have hsq := Real.sqrt_pos.2 hvar
    have hwx : w = fun i => (fun i => m.sigma i * w i) i / m.sigma i := by ext i; have := (hσ i).ne'; field_simp
    have hux := share_unscale m hσ fun i => m.sigma i * w i
    rw [← hwx] at hux
    have hx1 : Spec.portVar m.cor x = 1 := by rw [hx, portVar_smul, ← hux.1, Real.sq_sqrt hvar.le, ← hv, div_self hvar.ne']
    have hxe : ∀ i, x i * (∑ j, m.cor i j * x j) = m.budget i := fun i => by
      have h1 := riskShare_smul m.cor (fun i => m.sigma i * w i) hsq.ne' i
      rw [← hux.2 i] at h1
      have h2 := abs_nonpos_iff.1 (hsh i)
      have h3 : Spec.riskShare m.cor x i = x i * (∑ j, m.cor i j * x j) := by unfold Spec.riskShare; rw [hx1, div_one]
      rw [← h3, h1]
      linarith
    obtain ⟨D, -, t0, ht0, hst⟩ := contrib_stable P
    have hxy : ∀ i, x i = y i := fun i => by
      have := hst x y 0 (fun i => by rw [hls i, one_mul]; exact div_pos (mul_pos (hσ i) (hw i)) hsq) hy hx1 ht0.le (fun i => by rw [hxe i, sub_self, abs_zero]) hye i
      rw [mul_zero] at this
      have := pow_eq_zero_iff (two_ne_zero) |>.1 (le_antisymm this (sq_nonneg _))
      linarith
    have hyw : ∀ i, y i / m.sigma i = w i / √v := fun i => by rw [← hxy i, hx]; have := (hσ i).ne'; field_simp
    have hsv : s = 1 / √v := by rw [hs]; simp only [hyw]; rw [← Finset.sum_div, hinv]
    ext i
    rw [hyw, hsv]
    field_simp

/-- **C49** (convergence, long only).  With a large enough iteration limit `fit_ccd` returns finite positive weights that are a risk-parity portfolio up to an error below the tolerance. -/
theorem ccd_converges (m : RiskParity n) (P : Spec.CcdProblem m) (hσ : ∀ i, 0 < m.sigma i) (hls : ∀ i, m.longshort i = 1) {tol : ℝ} (ht : 0 < tol) :
    ∃ N : ℕ, ∀ N' ≥ N, ∃ w err k, ccdMax m tol N' = .ok w err k ∧ (∀ i, 0 < w i) ∧ err < tol ∧ _root_.PyFENG.Spec.IsRiskParity m.cov m.budget w err := by
  obtain ⟨N, hN⟩ := ccd_terminates m P ht
  refine ⟨N, fun N' hN' => ?_⟩
  have h := hN N' hN'
  unfold ccdMax at h ⊢
  split at h
  · exact absurd rfl h
  rename_i hs
  rw [if_neg hs]
  obtain ⟨x, err, k, h1, h2, h3, h4, h5⟩ := ccdLoop_spec P _ _ _ h
  have hxp : ∀ i, 0 < x i := fun i => by simpa [hls i] using h1 i
  have hs0 : 0 < ∑ j, x j / m.sigma j := Finset.sum_pos (fun j _ => div_pos (hxp j) (hσ j)) ⟨⟨0, P.pos⟩, Finset.mem_univ _⟩
  have hu := share_unscale m hσ x
  rw [h5, finish, if_neg hs0.ne']
  refine ⟨_, _, _, rfl, fun i => div_pos (div_pos (hxp i) (hσ i)) hs0, h3, ?_, ?_, fun i => ?_⟩
  · rw [← Finset.sum_div]; exact div_self hs0.ne'
  · rw [portVar_smul, hu.1, h2]; positivity
  · rw [riskShare_smul m.cov (fun j => x j / m.sigma j) hs0.ne', hu.2 i]
    unfold Spec.riskShare
    rw [h2, div_one]
    exact h4 i

/-- **C49** (accuracy).  The long-only weights that `fit_ccd` returns tend to the risk-parity portfolio as the tolerance tends to zero, whatever the iteration limit. -/
theorem ccd_accuracy (m : RiskParity n) (P : Spec.CcdProblem m) (hσ : ∀ i, 0 < m.sigma i) (hls : ∀ i, m.longshort i = 1) {ws : Fin n → ℝ} (hws : ∀ i, 0 < ws i)
    (hrp : _root_.PyFENG.Spec.IsRiskParity m.cov m.budget ws 0) {ε : ℝ} (hε : 0 < ε) :
    ∃ tol₀ > 0, ∀ tol ≤ tol₀, ∀ N w err k, ccdMax m tol N = .ok w err k → ∀ i, |w i - ws i| < ε := by
  obtain ⟨y, hy, hye⟩ := contrib_exists P
  have hyp : ∀ i, 0 < y i := fun i => by simpa [hls i] using hy i
  have hy1 : Spec.portVar m.cor y = 1 := by rw [portVar_eq, ← P.budget_sum]; exact Finset.sum_congr rfl fun i _ => hye i
  have hne : (Finset.univ : Finset (Fin n)).Nonempty := ⟨⟨0, P.pos⟩, Finset.mem_univ _⟩
  have hs0 : 0 < ∑ j, y j / m.sigma j := Finset.sum_pos (fun j _ => div_pos (hyp j) (hσ j)) hne
  have hu := share_unscale m hσ y
  have hwy : ws = fun i => y i / m.sigma i / ∑ j, y j / m.sigma j := by
    refine (riskParity_exists_unique m P hσ hls).unique ⟨hws, hrp⟩ ⟨fun i => div_pos (div_pos (hyp i) (hσ i)) hs0, ?_, ?_, fun i => ?_⟩
    · rw [← Finset.sum_div]; exact div_self hs0.ne'
    · rw [portVar_smul, hu.1, hy1]; positivity
    · rw [riskShare_smul m.cov (fun j => y j / m.sigma j) hs0.ne', hu.2 i]
      unfold Spec.riskShare
      rw [hy1, div_one, hye i, sub_self, abs_zero]
  have hcont : ContinuousAt (fun x : Fin n → ℝ => fun i => x i / m.sigma i / ∑ j, x j / m.sigma j) y := by
    refine continuousAt_pi.2 fun i => ContinuousAt.div ((continuous_apply i).div_const _).continuousAt (continuous_finsetSum _ fun j _ => (continuous_apply j).div_const _).continuousAt hs0.ne'
  rw [Metric.continuousAt_iff] at hcont
  obtain ⟨d, hd, hcl⟩ := hcont ε hε
  obtain ⟨D, hD, t0, ht0, hst⟩ := contrib_stable P
  refine ⟨min t0 (d ^ 2 / (2 * (D + 1))), lt_min ht0 (by positivity), fun tol htol N w err k h i => ?_⟩
  unfold ccdMax at h
  split at h
  · cases h
  obtain ⟨x, e, k', h1, h2, h3, h4, h5⟩ := ccdLoop_spec P N 1 _ (by rw [h]; simp)
  rw [h5] at h
  obtain ⟨-, hw, -, -⟩ := finish_ok h
  have hxy : dist x y < d := by
    rw [dist_pi_lt_iff hd]
    intro i
    have h6 := hst x y e h1 hy h2 (h3.le.trans (htol.trans (min_le_left _ _))) h4 hye i
    have h7 : e ≤ d ^ 2 / (2 * (D + 1)) := h3.le.trans (htol.trans (min_le_right _ _))
    have h8 : D * e ≤ D * (d ^ 2 / (2 * (D + 1))) := mul_le_mul_of_nonneg_left h7 hD
    have h9 : D * (d ^ 2 / (2 * (D + 1))) < d ^ 2 := by
      rw [mul_div_assoc', div_lt_iff₀ (by positivity)]
      nlinarith [sq_pos_of_pos hd, mul_nonneg hD (sq_nonneg d)]
    rw [Real.dist_eq]
    exact abs_lt_of_sq_lt_sq (by linarith) hd.le
  have := hcl hxy
  rw [dist_pi_lt_iff hε] at this
  have := this i
  rw [Real.dist_eq] at this
  rw [hw, hwy]
  exact this

/-- A three-asset problem with correlated assets and unequal budgets meets the hypotheses. -/
example : Spec.CcdProblem (n := 3) ⟨![![1, 1/2, 0], ![1/2, 1, 1/4], ![0, 1/4, 1]], ![0.2, 0.3, 0.1], ![1/2, 1/4, 1/4], fun _ => 1⟩ where
  pos := by norm_num
  symm := fun i j => by fin_cases i <;> fin_cases j <;> simp
  diag := fun i => by fin_cases i <;> simp
  posDef := fun x hx => by
    have hne : 0 < x 0 ^ 2 + x 1 ^ 2 + x 2 ^ 2 := by
      by_contra h
      refine hx (funext fun i => ?_)
      have h0 : x 0 = 0 := by nlinarith [sq_nonneg (x 0), sq_nonneg (x 1), sq_nonneg (x 2)]
      have h1 : x 1 = 0 := by nlinarith [sq_nonneg (x 0), sq_nonneg (x 1), sq_nonneg (x 2)]
      have h2 : x 2 = 0 := by nlinarith [sq_nonneg (x 0), sq_nonneg (x 1), sq_nonneg (x 2)]
      fin_cases i <;> simp [h0, h1, h2]
    simp only [Spec.portVar, Fin.sum_univ_three]
    simp
    nlinarith [sq_nonneg (x 0 + x 1), sq_nonneg (x 1 + x 2), sq_nonneg (2 * x 0 + x 1), sq_nonneg (x 1 + 2 * x 2)]
  budget_pos := fun i => by fin_cases i <;> norm_num
  budget_sum := by simp [Fin.sum_univ_three]; norm_num
  sign := fun _ => Or.inl rfl

end Alloc

end PyFENG
