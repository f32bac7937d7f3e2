import Verif.Props.AllocConv

/-!
# C49: convergence of `fit_ccd_original`
-/

namespace PyFENG

open Real

namespace Alloc

variable {n : ℕ}

/-- The function that `fit_ccd_original` decreases: the volatility minus the budget-weighted logarithms of the weights. -/
noncomputable def origObj (m : RiskParity n) (w : Fin n → ℝ) : ℝ := √(Spec.portVar m.cov w) - ∑ i, m.budget i * log (w i)

/-- The running quantities agree with the weights. -/
def OrigInv (m : RiskParity n) (s : OrigState n) : Prop := s.covWw = mulVec m.cov s.ww ∧ 0 < Spec.portVar m.cov s.ww ∧ s.vv = √(Spec.portVar m.cov s.ww)

lemma OrigInv.vv_pos {m : RiskParity n} {s : OrigState n} (h : OrigInv m s) : 0 < s.vv := by rw [h.2.2]; exact Real.sqrt_pos.2 h.2.1

lemma cov_posDef {m : RiskParity n} (P : Spec.CcdProblem m) (hσ : ∀ i, 0 < m.sigma i) : Spec.IsPosDef m.cov := fun x hx => by
  have e : x = fun i => (fun i => m.sigma i * x i) i / m.sigma i := by ext i; have := (hσ i).ne'; field_simp
  rw [e, (share_unscale m hσ fun i => m.sigma i * x i).1]
  refine P.posDef _ fun h => hx (funext fun i => ?_)
  have := congrFun h i
  simpa [(hσ i).ne'] using this

lemma cov_symm {m : RiskParity n} (P : Spec.CcdProblem m) (i j : Fin n) : m.cov i j = m.cov j i := by unfold RiskParity.cov; rw [P.symm i j]; ring

lemma cov_diag {m : RiskParity n} (P : Spec.CcdProblem m) (hσ : ∀ i, 0 < m.sigma i) (i : Fin n) : 0 < m.cov i i := by
  unfold RiskParity.cov; rw [P.diag, mul_one]; exact mul_pos (hσ i) (hσ i)

/-- One coordinate update succeeds from every consistent state of nonzero weights. -/
lemma orig_coord {m : RiskParity n} (P : Spec.CcdProblem m) (hσ : ∀ i, 0 < m.sigma i) {s : OrigState n} (hs : OrigInv m s) (i : Fin n) :
    ∃ s', origCoord m (some s) i = some s' ∧ OrigInv m s' ∧ 0 < m.longshort i * s'.ww i ∧ (∀ j ≠ i, s'.ww j = s.ww j) ∧
      ∑ j, m.cov i j * s'.ww j = s.vv * m.budget i / s'.ww i := by
  have hls : ∀ i, m.longshort i ^ 2 = 1 := fun i => by rcases P.sign i with h | h <;> rw [h] <;> norm_num
  have hii := cov_diag P hσ i
  have hvb := mul_pos (mul_pos hii hs.vv_pos) (P.budget_pos i)
  set a := (s.covWw i - m.cov i i * s.ww i) / 2 with ha
  set x := (m.longshort i * √(a * a + m.cov i i * s.vv * m.budget i) - a) / m.cov i i with hx
  have hlt : |a| < √(a * a + m.cov i i * s.vv * m.budget i) := by
    rw [← Real.sqrt_sq_eq_abs]
    exact Real.sqrt_lt_sqrt (sq_nonneg _) (by nlinarith)
  have hsx : 0 < m.longshort i * x := by
    rw [hx, ← mul_div_assoc]
    refine div_pos ?_ hii
    have := abs_lt.1 hlt
    rcases P.sign i with h | h <;> rw [h] <;> linarith
  have hcw : (fun j => s.covWw j + m.cov j i * (x - s.ww i)) = mulVec m.cov (Function.update s.ww i x) := by
    ext j
    rw [hs.1]
    unfold mulVec dot
    have e1 := (Finset.add_sum_erase Finset.univ (fun l => m.cov j l * s.ww l) (Finset.mem_univ i)).symm
    have e2 := (Finset.add_sum_erase Finset.univ (fun l => m.cov j l * Function.update s.ww i x l) (Finset.mem_univ i)).symm
    have e3 : ∑ l ∈ Finset.univ.erase i, m.cov j l * Function.update s.ww i x l = ∑ l ∈ Finset.univ.erase i, m.cov j l * s.ww l :=
      Finset.sum_congr rfl fun l hl => by rw [Function.update_of_ne (Finset.ne_of_mem_erase hl)]
    rw [e1, e2, e3, Function.update_self]
    ring
  have hq : 0 < Spec.portVar m.cov (Function.update s.ww i x) := cov_posDef P hσ _ fun h => by
    have := congrFun h i
    rw [Function.update_self] at this
    rw [this] at hsx; simp at hsx
  have hstep : origCoord m (some s) i = some ⟨Function.update s.ww i x, mulVec m.cov (Function.update s.ww i x), √(Spec.portVar m.cov (Function.update s.ww i x))⟩ := by
    unfold origCoord
    simp only
    rw [← ha, if_neg (not_lt.2 (by nlinarith [mul_self_nonneg a])), ← hx, hcw, dot_mulVec, if_neg (not_le.2 hq)]
  obtain ⟨h1, h2, h3, h4⟩ := origCoord_solves m hls hs.1 hii hstep
  refine ⟨_, hstep, ⟨rfl, hq, rfl⟩, by simpa using hsx, h2, ?_⟩
  have hne : Function.update s.ww i x i ≠ 0 := by rw [Function.update_self]; intro h; rw [h] at hsx; simp at hsx
  rw [eq_div_iff hne, mul_comm]
  exact h1

/-- The update lowers the objective. -/
lemma orig_descent {m : RiskParity n} (P : Spec.CcdProblem m) {s s' : OrigState n} (hs : OrigInv m s) (hs' : OrigInv m s') (ho : Orthant m s.ww) (ho' : Orthant m s'.ww) {i : Fin n}
    (h2 : ∀ j ≠ i, s'.ww j = s.ww j) (h3 : ∑ j, m.cov i j * s'.ww j = s.vv * m.budget i / s'.ww i) :
    m.cov i i * (s'.ww i - s.ww i) ^ 2 ≤ 2 * s.vv * (origObj m s.ww - origObj m s'.ww) := by
  have hv := hs.vv_pos
  have hv' := hs'.vv_pos
  set w := s.ww
  set w' := s'.ww
  have hx := ho'.ne i
  have hupd : w = Function.update w' i (w i) := by
    ext j
    by_cases hj : j = i
    · subst hj; rw [Function.update_self]
    · rw [Function.update_of_ne hj, h2 j hj]
  have hpv := portVar_update m.cov (cov_symm P) w' i (w i)
  rw [← hupd, h3] at hpv
  have e1 : s.vv ^ 2 = Spec.portVar m.cov w := by rw [hs.2.2, Real.sq_sqrt hs.2.1.le]
  have e2 : s'.vv ^ 2 = Spec.portVar m.cov w' := by rw [hs'.2.2, Real.sq_sqrt hs'.2.1.le]
  have hlog : ∑ j, m.budget j * log (w j) - ∑ j, m.budget j * log (w' j) = m.budget i * log (w i / w' i) := by
    rw [← Finset.sum_sub_distrib, Finset.sum_eq_single i (fun j _ hj => by rw [h2 j hj, sub_self]) (fun h => absurd (Finset.mem_univ i) h), log_div (ho.ne i) hx]
    ring
  have hl := log_le_sub_one_of_pos (ho.ratio ho' i)
  have hl2 := mul_le_mul_of_nonneg_left hl (mul_nonneg hv.le (P.budget_pos i).le)
  have e : 2 * (w i - w' i) * (s.vv * m.budget i / w' i) = 2 * (s.vv * m.budget i * (w i / w' i - 1)) := by field_simp
  rw [e, ← e1, ← e2] at hpv
  have hobj : origObj m w - origObj m w' = s.vv - s'.vv - m.budget i * log (w i / w' i) := by
    unfold origObj
    rw [← hs.2.2, ← hs'.2.2, ← hlog]; ring
  rw [hobj]
  nlinarith [sq_nonneg (s.vv - s'.vv)]

/-- Bounds on a level set of the objective. -/
lemma orig_bounds {m : RiskParity n} (P : Spec.CcdProblem m) (hσ : ∀ i, 0 < m.sigma i) (M : ℝ) : ∃ v0 > 0, ∃ v1 > 0, ∃ R > 0, ∃ g, ∀ s : OrigState n, OrigInv m s → Orthant m s.ww → g ≤ origObj m s.ww ∧
    (origObj m s.ww ≤ M → v0 ≤ s.vv ∧ s.vv ≤ v1 ∧ ∀ i, |s.ww i| ≤ R) := by
  obtain ⟨l, hl, hlb⟩ := posDef_bound P.pos (cov_posDef P hσ)
  have hsl := Real.sqrt_pos.2 hl
  set k := log √l with hk
  refine ⟨exp (k - M), exp_pos _, max 1 (2 * (M - k)), by positivity, max 1 (2 * (M - k)) / √l, by positivity, k, fun s hs ho => ?_⟩
  have hv := hs.vv_pos
  have hwi : ∀ i, |s.ww i| ≤ s.vv / √l := fun i => by
    rw [hs.2.2, ← Real.sqrt_div hs.2.1.le]
    refine Real.abs_le_sqrt ?_
    rw [le_div_iff₀ hl]
    have h1 := hlb s.ww
    have h2 := Finset.single_le_sum (f := fun i => s.ww i ^ 2) (fun _ _ => sq_nonneg _) (Finset.mem_univ i)
    nlinarith
  have hlog : ∑ i, m.budget i * log (s.ww i) ≤ log s.vv - k := by
    have : ∀ i ∈ Finset.univ, m.budget i * log (s.ww i) ≤ m.budget i * (log s.vv - k) := fun i _ => by
      refine mul_le_mul_of_nonneg_left ?_ (P.budget_pos i).le
      rw [← log_abs, hk, ← log_div hv.ne' hsl.ne']
      exact log_le_log (abs_pos.2 (ho.ne i)) (hwi i)
    refine (Finset.sum_le_sum this).trans (le_of_eq ?_)
    rw [← Finset.sum_mul, P.budget_sum, one_mul]
  have hobj : origObj m s.ww = s.vv - ∑ i, m.budget i * log (s.ww i) := by unfold origObj; rw [hs.2.2]
  have h2 : log s.vv ≤ s.vv / 2 := by
    have h3 := log_le_sub_one_of_pos (show 0 < s.vv / 2 by positivity)
    rw [log_div hv.ne' two_ne_zero] at h3
    have h4 := log_le_sub_one_of_pos (show (0:ℝ) < 2 by norm_num)
    linarith
  refine ⟨by rw [hobj]; linarith, fun hM => ?_⟩
  rw [hobj] at hM
  have hv1 : s.vv ≤ max 1 (2 * (M - k)) := le_max_of_le_right (by linarith)
  refine ⟨?_, hv1, fun i => (hwi i).trans (div_le_div_of_nonneg_right hv1 hsl.le)⟩
  rw [← le_log_iff_exp_le hv]
  linarith

/-- The volatility changes little when the weights do. -/
lemma vol_close {m : RiskParity n} {s s' : OrigState n} (hs : OrigInv m s) (hs' : OrigInv m s') {v0 R B d : ℝ} (hv0 : 0 < v0) (h1 : v0 ≤ s.vv) (h2 : v0 ≤ s'.vv)
    (hR : ∀ i, |s.ww i| ≤ R) (hR' : ∀ i, |s'.ww i| ≤ R) (hd : ∀ i, |s'.ww i - s.ww i| ≤ d) (hB : ∑ i, ∑ j, |m.cov i j| = B) (hd0 : 0 ≤ d) : |s.vv - s'.vv| ≤ B * R * d / v0 := by
  have e1 : s.vv ^ 2 = Spec.portVar m.cov s.ww := by rw [hs.2.2, Real.sq_sqrt hs.2.1.le]
  have e2 : s'.vv ^ 2 = Spec.portVar m.cov s'.ww := by rw [hs'.2.2, Real.sq_sqrt hs'.2.1.le]
  have hdiff : |s.vv ^ 2 - s'.vv ^ 2| ≤ B * (2 * R * d) := by
    rw [e1, e2, ← hB]
    unfold Spec.portVar
    rw [← Finset.sum_sub_distrib, Finset.sum_mul]
    refine (Finset.abs_sum_le_sum_abs _ _).trans (Finset.sum_le_sum fun i _ => ?_)
    rw [← Finset.sum_sub_distrib, Finset.sum_mul]
    refine (Finset.abs_sum_le_sum_abs _ _).trans (Finset.sum_le_sum fun j _ => ?_)
    have e : s.ww i * m.cov i j * s.ww j - s'.ww i * m.cov i j * s'.ww j = m.cov i j * (-(s'.ww i - s.ww i) * s.ww j + s'.ww i * -(s'.ww j - s.ww j)) := by ring
    rw [e, abs_mul]
    refine mul_le_mul_of_nonneg_left ?_ (abs_nonneg _)
    refine (abs_add_le _ _).trans ?_
    rw [abs_mul, abs_mul, abs_neg, abs_neg]
    have h3 := mul_le_mul (hd i) (hR j) (abs_nonneg _) hd0
    have h4 := mul_le_mul (hR' i) (hd j) (abs_nonneg _) ((abs_nonneg _).trans (hR' i))
    linarith
  have hf : s.vv ^ 2 - s'.vv ^ 2 = (s.vv - s'.vv) * (s.vv + s'.vv) := by ring
  rw [hf, abs_mul, abs_of_pos (by linarith : 0 < s.vv + s'.vv)] at hdiff
  rw [le_div_iff₀ hv0]
  have := mul_le_mul_of_nonneg_left (by linarith : 2 * v0 ≤ s.vv + s'.vv) (abs_nonneg (s.vv - s'.vv))
  nlinarith

/-- A sweep always succeeds and ends with the right signs. -/
lemma orig_fold {m : RiskParity n} (P : Spec.CcdProblem m) (hσ : ∀ i, 0 < m.sigma i) (l : List (Fin n)) : ∀ s, OrigInv m s →
    ∃ s', l.foldl (origCoord m) (some s) = some s' ∧ OrigInv m s' ∧ ∀ j, (j ∈ l ∨ 0 < m.longshort j * s.ww j) → 0 < m.longshort j * s'.ww j := by
  induction l with
  | nil => exact fun s hs => ⟨s, rfl, hs, fun j h => by simpa using h⟩
  | cons i l ih =>
    intro s hs
    obtain ⟨s1, h1, h2, h3, h4, -⟩ := orig_coord P hσ hs i
    obtain ⟨s', g1, g2, g3⟩ := ih s1 h2
    refine ⟨s', by rw [List.foldl_cons, h1, g1], g2, fun j hj => g3 j ?_⟩
    by_cases hji : j = i
    · subst hji; exact Or.inr h3
    · rw [h4 j hji]
      rcases hj with hj | hj
      · exact Or.inl ((List.mem_cons.1 hj).resolve_left hji)
      · exact Or.inr hj

/-- A sweep over a list of coordinates lowers the objective, and small progress means small residuals. -/
lemma orig_sweep {m : RiskParity n} (P : Spec.CcdProblem m) (hσ : ∀ i, 0 < m.sigma i) {M v0 v1 R B c : ℝ} (hv0 : 0 < v0) (hv1 : 0 < v1) (hc : 0 < c) (hci : ∀ i, c ≤ m.cov i i)
    (hb : ∀ s : OrigState n, OrigInv m s → Orthant m s.ww → origObj m s.ww ≤ M → v0 ≤ s.vv ∧ s.vv ≤ v1 ∧ ∀ i, |s.ww i| ≤ R) (hB : ∑ i, ∑ j, |m.cov i j| = B)
    (l : List (Fin n)) (hl : l.Nodup) : ∀ s, OrigInv m s → Orthant m s.ww → origObj m s.ww ≤ M → ∀ s', l.foldl (origCoord m) (some s) = some s' →
      OrigInv m s' ∧ Orthant m s'.ww ∧ origObj m s'.ww ≤ origObj m s.ww ∧ (∀ j, j ∉ l → s'.ww j = s.ww j) ∧
      (∀ j, |s'.ww j - s.ww j| ≤ √(2 * v1 / c * (origObj m s.ww - origObj m s'.ww))) ∧
      ∀ i ∈ l, ∃ u, |u - s'.vv| ≤ B * R * √(2 * v1 / c * (origObj m s.ww - origObj m s'.ww)) / v0 ∧
        |∑ j, m.cov i j * s'.ww j - u * m.budget i / s'.ww i| ≤ B * √(2 * v1 / c * (origObj m s.ww - origObj m s'.ww)) := by
  have hB0 : 0 ≤ B := by rw [← hB]; exact Finset.sum_nonneg fun _ _ => Finset.sum_nonneg fun _ _ => abs_nonneg _
  induction l with
  | nil =>
    intro s hs ho _ s' h
    simp only [List.foldl_nil, Option.some.injEq] at h
    subst h
    exact ⟨hs, ho, le_rfl, fun _ _ => rfl, fun j => by simp, by simp⟩
  | cons i l ih =>
    intro s hs ho hM s' h
    obtain ⟨hil, hl'⟩ := List.nodup_cons.1 hl
    obtain ⟨s1, h1, i1, p1, q1, r1⟩ := orig_coord P hσ hs i
    rw [List.foldl_cons, h1] at h
    have o1 : Orthant m s1.ww := fun j => by
      by_cases hj : j = i
      · subst hj; exact p1
      · rw [q1 j hj]; exact ho j
    obtain ⟨b0, b1, bR⟩ := hb s hs ho hM
    have d1 := orig_descent P hs i1 ho o1 q1 r1
    have hd0 : 0 ≤ origObj m s.ww - origObj m s1.ww := by
      have h3 : 0 ≤ 2 * s.vv * (origObj m s.ww - origObj m s1.ww) := le_trans (mul_nonneg (hc.le.trans (hci i)) (sq_nonneg _)) d1
      exact nonneg_of_mul_nonneg_right h3 (by linarith [hs.vv_pos])
    obtain ⟨i2, o2, d2, s2, t2, r2⟩ := ih hl' s1 i1 o1 (by linarith) s' h
    have hk : 0 ≤ 2 * v1 / c := by positivity
    have mono : √(2 * v1 / c * (origObj m s1.ww - origObj m s'.ww)) ≤ √(2 * v1 / c * (origObj m s.ww - origObj m s'.ww)) :=
      Real.sqrt_le_sqrt (mul_le_mul_of_nonneg_left (by linarith) hk)
    have hmove : ∀ j, |s'.ww j - s.ww j| ≤ √(2 * v1 / c * (origObj m s.ww - origObj m s'.ww)) := fun j => by
      by_cases hj : j = i
      · subst hj
        rw [s2 j hil]
        refine Real.abs_le_sqrt ?_
        have h4 : c * (s1.ww j - s.ww j) ^ 2 ≤ 2 * v1 * (origObj m s.ww - origObj m s1.ww) :=
          (mul_le_mul_of_nonneg_right (hci j) (sq_nonneg _)).trans (d1.trans (mul_le_mul_of_nonneg_right (by linarith) hd0))
        rw [div_mul_eq_mul_div, le_div_iff₀ hc]
        nlinarith
      · rw [← q1 j hj]
        exact (t2 j).trans mono
    obtain ⟨b0', b1', bR'⟩ := hb s' i2 o2 (by linarith)
    have hR0 : 0 ≤ R := (abs_nonneg _).trans (bR i)
    refine ⟨i2, o2, by linarith, fun j hj => ?_, hmove, fun j hj => ?_⟩
    · rw [List.mem_cons, not_or] at hj
      rw [s2 j hj.2, q1 j hj.1]
    · rcases List.mem_cons.1 hj with rfl | hj
      · refine ⟨s.vv, vol_close hs i2 hv0 b0 b0' bR bR' hmove hB (Real.sqrt_nonneg _), ?_⟩
        rw [s2 j hil, ← r1, ← Finset.sum_sub_distrib]
        refine (Finset.abs_sum_le_sum_abs _ _).trans ?_
        have : ∀ k ∈ Finset.univ, |m.cov j k * s'.ww k - m.cov j k * s1.ww k| ≤ |m.cov j k| * √(2 * v1 / c * (origObj m s.ww - origObj m s'.ww)) := fun k _ => by
          rw [← mul_sub, abs_mul]
          exact mul_le_mul_of_nonneg_left ((t2 k).trans mono) (abs_nonneg _)
        refine (Finset.sum_le_sum this).trans ?_
        rw [← Finset.sum_mul]
        refine mul_le_mul_of_nonneg_right ?_ (Real.sqrt_nonneg _)
        rw [← hB]
        exact Finset.single_le_sum (f := fun i => ∑ j, |m.cov i j|) (fun _ _ => Finset.sum_nonneg fun _ _ => abs_nonneg _) (Finset.mem_univ j)
      · obtain ⟨u, hu1, hu2⟩ := r2 j hj
        exact ⟨u, hu1.trans (div_le_div_of_nonneg_right (mul_le_mul_of_nonneg_left mono (mul_nonneg hB0 hR0)) hv0.le), hu2.trans (mul_le_mul_of_nonneg_left mono hB0)⟩

/-- One pass: the objective drops by a fixed amount or the stopping criterion holds. -/
lemma orig_pass {m : RiskParity n} (P : Spec.CcdProblem m) (hσ : ∀ i, 0 < m.sigma i) {tol : ℝ} (ht : 0 < tol) (M : ℝ) : ∃ δ > 0, ∀ s s', OrigInv m s → Orthant m s.ww → origObj m s.ww ≤ M →
    (List.finRange n).foldl (origCoord m) (some s) = some s' → OrigInv m s' ∧ Orthant m s'.ww ∧ origObj m s'.ww ≤ M ∧
      (origObj m s'.ww ≤ origObj m s.ww - δ ∨ ∀ i, |s'.ww i * s'.covWw i / s'.vv - m.budget i| < tol) := by
  obtain ⟨v0, hv0, v1, hv1, R, hR, g, hb⟩ := orig_bounds P hσ M
  have : Nonempty (Fin n) := ⟨⟨0, P.pos⟩⟩
  obtain ⟨i0, hi0⟩ := Finite.exists_min fun i => m.cov i i
  set c := m.cov i0 i0 with hcdef
  have hc : 0 < c := cov_diag P hσ i0
  obtain ⟨B, hB⟩ : ∃ B, ∑ i, ∑ j, |m.cov i j| = B := ⟨_, rfl⟩
  have hB0 : 0 ≤ B := by rw [← hB]; exact Finset.sum_nonneg fun _ _ => Finset.sum_nonneg fun _ _ => abs_nonneg _
  set E := (B * R / v0 + R * B) / v0 with hE
  have hE0 : 0 ≤ E := by positivity
  refine ⟨(tol / (E + 1)) ^ 2 / (2 * v1 / c), by positivity, fun s s' hs ho hM h => ?_⟩
  obtain ⟨i1, o1, d1, -, -, r1⟩ := orig_sweep P hσ hv0 hv1 hc hi0 (fun s hs ho hM => (hb s hs ho).2 hM) hB _ (List.nodup_finRange n) s hs ho hM s' h
  refine ⟨i1, o1, d1.trans hM, ?_⟩
  by_cases hδ : origObj m s'.ww ≤ origObj m s.ww - (tol / (E + 1)) ^ 2 / (2 * v1 / c)
  · exact Or.inl hδ
  right
  have hδ := not_le.1 hδ
  set ρ := √(2 * v1 / c * (origObj m s.ww - origObj m s'.ww)) with hρ
  have hρ0 : 0 ≤ ρ := Real.sqrt_nonneg _
  have hρt : ρ ≤ tol / (E + 1) := by
    refine Real.sqrt_le_iff.2 ⟨by positivity, ?_⟩
    have h1 : origObj m s.ww - origObj m s'.ww ≤ (tol / (E + 1)) ^ 2 / (2 * v1 / c) := by linarith
    rw [le_div_iff₀ (by positivity)] at h1
    linarith
  obtain ⟨b0, b1, bR⟩ := (hb s' i1 o1).2 (d1.trans hM)
  intro i
  obtain ⟨u, hu1, hu2⟩ := r1 i (List.mem_finRange i)
  have hbi : m.budget i ≤ 1 := by rw [← P.budget_sum]; exact Finset.single_le_sum (f := m.budget) (fun i _ => (P.budget_pos i).le) (Finset.mem_univ i)
  have hv' := i1.vv_pos
  have hcov : s'.covWw i = ∑ j, m.cov i j * s'.ww j := by rw [i1.1]; rfl
  have hwi := o1.ne i
  have e : s'.ww i * s'.covWw i / s'.vv - m.budget i = ((u - s'.vv) * m.budget i + s'.ww i * (∑ j, m.cov i j * s'.ww j - u * m.budget i / s'.ww i)) / s'.vv := by
    rw [hcov]; field_simp; ring
  rw [e, abs_div, abs_of_pos hv', div_lt_iff₀ hv']
  have h1 : |(u - s'.vv) * m.budget i| ≤ B * R * ρ / v0 := by
    rw [abs_mul, abs_of_pos (P.budget_pos i)]
    have := mul_le_mul_of_nonneg_left hbi (abs_nonneg (u - s'.vv))
    linarith
  have h2 : |s'.ww i * (∑ j, m.cov i j * s'.ww j - u * m.budget i / s'.ww i)| ≤ R * (B * ρ) := by
    rw [abs_mul]
    exact mul_le_mul (bR i) hu2 (abs_nonneg _) hR.le
  have h3 := abs_add_le ((u - s'.vv) * m.budget i) (s'.ww i * (∑ j, m.cov i j * s'.ww j - u * m.budget i / s'.ww i))
  have h4 : B * R * ρ / v0 + R * (B * ρ) = E * ρ * v0 := by rw [hE]; field_simp
  have h5 : E * ρ < tol := by
    rw [le_div_iff₀ (by positivity)] at hρt
    rcases hρ0.eq_or_lt with h0 | h0
    · rw [← h0, mul_zero]; exact ht
    · nlinarith
  have h6 : E * ρ * v0 < tol * s'.vv := by
    have := mul_lt_mul_of_pos_right h5 hv0
    have := mul_le_mul_of_nonneg_left b0 ht.le
    linarith
  linarith

/-- `fit_ccd_original` with the iteration limit 1023 of the code replaced by `N`. -/
noncomputable def origMax (m : RiskParity n) (tol : ℝ) (N : ℕ) : FitResult n :=
  let w0 := fun i => 1 / m.sigma i
  let ww := fun i => w0 i / ∑ j, w0 j
  let covWw := mulVec m.cov ww
  if dot ww covWw ≤ 0 then .notConverged
  else origLoop m tol N 1 ⟨ww, covWw, √(dot ww covWw)⟩

lemma origMax_code (m : RiskParity n) (tol : ℝ) : fitCcdOriginal m tol = origMax m tol 1023 := rfl

lemma origLoop_terminates {m : RiskParity n} (P : Spec.CcdProblem m) (hσ : ∀ i, 0 < m.sigma i) {tol : ℝ} (ht : 0 < tol) (M : ℝ) : ∃ K : ℕ, ∀ fuel ≥ K, ∀ k s, OrigInv m s → Orthant m s.ww → origObj m s.ww ≤ M →
    origLoop m tol fuel k s ≠ .notConverged := by
  obtain ⟨c, hc, hpass⟩ := orig_pass P hσ ht M
  obtain ⟨v0, hv0, v1, hv1, R, hR, g, hg⟩ := orig_bounds P hσ M
  have main : ∀ fuel : ℕ, ∀ k s, OrigInv m s → Orthant m s.ww → origObj m s.ww ≤ M → origObj m s.ww < fuel * c + g → origLoop m tol fuel k s ≠ .notConverged := fun fuel => by
    induction fuel with
    | zero =>
      intro k s hs ho _ h
      have := (hg s hs ho).1
      simp only [Nat.cast_zero, zero_mul] at h
      linarith
    | succ fuel ih =>
      intro k s hs ho hM h
      obtain ⟨s1, hs1, -, -⟩ := orig_fold P hσ (List.finRange n) s hs
      obtain ⟨i1, o1, hM', hd⟩ := hpass s s1 hs ho hM hs1
      rw [origLoop, hs1]
      simp only
      split
      · unfold finish; split <;> simp
      · rename_i herr
        refine ih _ _ i1 o1 hM' ?_
        rcases hd with hd | hd
        · push_cast at h; linarith
        · refine absurd ?_ herr
          have : Nonempty (Fin n) := ⟨⟨0, P.pos⟩⟩
          obtain ⟨i, hi⟩ := Finite.exists_max fun i => |s1.ww i * s1.covWw i / s1.vv - m.budget i|
          exact lt_of_le_of_lt (ciSup_le hi) (hd i)
  obtain ⟨K, hK⟩ := exists_nat_gt ((M - g) / c)
  rw [div_lt_iff₀ hc] at hK
  refine ⟨K, fun fuel hf k s hs ho hM => main fuel k s hs ho hM ?_⟩
  have : (K:ℝ) * c ≤ fuel * c := mul_le_mul_of_nonneg_right (by exact_mod_cast hf) hc.le
  linarith

/-- **C49** (convergence of the original CCD).  For every symmetric positive definite correlation matrix, positive volatilities, positive budget with sum one, sign vector and tolerance, the iteration
of `fit_ccd_original` meets its stopping criterion after finitely many passes: with a large enough iteration limit it never returns `None`. -/
theorem ccdOriginal_terminates (m : RiskParity n) (P : Spec.CcdProblem m) (hσ : ∀ i, 0 < m.sigma i) {tol : ℝ} (ht : 0 < tol) : ∃ N : ℕ, ∀ N' ≥ N, origMax m tol N' ≠ .notConverged := by
  have : Nonempty (Fin n) := ⟨⟨0, P.pos⟩⟩
  set ww : Fin n → ℝ := fun i => 1 / m.sigma i / ∑ j, 1 / m.sigma j with hww
  have hsum : 0 < ∑ j, 1 / m.sigma j := Finset.sum_pos (fun j _ => one_div_pos.2 (hσ j)) Finset.univ_nonempty
  have hq : 0 < Spec.portVar m.cov ww := cov_posDef P hσ _ fun h => by
    have h1 := congrFun h ⟨0, P.pos⟩
    have h2 : 0 < ww ⟨0, P.pos⟩ := div_pos (one_div_pos.2 (hσ _)) hsum
    rw [h1] at h2; simp at h2
  have hinv : OrigInv m ⟨ww, mulVec m.cov ww, √(Spec.portVar m.cov ww)⟩ := ⟨rfl, hq, rfl⟩
  obtain ⟨s1, hs1, i1, o1⟩ := orig_fold P hσ (List.finRange n) _ hinv
  obtain ⟨K, hK⟩ := origLoop_terminates P hσ ht (origObj m s1.ww)
  refine ⟨K + 1, fun N hN => ?_⟩
  obtain ⟨N, rfl⟩ := Nat.exists_eq_add_of_le' (show 1 ≤ N by omega)
  unfold origMax
  simp only
  rw [← hww, dot_mulVec, if_neg (not_le.2 hq), origLoop, hs1]
  simp only
  split
  · unfold finish; split <;> simp
  · exact hK N (by omega) _ _ i1 (fun j => o1 j (Or.inl (List.mem_finRange j))) le_rfl

end Alloc

end PyFENG
