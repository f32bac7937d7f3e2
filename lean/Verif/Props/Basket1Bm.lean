import Verif.Lemmas.OneFactor
import Mathlib.Analysis.Convex.SpecificFunctions.Basic
import Mathlib.Analysis.Convex.Jensen

/-!
# Baskets driven by one Brownian motion: `BsmBasket1Bm` (C92)
-/

set_option linter.unusedSectionVars false
set_option linter.style.haveILetI false

namespace PyFENG

open MeasureTheory ProbabilityTheory Matrix Real

namespace Basket1Bm

variable {n : ℕ}

/-! ### The root search -/

/-- The function whose root is sought. -/
noncomputable def level (fac std : Fin n → ℝ) (x : ℝ) : ℝ := ∑ i, fac i * exp (std i * x)

lemma level_mono {fac std : Fin n → ℝ} (h : ∀ i, 0 ≤ fac i * std i) : Monotone (level fac std) := by
  intro x y hxy
  refine Finset.sum_le_sum fun i _ => ?_
  rcases lt_trichotomy (std i) 0 with hs | hs | hs
  · have hf : fac i ≤ 0 := by by_contra hc; push Not at hc; have := mul_neg_of_pos_of_neg hc hs; linarith [h i]
    exact mul_le_mul_of_nonpos_left (exp_le_exp.2 (mul_le_mul_of_nonpos_left hxy hs.le)) hf
  · rw [hs]; simp
  · have hf : 0 ≤ fac i := by by_contra hc; push Not at hc; have := mul_neg_of_neg_of_pos hc hs; linarith [h i]
    exact mul_le_mul_of_nonneg_left (exp_le_exp.2 (mul_le_mul_of_nonneg_left hxy hs.le)) hf

lemma level_pos [Nonempty (Fin n)] {fac std : Fin n → ℝ} (hf : ∀ i, 0 < fac i) (x : ℝ) : 0 < level fac std x :=
  Finset.sum_pos (fun i _ => mul_pos (hf i) (exp_pos _)) Finset.univ_nonempty

/-- Log-sum-exp lies above its tangents. -/
lemma log_level_tangent [Nonempty (Fin n)] {fac std : Fin n → ℝ} (hf : ∀ i, 0 < fac i) (x y : ℝ) :
    log (level fac std x) + slope true fac std x * (y - x) ≤ log (level fac std y) := by
  have hx := level_pos (std := std) hf x
  have hy := level_pos (std := std) hf y
  set p : Fin n → ℝ := fun i => fac i * exp (std i * x) / level fac std x with hp
  have hp0 : ∀ i ∈ Finset.univ, 0 ≤ p i := fun i _ => by have := hf i; positivity
  have hp1 : ∑ i, p i = 1 := by
    rw [hp, ← Finset.sum_div]; exact div_self hx.ne'
  have hj := convexOn_exp.map_sum_le hp0 hp1 (p := fun i => std i * (y - x)) (fun i _ => Set.mem_univ _)
  have e1 : ∑ i, p i • (std i * (y - x)) = slope true fac std x * (y - x) := by
    unfold slope yVec
    rw [if_pos rfl, div_mul_eq_mul_div, Finset.sum_mul]
    rw [Finset.sum_div]
    refine Finset.sum_congr rfl fun i _ => ?_
    simp only [hp, smul_eq_mul]
    unfold level
    ring
  have e2 : ∑ i, p i • exp (std i * (y - x)) = level fac std y / level fac std x := by
    simp only [hp, smul_eq_mul]
    rw [show level fac std y = ∑ i, fac i * exp (std i * y) from rfl, Finset.sum_div]
    refine Finset.sum_congr rfl fun i _ => ?_
    rw [div_mul_eq_mul_div, mul_assoc, ← exp_add]
    ring_nf
  rw [e1, e2] at hj
  have h2 := log_le_log (exp_pos _) hj
  rw [log_exp, log_div hy.ne' hx.ne'] at h2
  linarith

lemma slope_bounds [Nonempty (Fin n)] {fac std : Fin n → ℝ} {a b : ℝ} (hf : ∀ i, 0 < fac i) (ha : ∀ i, a ≤ std i) (hb : ∀ i, std i ≤ b) (x : ℝ) :
    a ≤ slope true fac std x ∧ slope true fac std x ≤ b := by
  have hx : 0 < ∑ i, yVec fac std x i := level_pos (std := std) hf x
  unfold slope
  rw [if_pos rfl]
  constructor
  · rw [le_div_iff₀ hx, Finset.mul_sum]
    exact Finset.sum_le_sum fun i _ => mul_le_mul_of_nonneg_right (ha i) (mul_pos (hf i) (exp_pos _)).le
  · rw [div_le_iff₀ hx, Finset.mul_sum]
    exact Finset.sum_le_sum fun i _ => mul_le_mul_of_nonneg_right (hb i) (mul_pos (hf i) (exp_pos _)).le

lemma resid_log {fac std : Fin n → ℝ} {K : ℝ} (hK : 0 < K) (x : ℝ) : resid true fac std K x = log (level fac std x) - log K := by
  unfold resid; rw [if_pos rfl, if_pos hK]; rfl

/-- One Newton step in logarithmic mode, from the right of the root: it moves left, does not cross the root, and shrinks the residual by a
factor depending only on the spread of the volatilities. -/
lemma newton_step [Nonempty (Fin n)] {fac std : Fin n → ℝ} {K a b x : ℝ} (hK : 0 < K) (hf : ∀ i, 0 < fac i) (h0 : 0 < a) (ha : ∀ i, a ≤ std i)
    (hb : ∀ i, std i ≤ b) (hx : 0 ≤ resid true fac std K x) :
    let x' := x - resid true fac std K x / slope true fac std x
    x' ≤ x ∧ 0 ≤ resid true fac std K x' ∧ resid true fac std K x' ≤ (1 - a / b) * resid true fac std K x := by
  intro x'
  obtain ⟨hs1, hs2⟩ := slope_bounds hf ha hb x
  have hs : 0 < slope true fac std x := h0.trans_le hs1
  have hle : x' ≤ x := sub_le_self _ (div_nonneg hx hs.le)
  have ht := log_level_tangent (std := std) hf x x'
  have e : slope true fac std x * (x' - x) = -resid true fac std K x := by
    simp only [x']; field_simp; ring
  have h1 : 0 ≤ resid true fac std K x' := by
    rw [resid_log hK] at hx e ⊢; linarith
  refine ⟨hle, h1, ?_⟩
  have ht2 := log_level_tangent (std := std) hf x' x
  obtain ⟨hs3, _⟩ := slope_bounds hf ha hb x'
  have hbpos : 0 < b := hs.trans_le hs2
  have h3 : a * (x - x') ≤ slope true fac std x' * (x - x') := mul_le_mul_of_nonneg_right hs3 (by linarith)
  have h4 : a / b * resid true fac std K x ≤ a * (x - x') := by
    have : x - x' = resid true fac std K x / slope true fac std x := by simp only [x']; ring
    rw [this, div_mul_eq_mul_div, mul_div_assoc]
    refine mul_le_mul_of_nonneg_left ?_ h0.le
    exact div_le_div_of_nonneg_left hx hs hs2
  rw [resid_log hK] at hx ⊢
  rw [resid_log hK] at h4 ⊢
  linarith

/-- The loop, in logarithmic mode: the returned point is on the right side of the root, its residual is at most the residual last tested, and
that one is either below the tolerance or has shrunk geometrically. -/
lemma loop_log [Nonempty (Fin n)] {fac std : Fin n → ℝ} {K a b : ℝ} (hK : 0 < K) (hf : ∀ i, 0 < fac i) (h0 : 0 < a) (ha : ∀ i, a ≤ std i)
    (hb : ∀ i, std i ≤ b) (k : ℕ) (x : ℝ) (hx : 0 ≤ resid true fac std K x) :
    0 ≤ resid true fac std K (loop true fac std K (k + 1) x).1 ∧
    resid true fac std K (loop true fac std K (k + 1) x).1 ≤ (loop true fac std K (k + 1) x).2 ∧
    ((loop true fac std K (k + 1) x).2 < OptABC.impvolTol ∨ (loop true fac std K (k + 1) x).2 ≤ (1 - a / b) ^ k * resid true fac std K x) := by
  have hab : a ≤ b := by obtain ⟨i⟩ := ‹Nonempty (Fin n)›; exact (ha i).trans (hb i)
  have hr0 : 0 ≤ 1 - a / b := by
    have : a / b ≤ 1 := (div_le_one (h0.trans_le hab)).2 hab
    linarith
  induction k generalizing x with
  | zero =>
    obtain ⟨_, h2, h3⟩ := newton_step hK hf h0 ha hb hx
    have e : loop true fac std K (0 + 1) x = (x - resid true fac std K x / slope true fac std x, resid true fac std K x) := by
      simp [loop]
    rw [e]
    refine ⟨h2, ?_, Or.inr (by simp)⟩
    have : 0 ≤ a / b := div_nonneg h0.le (h0.le.trans hab)
    nlinarith
  | succ k ih =>
    obtain ⟨_, h2, h3⟩ := newton_step hK hf h0 ha hb hx
    have hle : resid true fac std K (x - resid true fac std K x / slope true fac std x) ≤ resid true fac std K x := by
      have : 0 ≤ a / b := div_nonneg h0.le (h0.le.trans hab)
      nlinarith
    by_cases hc : |resid true fac std K x| < OptABC.impvolTol
    · have e : loop true fac std K (k + 1 + 1) x = (x - resid true fac std K x / slope true fac std x, resid true fac std K x) := by
        rw [loop]; simp [hc]
      rw [e]
      exact ⟨h2, hle, Or.inl ((le_abs_self _).trans_lt hc)⟩
    · have e : loop true fac std K (k + 1 + 1) x = loop true fac std K (k + 1) (x - resid true fac std K x / slope true fac std x) := by
        rw [loop]; simp [hc]
      rw [e]
      obtain ⟨i1, i2, i3⟩ := ih _ h2
      refine ⟨i1, i2, i3.imp id fun h => h.trans ?_⟩
      rw [pow_succ, mul_assoc]
      exact mul_le_mul_of_nonneg_left h3 (pow_nonneg hr0 k)

/-- The starting point is on the right side of the root. -/
lemma guess_log [Nonempty (Fin n)] {fac std : Fin n → ℝ} {K : ℝ} (hK : 0 < K) (hf : ∀ i, 0 < fac i) (hs : ∀ i, 0 < std i) :
    0 ≤ resid true fac std K (guess true fac std K) := by
  rw [resid_log hK, sub_nonneg]
  refine log_le_log hK ?_
  unfold guess
  simp only [if_true]
  rcases min_choice ((K - ∑ i, fac i) / ∑ i, fac i * std i) (⨅ i, log (K / fac i) / std i) with h | h <;> rw [h]
  · set x := (K - ∑ i, fac i) / ∑ i, fac i * std i with hx
    have hpos : 0 < ∑ i, fac i * std i := Finset.sum_pos (fun i _ => mul_pos (hf i) (hs i)) Finset.univ_nonempty
    have e : K = ∑ i, fac i * (1 + std i * x) := by
      have : ∑ i, fac i * (1 + std i * x) = ∑ i, fac i + (∑ i, fac i * std i) * x := by
        rw [Finset.sum_mul, ← Finset.sum_add_distrib]; exact Finset.sum_congr rfl fun i _ => by ring
      rw [this, hx]
      field_simp
      ring
    nth_rw 1 [e]
    exact Finset.sum_le_sum fun i _ => mul_le_mul_of_nonneg_left (by have := add_one_le_exp (std i * x); linarith) (hf i).le
  · obtain ⟨i, hi⟩ := exists_eq_ciInf_of_finite (f := fun i => log (K / fac i) / std i)
    rw [← hi]
    have e : fac i * exp (std i * (log (K / fac i) / std i)) = K := by
      rw [mul_div_cancel₀ _ (hs i).ne', exp_log (div_pos hK (hf i)), mul_div_cancel₀ _ (hf i).ne']
    calc K = fac i * exp (std i * (log (K / fac i) / std i)) := e.symm
      _ ≤ _ := Finset.single_le_sum (f := fun j => fac j * exp (std j * (log (K / fac i) / std i)))
        (fun j _ => (mul_pos (hf j) (exp_pos _)).le) (Finset.mem_univ i)

lemma isLog_of_pos {fac : Fin n → ℝ} (hf : ∀ i, 0 < fac i) : isLog fac = true := by
  unfold isLog; exact @decide_eq_true _ (Classical.dec _) hf

/-- **C92** (root of a basket).  For positive factors and volatilities and a positive strike, if `root` returns a finite point without warning, the
basket level at that point is the strike up to a relative error of `1e-10`, and never below it. -/
theorem root_accuracy {fac std : Fin (n + 1) → ℝ} {K x : ℝ} (hK : 0 < K) (hf : ∀ i, 0 < fac i) (hs : ∀ i, 0 < std i)
    (hr : root fac std K = some (x : EReal)) (hw : ¬ warns fac std K) :
    K ≤ ∑ i, fac i * exp (std i * x) ∧ ∑ i, fac i * exp (std i * x) ≤ K * exp 1e-10 := by
  classical
  have hfs : ∀ i, 0 ≤ fac i * std i := fun i => (mul_pos (hf i) (hs i)).le
  unfold root at hr
  simp only [hfs, implies_true, not_true, if_false] at hr
  split_ifs at hr with h1 h2
  · simp at hr
  · simp at hr
  push Not at h1 h2
  have hx : (loop (isLog fac) fac std K 32 (guess (isLog fac) fac std K)).1 = x := by
    have := Option.some.inj hr
    exact_mod_cast this
  rw [isLog_of_pos hf] at hx
  have hwl : |(loop true fac std K 32 (guess true fac std K)).2| ≤ OptABC.impvolTol := by
    by_contra hc
    push Not at hc
    exact hw ⟨h1, h2, by rw [isLog_of_pos hf]; exact hc⟩
  obtain ⟨i0, hi0⟩ := exists_eq_ciInf_of_finite (f := std)
  obtain ⟨i1, hi1⟩ := exists_eq_ciSup_of_finite (f := std)
  obtain ⟨j1, j2, _⟩ := loop_log (a := std i0) (b := std i1) hK hf (hs i0) (fun i => hi0 ▸ ciInf_le (Set.finite_range std).bddBelow i)
    (fun i => hi1 ▸ le_ciSup (Set.finite_range std).bddAbove i) 31 _ (guess_log hK hf hs)
  rw [hx, resid_log hK] at j1 j2
  have hl := level_pos (std := std) hf x
  constructor
  · exact (log_le_log_iff hK hl).1 (by linarith)
  · change level fac std x ≤ _
    rw [← exp_log hl, ← exp_log hK, ← exp_add]
    refine exp_le_exp.2 ?_
    have := (le_abs_self _).trans hwl
    unfold OptABC.impvolTol at this
    linarith

/-- **C92** (no warning).  `root` converges without warning whenever the volatilities are not too far apart for the starting residual: the residual
shrinks by the factor `1 - min(std)/max(std)` at every step. -/
theorem root_no_warning {fac std : Fin (n + 1) → ℝ} {K a b : ℝ} (hK : 0 < K) (hf : ∀ i, 0 < fac i) (h0 : 0 < a) (ha : ∀ i, a ≤ std i)
    (hb : ∀ i, std i ≤ b) (hsmall : (1 - a / b) ^ 31 * (log (∑ i, fac i * exp (std i * guess true fac std K)) - log K) ≤ 1e-10) :
    ¬ warns fac std K := by
  rintro ⟨_, _, h⟩
  rw [isLog_of_pos hf] at h
  obtain ⟨j1, j2, j3⟩ := loop_log hK hf h0 ha hb 31 _ (guess_log hK hf fun i => h0.trans_le (ha i))
  rw [abs_of_nonneg (j1.trans j2)] at h
  rcases j3 with j3 | j3
  · exact absurd h (not_lt.2 j3.le)
  · rw [resid_log hK] at j3
    refine absurd h (not_lt.2 (j3.trans ?_))
    exact hsmall

/-! ### Prices -/

variable (o : Ma n)

/-- The single column of volatilities. -/
noncomputable def col (std : Fin n → ℝ) : Matrix (Fin n) (Fin 1) ℝ := Matrix.of fun i _ => std i

lemma col_cov {T : ℝ} (hT : 0 ≤ T) (hcov : ∀ i j, o.cov i j = o.sigma i * o.sigma j) :
    col (fun i => o.sigma i * √T) * (col fun i => o.sigma i * √T)ᵀ = T • o.cov := by
  ext i j
  simp only [col, Matrix.mul_apply, Finset.univ_unique, Finset.sum_singleton, of_apply, transpose_apply, Matrix.smul_apply, smul_eq_mul, hcov]
  have := mul_self_sqrt hT
  linear_combination (o.sigma i * o.sigma j) * this

lemma col_mul (std : Fin n → ℝ) : col std *ᵥ (fun _ => 1) = std := by
  ext i; simp [col, Matrix.mulVec, dotProduct]

lemma unit_one : ∑ _k : Fin 1, (1:ℝ) ^ 2 = 1 := by simp

lemma basket_col (w F std : Fin n → ℝ) (y : Fin 1 → ℝ) :
    Spec.basket w F (col std * (col std)ᵀ) (col std *ᵥ y) = level (fun i => F i * w i * exp (-(std i ^ 2) / 2)) std (y 0) := by
  unfold Spec.basket level
  refine Finset.sum_congr rfl fun i _ => ?_
  rw [OneFactor.gbmVec_factor]
  simp only [col, of_apply, Finset.univ_unique, Finset.sum_singleton]
  rw [mul_assoc (F i * w i), ← exp_add]
  change w i * (F i * exp (std i * y 0 - std i ^ 2 / 2)) = _
  ring_nf

lemma facOf_eq (spot : Fin n → ℝ) (T : ℝ) :
    facOf o spot T = fun i => Spec.forwards o.isFwd o.intr o.divr spot T i * o.weight i * exp (-((o.sigma i * √T) ^ 2) / 2) := by
  ext i; unfold facOf; rw [Basket.fwd_eq]

lemma price_eq {K T cp : ℝ} {spot : Fin n → ℝ} {p : ℝ} (h : price o K spot T cp = some p) :
    ∃ x, root (facOf o spot T) (fun i => o.sigma i * √T) K = some x ∧
      p = Spec.discount o.intr T * priceAt (fun i => Spec.forwards o.isFwd o.intr o.divr spot T i * o.weight i) (fun i => o.sigma i * √T) K cp x := by
  unfold price at h
  simp only [Option.map_eq_some_iff] at h
  obtain ⟨x, hx, rfl⟩ := h
  exact ⟨x, hx, by rw [Basket.df_eq, Basket.fwd_eq]⟩

/-- **C92** (domain).  `BsmBasket1Bm.price` fails exactly when some factor and volatility have opposite signs. -/
theorem bm1_defined (K T cp : ℝ) (spot : Fin n → ℝ) :
    price o K spot T cp = none ↔ ∃ i, facOf o spot T i * (o.sigma i * √T) < 0 := by
  classical
  unfold price
  simp only [Option.map_eq_none_iff]
  unfold root
  by_cases h : ∀ i, 0 ≤ facOf o spot T i * (o.sigma i * √T)
  · rw [if_neg (not_not.2 h)]
    have h' : ¬ ∃ i, facOf o spot T i * (o.sigma i * √T) < 0 := by push Not; exact h
    simp only [h', iff_false]
    split_ifs <;> simp
  · rw [if_pos h]
    push Not at h
    simpa using h

/-- **C92** (lower bound).  Whatever exercise boundary the root search ends with - converged or not, finite or infinite, basket or spread - the price is the
value of an exercise policy and so never exceeds the true price. -/
theorem bm1_le_true {K T cp : ℝ} {spot : Fin n → ℝ} {p : ℝ} (hcp : Spec.IsCp cp) (hT : 0 ≤ T) (hcov : ∀ i j, o.cov i j = o.sigma i * o.sigma j)
    (hp : price o K spot T cp = some p) :
    p ≤ Spec.basketPrice o.weight (Spec.forwards o.isFwd o.intr o.divr spot T) (T • o.cov) (Spec.discount o.intr T) K cp := by
  obtain ⟨x, -, rfl⟩ := price_eq o hp
  have h := OneFactor.policy_le hcp o.weight (Spec.forwards o.isFwd o.intr o.divr spot T) (col fun i => o.sigma i * √T) (q := fun _ => 1) unit_one K x
    (df := Spec.discount o.intr T) (exp_pos _).le
  rw [col_mul, col_cov o hT hcov] at h
  exact h

/-- The error of the policy, pathwise. -/
lemma error_le {fac std : Fin n → ℝ} {K cp δ x z : ℝ} (hcp : Spec.IsCp cp) (hmono : ∀ i, 0 ≤ fac i * std i) (hδ : |level fac std x - K| ≤ δ) :
    open Classical in
    Spec.payoff cp K (level fac std z) - (if Spec.exercised cp (x : EReal) z then cp * (level fac std z - K) else 0) ≤ δ := by
  classical
  have hm := level_mono hmono
  obtain ⟨h1, h2⟩ := abs_le.1 hδ
  have hδ0 : 0 ≤ δ := (abs_nonneg _).trans hδ
  unfold Spec.payoff Spec.exercised
  rcases hcp with rfl | rfl
  · simp only [true_and, OneFactor.one_ne_neg, false_and, or_false, EReal.coe_le_coe_iff, one_mul]
    split_ifs with h
    · have := hm h
      rcases max_choice (level fac std z - K) 0 with hc | hc <;> rw [hc] <;> linarith
    · have := hm (not_le.1 h).le
      rw [sub_zero]; exact max_le (by linarith) hδ0
  · simp only [true_and, OneFactor.neg_ne_one, false_and, false_or, EReal.coe_le_coe_iff]
    split_ifs with h
    · have := hm h
      rcases max_choice (-1 * (level fac std z - K)) 0 with hc | hc <;> rw [hc] <;> linarith
    · have := hm (not_le.1 h).le
      rw [sub_zero]; exact max_le (by linarith) hδ0

lemma policy_gap {w F std : Fin n → ℝ} {K cp df : ℝ} (x : EReal) (hcp : Spec.IsCp cp) {D : ℝ → ℝ} (hD : Integrable D (gaussianReal 0 1)) (hdf : 0 ≤ df)
    (h : open Classical in ∀ z, Spec.payoff cp K (level (fun i => F i * w i * exp (-(std i ^ 2) / 2)) std z) -
      (if Spec.exercised cp x z then cp * (level (fun i => F i * w i * exp (-(std i ^ 2) / 2)) std z - K) else 0) ≤ D z) :
    Spec.basketPrice w F (col std * (col std)ᵀ) df K cp - df * priceAt (fun i => F i * w i) std K cp x ≤ df * Spec.gaussE D := by
  classical
  have hv := OneFactor.policy_value hcp w F (col std) (q := fun _ => 1) unit_one K x
  rw [col_mul] at hv
  rw [← hv, OneFactor.basketPrice_factor, ← mul_sub]
  refine mul_le_mul_of_nonneg_left ?_ hdf
  have hmeas : MeasurableSet {y : Fin 1 → ℝ | Spec.exercised cp x ((fun _ => 1) ⬝ᵥ y)} := OneFactor.measurableSet_exercised cp x (MvGauss.measurable_dot _)
  have hf : Integrable (fun y => cp * (Spec.basket w F (col std * (col std)ᵀ) (col std *ᵥ y) - K)) (Spec.iid (Fin 1)) :=
    ((OneFactor.integrable_basket_factor w F (col std)).sub (integrable_const K)).const_mul cp
  have hf' : Integrable (fun y => if Spec.exercised cp x ((fun _ => 1) ⬝ᵥ y) then cp * (Spec.basket w F (col std * (col std)ᵀ) (col std *ᵥ y) - K) else 0) (Spec.iid (Fin 1)) :=
    (hf.indicator hmeas).congr (ae_of_all _ fun y => by simp [Set.indicator_apply])
  rw [← integral_sub (OneFactor.integrable_payoff_factor w F (col std) cp K) hf']
  have hmp := measurePreserving_eval (fun _ : Fin 1 => gaussianReal 0 1) 0
  have hDI : ∫ y : Fin 1 → ℝ, D (y 0) ∂(Spec.iid (Fin 1)) = Spec.gaussE D := by
    unfold Spec.gaussE
    have h2 := integral_map (μ := Spec.iid (Fin 1)) (φ := fun y => y 0) (f := D) (measurable_pi_apply 0).aemeasurable
      (by have : (Spec.iid (Fin 1)).map (fun y => y 0) = gaussianReal 0 1 := hmp.map_eq
          rw [this]; exact hD.1)
    have : (Spec.iid (Fin 1)).map (fun y => y 0) = gaussianReal 0 1 := hmp.map_eq
    rw [this] at h2
    exact h2.symm
  rw [← hDI]
  refine integral_mono ((OneFactor.integrable_payoff_factor w F (col std) cp K).sub hf') (hmp.integrable_comp_of_integrable hD) fun y => ?_
  have e : (fun _ : Fin 1 => (1:ℝ)) ⬝ᵥ y = y 0 := by simp [dotProduct]
  beta_reduce
  rw [e, basket_col]
  exact h (y 0)

/-- **C92** (accuracy).  If the level at the returned boundary misses the strike by at most `δ`, the price is at most `df * δ` below the true price; in
particular an exact root gives the exact price.  Holds for baskets and spreads. -/
theorem bm1_error {K T cp δ x : ℝ} {spot : Fin n → ℝ} {p : ℝ} (hcp : Spec.IsCp cp) (hT : 0 ≤ T) (hcov : ∀ i j, o.cov i j = o.sigma i * o.sigma j)
    (hp : price o K spot T cp = some p) (hr : root (facOf o spot T) (fun i => o.sigma i * √T) K = some (x : EReal))
    (hδ : |∑ i, facOf o spot T i * exp (o.sigma i * √T * x) - K| ≤ δ) :
    let V := Spec.basketPrice o.weight (Spec.forwards o.isFwd o.intr o.divr spot T) (T • o.cov) (Spec.discount o.intr T) K cp
    p ≤ V ∧ V ≤ p + Spec.discount o.intr T * δ := by
  classical
  intro V
  refine ⟨bm1_le_true o hcp hT hcov hp, ?_⟩
  have hmono : ∀ i, 0 ≤ facOf o spot T i * (o.sigma i * √T) := by
    by_contra hc
    push Not at hc
    rw [(bm1_defined o K T cp spot).2 hc] at hp
    exact absurd hp (by simp)
  obtain ⟨x', hx', rfl⟩ := price_eq o hp
  obtain rfl : x' = x := by rw [hr] at hx'; exact (Option.some.inj hx').symm
  rw [facOf_eq] at hδ hmono
  have h := policy_gap (w := o.weight) (F := Spec.forwards o.isFwd o.intr o.divr spot T) (std := fun i => o.sigma i * √T) (K := K) (cp := cp)
    (df := Spec.discount o.intr T) (x : EReal) hcp (D := fun _ => δ) (integrable_const δ) (exp_pos _).le (fun z => error_le hcp hmono hδ)
  have hg : Spec.gaussE (fun _ => δ) = δ := by unfold Spec.gaussE; simp
  rw [col_cov o hT hcov, hg] at h
  linarith

lemma level_nine (fac std : Fin n → ℝ) : ∑ i, fac i * exp (9 * std i) = level fac std 9 :=
  Finset.sum_congr rfl fun i _ => by rw [mul_comm (9:ℝ)]

lemma level_neg_nine (fac std : Fin n → ℝ) : ∑ i, fac i / exp (9 * std i) = level fac std (-9) :=
  Finset.sum_congr rfl fun i _ => by rw [div_eq_mul_inv, ← exp_neg]; ring_nf

lemma root_cases {fac std : Fin n → ℝ} {K : ℝ} {x : EReal} (hr : root fac std K = some x) :
    (x = ⊤ ∧ level fac std 9 ≤ K) ∨ (x = ⊥ ∧ K ≤ level fac std (-9)) ∨ (∃ r : ℝ, x = r ∧ K < level fac std 9 ∧ level fac std (-9) < K) := by
  classical
  unfold root at hr
  simp only [level_nine, level_neg_nine] at hr
  split_ifs at hr with h0 h1 h2
  · exact Or.inl ⟨(Option.some.inj hr).symm, by linarith⟩
  · exact Or.inr (Or.inl ⟨(Option.some.inj hr).symm, by linarith⟩)
  · push Not at h1 h2
    exact Or.inr (Or.inr ⟨_, (Option.some.inj hr).symm, by linarith, by linarith⟩)

lemma gaussE_level (w F std : Fin n → ℝ) (c : ℝ) :
    open Classical in
    Integrable (fun z => if Spec.exercised 1 (c : EReal) z then level (fun i => F i * w i * exp (-(std i ^ 2) / 2)) std z else 0) (gaussianReal 0 1) ∧
    Spec.gaussE (fun z => if Spec.exercised 1 (c : EReal) z then level (fun i => F i * w i * exp (-(std i ^ 2) / 2)) std z else 0) =
      ∑ i, F i * w i * ncdf (std i - c) := by
  classical
  have hm : Measurable (level (fun i => F i * w i * exp (-(std i ^ 2) / 2)) std) := by unfold level; fun_prop
  have hmeas : MeasurableSet {z : ℝ | Spec.exercised 1 (c : EReal) z} := OneFactor.measurableSet_exercised 1 c measurable_id
  have hint : Integrable (level (fun i => F i * w i * exp (-(std i ^ 2) / 2)) std) (gaussianReal 0 1) := by
    unfold level
    refine integrable_finsetSum _ fun i _ => ?_
    exact (integrable_gbm (F i * w i) (std i)).congr (ae_of_all _ fun z => by
      beta_reduce; unfold Spec.gbm; rw [mul_assoc (F i * w i), ← exp_add]; ring_nf)
  refine ⟨(hint.indicator hmeas).congr (ae_of_all _ fun y => by simp [Set.indicator_apply]), ?_⟩
  have h := OneFactor.policy_value (cp := 1) (Or.inl rfl) w F (col std) (q := fun _ => 1) unit_one 0 (c : EReal)
  rw [col_mul] at h
  have h2 := OneFactor.integral_dot_iid (κ := Fin 1) (q := fun _ => 1) unit_one
    (f := fun z => if Spec.exercised 1 (c : EReal) z then level (fun i => F i * w i * exp (-(std i ^ 2) / 2)) std z else 0)
    (Measurable.ite hmeas hm measurable_const)
  rw [← h2]
  have e : ∀ y : Fin 1 → ℝ, (if Spec.exercised 1 (c : EReal) ((fun _ => 1) ⬝ᵥ y) then
      level (fun i => F i * w i * exp (-(std i ^ 2) / 2)) std ((fun _ => 1) ⬝ᵥ y) else 0) =
      (if Spec.exercised 1 (c : EReal) ((fun _ => 1) ⬝ᵥ y) then 1 * (Spec.basket w F (col std * (col std)ᵀ) (col std *ᵥ y) - 0) else 0) := by
    intro y
    rw [basket_col, sub_zero, one_mul]
    have : (fun _ : Fin 1 => (1:ℝ)) ⬝ᵥ y = y 0 := by simp [dotProduct]
    rw [this]
  simp_rw [e]
  rw [h]
  unfold priceAt
  simp only [zero_mul, sub_zero, mul_one, one_mul]
  refine Finset.sum_congr rfl fun i _ => ?_
  rw [← EReal.coe_neg, ← EReal.coe_mul, ← EReal.coe_add, OneFactor.ncdfE_coe]
  congr 2
  ring

lemma gap_top {cp : ℝ} (hcp : Spec.IsCp cp) (K b z : ℝ) :
    open Classical in Spec.payoff cp K b - (if Spec.exercised cp ⊤ z then cp * (b - K) else 0) = max (b - K) 0 := by
  classical
  unfold Spec.payoff Spec.exercised
  rcases hcp with rfl | rfl
  · simp [OneFactor.one_ne_neg]
  · simp only [OneFactor.neg_ne_one, false_and, false_or, le_top, and_self, if_true]
    rcases le_total b K with h | h
    · rw [max_eq_left (by linarith), max_eq_right (by linarith)]; ring
    · rw [max_eq_right (by linarith), max_eq_left (by linarith)]; ring

lemma gap_bot {cp : ℝ} (hcp : Spec.IsCp cp) (K b z : ℝ) :
    open Classical in Spec.payoff cp K b - (if Spec.exercised cp ⊥ z then cp * (b - K) else 0) = max (K - b) 0 := by
  classical
  unfold Spec.payoff Spec.exercised
  rcases hcp with rfl | rfl
  · simp only [OneFactor.one_ne_neg, false_and, or_false, bot_le, and_self, if_true]
    rcases le_total b K with h | h
    · rw [max_eq_right (by linarith), max_eq_left (by linarith)]; ring
    · rw [max_eq_left (by linarith), max_eq_right (by linarith)]; ring
  · simp [OneFactor.neg_ne_one]

/-- **C92** (baskets).  For a long basket and a positive strike, unless the "did not converge" warning was issued, `BsmBasket1Bm.price` is below the exact
price by at most the Newton tolerance `1e-10 * K` and the mass beyond nine standard deviations that `root` ignores. -/
theorem bm1_basket_accuracy (o : Ma (n + 1)) {K T cp : ℝ} {spot : Fin (n + 1) → ℝ} {p : ℝ} (hcp : Spec.IsCp cp) (hT : 0 < T) (hK : 0 < K)
    (hcov : ∀ i j, o.cov i j = o.sigma i * o.sigma j) (hs : ∀ i, 0 < o.sigma i)
    (hF : ∀ i, 0 < Spec.forwards o.isFwd o.intr o.divr spot T i * o.weight i) (hw : ¬ warns (facOf o spot T) (fun i => o.sigma i * √T) K)
    (hp : price o K spot T cp = some p) :
    let F := Spec.forwards o.isFwd o.intr o.divr spot T
    let V := Spec.basketPrice o.weight F (T • o.cov) (Spec.discount o.intr T) K cp
    p ≤ V ∧ V ≤ p + Spec.discount o.intr T * (K * (exp 1e-10 - 1) + K * ncdf (-9) + ∑ i, F i * o.weight i * ncdf (o.sigma i * √T - 9)) := by
  classical
  intro F V
  refine ⟨bm1_le_true o hcp hT.le hcov hp, ?_⟩
  have hstd : ∀ i, 0 < o.sigma i * √T := fun i => mul_pos (hs i) (sqrt_pos.2 hT)
  have hfac : ∀ i, 0 < facOf o spot T i := fun i => by rw [facOf_eq]; exact mul_pos (hF i) (exp_pos _)
  have hmono : ∀ i, 0 ≤ facOf o spot T i * (o.sigma i * √T) := fun i => (mul_pos (hfac i) (hstd i)).le
  have hlm := level_mono hmono
  have hlp := level_pos (std := fun i => o.sigma i * √T) hfac
  have hd : 0 < Spec.discount o.intr T := exp_pos _
  have n1 : 0 ≤ K * (exp 1e-10 - 1) := mul_nonneg hK.le (by have := add_one_le_exp (1e-10 : ℝ); linarith [show (0:ℝ) ≤ 1e-10 by norm_num])
  have n2 : 0 ≤ K * ncdf (-9) := mul_nonneg hK.le (ncdf_nonneg _)
  have n3 : 0 ≤ ∑ i, F i * o.weight i * ncdf (o.sigma i * √T - 9) := Finset.sum_nonneg fun i _ => mul_nonneg (hF i).le (ncdf_nonneg _)
  obtain ⟨x, hx, hpx⟩ := price_eq o hp
  have gap := fun (D : ℝ → ℝ) (hD : Integrable D (gaussianReal 0 1)) => policy_gap (w := o.weight) (F := F) (std := fun i => o.sigma i * √T) (K := K)
    (cp := cp) (df := Spec.discount o.intr T) x hcp (D := D) hD hd.le
  rw [col_cov o hT.le hcov] at gap
  have hfe : facOf o spot T = fun i => F i * o.weight i * exp (-((o.sigma i * √T) ^ 2) / 2) := facOf_eq o spot T
  simp only [← hfe] at gap
  have fin : ∀ e, V - Spec.discount o.intr T * priceAt (fun i => F i * o.weight i) (fun i => o.sigma i * √T) K cp x ≤ Spec.discount o.intr T * e →
      e ≤ K * (exp 1e-10 - 1) + K * ncdf (-9) + ∑ i, F i * o.weight i * ncdf (o.sigma i * √T - 9) →
      V ≤ p + Spec.discount o.intr T * (K * (exp 1e-10 - 1) + K * ncdf (-9) + ∑ i, F i * o.weight i * ncdf (o.sigma i * √T - 9)) := by
    intro e h1 h2
    have := mul_le_mul_of_nonneg_left h2 hd.le
    rw [hpx]
    linarith
  rcases root_cases hx with ⟨rfl, h9⟩ | ⟨rfl, h9⟩ | ⟨r, rfl, -, -⟩
  · obtain ⟨hi, hv⟩ := gaussE_level o.weight F (fun i => o.sigma i * √T) 9
    rw [← hfe] at hi hv
    have h := gap _ hi fun z => ?_
    · rw [hv] at h
      exact fin _ h (by linarith)
    · rw [gap_top hcp]
      by_cases h : (9:ℝ) ≤ z
      · rw [if_pos (show Spec.exercised 1 ((9:ℝ) : EReal) z from Or.inl ⟨rfl, EReal.coe_le_coe_iff.2 h⟩)]
        exact max_le (by linarith) (hlp z).le
      · rw [if_neg (by rintro (⟨-, h'⟩ | ⟨h', -⟩); exacts [h (EReal.coe_le_coe_iff.1 h'), OneFactor.one_ne_neg h'])]
        exact max_le (by linarith [hlm (not_le.1 h).le]) le_rfl
  · have hmeas : MeasurableSet {z : ℝ | Spec.exercised (-1) ((-9 : ℝ) : EReal) (z + 0)} := OneFactor.measurableSet_exercised _ _ (by fun_prop)
    have hi : Integrable (fun z => K * if Spec.exercised (-1) ((-9 : ℝ) : EReal) (z + 0) then (1:ℝ) else 0) (gaussianReal 0 1) := by
      refine Integrable.const_mul ?_ K
      exact ((integrable_const (1:ℝ)).indicator hmeas).congr (ae_of_all _ fun y => by simp [Set.indicator_apply])
    have hv : Spec.gaussE (fun z => K * if Spec.exercised (-1) ((-9 : ℝ) : EReal) (z + 0) then (1:ℝ) else 0) = K * ncdf (-9) := by
      have h := OneFactor.gaussE_exercise (cp := -1) (Or.inr rfl) ((-9 : ℝ) : EReal) 0
      unfold Spec.gaussE at h ⊢
      rw [integral_const_mul, h, ← EReal.coe_neg, ← EReal.coe_mul, ← EReal.coe_add, OneFactor.ncdfE_coe]
      norm_num
    have h := gap _ hi fun z => ?_
    · rw [hv] at h
      exact fin _ h (by linarith)
    · rw [gap_bot hcp, add_zero]
      by_cases h : z ≤ -9
      · rw [if_pos (show Spec.exercised (-1) ((-9:ℝ) : EReal) z from Or.inr ⟨rfl, EReal.coe_le_coe_iff.2 h⟩), mul_one]
        exact max_le (by linarith [hlp z]) hK.le
      · rw [if_neg (by rintro (⟨h', -⟩ | ⟨-, h'⟩); exacts [OneFactor.neg_ne_one h', h (EReal.coe_le_coe_iff.1 h')]), mul_zero]
        exact max_le (by linarith [hlm (not_le.1 h).le]) le_rfl
  · obtain ⟨r1, r2⟩ := root_accuracy hK hfac hstd hx hw
    have h := (bm1_error o hcp hT.le hcov hp hx (δ := K * (exp 1e-10 - 1)) (by
      rw [abs_le]
      have e : ∀ i, facOf o spot T i * exp (o.sigma i * √T * r) = facOf o spot T i * exp ((o.sigma i * √T) * r) := fun i => rfl
      constructor <;> linarith)).2
    have := mul_le_mul_of_nonneg_left (show K * (exp 1e-10 - 1) ≤ K * (exp 1e-10 - 1) + K * ncdf (-9) + ∑ i, F i * o.weight i * ncdf (o.sigma i * √T - 9) by linarith) hd.le
    exact h.trans (by linarith)

/-- **C92** (trivial strikes).  For a long basket and a strike that is not positive the price is exact. -/
theorem bm1_nonpos_strike_exact (o : Ma (n + 1)) {K T cp : ℝ} {spot : Fin (n + 1) → ℝ} {p : ℝ} (hcp : Spec.IsCp cp) (hT : 0 ≤ T) (hK : K ≤ 0)
    (hcov : ∀ i j, o.cov i j = o.sigma i * o.sigma j)
    (hF : ∀ i, 0 < Spec.forwards o.isFwd o.intr o.divr spot T i * o.weight i) (hp : price o K spot T cp = some p) :
    p = Spec.basketPrice o.weight (Spec.forwards o.isFwd o.intr o.divr spot T) (T • o.cov) (Spec.discount o.intr T) K cp := by
  classical
  refine le_antisymm (bm1_le_true o hcp hT hcov hp) ?_
  have hfac : ∀ i, 0 < facOf o spot T i := fun i => by rw [facOf_eq]; exact mul_pos (hF i) (exp_pos _)
  have hlp := level_pos (std := fun i => o.sigma i * √T) hfac
  obtain ⟨x, hx, hpx⟩ := price_eq o hp
  have gap := fun (D : ℝ → ℝ) (hD : Integrable D (gaussianReal 0 1)) => policy_gap (w := o.weight) (F := Spec.forwards o.isFwd o.intr o.divr spot T)
    (std := fun i => o.sigma i * √T) (K := K) (cp := cp) (df := Spec.discount o.intr T) x hcp (D := D) hD (exp_pos _).le
  rw [col_cov o hT hcov] at gap
  simp only [← facOf_eq] at gap
  rcases root_cases hx with ⟨rfl, h9⟩ | ⟨rfl, h9⟩ | ⟨r, rfl, -, h9⟩
  · linarith [hlp 9]
  · have h := gap (fun _ => 0) (integrable_const 0) fun z => by rw [gap_bot hcp]; exact max_le (by linarith [hlp z]) le_rfl
    have h0 : Spec.gaussE (fun _ => (0:ℝ)) = 0 := by unfold Spec.gaussE; simp
    rw [h0, mul_zero] at h
    rw [hpx]
    linarith
  · linarith [hlp (-9)]

/-- The hypotheses of the C92 theorems are met: two assets with volatilities 20% and 40% driven by one Brownian motion. -/
example : ∃ o : Ma 2, (∀ i j, o.cov i j = o.sigma i * o.sigma j) ∧ (∀ i, 0 < o.sigma i) ∧
    (∀ i, 0 < Spec.forwards o.isFwd o.intr o.divr ![100, 110] 1 i * o.weight i) ∧ ∃ p, price o 100 ![100, 110] 1 1 = some p := by
  refine ⟨⟨![0.2, 0.4], !![0.04, 0.08; 0.08, 0.16], !![0.2, 0; 0.4, 0], ![0.5, 0.5], 0, 0, true⟩, ?_, ?_, ?_, ?_⟩
  · intro i j; fin_cases i <;> fin_cases j <;> norm_num
  · intro i; fin_cases i <;> norm_num
  · intro i; unfold Spec.forwards Spec.forward; fin_cases i <;> norm_num
  · refine Option.ne_none_iff_exists'.1 fun h => ?_
    obtain ⟨i, hi⟩ := (bm1_defined _ _ _ _ _).1 h
    rw [facOf_eq] at hi
    unfold Spec.forwards Spec.forward at hi
    refine absurd hi (not_lt.2 ?_)
    fin_cases i <;> simp <;> positivity

end Basket1Bm

end PyFENG
