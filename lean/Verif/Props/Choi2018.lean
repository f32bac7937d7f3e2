import Verif.Props.Basket1Bm
import Verif.Props.Quad

/-!
# `BsmBasketChoi2018`: factor rotation, lower bound, parity, conditioning (C59, C93)
-/

set_option linter.unusedSectionVars false
set_option linter.style.haveILetI false

namespace PyFENG

open MeasureTheory ProbabilityTheory Matrix Real

namespace Choi2018

variable {n : ℕ}

/-! ### Householder reflection -/

lemma norm2_pos {ι : Type*} [Fintype ι] {v : ι → ℝ} (hv : ∃ i, v i ≠ 0) : 0 < norm2 v := by
  obtain ⟨i, hi⟩ := hv
  refine sqrt_pos.2 (Finset.sum_pos' (fun j _ => sq_nonneg _) ⟨i, Finset.mem_univ i, by positivity⟩)

lemma norm2_sq {ι : Type*} [Fintype ι] (v : ι → ℝ) : norm2 v ^ 2 = ∑ i, v i ^ 2 := sq_sqrt (Finset.sum_nonneg fun i _ => sq_nonneg _)

lemma unit_sum {ι : Type*} [Fintype ι] {v : ι → ℝ} (hv : ∃ i, v i ≠ 0) : ∑ i, (v i / norm2 v) ^ 2 = 1 := by
  simp only [div_pow]
  rw [← Finset.sum_div, ← norm2_sq]
  exact div_self (pow_pos (norm2_pos hv) 2).ne'

/-- **C59.** For every nonzero vector, `householder` returns an orthogonal symmetric matrix.  Its first column is the normalised vector, unless the
first component is within `100 eps` of one, where the identity is returned, whose first column is within `sqrt(200 eps)` of it. -/
theorem householder_correct (v : Fin (n + 1) → ℝ) (hv : ∃ i, v i ≠ 0) :
    householder v * (householder v)ᵀ = 1 ∧ (householder v)ᵀ = householder v ∧
    (100 * eps ≤ |v 0 / norm2 v - 1| → ∀ i, householder v i 0 = v i / norm2 v) ∧
    ∑ i, (householder v i 0 - v i / norm2 v) ^ 2 ≤ 200 * eps := by
  classical
  set w : Fin (n + 1) → ℝ := fun i => v i / norm2 v with hw
  have hw1 : ∑ i, w i ^ 2 = 1 := unit_sum hv
  set u : Fin (n + 1) → ℝ := fun i => w i - if i = 0 then 1 else 0 with hu
  have hu0 : u 0 = w 0 - 1 := by simp [hu]
  have huu : ∑ i, u i ^ 2 = -2 * u 0 := by
    have e : ∀ i, u i ^ 2 = w i ^ 2 - (if i = 0 then 2 * w i - 1 else 0) := fun i => by
      simp only [hu]; split_ifs <;> ring
    simp only [e]
    rw [Finset.sum_sub_distrib, hw1, Finset.sum_ite_eq' Finset.univ (0 : Fin (n + 1)) (fun i => 2 * w i - 1), if_pos (Finset.mem_univ _), hu0]
    ring
  have hdef : householder v = if |u 0| < eps * 100 then 1 else Matrix.of fun i j => (if i = j then 1 else 0) + u i * u j / u 0 := rfl
  by_cases hc : |u 0| < eps * 100
  · rw [hdef, if_pos hc]
    refine ⟨by simp, by simp, fun h => ?_, ?_⟩
    · rw [hu0] at hc
      change 100 * eps ≤ |w 0 - 1| at h
      linarith
    · have e : ∀ i : Fin (n + 1), ((1 : Matrix (Fin (n + 1)) (Fin (n + 1)) ℝ) i 0 - w i) ^ 2 = u i ^ 2 := fun i => by
        rw [Matrix.one_apply]; simp only [hu]; ring
      change ∑ i, ((1 : Matrix (Fin (n + 1)) (Fin (n + 1)) ℝ) i 0 - w i) ^ 2 ≤ 200 * eps
      simp only [e]
      rw [huu]
      have := (abs_lt.1 hc).1
      linarith
  · have h0 : u 0 ≠ 0 := by
      rintro h
      rw [h, abs_zero] at hc
      exact hc (mul_pos eps_pos (by norm_num))
    rw [hdef, if_neg hc]
    have hcol : ∀ i : Fin (n + 1), ((if i = 0 then (1:ℝ) else 0) + u i * u 0 / u 0) = w i := fun i => by
      rw [mul_div_cancel_right₀ _ h0]; simp only [hu]; ring
    refine ⟨?_, ?_, fun _ i => hcol i, ?_⟩
    · ext i j
      rw [Matrix.mul_apply]
      simp only [transpose_apply, of_apply]
      have e : ∀ k, ((if i = k then (1:ℝ) else 0) + u i * u k / u 0) * ((if j = k then (1:ℝ) else 0) + u j * u k / u 0) =
          (if i = k then (if j = k then 1 else 0) else 0) + (if i = k then u j * u k / u 0 else 0) + (if j = k then u i * u k / u 0 else 0) +
            u i * u j / u 0 ^ 2 * u k ^ 2 := fun k => by
        split_ifs <;> field_simp <;> ring
      simp only [e]
      rw [Finset.sum_add_distrib, Finset.sum_add_distrib, Finset.sum_add_distrib, ← Finset.mul_sum, huu]
      simp only [Finset.sum_ite_eq, Finset.mem_univ, if_true]
      rw [Matrix.one_apply]
      have : u j * u i / u 0 + u i * u j / u 0 + u i * u j / u 0 ^ 2 * (-2 * u 0) = 0 := by field_simp; ring
      have hij : (if j = i then (1:ℝ) else 0) = if i = j then 1 else 0 := by simp only [eq_comm]
      rw [hij]
      linarith
    · ext i j
      simp only [transpose_apply, of_apply]
      have hij : (if j = i then (1:ℝ) else 0) = if i = j then 1 else 0 := by simp only [eq_comm]
      rw [hij]
      ring
    · have : ∀ i : Fin (n + 1), ((if i = 0 then (1:ℝ) else 0) + u i * u 0 / u 0 - w i) ^ 2 = 0 := fun i => by rw [hcol i]; ring
      change ∑ i : Fin (n + 1), ((if i = 0 then (1:ℝ) else 0) + u i * u 0 / u 0 - w i) ^ 2 ≤ _
      simp only [this, Finset.sum_const_zero]
      exact mul_nonneg (by norm_num) eps_pos.le

/-! ### The first factor -/

variable (o : Ma n)

/-- What `np.linalg.solve(chol_m, b)` returns when it does not raise. -/
def Spec.IsSolve (C : Matrix (Fin n) (Fin n) ℝ) (solve : (Fin n → ℝ) → Fin n → ℝ) : Prop := ∀ b, C *ᵥ solve b = b

lemma chol_inj {solve : (Fin n → ℝ) → Fin n → ℝ} (hsolve : Spec.IsSolve o.chol solve) {g : Fin n → ℝ} (hg : ∃ i, g i ≠ 0) : ∃ i, (o.cholᵀ *ᵥ g) i ≠ 0 := by
  by_contra hc
  push Not at hc
  obtain ⟨i, hi⟩ := hg
  have h1 : g ⬝ᵥ (Pi.single i 1) = 0 := by
    rw [← hsolve (Pi.single i 1), dotProduct_mulVec, ← mulVec_transpose, show o.cholᵀ *ᵥ g = 0 from funext hc, zero_dotProduct]
  rw [dotProduct_single_one] at h1
  exact hi h1

lemma unit_ne {fwd w : Fin n → ℝ} (h : ∃ i, fwd i * w i ≠ 0) : ∃ i, unit fwd w i ≠ 0 := by
  obtain ⟨i, hi⟩ := h
  exact ⟨i, div_ne_zero hi (norm2_pos ⟨i, hi⟩).ne'⟩

lemma npSign_mul_self (x : ℝ) : npSign x * x = |x| := by
  unfold npSign
  split_ifs with h1 h2
  · rw [one_mul, abs_of_pos h1]
  · rw [abs_of_neg h2]; ring
  · have : x = 0 := by linarith
    simp [this]

lemma npSign_sq {x : ℝ} (hx : x ≠ 0) : npSign x * npSign x = 1 := by
  unfold npSign
  split_ifs with h1 h2
  · ring
  · ring
  · exact absurd (by linarith) hx

/-- Facts about the first factor, whichever branch of `v_mat` was taken. -/
lemma v1q1_facts (ho : o.Valid) (hs : ∀ i, 0 < o.sigma i) {solve : (Fin n → ℝ) → Fin n → ℝ} (hsolve : Spec.IsSolve o.chol solve) {fwd : Fin n → ℝ}
    (hF : ∃ i, fwd i * o.weight i ≠ 0) :
    (v1q1 o solve fwd).1 = o.chol *ᵥ (v1q1 o solve fwd).2 ∧ ∑ i, (v1q1 o solve fwd).2 i ^ 2 = 1 ∧
    (∀ i, 0 ≤ fwd i * o.weight i * (v1q1 o solve fwd).1 i) := by
  classical
  set g := unit fwd o.weight with hg
  have hgne : ∃ i, g i ≠ 0 := unit_ne hF
  have hN : 0 < norm2 fun j => fwd j * o.weight j := norm2_pos hF
  have hgm : ∀ i, fwd i * o.weight i = (norm2 fun j => fwd j * o.weight j) * g i := fun i => by
    simp only [hg, unit]; field_simp
  set v1 := v1Raw o g with hv1
  have key : ∀ (v : Fin n → ℝ), (∀ i, g i ≠ 0 → 0.01 * o.sigma i ≤ npSign (g i) * v i) → ∀ i, 0 ≤ fwd i * o.weight i * v i := by
    intro v hv i
    by_cases h0 : g i = 0
    · rw [hgm i, h0]; simp
    · have h1 := hv i h0
      have h2 : 0 < npSign (g i) * v i := lt_of_lt_of_le (mul_pos (by norm_num) (hs i)) h1
      have h3 : g i * v i = |g i| * (npSign (g i) * v i) := by
        rw [← npSign_mul_self]
        linear_combination (-(g i * v i)) * npSign_sq h0
      rw [hgm i, mul_assoc, h3]
      positivity
  by_cases hlow : ∃ i, low o g v1 i
  · have e : v1q1 o solve fwd = (fun i => v1Clip o g v1 i / norm2 (solve (v1Clip o g v1)), fun i => solve (v1Clip o g v1) i / norm2 (solve (v1Clip o g v1))) := by
      unfold v1q1
      simp only
      rw [if_pos hlow]
    have hclip : ∀ i, g i ≠ 0 → 0.01 * o.sigma i ≤ npSign (g i) * v1Clip o g v1 i := by
      intro i h0
      unfold v1Clip
      split_ifs with h
      · rw [← mul_assoc, npSign_sq h0, one_mul]
      · unfold low at h; exact not_lt.1 h
    have hb : ∃ i, v1Clip o g v1 i ≠ 0 := by
      obtain ⟨i, hi⟩ := hgne
      refine ⟨i, fun h => ?_⟩
      have := hclip i hi
      rw [h, mul_zero] at this
      have := mul_pos (show (0:ℝ) < 0.01 by norm_num) (hs i)
      linarith
    have hq : ∃ i, solve (v1Clip o g v1) i ≠ 0 := by
      by_contra hc
      push Not at hc
      obtain ⟨i, hi⟩ := hb
      apply hi
      have := congrFun (hsolve (v1Clip o g v1)) i
      rw [show solve (v1Clip o g v1) = 0 from funext hc, mulVec_zero] at this
      exact this.symm
    have hnq := norm2_pos hq
    rw [e]
    refine ⟨?_, unit_sum hq, ?_⟩
    · ext i
      have h := congrFun (hsolve (v1Clip o g v1)) i
      simp only [mulVec, dotProduct] at h ⊢
      simp only [← mul_div_assoc]
      rw [← Finset.sum_div, h]
    · intro i
      have := key _ hclip i
      rw [← mul_div_assoc]
      exact div_nonneg this hnq.le
  · have e : v1q1 o solve fwd = (v1, fun i => (o.cholᵀ *ᵥ g) i / norm2 (o.cholᵀ *ᵥ g)) := by
      unfold v1q1
      simp only
      rw [if_neg hlow]
    have hq : ∃ i, (o.cholᵀ *ᵥ g) i ≠ 0 := chol_inj o hsolve hgne
    have hnorm : √(∑ j, (o.cov *ᵥ g) j * g j) = norm2 (o.cholᵀ *ᵥ g) := by
      unfold norm2
      congr 1
      have h1 : ∑ j, (o.cov *ᵥ g) j * g j = g ⬝ᵥ o.cov *ᵥ g := by
        simp only [dotProduct]; exact Finset.sum_congr rfl fun j _ => mul_comm _ _
      rw [h1, ← ho.chol, ← mulVec_mulVec, dotProduct_mulVec, ← mulVec_transpose]
      simp only [dotProduct, sq]
    rw [e]
    refine ⟨?_, unit_sum hq, ?_⟩
    · ext i
      rw [hv1]
      unfold v1Raw
      rw [hnorm, ← ho.chol, ← mulVec_mulVec]
      simp only [mulVec, dotProduct]
      simp only [← mul_div_assoc]
      rw [← Finset.sum_div]
    · push Not at hlow
      refine key _ fun i _ => ?_
      have := hlow i
      unfold low at this
      exact not_lt.1 this

/-- **C93** (factorisation).  The matrix built by `v_mat` is a square root of the covariance matrix: `V V' = C`.  The hypotheses on `solve` and `svd` are the
contracts of `np.linalg.solve` and `np.linalg.svd` (`U D` has the same Gram matrix as its argument); the last one says that `householder` does not take
its identity branch. -/
theorem v_mat_correct (o : Ma (n + 1)) (ho : o.Valid) (hs : ∀ i, 0 < o.sigma i) {solve : (Fin (n + 1) → ℝ) → Fin (n + 1) → ℝ}
    (hsolve : Spec.IsSolve o.chol solve) {svd : Matrix (Fin (n + 1)) (Fin n) ℝ → Matrix (Fin (n + 1)) (Fin n) ℝ} (hsvd : ∀ A, svd A * (svd A)ᵀ = A * Aᵀ)
    {fwd : Fin (n + 1) → ℝ} (hF : ∃ i, fwd i * o.weight i ≠ 0) (hne : 100 * eps ≤ |(v1q1 o solve fwd).2 0 - 1|) :
    vMat o solve svd fwd * (vMat o solve svd fwd)ᵀ = o.cov := by
  obtain ⟨h1, h2, -⟩ := v1q1_facts o ho hs hsolve hF
  set q := (v1q1 o solve fwd).2 with hq
  have hqne : ∃ i, q i ≠ 0 := by
    by_contra hc
    push Not at hc
    simp [hc] at h2
  have hn1 : norm2 q = 1 := by unfold norm2; rw [h2, sqrt_one]
  obtain ⟨ho1, ho2, ho3, -⟩ := householder_correct q hqne
  rw [hn1] at ho3
  simp only [div_one] at ho3
  have hcol := ho3 hne
  ext i j
  rw [Matrix.mul_apply, Fin.sum_univ_succ]
  simp only [transpose_apply]
  have e0 : ∀ i, vMat o solve svd fwd i 0 = (o.chol *ᵥ q) i := fun i => by
    rw [← h1]; rfl
  have es : ∀ i (k : Fin n), vMat o solve svd fwd i k.succ = svd (cholR o q) i k := fun i k => rfl
  simp only [e0, es]
  have hsv : ∑ k, svd (cholR o q) i k * svd (cholR o q) j k = (cholR o q * (cholR o q)ᵀ) i j := by
    rw [← hsvd, Matrix.mul_apply]; rfl
  rw [hsv]
  have hR : householder q * (householder q)ᵀ = 1 := ho1
  have hCH : (o.chol * householder q) * (o.chol * householder q)ᵀ = o.cov := by
    rw [transpose_mul, Matrix.mul_assoc, ← Matrix.mul_assoc (householder q), hR, Matrix.one_mul, ho.chol]
  have hij := congrFun (congrFun hCH i) j
  rw [Matrix.mul_apply, Fin.sum_univ_succ] at hij
  simp only [transpose_apply] at hij
  rw [← hij, Matrix.mul_apply]
  simp only [transpose_apply]
  have c0 : ∀ i, (o.chol * householder q) i 0 = (o.chol *ᵥ q) i := fun i => by
    rw [Matrix.mul_apply]; simp only [mulVec, dotProduct, hcol]
  simp only [c0]
  rfl

/-! ### Prices -/

lemma contrib_eq {fw v1 f : Fin n → ℝ} {K cp : ℝ} (hcp : Spec.IsCp cp) (x : EReal) :
    contrib fw v1 K cp f (-x) = Basket1Bm.priceAt (fun k => f k * fw k) v1 K cp x := by
  unfold contrib Basket1Bm.priceAt nd1
  simp only
  rcases hcp with rfl | rfl
  · simp only [if_true, EReal.coe_one, one_mul, mul_one, neg_mul]
  · simp only [OneFactor.neg_ne_one, if_false]
    have e1 : ∀ v : ℝ, 1 - ncdfE (-x + (v : EReal)) = ncdfE (-((-1:ℝ) : EReal) * x + ((-1 * v : ℝ) : EReal)) := by
      intro v
      rw [← OneFactor.ncdfE_neg]
      congr 1
      induction x with
      | bot => simp
      | top => simp
      | coe r =>
        rw [← EReal.coe_neg, ← EReal.coe_add, ← EReal.coe_neg, ← EReal.coe_neg, ← EReal.coe_mul, ← EReal.coe_add]
        congr 1; ring
    have e2 : ((-1:ℝ) : EReal) * -x = -((-1:ℝ) : EReal) * x := by
      induction x with
      | bot => simp
      | top => simp
      | coe r => rw [← EReal.coe_neg, ← EReal.coe_neg, ← EReal.coe_mul, ← EReal.coe_mul]; congr 1; ring
    simp only [e1, e2]
    ring

lemma dm_of {fw v1 f : Fin n → ℝ} {K : ℝ} {d : EReal} (h : dm fw v1 K f = some d) : ∃ x, d = -x := ⟨-d, (neg_neg d).symm⟩

lemma priceRows_single (fwd w v1 : Fin n → ℝ) (K cp : ℝ) (d : EReal) :
    priceRows fwd w v1 K cp [((fun _ => 1, 1), d)] = contrib (fun k => fwd k * w k) v1 K cp (fun _ => 1) d := by
  unfold priceRows
  simp

lemma lower_eq {v1 : Fin n → ℝ} {K T cp p : ℝ} {spot : Fin n → ℝ} (h : priceWith o v1 lbRows K spot T cp = some p) :
    ∃ d, dm (fun k => o.fwd spot T k * o.weight k) v1 K (fun _ => 1) = some d ∧
      p = o.mp.df T * contrib (fun k => o.fwd spot T k * o.weight k) v1 K cp (fun _ => 1) d := by
  unfold priceWith lbRows at h
  simp only [List.mapM_cons, List.mapM_nil, bind, Option.bind, pure] at h
  cases hd : dm (fun k => o.fwd spot T k * o.weight k) v1 K (fun _ => 1) with
  | none => rw [hd] at h; simp at h
  | some d =>
    rw [hd] at h
    simp only [List.zip_cons_cons, List.zip_nil_right, Option.some.injEq] at h
    exact ⟨d, rfl, by rw [← h, priceRows_single]⟩

/-- **C93** (domain).  The signs enforced in `v_mat` mean that the root search of the lower-bound price never fails, for baskets and spreads alike. -/
theorem lower_bound_defined (ho : o.Valid) (hs : ∀ i, 0 < o.sigma i) {solve : (Fin n → ℝ) → Fin n → ℝ} (hsolve : Spec.IsSolve o.chol solve)
    {spot : Fin n → ℝ} {T : ℝ} (hF : ∃ i, Spec.forwards o.isFwd o.intr o.divr spot T i * o.weight i ≠ 0) (K cp : ℝ) :
    ∃ p, priceLowerBound o solve K spot T cp = some p := by
  classical
  have hfw := Basket.fwd_eq o spot T
  obtain ⟨-, -, h3⟩ := v1q1_facts o ho hs hsolve (fwd := o.fwd spot T) (by rw [hfw]; exact hF)
  have hroot : ∃ x, Basket1Bm.root (fun k => 1 * (o.fwd spot T k * o.weight k) * exp (-(0.5 * ((v1q1 o solve (o.fwd spot T)).1 k * √T) ^ 2)))
      (fun k => (v1q1 o solve (o.fwd spot T)).1 k * √T) K = some x := by
    unfold Basket1Bm.root
    rw [if_neg]
    · simp only
      split_ifs <;> exact ⟨_, rfl⟩
    · rw [not_not]
      intro i
      have e : 1 * (o.fwd spot T i * o.weight i) * exp (-(0.5 * ((v1q1 o solve (o.fwd spot T)).1 i * √T) ^ 2)) * ((v1q1 o solve (o.fwd spot T)).1 i * √T) =
          o.fwd spot T i * o.weight i * (v1q1 o solve (o.fwd spot T)).1 i * (exp (-(0.5 * ((v1q1 o solve (o.fwd spot T)).1 i * √T) ^ 2)) * √T) := by ring
      rw [e]
      exact mul_nonneg (h3 i) (by positivity)
  obtain ⟨x, hx⟩ := hroot
  unfold priceLowerBound priceWith lbRows
  simp only [List.mapM_cons, List.mapM_nil, bind, Option.bind, pure]
  unfold dm
  rw [hx]
  exact ⟨_, rfl⟩

/-- **C93** (lower bound).  The price of the model made by `init_lowerbound` never exceeds the true basket price: for calls and puts, baskets and spreads, every
strike, and whatever point the root search returns. -/
theorem lower_bound_le_true (ho : o.Valid) (hs : ∀ i, 0 < o.sigma i) {solve : (Fin n → ℝ) → Fin n → ℝ} (hsolve : Spec.IsSolve o.chol solve)
    {spot : Fin n → ℝ} {T K cp p : ℝ} (hcp : Spec.IsCp cp) (hT : 0 ≤ T) (hF : ∃ i, Spec.forwards o.isFwd o.intr o.divr spot T i * o.weight i ≠ 0)
    (hp : priceLowerBound o solve K spot T cp = some p) :
    p ≤ Spec.basketPrice o.weight (Spec.forwards o.isFwd o.intr o.divr spot T) (T • o.cov) (Spec.discount o.intr T) K cp := by
  have hfw := Basket.fwd_eq o spot T
  obtain ⟨h1, h2, -⟩ := v1q1_facts o ho hs hsolve (fwd := o.fwd spot T) (by rw [hfw]; exact hF)
  obtain ⟨d, hd, rfl⟩ := lower_eq o hp
  obtain ⟨x, rfl⟩ := dm_of hd
  have hA : (√T • o.chol) * (√T • o.chol)ᵀ = T • o.cov := by
    rw [transpose_smul, Matrix.smul_mul, Matrix.mul_smul, smul_smul, mul_self_sqrt hT, ho.chol]
  have hq : (√T • o.chol) *ᵥ (v1q1 o solve (o.fwd spot T)).2 = fun k => (v1q1 o solve (o.fwd spot T)).1 k * √T := by
    rw [smul_mulVec, ← h1]; ext k; simp [mul_comm]
  have h := OneFactor.policy_le hcp o.weight (Spec.forwards o.isFwd o.intr o.divr spot T) (√T • o.chol) h2 K x (df := Spec.discount o.intr T) (exp_pos _).le
  rw [hA, hq] at h
  rw [contrib_eq hcp, Basket.df_eq]
  simp only [one_mul]
  rw [hfw] at h ⊢
  exact h

/-- Sums of list maps. -/
lemma sum_map_sub {α : Type*} (l : List α) (f g : α → ℝ) : (l.map f).sum - (l.map g).sum = (l.map fun a => f a - g a).sum := by
  induction l with
  | nil => simp
  | cons a l ih => simp only [List.map_cons, List.sum_cons]; rw [← ih]; ring

lemma sum_map_finset {α ι : Type*} (l : List α) (s : Finset ι) (f : α → ι → ℝ) : (l.map fun a => ∑ i ∈ s, f a i).sum = ∑ i ∈ s, (l.map fun a => f a i).sum := by
  induction l with
  | nil => simp
  | cons a l ih => simp only [List.map_cons, List.sum_cons]; rw [ih, ← Finset.sum_add_distrib]

lemma contrib_sub (fw v1 f : Fin n → ℝ) (K : ℝ) (d : EReal) : contrib fw v1 K 1 f d - contrib fw v1 K (-1) f d = ∑ k, f k * fw k - K := by
  unfold contrib
  simp only [if_true, OneFactor.neg_ne_one, if_false, EReal.coe_one, one_mul]
  have e : ((-1:ℝ) : EReal) * d = -d := by simp
  rw [e, OneFactor.ncdfE_neg]
  have : ∑ k, f k * fw k = ∑ k, f k * fw k * nd1 v1 d k + ∑ k, f k * fw k * (1 - nd1 v1 d k) := by
    rw [← Finset.sum_add_distrib]; exact Finset.sum_congr rfl fun k _ => by ring
  rw [this]
  ring

lemma priceRows_parity (fwd w v1 : Fin n → ℝ) (K : ℝ) (rows : List (((Fin n → ℝ) × ℝ) × EReal)) (hw : (rows.map fun r => r.1.2).sum = 1) :
    priceRows fwd w v1 K 1 rows - priceRows fwd w v1 K (-1) rows = ∑ k, w k * fwd k - K := by
  unfold priceRows
  simp only [if_true, OneFactor.neg_ne_one, if_false]
  set D : Fin n → ℝ := fun k => (rows.map fun r => r.1.2 * r.1.1 k * w k * nd1 v1 r.2 k).sum with hD
  set ft : Fin n → ℝ := fun k => (rows.map fun r => r.1.2 * r.1.1 k).sum with hft
  have h1 : (rows.map fun r => r.1.2 * contrib (fun k => fwd k * w k) v1 K 1 r.1.1 r.2).sum -
      (rows.map fun r => r.1.2 * contrib (fun k => fwd k * w k) v1 K (-1) r.1.1 r.2).sum = ∑ k, fwd k * w k * ft k - K := by
    rw [sum_map_sub]
    have e : ∀ r : ((Fin n → ℝ) × ℝ) × EReal, r.1.2 * contrib (fun k => fwd k * w k) v1 K 1 r.1.1 r.2 - r.1.2 * contrib (fun k => fwd k * w k) v1 K (-1) r.1.1 r.2 =
        (∑ k, fwd k * w k * (r.1.2 * r.1.1 k)) - K * r.1.2 := fun r => by
      rw [← mul_sub, contrib_sub, mul_sub, Finset.mul_sum]
      congr 1
      · exact Finset.sum_congr rfl fun k _ => by ring
      · ring
    simp only [e]
    rw [← sum_map_sub, sum_map_finset]
    simp only [List.sum_map_mul_left]
    rw [hw, mul_one]
  have h2 : ∑ k, (D k - w k) * (fwd k * (ft k - 1)) = ∑ k, D k * (fwd k * (ft k - 1)) - ∑ k, w k * (fwd k * (ft k - 1)) := by
    rw [← Finset.sum_sub_distrib]; exact Finset.sum_congr rfl fun k _ => by ring
  have h3 : ∑ k, w k * (fwd k * (ft k - 1)) = ∑ k, fwd k * w k * ft k - ∑ k, w k * fwd k := by
    rw [← Finset.sum_sub_distrib]; exact Finset.sum_congr rfl fun k _ => by ring
  linarith

lemma mapM_length {α β : Type*} {f : α → Option β} : ∀ {l : List α} {r : List β}, l.mapM f = some r → r.length = l.length
  | [], r, h => by simp at h; simp [← h]
  | a :: l, r, h => by
    rw [List.mapM_cons] at h
    simp only [bind, Option.bind, pure] at h
    cases ha : f a with
    | none => rw [ha] at h; simp at h
    | some b =>
      rw [ha] at h
      cases hl : l.mapM f with
      | none => simp [hl] at h
      | some t =>
        simp only [hl, Option.some.injEq] at h
        rw [← h, List.length_cons, List.length_cons, mapM_length hl]

/-- **C93** (parity).  Whatever first factor, quadrature rows and exercise points are used, the forward control variate makes put-call parity exact as soon as the
quadrature weights sum to one. -/
theorem parity_of_weights {v1 : Fin n → ℝ} {rows : List ((Fin n → ℝ) × ℝ)} {K T c p : ℝ} {spot : Fin n → ℝ} (hw : (rows.map Prod.snd).sum = 1)
    (hc : priceWith o v1 rows K spot T 1 = some c) (hp : priceWith o v1 rows K spot T (-1) = some p) :
    Spec.Parity c p (Spec.discount o.intr T) (∑ i, o.weight i * Spec.forwards o.isFwd o.intr o.divr spot T i) K := by
  unfold priceWith at hc hp
  simp only [bind, Option.bind, pure] at hc hp
  cases hd : rows.mapM (fun r => dm (fun k => o.fwd spot T k * o.weight k) v1 K r.1) with
  | none => rw [hd] at hc; simp at hc
  | some ds =>
    rw [hd] at hc hp
    simp only [Option.some.injEq] at hc hp
    have hz : ((rows.zip ds).map fun r => r.1.2).sum = 1 := by
      have e : ((rows.zip ds).map fun r => r.1.2) = (((rows.zip ds).map Prod.fst).map Prod.snd) := by rw [List.map_map]; rfl
      rw [e, List.map_fst_zip (by rw [mapM_length hd]), hw]
    have h := priceRows_parity (o.fwd spot T) o.weight v1 K _ hz
    unfold Spec.Parity
    rw [← hc, ← hp, ← mul_sub, h, Basket.df_eq, Basket.fwd_eq]

/-- **C93** (parity of the lower bound). -/
theorem lower_bound_parity {solve : (Fin n → ℝ) → Fin n → ℝ} {K T c p : ℝ} {spot : Fin n → ℝ}
    (hc : priceLowerBound o solve K spot T 1 = some c) (hp : priceLowerBound o solve K spot T (-1) = some p) :
    Spec.Parity c p (Spec.discount o.intr T) (∑ i, o.weight i * Spec.forwards o.isFwd o.intr o.divr spot T i) K :=
  parity_of_weights o (by simp [lbRows]) hc hp

/-- **C93** (parity of the quadrature price).  With the Gauss-Hermite nodes of `NdGHQ` in every extra dimension. -/
theorem quad_parity {m : ℕ} (o : Ma (n + 1)) {solve : (Fin (n + 1) → ℝ) → Fin (n + 1) → ℝ} {svd : Matrix (Fin (n + 1)) (Fin n) ℝ → Matrix (Fin (n + 1)) (Fin n) ℝ}
    (hm : m ≤ n) {zl rawW : List (List ℝ)} {zz : List (List ℝ)} {ww : List ℝ} (hne : zl ≠ []) (hlen : zl.length = rawW.length)
    (hq : ∀ i < zl.length, Spec.IsHermiteList (zl.getD i []) (rawW.getD i [])) (hpos : ∀ i < zl.length, zl.getD i [] ≠ [])
    (hz : NdGHQ.zVecWeight zl (NdGHQ.wList rawW) = some (zz, ww)) {K T c p : ℝ} {spot : Fin (n + 1) → ℝ}
    (hc : priceQuad o solve svd hm zz ww K spot T 1 = some c) (hp : priceQuad o solve svd hm zz ww K spot T (-1) = some p) :
    Spec.Parity c p (Spec.discount o.intr T) (∑ i, o.weight i * Spec.forwards o.isFwd o.intr o.divr spot T i) K := by
  obtain ⟨rows, weights, h1, h2⟩ := NdGHQ.exact zl rawW hne hlen hq (1 : MvPolynomial (Fin zl.length) ℝ) (fun i => by
    have := List.length_pos_of_ne_nil (hpos i i.2)
    rw [show (1 : MvPolynomial (Fin zl.length) ℝ) = MvPolynomial.C 1 from rfl, MvPolynomial.degreeOf_C]
    omega)
  have hlens : zl.map List.length = (NdGHQ.wList rawW).map List.length := by
    refine List.ext_getElem (by simp [NdGHQ.wList, hlen]) fun i h1 h2 => ?_
    have h1' : i < zl.length := by simpa using h1
    have := (hq i h1').1
    have h2' : i < rawW.length := by rw [← hlen]; exact h1'
    simp only [List.getD_eq_getElem?_getD, List.getElem?_eq_getElem h1', List.getElem?_eq_getElem h2', Option.getD_some] at this
    simpa [NdGHQ.wList] using this
  have hwne : NdGHQ.wList rawW ≠ [] := by
    intro h
    rw [h] at hlens
    simp at hlens
    exact hne hlens
  have hlz : zz.length = ww.length := by
    have e1 := NdGHQ.zVecWeight_eq zl (NdGHQ.wList rawW) hne hwne
    have e2 := NdGHQ.zVecWeight_eq (NdGHQ.wList rawW) (NdGHQ.wList rawW) hwne hwne
    rw [hz] at e1
    obtain ⟨r1, r2⟩ := Prod.mk.inj (Option.some.inj e1.1)
    rw [r1, r2, List.length_map, e1.2, e2.2, hlens]
  rw [hz] at h1
  obtain ⟨rfl, rfl⟩ := Prod.mk.inj (Option.some.inj h1)
  simp only [map_one, integral_const, probReal_univ, smul_eq_mul, mul_one] at h2
  refine parity_of_weights o ?_ hc hp
  unfold fRows
  rw [List.map_snd_zip (by simp [hlz]), ← h2]
  unfold NdGHQ.Spec.gridSum
  simp only [mul_one]
  congr 1
  refine List.ext_getElem (by simp [hlz]) fun i h1 h2 => ?_
  simp

/-! ### Witness: two independent unit-volatility assets, weights 3/5 and 4/5 -/

/-- A concrete model for the hypotheses above. -/
noncomputable def exMa : Ma 2 where
  sigma := ![1, 1]
  cov := 1
  chol := 1
  weight := ![3 / 5, 4 / 5]
  intr := 1 / 20
  divr := 0
  isFwd := true

lemma exMa_unit : unit (fun _ => 1) exMa.weight = ![3 / 5, 4 / 5] := by
  have h : norm2 (fun j => (fun _ => (1:ℝ)) j * exMa.weight j) = 1 := by
    unfold norm2
    rw [sqrt_eq_one, Fin.sum_univ_two]
    simp [exMa]; norm_num
  ext i
  unfold unit
  rw [h]
  simp [exMa]

lemma exMa_v1 : v1Raw exMa ![3 / 5, 4 / 5] = ![3 / 5, 4 / 5] := by
  have h : √(∑ j, (exMa.cov *ᵥ ![3 / 5, 4 / 5]) j * (![3 / 5, 4 / 5] : Fin 2 → ℝ) j) = 1 := by
    rw [sqrt_eq_one, Fin.sum_univ_two]
    simp [exMa]; norm_num
  ext i
  unfold v1Raw
  rw [h]
  simp [exMa]

lemma exMa_q1 : (v1q1 exMa id (fun _ => 1)).2 0 = 3 / 5 := by
  classical
  unfold v1q1
  simp only [exMa_unit, exMa_v1]
  rw [if_neg]
  · have h : norm2 (exMa.cholᵀ *ᵥ ![3 / 5, 4 / 5]) = 1 := by
      unfold norm2
      rw [sqrt_eq_one, Fin.sum_univ_two]
      simp [exMa]; norm_num
    rw [h]
    simp [exMa]
  · push Not
    intro i
    unfold low npSign
    fin_cases i <;> simp [exMa] <;> norm_num

/-- The hypotheses of `v_mat_correct` and `lower_bound_le_true` hold for a concrete model. -/
example : exMa.Valid ∧ (∀ i, 0 < exMa.sigma i) ∧ Spec.IsSolve exMa.chol id ∧ (∃ i, (fun _ => (1:ℝ)) i * exMa.weight i ≠ 0) ∧
    100 * eps ≤ |(v1q1 exMa id (fun _ => 1)).2 0 - 1| ∧ ∃ p, priceLowerBound exMa id 1 (fun _ => 1) 1 1 = some p := by
  have h1 : exMa.Valid := ⟨fun i => by fin_cases i <;> simp [exMa], by simp [exMa]⟩
  have h2 : ∀ i, 0 < exMa.sigma i := fun i => by fin_cases i <;> simp [exMa]
  have h3 : Spec.IsSolve exMa.chol id := fun b => by simp [exMa]
  refine ⟨h1, h2, h3, ⟨0, by simp [exMa]⟩, ?_, ?_⟩
  · rw [exMa_q1]
    have : eps < 1 / 1000 := by unfold eps; norm_num
    have e : |(3:ℝ) / 5 - 1| = 2 / 5 := by rw [abs_of_neg] <;> norm_num
    rw [e]; linarith
  · exact lower_bound_defined exMa h1 h2 h3 ⟨0, by simp [exMa, Spec.forwards, Spec.forward]⟩ 1 1

end Choi2018

end PyFENG
