import Verif.Props.Choi2018Cond

/-!
# Choi (2018): the quadrature price is the quadrature of the conditional prices

The price with `n_quad` nodes is the weighted sum, over the nodes, of the exact price of the basket conditional on the node, up to explicit errors: the
accuracy of the root searches and the error the nodes make on the forwards.
-/

set_option linter.unusedSectionVars false

namespace PyFENG

open MeasureTheory ProbabilityTheory Matrix Real

/-- Specification: the growth `exp(Σ_j V_kj z_j - V_kj²/2)` of asset `k` given the factors `z` other than the first. -/
noncomputable def Spec.nodeGrowth {n m : ℕ} (V : Matrix (Fin n) (Fin (m + 1)) ℝ) (z : Fin m → ℝ) (k : Fin n) : ℝ :=
  exp (∑ j : Fin m, (V k j.succ * z j - V k j.succ ^ 2 / 2))

/-- Specification: the sum of `φ` over nodes `zz` with weights `ww`. -/
noncomputable def Spec.nodeSum {m : ℕ} (zz : List (List ℝ)) (ww : List ℝ) (φ : (Fin m → ℝ) → ℝ) : ℝ :=
  ((zz.zip ww).map fun p => p.2 * φ fun j => p.1.getD j 0).sum

/-- Specification: how far an unconverged tail (beyond nine standard deviations) or the tolerance `1e-10` of the root search can move a basket price. -/
noncomputable def Spec.rootError {n : ℕ} (b std : Fin n → ℝ) (K : ℝ) : ℝ :=
  K * (exp 1e-10 - 1) + K * ncdf (-9) + ∑ k, b k * ncdf (std k - 9)

namespace Choi2018

variable {n m : ℕ}

lemma v1_pos (o : Ma n) (ho : o.Valid) (hs : ∀ i, 0 < o.sigma i) {solve : (Fin n → ℝ) → Fin n → ℝ} (hsolve : Spec.IsSolve o.chol solve) {fwd : Fin n → ℝ}
    (hF : ∀ i, 0 < fwd i * o.weight i) (i : Fin n) : 0 < (v1q1 o solve fwd).1 i := by
  classical
  have hF' : ∃ i, fwd i * o.weight i ≠ 0 := ⟨i, (hF i).ne'⟩
  obtain ⟨-, h2, -⟩ := v1q1_facts o ho hs hsolve hF'
  have hg : ∀ j, npSign (unit fwd o.weight j) = 1 := fun j => by
    have h : 0 < unit fwd o.weight j := div_pos (hF j) (norm2_pos hF')
    unfold npSign
    rw [if_pos h]
  have hsg : 0 < 0.01 * o.sigma i := mul_pos (by norm_num) (hs i)
  unfold v1q1 at h2 ⊢
  simp only at h2 ⊢
  split_ifs at h2 ⊢ with hl
  · simp only at h2 ⊢
    refine div_pos ?_ ?_
    · unfold v1Clip
      split_ifs with h
      · rw [hg, one_mul]; exact hsg
      · unfold low at h
        rw [hg, one_mul, not_lt] at h
        exact hsg.trans_le h
    · refine lt_of_le_of_ne (sqrt_nonneg _) fun h => ?_
      rw [← h] at h2
      simp at h2
  · push Not at hl
    have h := hl i
    unfold low at h
    rw [hg, one_mul, not_lt] at h
    exact hsg.trans_le h

/-- The one-factor model a node conditions on. -/
noncomputable def nodeModel (w v1 : Fin n → ℝ) : Ma n := ⟨v1, Matrix.of fun i j => v1 i * v1 j, 0, w, 0, 0, true⟩

lemma nodeModel_fwd (w v1 spot : Fin n → ℝ) : (nodeModel w v1).fwd spot 1 = spot := by
  rw [Basket.fwd_eq]
  unfold Spec.forwards Spec.forward nodeModel
  simp

lemma node_price {cp : ℝ} (hcp : Spec.IsCp cp) (w F v1 f : Fin n → ℝ) (K : ℝ) {d : EReal} (hd : dm (fun k => F k * w k) v1 K f = some d) :
    Basket1Bm.price (nodeModel w v1) K (fun k => f k * F k) 1 cp = some (contrib (fun k => F k * w k) v1 K cp f d) := by
  unfold Basket1Bm.price
  simp only [nodeModel_fwd, sqrt_one, mul_one]
  have e1 : (nodeModel w v1).sigma = v1 := rfl
  have e2 : (nodeModel w v1).weight = w := rfl
  have e3 : (nodeModel w v1).mp.df 1 = 1 := by rw [Basket.df_eq]; simp [nodeModel, Spec.discount]
  have e4 : Basket1Bm.facOf (nodeModel w v1) (fun k => f k * F k) 1 = fun k => f k * (F k * w k) * exp (-(0.5 * v1 k ^ 2)) := by
    ext k
    unfold Basket1Bm.facOf
    rw [nodeModel_fwd, e1, e2, sqrt_one, mul_one]
    congr 1
    · ring
    · congr 1; norm_num; ring
  rw [e4]
  simp only [e1, e2, e3, one_mul]
  unfold dm at hd
  cases hr : Basket1Bm.root (fun k => f k * (F k * w k) * exp (-(0.5 * v1 k ^ 2))) v1 K with
  | none => rw [hr] at hd; simp at hd
  | some x =>
    rw [hr] at hd
    simp only [Option.map_some, Option.some.injEq] at hd ⊢
    rw [← hd, contrib_eq hcp]
    congr 1
    ext k
    ring

/-- A node is within the root-search error of the exact conditional price. -/
lemma node_accuracy {cp K : ℝ} (hcp : Spec.IsCp cp) (hK : 0 < K) (w F v1 f : Fin (n + 1) → ℝ) (hF : ∀ k, 0 < F k * w k) (hf : ∀ k, 0 < f k)
    (hv : ∀ k, 0 < v1 k) {d : EReal} (hd : dm (fun k => F k * w k) v1 K f = some d)
    (hw : ¬ Basket1Bm.warns (fun k => f k * (F k * w k) * exp (-(v1 k ^ 2) / 2)) v1 K) :
    let target := Spec.gaussE (fun y => Spec.payoff cp K (Basket1Bm.level (fun k => f k * F k * w k * exp (-(v1 k ^ 2) / 2)) v1 y))
    let p := contrib (fun k => F k * w k) v1 K cp f d
    p ≤ target ∧ target ≤ p + Spec.rootError (fun k => w k * (F k * f k)) v1 K := by
  intro target p
  have hp := node_price hcp w F v1 f K hd
  have hfw : Spec.forwards (nodeModel w v1).isFwd (nodeModel w v1).intr (nodeModel w v1).divr (fun k => f k * F k) 1 = fun k => f k * F k := by
    unfold Spec.forwards Spec.forward nodeModel
    simp
  have hw' : ¬ Basket1Bm.warns (Basket1Bm.facOf (nodeModel w v1) (fun k => f k * F k) 1) (fun i => (nodeModel w v1).sigma i * √1) K := by
    have e4 : Basket1Bm.facOf (nodeModel w v1) (fun k => f k * F k) 1 = fun k => f k * (F k * w k) * exp (-(v1 k ^ 2) / 2) := by
      ext k
      unfold Basket1Bm.facOf
      rw [nodeModel_fwd, sqrt_one, mul_one]
      show f k * F k * w k * exp (-(v1 k ^ 2) / 2) = _
      ring
    rw [e4, sqrt_one]
    simp only [mul_one]
    exact hw
  have h := Basket1Bm.bm1_basket_accuracy (nodeModel w v1) hcp one_pos hK (fun i j => rfl) (fun i => hv i)
    (fun i => by rw [hfw]; show 0 < f i * F i * w i; rw [mul_assoc]; exact mul_pos (hf i) (hF i)) hw' hp
  rw [hfw] at h
  have hc : (1:ℝ) • (nodeModel w v1).cov = Basket1Bm.col v1 * (Basket1Bm.col v1)ᵀ := by
    rw [one_smul]
    ext i j
    simp [nodeModel, Basket1Bm.col, Matrix.mul_apply]
  have hdf : Spec.discount (nodeModel w v1).intr 1 = 1 := by simp [nodeModel, Spec.discount]
  have hwt : (nodeModel w v1).weight = w := rfl
  have hsg : (nodeModel w v1).sigma = v1 := rfl
  simp only [hc, hdf, hwt, hsg, sqrt_one, mul_one, one_mul] at h
  rw [basketPrice_col] at h
  refine ⟨h.1, h.2.trans (le_of_eq ?_)⟩
  unfold Spec.rootError
  congr 2
  refine Finset.sum_congr rfl fun k _ => ?_
  ring

lemma nd1_mem (v1 : Fin n → ℝ) (d : EReal) (k : Fin n) : 0 ≤ nd1 v1 d k ∧ nd1 v1 d k ≤ 1 := by
  unfold nd1
  refine ⟨OneFactor.ncdfE_nonneg _, ?_⟩
  have := OneFactor.ncdfE_nonneg (-(d + (v1 k : EReal)))
  rw [OneFactor.ncdfE_neg] at this
  linarith

/-- Termwise bounds of weighted sums along a list. -/
lemma sum_bounds {α : Type*} (l : List α) (w a t e : α → ℝ) (hw : ∀ x ∈ l, 0 ≤ w x) (h : ∀ x ∈ l, a x ≤ t x ∧ t x ≤ a x + e x) :
    (l.map fun x => w x * a x).sum ≤ (l.map fun x => w x * t x).sum ∧
      (l.map fun x => w x * t x).sum ≤ (l.map fun x => w x * a x).sum + (l.map fun x => w x * e x).sum := by
  induction l with
  | nil => simp
  | cons x l ih =>
    simp only [List.map_cons, List.sum_cons]
    obtain ⟨i1, i2⟩ := ih (fun y hy => hw y (List.mem_cons_of_mem _ hy)) (fun y hy => h y (List.mem_cons_of_mem _ hy))
    obtain ⟨a1, a2⟩ := h x List.mem_cons_self
    have hx := hw x List.mem_cons_self
    have := mul_le_mul_of_nonneg_left a1 hx
    have := mul_le_mul_of_nonneg_left a2 hx
    constructor <;> linarith

lemma mem_zip_mapM {α β : Type*} {f : α → Option β} : ∀ {l : List α} {r : List β}, l.mapM f = some r → ∀ x ∈ l.zip r, x.1 ∈ l ∧ f x.1 = some x.2
  | [], r, h, x, hx => by simp at hx
  | a :: l, r, h, x, hx => by
    rw [List.mapM_cons] at h
    simp only [bind, Option.bind, pure] at h
    cases ha : f a with
    | none => rw [ha] at h; simp at h
    | some b =>
      rw [ha] at h
      cases hl : l.mapM f with
      | none => simp [hl] at h
      | some t =>
        simp only [hl, Option.some.injEq] at h
        rw [← h, List.zip_cons_cons, List.mem_cons] at hx
        rcases hx with rfl | hx
        · exact ⟨List.mem_cons_self, ha⟩
        · obtain ⟨h1, h2⟩ := mem_zip_mapM hl x hx
          exact ⟨List.mem_cons_of_mem _ h1, h2⟩

/-- The price from rows of positive growth factors with non-negative weights. -/
lemma rows_accuracy (o : Ma (n + 1)) {v1 : Fin (n + 1) → ℝ} {rows : List ((Fin (n + 1) → ℝ) × ℝ)} {K T cp p : ℝ} {spot : Fin (n + 1) → ℝ} (hcp : Spec.IsCp cp)
    (hK : 0 < K) (hF : ∀ k, 0 < o.fwd spot T k * o.weight k) (hF0 : ∀ k, 0 ≤ o.fwd spot T k) (hv : ∀ k, 0 < v1 k) (hpos : ∀ r ∈ rows, (∀ k, 0 < r.1 k) ∧ 0 ≤ r.2)
    (hw : ∀ r ∈ rows, ¬ Basket1Bm.warns (fun k => r.1 k * (o.fwd spot T k * o.weight k) * exp (-(v1 k ^ 2) / 2)) v1 K)
    (hp : priceWith o v1 rows K spot T cp = some p) :
    let F := o.fwd spot T
    |p - o.mp.df T * (rows.map fun r => r.2 * Spec.gaussE (fun y => Spec.payoff cp K
        (Basket1Bm.level (fun k => r.1 k * F k * o.weight k * exp (-(v1 k ^ 2) / 2)) v1 y))).sum| ≤
      o.mp.df T * ((rows.map fun r => r.2 * Spec.rootError (fun k => o.weight k * (F k * r.1 k)) v1 K).sum +
        ∑ k, o.weight k * (F k * (|(rows.map fun r => r.2 * r.1 k).sum - 1| * max 1 (rows.map fun r => r.2 * r.1 k).sum))) := by
  classical
  intro F
  have hdf : 0 ≤ o.mp.df T := by rw [Basket.df_eq]; exact (exp_pos _).le
  have hwt : ∀ k, 0 ≤ o.weight k := fun k => by
    by_contra hc
    push Not at hc
    have := mul_nonpos_of_nonneg_of_nonpos (hF0 k) hc.le
    exact absurd (hF k) (not_lt.2 this)
  unfold priceWith at hp
  simp only [bind, Option.bind, pure] at hp
  cases hd : rows.mapM (fun r => dm (fun k => o.fwd spot T k * o.weight k) v1 K r.1) with
  | none => rw [hd] at hp; simp at hp
  | some ds =>
    rw [hd] at hp
    simp only [Option.some.injEq] at hp
    have hz := mem_zip_mapM hd
    have hfst : ∀ (g : (Fin (n + 1) → ℝ) × ℝ → ℝ), ((rows.zip ds).map fun x => g x.1).sum = (rows.map g).sum := fun g => by
      have e : ((rows.zip ds).map fun x => g x.1) = ((rows.zip ds).map Prod.fst).map g := by rw [List.map_map]; rfl
      rw [e, List.map_fst_zip (by rw [mapM_length hd])]
    obtain ⟨b1, b2⟩ := sum_bounds (rows.zip ds) (fun x => x.1.2) (fun x => contrib (fun k => F k * o.weight k) v1 K cp x.1.1 x.2)
      (fun x => Spec.gaussE (fun y => Spec.payoff cp K (Basket1Bm.level (fun k => x.1.1 k * F k * o.weight k * exp (-(v1 k ^ 2) / 2)) v1 y)))
      (fun x => Spec.rootError (fun k => o.weight k * (F k * x.1.1 k)) v1 K) (fun x hx => (hpos _ (hz x hx).1).2)
      (fun x hx => node_accuracy hcp hK o.weight F v1 x.1.1 hF (hpos _ (hz x hx).1).1 hv (hz x hx).2 (hw _ (hz x hx).1))
    rw [hfst (fun r => r.2 * Spec.gaussE (fun y => Spec.payoff cp K (Basket1Bm.level (fun k => r.1 k * F k * o.weight k * exp (-(v1 k ^ 2) / 2)) v1 y)))] at b1 b2
    rw [hfst (fun r => r.2 * Spec.rootError (fun k => o.weight k * (F k * r.1 k)) v1 K)] at b2
    have hft : ∀ k, ((rows.zip ds).map fun r => r.1.2 * r.1.1 k).sum = (rows.map fun r => r.2 * r.1 k).sum := fun k => hfst fun r => r.2 * r.1 k
    have hdel : ∀ k, 0 ≤ ((rows.zip ds).map fun r => r.1.2 * r.1.1 k * o.weight k * nd1 v1 r.2 k).sum ∧
        ((rows.zip ds).map fun r => r.1.2 * r.1.1 k * o.weight k * nd1 v1 r.2 k).sum ≤ o.weight k * (rows.map fun r => r.2 * r.1 k).sum := fun k => by
      rw [← hft k, ← List.sum_map_mul_left]
      have hx : ∀ x ∈ rows.zip ds, 0 ≤ x.1.2 * x.1.1 k * o.weight k := fun x hx => by
        obtain ⟨q1, q2⟩ := hpos _ (hz x hx).1
        exact mul_nonneg (mul_nonneg q2 (q1 k).le) (hwt k)
      constructor
      · refine List.sum_nonneg fun a ha => ?_
        obtain ⟨x, hx', rfl⟩ := List.mem_map.1 ha
        exact mul_nonneg (hx x hx') (nd1_mem _ _ _).1
      · refine List.sum_le_sum fun x hx' => ?_
        have := mul_le_mul_of_nonneg_left (nd1_mem v1 x.2 k).2 (hx x hx')
        linarith
    have hcv : ∀ (c : Fin (n + 1) → ℝ), (∀ k, |c k| ≤ o.weight k * max 1 (rows.map fun r => r.2 * r.1 k).sum) →
        |∑ k, c k * (F k * ((rows.map fun r => r.2 * r.1 k).sum - 1))| ≤
          ∑ k, o.weight k * (F k * (|(rows.map fun r => r.2 * r.1 k).sum - 1| * max 1 (rows.map fun r => r.2 * r.1 k).sum)) := fun c hc => by
      refine (Finset.abs_sum_le_sum_abs _ _).trans (Finset.sum_le_sum fun k _ => ?_)
      rw [abs_mul, abs_mul, abs_of_nonneg (hF0 k)]
      have h0 : 0 ≤ F k * |(rows.map fun r => r.2 * r.1 k).sum - 1| := mul_nonneg (hF0 k) (abs_nonneg _)
      have := mul_le_mul_of_nonneg_right (hc k) h0
      linarith
    have hpr : ∃ c : ℝ, |c| ≤ ∑ k, o.weight k * (F k * (|(rows.map fun r => r.2 * r.1 k).sum - 1| * max 1 (rows.map fun r => r.2 * r.1 k).sum)) ∧
        p = o.mp.df T * (((rows.zip ds).map fun x => x.1.2 * contrib (fun k => F k * o.weight k) v1 K cp x.1.1 x.2).sum - c) := by
      rw [← hp]
      unfold priceRows
      simp only [hft]
      split_ifs with hc1
      · refine ⟨_, hcv _ fun k => ?_, rfl⟩
        rw [abs_of_nonneg (hdel k).1]
        exact (hdel k).2.trans (mul_le_mul_of_nonneg_left (le_max_right _ _) (hwt k))
      · refine ⟨_, hcv _ fun k => ?_, rfl⟩
        obtain ⟨q1, q2⟩ := hdel k
        have r1 := mul_le_mul_of_nonneg_left (le_max_right (1:ℝ) (rows.map fun r => r.2 * r.1 k).sum) (hwt k)
        have r2 := mul_le_mul_of_nonneg_left (le_max_left (1:ℝ) (rows.map fun r => r.2 * r.1 k).sum) (hwt k)
        have := hwt k
        rw [abs_le]
        constructor <;> linarith
    obtain ⟨c, hc, rfl⟩ := hpr
    rw [← mul_sub, abs_mul, abs_of_nonneg hdf]
    refine mul_le_mul_of_nonneg_left ?_ hdf
    rw [abs_le] at hc ⊢
    constructor <;> linarith [hc.1, hc.2]

lemma zip_map {α β γ : Type*} (l : List α) (r : List β) (g : α → γ) (φ : γ × β → ℝ) : ((l.map g).zip r).map φ = (l.zip r).map fun p => φ (g p.1, p.2) := by
  induction l generalizing r with
  | nil => simp
  | cons a l ih => cases r with
    | nil => simp
    | cons b r => simp [ih]

/-- **C93** (quadrature price).  For a basket with positive weights, a positive strike and non-negative quadrature weights, the price with quadrature nodes is the discounted
sum over the nodes of the exact prices of the basket conditional on the node's factors, where `V` is the matrix of `v_mat` times `sqrt(texp)`; the error is at most the
root-search error averaged over the nodes plus the error the nodes make on the forwards. -/
theorem quad_price_accuracy (o : Ma (n + 1)) (ho : o.Valid) (hs : ∀ i, 0 < o.sigma i) {solve : (Fin (n + 1) → ℝ) → Fin (n + 1) → ℝ}
    (hsolve : Spec.IsSolve o.chol solve) {svd : Matrix (Fin (n + 1)) (Fin n) ℝ → Matrix (Fin (n + 1)) (Fin n) ℝ} (hm : m ≤ n) {zz : List (List ℝ)} {ww : List ℝ}
    (hww : ∀ w ∈ ww, 0 ≤ w) {spot : Fin (n + 1) → ℝ} {K T cp p : ℝ} (hcp : Spec.IsCp cp) (hT : 0 < T) (hK : 0 < K) (hS : ∀ k, 0 < spot k) (hwt : ∀ k, 0 < o.weight k)
    (hp : priceQuad o solve svd hm zz ww K spot T cp = some p) :
    let F := Spec.forwards o.isFwd o.intr o.divr spot T
    let V : Matrix (Fin (n + 1)) (Fin (m + 1)) ℝ := fun k j => √T * vMat o solve svd F k (Fin.castLE (Nat.succ_le_succ hm) j)
    (∀ z ∈ zz, ¬ Basket1Bm.warns (fun k => Spec.nodeGrowth V (fun j => z.getD j 0) k * (F k * o.weight k) * exp (-(V k 0 ^ 2) / 2)) (fun k => V k 0) K) →
    |p - Spec.discount o.intr T * Spec.nodeSum zz ww (fun z => Spec.gaussE fun y => Spec.payoff cp K (Spec.factorBasket o.weight F V z y))| ≤
      Spec.discount o.intr T * (Spec.nodeSum zz ww (fun z => Spec.rootError (fun k => o.weight k * (F k * Spec.nodeGrowth V z k)) (fun k => V k 0) K) +
        ∑ k, o.weight k * (F k * (|Spec.nodeSum zz ww (fun z => Spec.nodeGrowth V z k) - 1| * max 1 (Spec.nodeSum zz ww fun z => Spec.nodeGrowth V z k)))) := by
  intro F V hwarn
  have hfw : o.fwd spot T = F := Basket.fwd_eq o spot T
  have hFp : ∀ k, 0 < F k := fun k => by
    show 0 < Spec.forward _ _ _ _ _
    unfold Spec.forward
    split_ifs
    · exact hS k
    · exact mul_pos (hS k) (exp_pos _)
  have hFw : ∀ k, 0 < F k * o.weight k := fun k => mul_pos (hFp k) (hwt k)
  have hv1 : (fun k => vMat o solve svd F k 0 * √T) = fun k => V k 0 := by
    ext k
    show _ = √T * vMat o solve svd F k 0
    ring
  have hvp : ∀ k, 0 < V k 0 := fun k => mul_pos (sqrt_pos.2 hT) (v1_pos o ho hs hsolve hFw k)
  have hrows : fRows (Matrix.of fun k (j : Fin m) => vMat o solve svd F k (Fin.castLE hm j).succ * √T) zz ww =
      (zz.map fun z k => Spec.nodeGrowth V (fun j => z.getD j 0) k).zip ww := by
    unfold fRows
    congr 2
    ext z k
    unfold Spec.nodeGrowth
    rw [← fRow_eq]
    have e : ∀ j : Fin m, V k j.succ = vMat o solve svd F k (Fin.castLE hm j).succ * √T := fun j => mul_comm _ _
    simp only [e, Matrix.of_apply]
  unfold priceQuad at hp
  simp only [hfw] at hp
  rw [hv1, hrows] at hp
  have hmem : ∀ r ∈ (zz.map fun z k => Spec.nodeGrowth V (fun j => z.getD j 0) k).zip ww, (∃ z ∈ zz, r.1 = fun k => Spec.nodeGrowth V (fun j => z.getD j 0) k) ∧ r.2 ∈ ww := by
    rintro ⟨f, w⟩ hr
    obtain ⟨h1, h2⟩ := List.of_mem_zip hr
    obtain ⟨z, hz, rfl⟩ := List.mem_map.1 h1
    exact ⟨⟨z, hz, rfl⟩, h2⟩
  have h := rows_accuracy o hcp hK (by rw [hfw]; exact hFw) (by rw [hfw]; exact fun k => (hFp k).le) hvp
    (fun r hr => by
      obtain ⟨⟨z, -, e⟩, h2⟩ := hmem r hr
      exact ⟨fun k => by rw [e]; exact exp_pos _, hww _ h2⟩)
    (fun r hr => by
      obtain ⟨⟨z, hz, e⟩, -⟩ := hmem r hr
      rw [e, hfw]
      exact hwarn z hz) hp
  simp only [hfw, zip_map] at h
  rw [Basket.df_eq] at h
  refine Eq.trans_le ?_ h
  congr 3
  unfold Spec.nodeSum
  congr 1
  refine List.map_congr_left fun q _ => ?_
  beta_reduce
  rw [show (fun y => Spec.payoff cp K (Spec.factorBasket o.weight F V (fun j => q.1.getD j 0) y)) = fun y => Spec.payoff cp K
    (Basket1Bm.level (fun k => Spec.nodeGrowth V (fun j => q.1.getD j 0) k * F k * o.weight k * exp (-(V k 0 ^ 2) / 2)) (fun k => V k 0) y) from
    funext fun y => by rw [factorBasket_level o.weight F V _ (fun k => Spec.nodeGrowth V (fun j => q.1.getD j 0) k) (fun k => rfl)]]

/-- **C93** (error of the quadrature price).  With nodes in all the remaining factors, the distance of the price from the true basket price is at most the error of the node sum
as an integral of the conditional prices, plus the errors of `quad_price_accuracy`. -/
theorem quad_price_error (o : Ma (n + 1)) (ho : o.Valid) (hs : ∀ i, 0 < o.sigma i) {solve : (Fin (n + 1) → ℝ) → Fin (n + 1) → ℝ}
    (hsolve : Spec.IsSolve o.chol solve) {svd : Matrix (Fin (n + 1)) (Fin n) ℝ → Matrix (Fin (n + 1)) (Fin n) ℝ} (hsvd : ∀ A, svd A * (svd A)ᵀ = A * Aᵀ)
    {zz : List (List ℝ)} {ww : List ℝ} (hww : ∀ w ∈ ww, 0 ≤ w) {spot : Fin (n + 1) → ℝ} {K T cp p : ℝ} (hcp : Spec.IsCp cp) (hT : 0 < T) (hK : 0 < K)
    (hS : ∀ k, 0 < spot k) (hwt : ∀ k, 0 < o.weight k)
    (hne : 100 * eps ≤ |(v1q1 o solve (Spec.forwards o.isFwd o.intr o.divr spot T)).2 0 - 1|)
    (hp : priceQuad o solve svd le_rfl zz ww K spot T cp = some p) :
    let F := Spec.forwards o.isFwd o.intr o.divr spot T
    let V : Matrix (Fin (n + 1)) (Fin (n + 1)) ℝ := fun k j => √T * vMat o solve svd F k j
    let cond := fun z : Fin n → ℝ => Spec.gaussE fun y => Spec.payoff cp K (Spec.factorBasket o.weight F V z y)
    (∀ z ∈ zz, ¬ Basket1Bm.warns (fun k => Spec.nodeGrowth V (fun j => z.getD j 0) k * (F k * o.weight k) * exp (-(V k 0 ^ 2) / 2)) (fun k => V k 0) K) →
    |p - Spec.basketPrice o.weight F (T • o.cov) (Spec.discount o.intr T) K cp| ≤ Spec.discount o.intr T *
      (|Spec.nodeSum zz ww cond - ∫ z, cond z ∂(Spec.iid (Fin n))| +
        (Spec.nodeSum zz ww (fun z => Spec.rootError (fun k => o.weight k * (F k * Spec.nodeGrowth V z k)) (fun k => V k 0) K) +
        ∑ k, o.weight k * (F k * (|Spec.nodeSum zz ww (fun z => Spec.nodeGrowth V z k) - 1| * max 1 (Spec.nodeSum zz ww fun z => Spec.nodeGrowth V z k))))) := by
  intro F V cond hwarn
  have h := quad_price_accuracy o ho hs hsolve (svd := svd) le_rfl hww hcp hT hK hS hwt hp hwarn
  have hF : ∃ i, F i * o.weight i ≠ 0 := ⟨0, by
    have : 0 < F 0 := by
      show 0 < Spec.forward _ _ _ _ _
      unfold Spec.forward
      split_ifs
      · exact hS 0
      · exact mul_pos (hS 0) (exp_pos _)
    exact (mul_pos this (hwt 0)).ne'⟩
  have hV : V * Vᵀ = T • o.cov := by
    rw [← v_mat_correct o ho hs hsolve hsvd hF hne]
    have e : V = √T • vMat o solve svd F := rfl
    rw [e, transpose_smul, Matrix.smul_mul, Matrix.mul_smul, smul_smul, mul_self_sqrt hT.le]
  rw [← hV, conditional_tower]
  have h' : |p - Spec.discount o.intr T * Spec.nodeSum zz ww cond| ≤ _ := h
  have hd : 0 ≤ Spec.discount o.intr T := (exp_pos _).le
  have e : p - Spec.discount o.intr T * ∫ z, cond z ∂(Spec.iid (Fin n)) =
      (p - Spec.discount o.intr T * Spec.nodeSum zz ww cond) + Spec.discount o.intr T * (Spec.nodeSum zz ww cond - ∫ z, cond z ∂(Spec.iid (Fin n))) := by ring
  show |p - Spec.discount o.intr T * ∫ z, cond z ∂(Spec.iid (Fin n))| ≤ _
  rw [e, mul_add]
  refine (abs_add_le _ _).trans ?_
  rw [abs_mul, abs_of_nonneg hd, add_comm]
  exact add_le_add_right h' _

lemma mapM_total {α β : Type*} {f : α → Option β} : ∀ {l : List α}, (∀ a ∈ l, ∃ b, f a = some b) → ∃ r, l.mapM f = some r
  | [], _ => ⟨[], rfl⟩
  | a :: l, h => by
    obtain ⟨b, hb⟩ := h a List.mem_cons_self
    obtain ⟨r, hr⟩ := mapM_total (l := l) fun x hx => h x (List.mem_cons_of_mem _ hx)
    exact ⟨b :: r, by rw [List.mapM_cons, hb, hr]; rfl⟩

/-- **C93** (domain of the quadrature price).  For baskets and spreads alike, the signs enforced in `v_mat` mean that no root search of the quadrature price raises. -/
theorem quad_defined (o : Ma (n + 1)) (ho : o.Valid) (hs : ∀ i, 0 < o.sigma i) {solve : (Fin (n + 1) → ℝ) → Fin (n + 1) → ℝ}
    (hsolve : Spec.IsSolve o.chol solve) (svd : Matrix (Fin (n + 1)) (Fin n) ℝ → Matrix (Fin (n + 1)) (Fin n) ℝ) (hm : m ≤ n) (zz : List (List ℝ)) (ww : List ℝ)
    {spot : Fin (n + 1) → ℝ} {T : ℝ} (hF : ∃ i, Spec.forwards o.isFwd o.intr o.divr spot T i * o.weight i ≠ 0) (K cp : ℝ) :
    ∃ p, priceQuad o solve svd hm zz ww K spot T cp = some p := by
  classical
  obtain ⟨-, -, h3⟩ := v1q1_facts o ho hs hsolve (fwd := o.fwd spot T) (by rw [Basket.fwd_eq]; exact hF)
  unfold priceQuad priceWith
  simp only
  generalize hr : fRows (Matrix.of fun k (j : Fin m) => vMat o solve svd (o.fwd spot T) k (Fin.castLE hm j).succ * √T) zz ww = rows
  have hpos : ∀ r ∈ rows, ∀ k, 0 < r.1 k := by
    rintro ⟨f, w⟩ h k
    rw [← hr] at h
    obtain ⟨z, -, rfl⟩ := List.mem_map.1 (List.of_mem_zip h).1
    exact exp_pos _
  obtain ⟨ds, hds⟩ := mapM_total (f := fun r : (Fin (n + 1) → ℝ) × ℝ =>
      dm (fun k => o.fwd spot T k * o.weight k) (fun k => vMat o solve svd (o.fwd spot T) k 0 * √T) K r.1) (l := rows) (fun r hrm => by
    unfold dm Basket1Bm.root
    rw [if_neg]
    · simp only
      split_ifs <;> exact ⟨_, rfl⟩
    · rw [not_not]
      intro i
      have e : r.1 i * (o.fwd spot T i * o.weight i) * exp (-(0.5 * (vMat o solve svd (o.fwd spot T) i 0 * √T) ^ 2)) * (vMat o solve svd (o.fwd spot T) i 0 * √T) =
          o.fwd spot T i * o.weight i * vMat o solve svd (o.fwd spot T) i 0 * (r.1 i * exp (-(0.5 * (vMat o solve svd (o.fwd spot T) i 0 * √T) ^ 2)) * √T) := by ring
      rw [e]
      exact mul_nonneg (h3 i) (mul_nonneg (mul_nonneg (hpos r hrm i).le (exp_pos _).le) (sqrt_nonneg _)))
  rw [hds]
  exact ⟨_, rfl⟩

/-- Two assets of volatility 20% and equal value. -/
noncomputable def exMb : Ma 2 := ⟨fun _ => 0.2, (0.04:ℝ) • (1 : Matrix (Fin 2) (Fin 2) ℝ), (0.2:ℝ) • (1 : Matrix (Fin 2) (Fin 2) ℝ), fun _ => 0.5, 0, 0, true⟩

lemma exMb_v1 (solve : (Fin 2 → ℝ) → Fin 2 → ℝ) (i : Fin 2) : (v1q1 exMb solve fun _ => 100).1 i = 0.2 / √2 ∧ (v1q1 exMb solve fun _ => 100).2 i = 1 / √2 := by
  have hs2 : (0:ℝ) < √2 := by positivity
  have hsq : √2 * √2 = (2:ℝ) := mul_self_sqrt (by norm_num)
  have h50 : norm2 (fun _ : Fin 2 => (100:ℝ) * 0.5) = 50 * √2 := by
    unfold norm2
    rw [Fin.sum_univ_two, show ((100:ℝ) * 0.5) ^ 2 + (100 * 0.5) ^ 2 = 50 ^ 2 * 2 by norm_num, sqrt_mul (by norm_num), sqrt_sq (by norm_num)]
  have hu : unit (fun _ => 100) exMb.weight = fun _ : Fin 2 => 1 / √2 := by
    ext j
    show (100:ℝ) * 0.5 / norm2 (fun _ : Fin 2 => (100:ℝ) * 0.5) = _
    rw [h50]
    field_simp
    norm_num
  have hr : v1Raw exMb (fun _ => 1 / √2) = fun _ => 0.2 / √2 := by
    ext j
    unfold v1Raw
    have hc : exMb.cov *ᵥ (fun _ => 1 / √2) = fun _ => 0.04 / √2 := by
      show ((0.04:ℝ) • (1 : Matrix (Fin 2) (Fin 2) ℝ)) *ᵥ _ = _
      rw [smul_mulVec, one_mulVec]
      ext k
      simp [div_eq_mul_inv]
    rw [hc, Fin.sum_univ_two, show 0.04 / √2 * (1 / √2) + 0.04 / √2 * (1 / √2) = 0.04 * 2 / (√2 * √2) by ring, hsq,
      show (0.04 * 2 / 2 : ℝ) = 0.2 ^ 2 by norm_num, sqrt_sq (by norm_num)]
    field_simp
    norm_num
  have hlow : ¬ ∃ i, low exMb (fun _ => 1 / √2) (fun _ => 0.2 / √2) i := by
    rintro ⟨k, hk⟩
    unfold low npSign at hk
    rw [if_pos (by positivity), one_mul] at hk
    have h2 : √2 ≤ 2 := by rw [sqrt_le_left (by norm_num)]; norm_num
    have : 0.2 / 2 ≤ 0.2 / √2 := div_le_div_of_nonneg_left (by norm_num) hs2 h2
    have e : (exMb.sigma k) = 0.2 := rfl
    rw [e] at hk
    norm_num at hk this
    linarith
  have hq : exMb.cholᵀ *ᵥ (fun _ => 1 / √2) = fun _ => 0.2 / √2 := by
    show ((0.2:ℝ) • (1 : Matrix (Fin 2) (Fin 2) ℝ))ᵀ *ᵥ _ = _
    rw [transpose_smul, transpose_one, smul_mulVec, one_mulVec]
    ext k
    simp [div_eq_mul_inv]
  have hn : norm2 (fun _ : Fin 2 => 0.2 / √2) = 0.2 := by
    unfold norm2
    rw [Fin.sum_univ_two, show (0.2 / √2) ^ 2 + (0.2 / √2) ^ 2 = 0.2 ^ 2 * 2 / (√2 * √2) by ring, hsq, mul_div_assoc, div_self two_ne_zero, mul_one, sqrt_sq (by norm_num)]
  unfold v1q1
  rw [hu]
  simp only
  rw [hr, if_neg hlow]
  refine ⟨rfl, ?_⟩
  show (exMb.cholᵀ *ᵥ (fun _ => 1 / √2)) i / norm2 (exMb.cholᵀ *ᵥ (fun _ => 1 / √2)) = _
  rw [hq, hn]
  field_simp

/-- The hypotheses of `quad_price_error` are met: the at-the-money option on two equal assets, with one quadrature node. -/
example : ∃ p, priceQuad exMb (fun b => (5:ℝ) • b) id le_rfl [[0]] [1] 100 (fun _ => 100) 1 1 = some p ∧ exMb.Valid ∧ (∀ i, 0 < exMb.sigma i) ∧
    Spec.IsSolve exMb.chol (fun b => (5:ℝ) • b) ∧ (∀ k, 0 < exMb.weight k) ∧
    100 * eps ≤ |(v1q1 exMb (fun b => (5:ℝ) • b) (Spec.forwards exMb.isFwd exMb.intr exMb.divr (fun _ => 100) 1)).2 0 - 1| ∧
    ∀ z ∈ [[(0:ℝ)]], ∀ V : Matrix (Fin 2) (Fin 2) ℝ,
      (V = fun k j => √1 * vMat exMb (fun b => (5:ℝ) • b) id (Spec.forwards exMb.isFwd exMb.intr exMb.divr (fun _ => 100) 1) k j) →
      ¬ Basket1Bm.warns (fun k => Spec.nodeGrowth V (fun j : Fin 1 => z.getD j 0) k * (Spec.forwards exMb.isFwd exMb.intr exMb.divr (fun _ => 100) 1 k * exMb.weight k) *
        exp (-(V k 0 ^ 2) / 2)) (fun k => V k 0) 100 := by
  have hfw : Spec.forwards exMb.isFwd exMb.intr exMb.divr (fun _ : Fin 2 => 100) 1 = fun _ => 100 := by
    unfold Spec.forwards Spec.forward exMb
    simp
  have hs2 : (0:ℝ) < √2 := by positivity
  have hwt : ∀ k, 0 < exMb.weight k := fun k => by show (0:ℝ) < 0.5; norm_num
  have hsg : ∀ k, 0 < exMb.sigma k := fun k => by show (0:ℝ) < 0.2; norm_num
  have hval : exMb.Valid := by
    refine ⟨fun i => ?_, ?_⟩
    · show ((0.04:ℝ) • (1 : Matrix (Fin 2) (Fin 2) ℝ)) i i = 0.2 ^ 2
      simp; norm_num
    · show ((0.2:ℝ) • (1 : Matrix (Fin 2) (Fin 2) ℝ)) * ((0.2:ℝ) • (1 : Matrix (Fin 2) (Fin 2) ℝ))ᵀ = (0.04:ℝ) • 1
      rw [transpose_smul, transpose_one, Matrix.smul_mul, Matrix.mul_smul, Matrix.one_mul, smul_smul]
      norm_num
  have hsolve : Spec.IsSolve exMb.chol (fun b => (5:ℝ) • b) := fun b => by
    show ((0.2:ℝ) • (1 : Matrix (Fin 2) (Fin 2) ℝ)) *ᵥ ((5:ℝ) • b) = b
    rw [smul_mulVec, one_mulVec, smul_smul]
    norm_num
  have hv0 : ∀ k, vMat exMb (fun b => (5:ℝ) • b) id (fun _ => 100) k 0 = 0.2 / √2 := fun k => (exMb_v1 _ k).1
  have hv : (0:ℝ) < 0.2 / √2 := by positivity
  obtain ⟨p, hp⟩ := quad_defined exMb hval hsg hsolve id (le_refl 1) [[0]] [1] (spot := fun _ => 100) (T := 1)
    ⟨0, by rw [hfw]; exact (mul_pos (by norm_num) (hwt 0)).ne'⟩ 100 1
  refine ⟨p, hp, hval, hsg, hsolve, hwt, ?_, ?_⟩
  · rw [hfw, (exMb_v1 _ 0).2]
    have h1 : (1.25:ℝ) ≤ √2 := le_sqrt_of_sq_le (by norm_num)
    have h2 : 1 / √2 ≤ 1 / 1.25 := div_le_div_of_nonneg_left (by norm_num) (by norm_num) h1
    rw [abs_of_neg (by norm_num at h2 ⊢; linarith)]
    have := eps_lt
    norm_num at h2 this ⊢
    linarith
  · intro z _ V hV
    rw [hfw] at hV ⊢
    have hV0 : ∀ k, V k 0 = 0.2 / √2 := fun k => by rw [hV]; show √1 * vMat _ _ _ _ k 0 = _; rw [hv0, sqrt_one, one_mul]
    refine Basket1Bm.root_no_warning (n := 1) (a := 0.2 / √2) (b := 0.2 / √2) (by norm_num) (fun k => ?_) hv (fun k => (hV0 k).ge) (fun k => (hV0 k).le) ?_
    · have := hwt k
      exact mul_pos (mul_pos (exp_pos _) (by positivity)) (exp_pos _)
    · rw [div_self hv.ne']
      norm_num

end Choi2018

end PyFENG
