import Verif.Props.MaMc

/-!
# `BsmNdMc` and `NormNdMc`: law of the simulated paths, unbiased European prices, failure modes
-/

set_option linter.unusedSectionVars false

namespace PyFENG

open MeasureTheory ProbabilityTheory Matrix Real

namespace NdMc

variable {n : ℕ} (o : Ma n)

/-- Specification: an increasing list of nonnegative observation times. -/
def Spec.IsGrid (tobs : List ℝ) : Prop := ∀ k < tobs.length, 0 ≤ McState.diff0 tobs k

lemma sum_diff0 (tobs : List ℝ) (t : ℕ) : ∑ s ∈ Finset.range (t + 1), McState.diff0 tobs s = tobs.getD t 0 := by
  induction t with
  | zero => simp [McState.diff0]
  | succ t ih => rw [Finset.sum_range_succ, ih]; simp [McState.diff0]

/-- **C60** (shape and failure).  `_bm_incr` fails exactly for antithetic simulation with an odd number of paths (of at least one asset at one date);
otherwise it returns `(time, path, asset)` with one row per date and one column per path. -/
theorem bm_incr_shape (hn : 0 < n) (anti : Bool) (ω : ℕ → ℝ) (pos : ℕ) {tobs : List ℝ} (ht : tobs ≠ []) (nPath : ℕ) :
    (anti = true ∧ nPath % 2 = 1 → bmIncr o anti ω pos tobs nPath = .error .valueError) ∧
    (¬ (anti = true ∧ nPath % 2 = 1) → ∃ a, bmIncr o anti ω pos tobs nPath = .ok a ∧ a.times = tobs.length ∧ a.paths = nPath) := by
  have hl := List.length_pos_of_ne_nil ht
  constructor
  · rintro ⟨rfl, h⟩
    unfold bmIncr
    simp only [if_true]
    rw [if_pos]
    intro he
    have h1 := Nat.eq_of_mul_eq_mul_right hn he
    have h2 := Nat.eq_of_mul_eq_mul_left hl h1
    omega
  · intro h
    unfold bmIncr
    cases anti
    · exact ⟨_, rfl, rfl, rfl⟩
    · simp only [if_true]
      rw [if_neg]
      · exact ⟨_, rfl, rfl, rfl⟩
      · push Not
        have : nPath / 2 * 2 = nPath := by simp at h; omega
        rw [this]

/-- The Brownian increments of path `p` up to date `t` summed: a signed linear image of distinct stream entries. -/
lemma bm_sum {anti : Bool} {ω : ℕ → ℝ} {pos : ℕ} {tobs : List ℝ} {nPath : ℕ} {a : Arr3 n} (h : bmIncr o anti ω pos tobs nPath = .ok a) (p : ℕ) :
    a.times = tobs.length ∧ a.paths = nPath ∧ ∀ t i, ∑ s ∈ Finset.range (t + 1), a.at' s p i =
      ∑ s ∈ Finset.range (t + 1), ∑ b, (if anti = true ∧ p % 2 = 1 then -1 else 1) * (√(McState.diff0 tobs s) * o.chol i b) *
        ω (pos + ((if anti then p / 2 else p) * tobs.length + s) * n + b) := by
  unfold bmIncr at h
  cases anti
  · simp only [Bool.false_eq_true, if_false, Except.ok.injEq] at h
    subst h
    refine ⟨rfl, rfl, fun t i => Finset.sum_congr rfl fun s _ => ?_⟩
    simp only [Bool.false_eq_true, false_and, if_false, one_mul, mulVec, dotProduct]
    exact Finset.sum_congr rfl fun b _ => by ring
  · simp only [if_true] at h
    split_ifs at h with h1
    simp only [Except.ok.injEq] at h
    subst h
    refine ⟨rfl, rfl, fun t i => Finset.sum_congr rfl fun s _ => ?_⟩
    simp only [true_and, if_true]
    rcases Nat.mod_two_eq_zero_or_one p with hp | hp
    · rw [if_pos hp, if_neg (by omega)]
      simp only [mulVec, dotProduct]
      exact Finset.sum_congr rfl fun b _ => by ring
    · rw [if_neg (by omega), if_pos hp]
      simp only [mulVec, dotProduct]
      rw [← Finset.sum_neg_distrib]
      exact Finset.sum_congr rfl fun b _ => by ring

/-- The entries of the stream used by path `p` up to date `t`. -/
def pathEmb (n pos L p t : ℕ) (ht : t < L) : Fin (t + 1) × Fin n ↪ ℕ := ⟨fun x => pos + (p * L + x.1) * n + x.2, fun x y h => by
  obtain ⟨s, a⟩ := x
  obtain ⟨s', a'⟩ := y
  have h' : (p * L + (s : ℕ)) * n + (a : ℕ) = (p * L + (s' : ℕ)) * n + (a' : ℕ) := by
    simp only at h; omega
  have ha : (a : ℕ) = a' := by
    have := congrArg (· % n) h'
    simpa [Nat.add_mod, Nat.mod_eq_of_lt a.2, Nat.mod_eq_of_lt a'.2] using this
  have hn : 0 < n := a.pos
  have hs : (s : ℕ) = s' := by
    rw [ha] at h'
    have := Nat.eq_of_mul_eq_mul_right hn (Nat.add_right_cancel h')
    omega
  ext1
  · exact Fin.ext hs
  · exact Fin.ext ha⟩

/-- The factor matrix of the summed increments. -/
noncomputable def pathMat (tobs : List ℝ) (t : ℕ) (sg : ℝ) : Matrix (Fin n) (Fin (t + 1) × Fin n) ℝ :=
  Matrix.of fun i x => sg * (√(McState.diff0 tobs x.1) * o.chol i x.2)

lemma pathMat_cov (ho : o.Valid) {tobs : List ℝ} (hg : Spec.IsGrid tobs) {t : ℕ} (ht : t < tobs.length) {sg : ℝ} (hs : sg ^ 2 = 1) :
    pathMat o tobs t sg * (pathMat o tobs t sg)ᵀ = tobs.getD t 0 • o.cov := by
  ext i j
  rw [Matrix.mul_apply, Fintype.sum_prod_type, Matrix.smul_apply, smul_eq_mul, ← ho.chol, Matrix.mul_apply, ← sum_diff0, Finset.sum_range, Finset.sum_mul]
  refine Finset.sum_congr rfl fun s _ => ?_
  rw [Finset.mul_sum]
  refine Finset.sum_congr rfl fun b _ => ?_
  have hd := mul_self_sqrt (hg s (by have := s.2; omega))
  simp only [pathMat, of_apply, transpose_apply]
  linear_combination (o.chol i b * o.chol j b * sg ^ 2) * hd + (McState.diff0 tobs s * o.chol i b * o.chol j b) * hs

/-- **C60** (law of the increments).  At every date `t` of the grid and on every path, the accumulated increments of `_bm_incr` have the centred normal
law with covariance `t * cov`. -/
theorem bm_law (ho : o.Valid) {anti : Bool} {pos : ℕ} {tobs : List ℝ} (hg : Spec.IsGrid tobs) {nPath : ℕ} {a : (ℕ → ℝ) → Arr3 n}
    (h : ∀ ω, bmIncr o anti ω pos tobs nPath = .ok (a ω)) (p : ℕ) {t : ℕ} (ht : t < tobs.length) {g : (Fin n → ℝ) → ℝ}
    (hgi : Integrable g (Spec.mvn (tobs.getD t 0 • o.cov))) :
    Integrable (fun ω => g fun i => ∑ s ∈ Finset.range (t + 1), (a ω).at' s p i) McState.Spec.iidNormal ∧
    ∫ ω, g (fun i => ∑ s ∈ Finset.range (t + 1), (a ω).at' s p i) ∂McState.Spec.iidNormal = ∫ z, g z ∂(Spec.mvn (tobs.getD t 0 • o.cov)) := by
  set sg : ℝ := if anti = true ∧ p % 2 = 1 then -1 else 1 with hsg
  have hs : sg ^ 2 = 1 := by rw [hsg]; split_ifs <;> norm_num
  set A := pathMat o tobs t sg with hA
  have hAA := pathMat_cov o ho hg ht hs
  have hmp := BasketMc.stream_preserving (pathEmb n pos tobs.length (if anti then p / 2 else p) t ht)
  have hmap : MeasurePreserving (fun x : Fin (t + 1) × Fin n → ℝ => A *ᵥ x) (Spec.iid _) (Spec.mvn (tobs.getD t 0 • o.cov)) :=
    ⟨by fun_prop, by rw [← hAA]; exact (MvGauss.mvn_eq_map A).symm⟩
  have hc := hmap.comp hmp
  have e : ∀ ω : ℕ → ℝ, (fun i => ∑ s ∈ Finset.range (t + 1), (a ω).at' s p i) =
      A *ᵥ (fun k => ω (pathEmb n pos tobs.length (if anti then p / 2 else p) t ht k)) := by
    intro ω
    ext i
    rw [(bm_sum o (h ω) p).2.2 t i, Finset.sum_range]
    simp only [mulVec, dotProduct]
    rw [Fintype.sum_prod_type]
    rfl
  simp_rw [e]
  refine ⟨hc.integrable_comp_of_integrable hgi, ?_⟩
  have h := integral_map (μ := McState.Spec.iidNormal) (f := g) hc.measurable.aemeasurable (by rw [hc.map_eq]; exact hgi.1)
  rw [hc.map_eq] at h
  exact h.symm

lemma findTime_eq {tobs : List ℝ} {texp : ℝ} {k : ℕ} (hk : k < tobs.length) (hc : |tobs.getD k 0 - texp| ≤ 1e-8 + 1e-5 * |texp|)
    (hf : ∀ j < k, ¬ |tobs.getD j 0 - texp| ≤ 1e-8 + 1e-5 * |texp|) : findTime tobs texp = some k := by
  classical
  unfold findTime
  rw [List.findIdx?_eq_some_iff_getElem]
  refine ⟨hk, ?_, fun j hj => ?_⟩
  · simp only [isclose, decide_eq_true_eq]
    simpa [List.getD_eq_getElem?_getD, List.getElem?_eq_getElem hk] using hc
  · simp only [isclose, decide_eq_true_eq, Bool.not_eq_true, decide_eq_false_iff_not]
    have := hf j hj
    have hj' : j < tobs.length := hj.trans hk
    simpa [List.getD_eq_getElem?_getD, List.getElem?_eq_getElem hj'] using this

lemma mean_paths {nPath : ℕ} (h0 : nPath ≠ 0) {f : (ℕ → ℝ) → ℕ → ℝ} {m : ℝ}
    (hf : ∀ p, Integrable (fun ω => f ω p) McState.Spec.iidNormal ∧ ∫ ω, f ω p ∂McState.Spec.iidNormal = m) (df : ℝ) :
    ∃ X : (ℕ → ℝ) → ℝ, (∀ ω, (npMean ((List.range nPath).map (f ω))).map (fun x => df * x) = some (X ω)) ∧ Integrable X McState.Spec.iidNormal ∧
      ∫ ω, X ω ∂McState.Spec.iidNormal = df * m := by
  refine ⟨fun ω => df * ((∑ p ∈ Finset.range nPath, f ω p) / nPath), fun ω => ?_,
    ((integrable_finsetSum _ fun p _ => (hf p).1).div_const _).const_mul _, ?_⟩
  · unfold npMean
    rw [if_neg (by simpa using h0), BasketMc.list_range_sum, List.length_map, List.length_range]
    rfl
  · rw [integral_const_mul, integral_div, integral_finsetSum _ fun p _ => (hf p).1]
    simp_rw [fun p => (hf p).2]
    rw [Finset.sum_const, Finset.card_range, nsmul_eq_mul]
    have : (nPath : ℝ) ≠ 0 := by exact_mod_cast h0
    field_simp

/-- **C60** (`BsmNdMc` is unbiased).  For every grid of dates, every number of paths the simulation accepts and every integrable payoff of the asset
vector, `price_european` at the first stored date close to `texp` is defined on every outcome and its expectation is the discounted expected payoff
in the multi-asset Black-Scholes model at that date. -/
theorem bsm_nd_unbiased (ho : o.Valid) (hn : 0 < n) {anti : Bool} {pos nPath : ℕ} {tobs : List ℝ} (hg : Spec.IsGrid tobs) (h0 : nPath ≠ 0)
    (hodd : ¬ (anti = true ∧ nPath % 2 = 1)) {k : ℕ} (hk : k < tobs.length) {texp : ℝ}
    (hc : |tobs.getD k 0 - texp| ≤ 1e-8 + 1e-5 * |texp|) (hf : ∀ j < k, ¬ |tobs.getD j 0 - texp| ≤ 1e-8 + 1e-5 * |texp|)
    (spot : Fin n → ℝ) {payoff : (Fin n → ℝ) → ℝ}
    (hp : Integrable (fun z => payoff (Spec.gbmVec (Spec.forwards false o.intr o.divr spot (tobs.getD k 0)) (tobs.getD k 0 • o.cov) z))
      (Spec.mvn (tobs.getD k 0 • o.cov))) :
    ∃ path : (ℕ → ℝ) → Arr3 n, (∀ ω, simulate o anti ω pos tobs nPath = .ok (path ω)) ∧
    ∃ X : (ℕ → ℝ) → ℝ, (∀ ω, priceEuropean o tobs (path ω) spot texp payoff = .ok (some (X ω))) ∧ Integrable X McState.Spec.iidNormal ∧
      ∫ ω, X ω ∂McState.Spec.iidNormal = Spec.discount o.intr texp *
        ∫ z, payoff (Spec.gbmVec (Spec.forwards false o.intr o.divr spot (tobs.getD k 0)) (tobs.getD k 0 • o.cov) z) ∂(Spec.mvn (tobs.getD k 0 • o.cov)) := by
  have hne : tobs ≠ [] := by rintro rfl; simp at hk
  choose a ha hat hap using fun ω => (bm_incr_shape o hn anti ω pos hne nPath).2 hodd
  refine ⟨fun ω => { a ω with at' := fun t p i => exp (∑ s ∈ Finset.range (t + 1), ((a ω).at' s p i +
    (o.intr - o.divr - 0.5 * o.sigma i ^ 2) * McState.diff0 tobs s)) }, fun ω => ?_, ?_⟩
  · unfold simulate
    rw [if_neg h0, ha ω]
    rfl
  have e : ∀ ω p, (fun i => exp (∑ s ∈ Finset.range (k + 1), ((a ω).at' s p i + (o.intr - o.divr - 0.5 * o.sigma i ^ 2) * McState.diff0 tobs s)) * spot i) =
      Spec.gbmVec (Spec.forwards false o.intr o.divr spot (tobs.getD k 0)) (tobs.getD k 0 • o.cov)
        (fun i => ∑ s ∈ Finset.range (k + 1), (a ω).at' s p i) := by
    intro ω p
    ext i
    unfold Spec.gbmVec Spec.forwards Spec.forward
    rw [Finset.sum_add_distrib, ← Finset.mul_sum, sum_diff0, Matrix.smul_apply, smul_eq_mul, ho.diag]
    simp only [Bool.false_eq_true, if_false]
    rw [mul_assoc, ← exp_add, mul_comm]
    congr 2
    norm_num; ring
  have hlaw := fun p => bm_law o ho hg ha p hk hp
  obtain ⟨X, h1, h2, h3⟩ := mean_paths h0 (f := fun ω p => payoff (fun i => exp (∑ s ∈ Finset.range (k + 1), ((a ω).at' s p i +
    (o.intr - o.divr - 0.5 * o.sigma i ^ 2) * McState.diff0 tobs s)) * spot i)) (fun p => by simp_rw [e]; exact hlaw p) (exp (-o.intr * texp))
  refine ⟨X, fun ω => ?_, h2, ?_⟩
  · unfold priceEuropean
    rw [findTime_eq hk hc hf]
    simp only [hap ω]
    rw [h1 ω]
  · rw [h3, neg_mul]
    rfl

/-- **C60.** In particular the simulated assets are priced at the no-arbitrage value: the discounted mean of asset `i` at a stored date is
`exp(-q t) S_i`. -/
theorem bsm_nd_martingale (ho : o.Valid) (hn : 0 < n) {anti : Bool} {pos nPath : ℕ} {tobs : List ℝ} (hg : Spec.IsGrid tobs) (h0 : nPath ≠ 0)
    (hodd : ¬ (anti = true ∧ nPath % 2 = 1)) {k : ℕ} (hk : k < tobs.length)
    (hf : ∀ j < k, ¬ |tobs.getD j 0 - tobs.getD k 0| ≤ 1e-8 + 1e-5 * |tobs.getD k 0|) (spot : Fin n → ℝ) (i : Fin n) :
    ∃ path : (ℕ → ℝ) → Arr3 n, (∀ ω, simulate o anti ω pos tobs nPath = .ok (path ω)) ∧
    ∃ X : (ℕ → ℝ) → ℝ, (∀ ω, priceEuropean o tobs (path ω) spot (tobs.getD k 0) (fun x => x i) = .ok (some (X ω))) ∧
      ∫ ω, X ω ∂McState.Spec.iidNormal = exp (-o.divr * tobs.getD k 0) * spot i := by
  have ht : 0 ≤ tobs.getD k 0 := by
    rw [← sum_diff0]
    exact Finset.sum_nonneg fun s hs => hg s (by have := Finset.mem_range.1 hs; omega)
  have hS := Basket.posSemidef_smul ho.posSemidef ht
  obtain ⟨path, h1, X, h2, -, h4⟩ := bsm_nd_unbiased o ho hn (pos := pos) hg h0 hodd hk (texp := tobs.getD k 0) (by simp; positivity) hf spot
    (payoff := fun x => x i) (MultiLogn.integrable_gbmVec hS _ i)
  refine ⟨path, h1, X, h2, ?_⟩
  have h := MultiLogn.tilt_single hS (Spec.forwards false o.intr o.divr spot (tobs.getD k 0)) i (f := fun _ => 1) measurable_const
  simp only [mul_one, integral_const, probReal_univ, smul_eq_mul] at h
  rw [h4, h]
  unfold Spec.discount Spec.forwards Spec.forward
  simp only [Bool.false_eq_true, if_false]
  rw [mul_left_comm, ← exp_add, mul_comm]
  congr 2
  ring

/-- **C95** (`NormNdMc`).  The simulated Bachelier paths have no drift: prices are unbiased for the model in which the *spot*, not the forward, is the mean. -/
theorem norm_nd_mean (ho : o.Valid) (hn : 0 < n) {anti : Bool} {pos nPath : ℕ} {tobs : List ℝ} (hg : Spec.IsGrid tobs) (h0 : nPath ≠ 0)
    (hodd : ¬ (anti = true ∧ nPath % 2 = 1)) {k : ℕ} (hk : k < tobs.length) {texp : ℝ}
    (hc : |tobs.getD k 0 - texp| ≤ 1e-8 + 1e-5 * |texp|) (hf : ∀ j < k, ¬ |tobs.getD j 0 - texp| ≤ 1e-8 + 1e-5 * |texp|)
    (spot : Fin n → ℝ) {payoff : (Fin n → ℝ) → ℝ}
    (hp : Integrable (fun z => payoff (fun i => z i + spot i)) (Spec.mvn (tobs.getD k 0 • o.cov))) :
    ∃ path : (ℕ → ℝ) → Arr3 n, (∀ ω, simulateNorm o anti ω pos tobs nPath = .ok (path ω)) ∧
    ∃ X : (ℕ → ℝ) → ℝ, (∀ ω, priceEuropeanNorm o tobs (path ω) spot texp payoff = .ok (some (X ω))) ∧ Integrable X McState.Spec.iidNormal ∧
      ∫ ω, X ω ∂McState.Spec.iidNormal = Spec.discount o.intr texp * ∫ z, payoff (fun i => z i + spot i) ∂(Spec.mvn (tobs.getD k 0 • o.cov)) := by
  have hne : tobs ≠ [] := by rintro rfl; simp at hk
  choose a ha hat hap using fun ω => (bm_incr_shape o hn anti ω pos hne nPath).2 hodd
  refine ⟨fun ω => { a ω with at' := fun t p i => ∑ s ∈ Finset.range (t + 1), (a ω).at' s p i }, fun ω => ?_, ?_⟩
  · unfold simulateNorm
    rw [if_neg h0, ha ω]
    rfl
  have hlaw := fun p => bm_law o ho hg ha p hk hp
  obtain ⟨X, h1, h2, h3⟩ := mean_paths h0 (f := fun ω p => payoff (fun i => ∑ s ∈ Finset.range (k + 1), (a ω).at' s p i + spot i))
    (fun p => hlaw p) (exp (-o.intr * texp))
  refine ⟨X, fun ω => ?_, h2, ?_⟩
  · unfold priceEuropeanNorm
    rw [findTime_eq hk hc hf]
    simp only [hap ω]
    rw [h1 ω]
  · rw [h3, neg_mul]
    rfl

/-- **C95** (disagreement).  Whenever the carry rate is not zero, the price `NormNdMc` gives to the asset itself differs (on average, hence systematically)
from the discounted forward, which `NormBasket`, `NormBasketMc` and `BsmNdMc` all reproduce. -/
theorem norm_nd_drift_wrong (ho : o.Valid) (hn : 0 < n) {anti : Bool} {pos nPath : ℕ} {tobs : List ℝ} (hg : Spec.IsGrid tobs) (h0 : nPath ≠ 0)
    (hodd : ¬ (anti = true ∧ nPath % 2 = 1)) {k : ℕ} (hk : k < tobs.length)
    (hf : ∀ j < k, ¬ |tobs.getD j 0 - tobs.getD k 0| ≤ 1e-8 + 1e-5 * |tobs.getD k 0|) {spot : Fin n → ℝ} (i : Fin n)
    (ht : tobs.getD k 0 ≠ 0) (hr : o.intr ≠ o.divr) (hS0 : spot i ≠ 0) :
    ∃ path : (ℕ → ℝ) → Arr3 n, (∀ ω, simulateNorm o anti ω pos tobs nPath = .ok (path ω)) ∧
    ∃ X : (ℕ → ℝ) → ℝ, (∀ ω, priceEuropeanNorm o tobs (path ω) spot (tobs.getD k 0) (fun x => x i) = .ok (some (X ω))) ∧
      ∫ ω, X ω ∂McState.Spec.iidNormal ≠ Spec.discount o.intr (tobs.getD k 0) * Spec.forwards false o.intr o.divr spot (tobs.getD k 0) i := by
  have ht0 : 0 ≤ tobs.getD k 0 := by
    rw [← sum_diff0]
    exact Finset.sum_nonneg fun s hs => hg s (by have := Finset.mem_range.1 hs; omega)
  have hS := Basket.posSemidef_smul ho.posSemidef ht0
  have hI : Integrable (fun z : Fin n → ℝ => z i) (Spec.mvn (tobs.getD k 0 • o.cov)) := by
    have := BasketMc.integrable_eval hS (Pi.single i 1)
    simpa only [single_one_dotProduct] using this
  obtain ⟨path, h1, X, h2, -, h4⟩ := norm_nd_mean o ho hn (pos := pos) hg h0 hodd hk (texp := tobs.getD k 0) (by simp; positivity) hf spot
    (payoff := fun x => x i) (hI.add (integrable_const _))
  refine ⟨path, h1, X, h2, ?_⟩
  have hz : ∫ z : Fin n → ℝ, z i ∂(Spec.mvn (tobs.getD k 0 • o.cov)) = 0 := by
    have h := MvGauss.integral_dot_mvn hS (Pi.single i 1) (f := fun x => x) measurable_id
    simp only [single_one_dotProduct] at h
    rw [h]
    unfold Spec.gaussE
    rw [integral_const_mul]
    simp
  rw [h4, integral_add hI (integrable_const _), hz]
  simp only [integral_const, probReal_univ, smul_eq_mul, one_mul, zero_add]
  unfold Spec.forwards Spec.forward
  simp only [Bool.false_eq_true, if_false]
  intro h
  have h5 := mul_left_cancel₀ (exp_pos _).ne' h
  have h6 : exp ((o.intr - o.divr) * tobs.getD k 0) = 1 := by
    have : spot i * exp ((o.intr - o.divr) * tobs.getD k 0) = spot i * 1 := by rw [mul_one]; exact h5.symm
    exact mul_left_cancel₀ hS0 this
  rw [exp_eq_one_iff] at h6
  rcases mul_eq_zero.1 h6 with h7 | h7
  · exact hr (by linarith)
  · exact ht h7

/-- Three dates, ten antithetic paths and the correlated model of `BasketMc.mcEx` meet the hypotheses of every theorem above, the drift one included. -/
example : BasketMc.mcEx.Valid ∧ Spec.IsGrid [0.5, 1, 2] ∧ ¬ (true = true ∧ 10 % 2 = 1) ∧ 2 < [(0.5:ℝ), 1, 2].length ∧
    (∀ j < 2, ¬ |[(0.5:ℝ), 1, 2].getD j 0 - [(0.5:ℝ), 1, 2].getD 2 0| ≤ 1e-8 + 1e-5 * |[(0.5:ℝ), 1, 2].getD 2 0|) ∧
    [(0.5:ℝ), 1, 2].getD 2 0 ≠ 0 ∧ BasketMc.mcEx.intr ≠ BasketMc.mcEx.divr := by
  refine ⟨BasketMc.mcEx_valid, ?_, by decide, by simp, ?_, by simp, by simp [BasketMc.mcEx]; norm_num⟩
  · intro k hk
    have : k = 0 ∨ k = 1 ∨ k = 2 := by simp at hk; omega
    rcases this with rfl | rfl | rfl <;> simp [McState.diff0] <;> norm_num
  · intro j hj
    have : j = 0 ∨ j = 1 := by omega
    rcases this with rfl | rfl <;> simp <;> norm_num

end NdMc

end PyFENG
