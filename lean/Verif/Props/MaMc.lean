import Verif.Model.MaMc
import Verif.Props.Basket
import Verif.Props.SvMc

/-!
# Multi-asset Monte-Carlo: unbiasedness, parity on every outcome, control variates
-/

set_option linter.unusedSectionVars false

namespace PyFENG

open MeasureTheory ProbabilityTheory Matrix Real

namespace BasketMc

variable {n : ℕ} (o : Ma n)

instance : IsProbabilityMeasure McState.Spec.iidNormal := by unfold McState.Spec.iidNormal; infer_instance

/-- Reading finitely many distinct entries of the stream gives independent standard normals. -/
lemma stream_preserving {κ : Type*} [Fintype κ] (e : κ ↪ ℕ) :
    MeasurePreserving (fun (ω : ℕ → ℝ) (k : κ) => ω (e k)) McState.Spec.iidNormal (Spec.iid κ) := by
  classical
  have hm : Measurable (fun (ω : ℕ → ℝ) (k : κ) => ω (e k)) := by fun_prop
  refine ⟨hm, ?_⟩
  unfold Spec.iid
  refine (Measure.pi_eq fun s hs => ?_).symm
  rw [Measure.map_apply hm (MeasurableSet.univ_pi hs)]
  have hpre : (fun (ω : ℕ → ℝ) (k : κ) => ω (e k)) ⁻¹' Set.univ.pi s = Set.pi (Finset.univ.map e : Finset ℕ) (Function.extend e s fun _ => Set.univ) := by
    ext ω
    simp only [Set.mem_preimage, Set.mem_pi, Set.mem_univ, true_implies, Finset.coe_map, Finset.coe_univ, Set.image_univ, Set.mem_range,
      forall_exists_index, forall_apply_eq_imp_iff, e.injective.extend_apply]
  rw [hpre]
  unfold McState.Spec.iidNormal
  rw [Measure.infinitePi_pi _ (fun i hi => by
    obtain ⟨k, -, rfl⟩ := Finset.mem_map.1 hi
    rw [e.injective.extend_apply]; exact hs k), Finset.prod_map]
  exact Finset.prod_congr rfl fun k _ => by rw [e.injective.extend_apply]

/-- The row `p` of the draws reads distinct entries. -/
def rowEmb (n pos p : ℕ) : Fin n ↪ ℕ := ⟨fun a => pos + p * n + a, fun a b h => by
  have : (a : ℕ) = b := by simpa using h
  exact Fin.ext this⟩

/-- One (possibly negated) simulated row has the multivariate normal law with covariance `T * cov`. -/
lemma row_law (ho : o.Valid) {T : ℝ} (hT : 0 ≤ T) (pos p : ℕ) {s : ℝ} (hs : s ^ 2 = 1) {g : (Fin n → ℝ) → ℝ}
    (hg : Integrable g (Spec.mvn (T • o.cov))) :
    Integrable (fun ω => g (fun i => s * ((o.chol *ᵥ draw ω pos p) i * √T))) McState.Spec.iidNormal ∧
    ∫ ω, g (fun i => s * ((o.chol *ᵥ draw ω pos p) i * √T)) ∂McState.Spec.iidNormal = ∫ z, g z ∂(Spec.mvn (T • o.cov)) := by
  set A : Matrix (Fin n) (Fin n) ℝ := (s * √T) • o.chol with hA
  have hAA : A * Aᵀ = T • o.cov := by
    rw [hA, transpose_smul, smul_mul, Matrix.mul_smul, smul_smul, ho.chol]
    congr 1
    have := mul_self_sqrt hT
    linear_combination (s ^ 2) * this + T * hs
  have hmp := stream_preserving (rowEmb n pos p)
  have hmap : MeasurePreserving (fun x : Fin n → ℝ => A *ᵥ x) (Spec.iid (Fin n)) (Spec.mvn (T • o.cov)) :=
    ⟨by fun_prop, by rw [← hAA]; exact (MvGauss.mvn_eq_map A).symm⟩
  have hc := hmap.comp hmp
  have e : ∀ ω : ℕ → ℝ, (fun i => s * ((o.chol *ᵥ draw ω pos p) i * √T)) = A *ᵥ (fun k => ω (rowEmb n pos p k)) := by
    intro ω
    ext i
    rw [hA, smul_mulVec, Pi.smul_apply, smul_eq_mul]
    have : draw ω pos p = fun k => ω (rowEmb n pos p k) := rfl
    rw [this]; ring
  simp_rw [e]
  refine ⟨hc.integrable_comp_of_integrable hg, ?_⟩
  have h := integral_map (μ := McState.Spec.iidNormal) (f := g) hc.measurable.aemeasurable (by rw [hc.map_eq]; exact hg.1)
  rw [hc.map_eq] at h
  exact h.symm

lemma list_range_sum (f : ℕ → ℝ) (m : ℕ) : ((List.range m).map f).sum = ∑ p ∈ Finset.range m, f p := by
  induction m with
  | zero => simp
  | succ m ih => rw [List.range_succ, List.map_append, List.sum_append, ih, Finset.sum_range_succ]; simp

lemma sum_zRows (g : (Fin n → ℝ) → ℝ) (nPath : ℕ) (anti : Bool) (ω : ℕ → ℝ) (pos : ℕ) (T : ℝ) :
    ((zRows o nPath anti ω pos T).map g).sum = ∑ p ∈ Finset.range (nGen nPath anti),
      (g (fun i => 1 * ((o.chol *ᵥ draw ω pos p) i * √T)) + if anti then g (fun i => -1 * ((o.chol *ᵥ draw ω pos p) i * √T)) else 0) := by
  rw [Finset.sum_add_distrib]
  unfold zRows
  simp only [one_mul, neg_one_mul]
  cases anti
  · simp only [Bool.false_eq_true, if_false, Finset.sum_const_zero, add_zero, List.map_map]
    exact list_range_sum _ _
  · simp only [if_true, List.map_append, List.sum_append, List.map_map]
    rw [← list_range_sum, ← list_range_sum]
    rfl

lemma length_zRows (nPath : ℕ) (anti : Bool) (ω : ℕ → ℝ) (pos : ℕ) (T : ℝ) :
    (zRows o nPath anti ω pos T).length = nGen nPath anti * (if anti then 2 else 1) := by
  unfold zRows
  cases anti <;> simp [mul_two]

/-- Averages over the simulated rows: defined as soon as one row is generated, and unbiased. -/
lemma mean_law (ho : o.Valid) {T : ℝ} (hT : 0 ≤ T) (pos nPath : ℕ) (anti : Bool) (hn : 0 < nGen nPath anti) {g : (Fin n → ℝ) → ℝ}
    (hg : Integrable g (Spec.mvn (T • o.cov))) :
    ∃ X : (ℕ → ℝ) → ℝ, (∀ ω, npMean ((zRows o nPath anti ω pos T).map g) = some (X ω)) ∧ Integrable X McState.Spec.iidNormal ∧
      ∫ ω, X ω ∂McState.Spec.iidNormal = ∫ z, g z ∂(Spec.mvn (T • o.cov)) := by
  have h1 := fun p => row_law o ho hT pos p (s := 1) (by norm_num) hg
  have h2 := fun p => row_law o ho hT pos p (s := -1) (by norm_num) hg
  have hint : ∀ p, Integrable (fun ω => g (fun i => 1 * ((o.chol *ᵥ draw ω pos p) i * √T)) +
      if anti then g (fun i => -1 * ((o.chol *ᵥ draw ω pos p) i * √T)) else 0) McState.Spec.iidNormal := by
    intro p
    refine (h1 p).1.add ?_
    cases anti
    · simp
    · simpa only [if_true] using (h2 p).1
  have hval : ∀ p, ∫ ω, (g (fun i => 1 * ((o.chol *ᵥ draw ω pos p) i * √T)) +
      if anti then g (fun i => -1 * ((o.chol *ᵥ draw ω pos p) i * √T)) else 0) ∂McState.Spec.iidNormal =
      (if anti then 2 else 1) * ∫ z, g z ∂(Spec.mvn (T • o.cov)) := by
    intro p
    cases anti
    · simp only [Bool.false_eq_true, if_false, add_zero, one_mul]
      simpa only [one_mul] using (h1 p).2
    · simp only [if_true]
      rw [integral_add (h1 p).1 (h2 p).1, (h1 p).2, (h2 p).2]
      ring
  have hc : (0:ℝ) < (nGen nPath anti : ℝ) * (if anti then 2 else 1) := mul_pos (by exact_mod_cast hn) (by split_ifs <;> norm_num)
  refine ⟨fun ω => (∑ p ∈ Finset.range (nGen nPath anti), (g (fun i => 1 * ((o.chol *ᵥ draw ω pos p) i * √T)) +
      if anti then g (fun i => -1 * ((o.chol *ᵥ draw ω pos p) i * √T)) else 0)) / ((nGen nPath anti : ℝ) * (if anti then 2 else 1)), fun ω => ?_,
      (integrable_finsetSum _ fun p _ => hint p).div_const _, ?_⟩
  · unfold npMean
    have hl := length_zRows o nPath anti ω pos T
    rw [if_neg, sum_zRows, List.length_map, hl]
    · push_cast
      congr 2
    · intro h
      have := congrArg List.length h
      rw [List.length_map, hl] at this
      cases anti <;> simp at this <;> omega
  · rw [integral_div, integral_finsetSum _ fun p _ => hint p]
    simp_rw [hval]
    rw [Finset.sum_const, Finset.card_range, nsmul_eq_mul, ← mul_assoc, mul_div_assoc, mul_comm, div_mul_cancel_of_imp]
    intro h
    exact absurd h hc.ne'

/-- The discounted average payoff is unbiased. -/
lemma mc_law (ho : o.Valid) {T : ℝ} (hT : 0 ≤ T) (pos nPath : ℕ) (anti : Bool) (hn : 0 < nGen nPath anti) (df K cp : ℝ) {B : (Fin n → ℝ) → ℝ}
    (hB : Integrable B (Spec.mvn (T • o.cov))) :
    ∃ X : (ℕ → ℝ) → ℝ, (∀ ω, mcPrice df K cp ((zRows o nPath anti ω pos T).map B) = some (X ω)) ∧ Integrable X McState.Spec.iidNormal ∧
      ∫ ω, X ω ∂McState.Spec.iidNormal = df * ∫ z, Spec.payoff cp K (B z) ∂(Spec.mvn (T • o.cov)) := by
  have hg : Integrable (fun z => Spec.payoff cp K (B z)) (Spec.mvn (T • o.cov)) := by
    unfold Spec.payoff
    exact ((hB.sub (integrable_const K)).const_mul cp).pos_part
  obtain ⟨X, h1, h2, h3⟩ := mean_law o ho hT pos nPath anti hn hg
  refine ⟨fun ω => df * X ω, fun ω => ?_, h2.const_mul _, by rw [integral_const_mul, h3]⟩
  unfold mcPrice
  have := h1 ω
  rw [List.map_map]
  unfold Spec.payoff at this
  show Option.map _ (npMean (List.map (fun z => max (cp * (B z - K)) 0) _)) = _
  rw [this]
  rfl

lemma bsmBasket_eq (ho : o.Valid) (fwd : Fin n → ℝ) (T : ℝ) : bsmBasket o fwd T = Spec.basket o.weight fwd (T • o.cov) := by
  ext z
  unfold bsmBasket Spec.basket Spec.gbmVec
  refine Finset.sum_congr rfl fun i _ => ?_
  rw [Matrix.smul_apply, smul_eq_mul, ho.diag]
  have : -0.5 * o.sigma i ^ 2 * T + z i = z i - T * o.sigma i ^ 2 / 2 := by norm_num; ring
  rw [this]; ring

lemma geoBasket_eq (ho : o.Valid) (fwd : Fin n → ℝ) (T : ℝ) (z : Fin n → ℝ) : geoBasket o fwd T z =
    (∑ i, o.weight i * fwd i) * exp (o.weight ⬝ᵥ z - o.weight ⬝ᵥ o.cov *ᵥ o.weight * T / 2) := by
  unfold geoBasket
  rw [sq_sqrt (MvGauss.quad_nonneg ho.posSemidef o.weight), dotProduct_comm z, dotProduct_comm fwd]
  congr 2
  norm_num; ring

lemma normBasket_eq (fwd : Fin n → ℝ) (z : Fin n → ℝ) : normBasket o fwd z = ∑ i, o.weight i * (fwd i + z i) :=
  Finset.sum_congr rfl fun i _ => mul_comm _ _

lemma integrable_eval {S : Matrix (Fin n) (Fin n) ℝ} (hS : S.PosSemidef) (a : Fin n → ℝ) : Integrable (fun z => a ⬝ᵥ z) (Spec.mvn S) := by
  have h : Integrable (fun y : ℝ => y) ((Spec.mvn S).map fun z => a ⬝ᵥ z) := by
    rw [MvGauss.map_dot_mvn hS a, integrable_map_measure (by fun_prop) (by fun_prop)]
    have := (integrable_pow_gauss 1).const_mul (√(a ⬝ᵥ S *ᵥ a))
    simpa [Function.comp_def] using this
  exact (integrable_map_measure (by fun_prop) (MvGauss.measurable_dot a).aemeasurable).1 h

lemma integrable_basket {S : Matrix (Fin n) (Fin n) ℝ} (hS : S.PosSemidef) (w F : Fin n → ℝ) : Integrable (Spec.basket w F S) (Spec.mvn S) := by
  unfold Spec.basket
  exact integrable_finsetSum _ fun i _ => (MultiLogn.integrable_gbmVec hS F i).const_mul _

lemma integrable_normBasket {S : Matrix (Fin n) (Fin n) ℝ} (hS : S.PosSemidef) (fwd : Fin n → ℝ) : Integrable (normBasket o fwd) (Spec.mvn S) := by
  refine ((integrable_const (∑ i, o.weight i * fwd i)).add (integrable_eval hS o.weight)).congr (ae_of_all _ fun z => ?_)
  simp only [Pi.add_apply]
  rw [normBasket_eq]
  simp only [mul_add, Finset.sum_add_distrib]
  rfl

lemma integrable_geoBasket (ho : o.Valid) {T : ℝ} (hT : 0 ≤ T) (fwd : Fin n → ℝ) : Integrable (geoBasket o fwd T) (Spec.mvn (T • o.cov)) := by
  have h := (MvGauss.integrable_exp_mvn (Basket.posSemidef_smul ho.posSemidef hT) o.weight).const_mul
    ((∑ i, o.weight i * fwd i) * exp (-(o.weight ⬝ᵥ o.cov *ᵥ o.weight * T / 2)))
  refine h.congr (ae_of_all _ fun z => ?_)
  beta_reduce
  rw [geoBasket_eq o ho, mul_assoc, ← exp_add]
  ring_nf

/-- **C60** (`NormBasketMc` is unbiased).  With at least one generated row - any number of paths, antithetic or not - the Monte-Carlo price is defined
for every outcome of the generator and its expectation is the exact multi-asset Bachelier price. -/
theorem norm_mc_unbiased (ho : o.Valid) {T : ℝ} (hT : 0 ≤ T) (pos nPath : ℕ) (anti : Bool) (hn : 0 < nGen nPath anti) (K cp : ℝ) (spot : Fin n → ℝ) :
    ∃ X : (ℕ → ℝ) → ℝ, (∀ ω, (normPrice o nPath anti ω pos K spot T cp).1 = some (X ω)) ∧ Integrable X McState.Spec.iidNormal ∧
      ∫ ω, X ω ∂McState.Spec.iidNormal = Spec.discount o.intr T *
        ∫ z, Spec.payoff cp K (∑ i, o.weight i * (Spec.forwards o.isFwd o.intr o.divr spot T i + z i)) ∂(Spec.mvn (T • o.cov)) := by
  have hn0 : nPath ≠ 0 := by rintro rfl; cases anti <;> simp [nGen] at hn
  obtain ⟨X, h1, h2, h3⟩ := mc_law o ho hT pos nPath anti hn (o.mp.df T) K cp
    (integrable_normBasket o (Basket.posSemidef_smul ho.posSemidef hT) (o.fwd spot T))
  refine ⟨X, fun ω => ?_, h2, ?_⟩
  · unfold normPrice
    rw [if_neg hn0]
    exact h1 ω
  · rw [h3, Basket.df_eq, Basket.fwd_eq]
    simp_rw [normBasket_eq]

/-- **C60** (`BsmBasketGeoApproxMc` is unbiased for the lognormal proxy it simulates). -/
theorem geo_mc_unbiased (ho : o.Valid) {T : ℝ} (hT : 0 ≤ T) (pos nPath : ℕ) (anti : Bool) (hn : 0 < nGen nPath anti) (K cp : ℝ) (spot : Fin n → ℝ) :
    ∃ X : (ℕ → ℝ) → ℝ, (∀ ω, (geoPrice o nPath anti ω pos K spot T cp).1 = some (X ω)) ∧ Integrable X McState.Spec.iidNormal ∧
      ∫ ω, X ω ∂McState.Spec.iidNormal = Spec.discount o.intr T *
        ∫ z, Spec.payoff cp K ((∑ i, o.weight i * Spec.forwards o.isFwd o.intr o.divr spot T i) *
          exp (o.weight ⬝ᵥ z - o.weight ⬝ᵥ o.cov *ᵥ o.weight * T / 2)) ∂(Spec.mvn (T • o.cov)) := by
  have hn0 : nPath ≠ 0 := by rintro rfl; cases anti <;> simp [nGen] at hn
  obtain ⟨X, h1, h2, h3⟩ := mc_law o ho hT pos nPath anti hn (o.mp.df T) K cp (integrable_geoBasket o ho hT (o.fwd spot T))
  refine ⟨X, fun ω => ?_, h2, ?_⟩
  · unfold geoPrice
    rw [if_neg hn0]
    exact h1 ω
  · rw [h3, Basket.df_eq, Basket.fwd_eq]
    simp_rw [geoBasket_eq o ho]

/-- **C60** (`BsmBasketMc` without control variate is unbiased). -/
theorem mc_unbiased (ho : o.Valid) {T : ℝ} (hT : 0 ≤ T) (pos nPath : ℕ) (anti : Bool) (hn : 0 < nGen nPath anti) (K cp : ℝ) (spot : Fin n → ℝ) :
    ∃ X : (ℕ → ℝ) → ℝ, (∀ ω, (price o nPath anti ω pos K spot T cp .none).1 = some (X ω)) ∧ Integrable X McState.Spec.iidNormal ∧
      ∫ ω, X ω ∂McState.Spec.iidNormal =
        Spec.basketPrice o.weight (Spec.forwards o.isFwd o.intr o.divr spot T) (T • o.cov) (Spec.discount o.intr T) K cp := by
  have hn0 : nPath ≠ 0 := by rintro rfl; cases anti <;> simp [nGen] at hn
  obtain ⟨X, h1, h2, h3⟩ := mc_law o ho hT pos nPath anti hn (o.mp.df T) K cp (B := bsmBasket o (o.fwd spot T) T)
    (by rw [bsmBasket_eq o ho]; exact integrable_basket (Basket.posSemidef_smul ho.posSemidef hT) _ _)
  refine ⟨X, fun ω => ?_, h2, ?_⟩
  · unfold price
    rw [if_neg hn0]
    exact h1 ω
  · rw [h3, Basket.df_eq, Basket.fwd_eq, bsmBasket_eq o ho]
    rfl

lemma cv_integral {X Y : (ℕ → ℝ) → ℝ} (hX : Integrable X McState.Spec.iidNormal) (hY : Integrable Y McState.Spec.iidNormal) (c : ℝ) :
    Integrable (fun ω => X ω - (Y ω - c)) McState.Spec.iidNormal ∧
    ∫ ω, (X ω - (Y ω - c)) ∂McState.Spec.iidNormal = ∫ ω, X ω ∂McState.Spec.iidNormal - (∫ ω, Y ω ∂McState.Spec.iidNormal - c) := by
  have h2 : Integrable (fun ω => Y ω - c) McState.Spec.iidNormal := hY.sub (integrable_const c)
  refine ⟨hX.sub h2, ?_⟩
  rw [integral_sub hX h2, integral_sub hY (integrable_const c)]
  simp

lemma forwards_true (r q : ℝ) (S : Fin n → ℝ) (T : ℝ) : Spec.forwards true r q S T = S := by
  ext i; simp [Spec.forwards, Spec.forward]

/-- **C60** (the geometric control variate leaves the price unbiased).  The control is the Monte-Carlo error of `BsmBasketGeoApproxMc` against the
closed formula, so it has mean zero. -/
theorem mc_geo_cv_unbiased (ho : o.Valid) {T : ℝ} (hT : 0 ≤ T) (pos nPath : ℕ) (anti : Bool) (hn : 0 < nGen nPath anti) {K cp : ℝ} {spot : Fin n → ℝ}
    (hcp : Spec.IsCp cp) (hK : 0 < K) (hF : 0 < ∑ i, o.weight i * Spec.forwards o.isFwd o.intr o.divr spot T i)
    (hv : eps ≤ √(o.weight ⬝ᵥ o.cov *ᵥ o.weight) * √T) :
    ∃ X : (ℕ → ℝ) → ℝ, (∀ ω, (price o nPath anti ω pos K spot T cp .geo).1 = some (X ω)) ∧ Integrable X McState.Spec.iidNormal ∧
      ∫ ω, X ω ∂McState.Spec.iidNormal =
        Spec.basketPrice o.weight (Spec.forwards o.isFwd o.intr o.divr spot T) (T • o.cov) (Spec.discount o.intr T) K cp := by
  have hn0 : nPath ≠ 0 := by rintro rfl; cases anti <;> simp [nGen] at hn
  obtain ⟨X, h1, h2, h3⟩ := mc_unbiased o ho hT pos nPath anti hn K cp spot
  have hgv : (geoModel o).Valid := ⟨ho.diag, ho.chol⟩
  obtain ⟨Y, g1, g2, g3⟩ := geo_mc_unbiased (geoModel o) hgv hT pos nPath anti hn K cp (o.fwd spot T)
  have hex := Basket.geo_eq_expectation (geoModel o) hgv (K := K) (spot := o.fwd spot T) hcp hT hK (by
    show 0 < ∑ i, o.weight i * Spec.forwards true o.intr o.divr (o.fwd spot T) T i
    rw [forwards_true, Basket.fwd_eq]; exact hF) hv
  rw [← hex] at g3
  refine ⟨fun ω => X ω - (Y ω - GeoApprox.price (geoModel o) K (o.fwd spot T) T cp), fun ω => ?_, (cv_integral h2 g2 _).1, ?_⟩
  · have := h1 ω
    unfold price at this ⊢
    rw [if_neg hn0] at this ⊢
    simp only at this ⊢
    rw [this, g1 ω]
    rfl
  · rw [(cv_integral h2 g2 _).2, h3, g3]
    ring

lemma normModel_valid (ho : o.Valid) (fwd : Fin n → ℝ) : (normModel o fwd).Valid := by
  constructor
  · intro i
    show fwd i * o.cov i i * fwd i = (fwd i * o.sigma i) ^ 2
    rw [ho.diag]; ring
  · ext i j
    rw [Matrix.mul_apply]
    show ∑ k, fwd i * o.chol i k * (fwd j * o.chol j k) = fwd i * o.cov i j * fwd j
    rw [← ho.chol, Matrix.mul_apply, Finset.mul_sum, Finset.sum_mul]
    exact Finset.sum_congr rfl fun k _ => by rw [transpose_apply]; ring

/-- **C60** (the Bachelier control variate leaves the price unbiased). -/
theorem mc_norm_cv_unbiased (ho : o.Valid) {T : ℝ} (hT : 0 ≤ T) (pos nPath : ℕ) (anti : Bool) (hn : 0 < nGen nPath anti) {K cp : ℝ} {spot : Fin n → ℝ}
    (hcp : Spec.IsCp cp) (hv : eps ≤ √(∑ i, ∑ j, o.weight i * Spec.forwards o.isFwd o.intr o.divr spot T i * o.cov i j *
      (Spec.forwards o.isFwd o.intr o.divr spot T j * o.weight j)) * √T) :
    ∃ X : (ℕ → ℝ) → ℝ, (∀ ω, (price o nPath anti ω pos K spot T cp .norm).1 = some (X ω)) ∧ Integrable X McState.Spec.iidNormal ∧
      ∫ ω, X ω ∂McState.Spec.iidNormal =
        Spec.basketPrice o.weight (Spec.forwards o.isFwd o.intr o.divr spot T) (T • o.cov) (Spec.discount o.intr T) K cp := by
  have hn0 : nPath ≠ 0 := by rintro rfl; cases anti <;> simp [nGen] at hn
  obtain ⟨X, h1, h2, h3⟩ := mc_unbiased o ho hT pos nPath anti hn K cp spot
  have hgv := normModel_valid o ho (o.fwd spot T)
  obtain ⟨Y, g1, g2, g3⟩ := norm_mc_unbiased (normModel o (o.fwd spot T)) hgv hT pos nPath anti hn K cp (o.fwd spot T)
  have hq : (normModel o (o.fwd spot T)).weight ⬝ᵥ (normModel o (o.fwd spot T)).cov *ᵥ (normModel o (o.fwd spot T)).weight =
      ∑ i, ∑ j, o.weight i * Spec.forwards o.isFwd o.intr o.divr spot T i * o.cov i j * (Spec.forwards o.isFwd o.intr o.divr spot T j * o.weight j) := by
    rw [← Basket.fwd_eq]
    show ∑ i, o.weight i * ∑ j, o.fwd spot T i * o.cov i j * o.fwd spot T j * o.weight j = _
    refine Finset.sum_congr rfl fun i _ => ?_
    rw [Finset.mul_sum]
    exact Finset.sum_congr rfl fun j _ => by ring
  have hex := Basket.norm_basket_exact (normModel o (o.fwd spot T)) hgv (K := K) (spot := o.fwd spot T) hcp hT (by rw [hq]; exact hv)
  rw [← hex] at g3
  refine ⟨fun ω => X ω - (Y ω - NormBasket.price (normModel o (o.fwd spot T)) K (o.fwd spot T) T cp), fun ω => ?_, (cv_integral h2 g2 _).1, ?_⟩
  · have := h1 ω
    unfold price at this ⊢
    rw [if_neg hn0] at this ⊢
    simp only at this ⊢
    rw [this, g1 ω]
    rfl
  · rw [(cv_integral h2 g2 _).2, h3, g3]
    ring

/-! ### Facts about every outcome -/

lemma mcPrice_parity {df K c p b : ℝ} {B : List ℝ} (hb : npMean B = some b) (hc : mcPrice df K 1 B = some c) (hp : mcPrice df K (-1) B = some p) :
    Spec.Parity c p df b K := by
  unfold npMean at hb
  unfold mcPrice npMean at hc hp
  by_cases hB : B = []
  · simp [hB] at hb
  · rw [if_neg hB] at hb
    rw [if_neg (by simpa using hB)] at hc hp
    obtain rfl := Option.some.inj hb
    obtain rfl := Option.some.inj hc
    obtain rfl := Option.some.inj hp
    have hl : (B.length : ℝ) ≠ 0 := by
      have := List.length_pos_of_ne_nil hB
      positivity
    have key : ∀ l : List ℝ, (l.map fun b => max (1 * (b - K)) 0).sum - (l.map fun b => max (-1 * (b - K)) 0).sum = l.sum - l.length * K := by
      intro l
      induction l with
      | nil => simp
      | cons a l ih =>
        simp only [List.map_cons, List.sum_cons, List.length_cons]
        have : max (1 * (a - K)) 0 - max (-1 * (a - K)) 0 = a - K := by
          rcases le_total a K with h | h
          · rw [max_eq_right (by linarith), max_eq_left (by linarith)]; ring
          · rw [max_eq_left (by linarith), max_eq_right (by linarith)]; ring
        push_cast
        linarith
    unfold Spec.Parity
    rw [List.length_map, List.length_map, ← mul_sub, ← sub_div, key B]
    field_simp

/-- **C60** (parity on every outcome).  Call minus put on the same draws is the discount factor times (average simulated basket minus strike). -/
theorem mc_parity {T K c p b : ℝ} {spot : Fin n → ℝ} {nPath pos : ℕ} {anti : Bool} {ω : ℕ → ℝ}
    (hb : npMean ((zRows o nPath anti ω pos T).map (bsmBasket o (o.fwd spot T) T)) = some b)
    (hc : (price o nPath anti ω pos K spot T 1 .none).1 = some c) (hp : (price o nPath anti ω pos K spot T (-1) .none).1 = some p) :
    Spec.Parity c p (Spec.discount o.intr T) b K := by
  unfold price at hc hp
  by_cases h0 : nPath = 0
  · rw [if_pos h0] at hc; simp at hc
  · rw [if_neg h0] at hc hp
    rw [← Basket.df_eq]
    exact mcPrice_parity hb hc hp

/-- **C60** (antithetic Bachelier paths).  The two halves cancel, so `NormBasketMc` with antithetic paths satisfies put-call parity exactly on every
outcome, not only on average. -/
theorem norm_mc_antithetic_parity {T K c p : ℝ} {spot : Fin n → ℝ} {nPath pos : ℕ} {ω : ℕ → ℝ}
    (hc : (normPrice o nPath true ω pos K spot T 1).1 = some c) (hp : (normPrice o nPath true ω pos K spot T (-1)).1 = some p) :
    Spec.Parity c p (Spec.discount o.intr T) (∑ i, o.weight i * Spec.forwards o.isFwd o.intr o.divr spot T i) K := by
  unfold normPrice at hc hp
  by_cases h0 : nPath = 0
  · rw [if_pos h0] at hc; simp at hc
  rw [if_neg h0] at hc hp
  by_cases h1 : nGen nPath true = 0
  · have : zRows o nPath true ω pos T = [] := List.eq_nil_of_length_eq_zero (by rw [length_zRows, h1, zero_mul])
    simp [this, mcPrice, npMean] at hc
  rw [← Basket.df_eq]
  refine mcPrice_parity ?_ hc hp
  unfold npMean
  have hl : (zRows o nPath true ω pos T).length = nGen nPath true * 2 := by rw [length_zRows]; simp
  rw [if_neg, sum_zRows, List.length_map, hl]
  · congr 1
    have e : ∀ q, normBasket o (o.fwd spot T) (fun i => 1 * ((o.chol *ᵥ draw ω pos q) i * √T)) +
        (if true = true then normBasket o (o.fwd spot T) (fun i => -1 * ((o.chol *ᵥ draw ω pos q) i * √T)) else 0) =
        2 * ∑ i, o.weight i * Spec.forwards o.isFwd o.intr o.divr spot T i := by
      intro q
      rw [if_pos rfl, normBasket_eq, normBasket_eq, ← Finset.sum_add_distrib, Finset.mul_sum, Basket.fwd_eq]
      exact Finset.sum_congr rfl fun i _ => by ring
    rw [Finset.sum_congr rfl fun q _ => e q, Finset.sum_const, Finset.card_range, nsmul_eq_mul]
    have : (nGen nPath true : ℝ) ≠ 0 := by exact_mod_cast h1
    push_cast
    field_simp
  · intro h
    have := congrArg List.length h
    rw [List.length_map, hl] at this
    simp at this
    exact h1 this

/-- **C60** (the control shares the draws).  For a basket consisting of one asset the geometric control replicates the payoff path by path, so the
controlled price is the exact Black-Scholes price on *every* outcome, for any number of paths. -/
theorem mc_geo_cv_exact (ho : o.Valid) {T K cp : ℝ} {spot : Fin n → ℝ} {nPath pos : ℕ} {anti : Bool} (hn : 0 < nGen nPath anti) (ω : ℕ → ℝ)
    {k : Fin n} (hw : o.weight = Pi.single k 1) (hs : 0 ≤ o.sigma k) :
    (price o nPath anti ω pos K spot T cp .geo).1 =
      some (Bsm.price ⟨o.sigma k, o.intr, o.divr, o.isFwd⟩ K (spot k) T cp) := by
  have hn0 : nPath ≠ 0 := by rintro rfl; cases anti <;> simp [nGen] at hn
  have hvol : o.weight ⬝ᵥ o.cov *ᵥ o.weight = o.sigma k ^ 2 := by
    rw [hw, single_one_dotProduct]
    simp [ho.diag]
  have hB : ∀ z, bsmBasket o (o.fwd spot T) T z = geoBasket (geoModel o) ((geoModel o).fwd (o.fwd spot T) T) T z := by
    intro z
    have hf : (geoModel o).fwd (o.fwd spot T) T = o.fwd spot T := by
      rw [Basket.fwd_eq]; exact forwards_true _ _ _ _
    rw [hf, geoBasket_eq (geoModel o) ⟨ho.diag, ho.chol⟩]
    show _ = (∑ i, o.weight i * o.fwd spot T i) * exp (o.weight ⬝ᵥ z - o.weight ⬝ᵥ o.cov *ᵥ o.weight * T / 2)
    rw [hvol, hw, single_one_dotProduct]
    unfold bsmBasket
    rw [hw, Finset.sum_eq_single k, Finset.sum_eq_single k]
    · simp only [Pi.single_eq_same, mul_one, one_mul]
      congr 2
      norm_num; ring
    · intro i _ hi; rw [Pi.single_eq_of_ne hi, zero_mul]
    · simp
    · intro i _ hi; rw [Pi.single_eq_of_ne hi, mul_zero]
    · simp
  have hnil : ((zRows o nPath anti ω pos T).map (bsmBasket o (o.fwd spot T) T)) ≠ [] := by
    intro h
    have := congrArg List.length h
    rw [List.length_map, length_zRows] at this
    cases anti <;> simp at this <;> omega
  have hz : zRows (geoModel o) nPath anti ω pos T = zRows o nPath anti ω pos T := rfl
  have hmc : ∃ x, mcPrice (o.mp.df T) K cp ((zRows o nPath anti ω pos T).map (bsmBasket o (o.fwd spot T) T)) = some x := by
    unfold mcPrice npMean
    rw [if_neg (by simpa using hnil)]
    exact ⟨_, rfl⟩
  obtain ⟨x, hx⟩ := hmc
  have hg : (geoPrice (geoModel o) nPath anti ω pos K (o.fwd spot T) T cp).1 = some x := by
    unfold geoPrice
    rw [if_neg hn0, hz]
    simp only
    rw [← funext hB]
    exact hx
  have hgeo : GeoApprox.price (geoModel o) K (o.fwd spot T) T cp = Bsm.price ⟨o.sigma k, o.intr, o.divr, o.isFwd⟩ K (spot k) T cp := by
    unfold GeoApprox.price
    have h1 : (geoModel o).fwd (o.fwd spot T) T ⬝ᵥ (geoModel o).weight = o.fwd spot T k := by
      have : (geoModel o).fwd (o.fwd spot T) T = o.fwd spot T := by rw [Basket.fwd_eq]; exact forwards_true _ _ _ _
      rw [this]
      show o.fwd spot T ⬝ᵥ o.weight = _
      rw [hw, dotProduct_single_one]
    have h2 : √((geoModel o).weight ⬝ᵥ (geoModel o).cov *ᵥ (geoModel o).weight) = o.sigma k := by
      show √(o.weight ⬝ᵥ o.cov *ᵥ o.weight) = _
      rw [hvol, sqrt_sq hs]
    rw [h1, h2, SpreadOpt.priceFormula_black, Bsm.price_eq_black]
    rfl
  unfold price
  rw [if_neg hn0]
  simp only
  rw [hx, hg, hgeo]
  simp

/-- A two-asset model with correlation 0.6, positive carry and antithetic paths meets every hypothesis above, for all three control variates. -/
noncomputable def mcEx : Ma 2 where
  sigma := ![1, 1]
  cov := !![1, 3 / 5; 3 / 5, 1]
  chol := !![1, 0; 3 / 5, 4 / 5]
  weight := ![1 / 2, 1 / 2]
  intr := 0.05
  divr := 0.02
  isFwd := false

lemma mcEx_valid : mcEx.Valid := by
  refine ⟨fun i => by fin_cases i <;> simp [mcEx], ?_⟩
  ext i j
  fin_cases i <;> fin_cases j <;> simp [mcEx, Matrix.mul_apply, Fin.sum_univ_two] <;> norm_num

example : mcEx.Valid ∧ 0 < nGen 10 true ∧ 0 < ∑ i, mcEx.weight i * Spec.forwards mcEx.isFwd mcEx.intr mcEx.divr ![100, 100] 1 i ∧
    eps ≤ √(mcEx.weight ⬝ᵥ mcEx.cov *ᵥ mcEx.weight) * √1 := by
  refine ⟨mcEx_valid, by decide, ?_, ?_⟩
  · simp only [Fin.sum_univ_two, mcEx, Spec.forwards, Spec.forward]
    simp only [Bool.false_eq_true, if_false]
    have := exp_pos (((0.05:ℝ) - 0.02) * 1)
    simp
    positivity
  · have h : mcEx.weight ⬝ᵥ mcEx.cov *ᵥ mcEx.weight = 4 / 5 := by
      simp [mcEx, dotProduct, mulVec, Fin.sum_univ_two]; norm_num
    rw [h, sqrt_one, mul_one]
    exact le_sqrt_of_sq_le (by have := eps_lt; have := eps_pos; nlinarith)

end BasketMc

end PyFENG
