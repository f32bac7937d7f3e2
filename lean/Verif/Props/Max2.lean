import Verif.Props.Spread

/-!
# Option on the maximum of two assets (C91)
-/

namespace PyFENG

open MeasureTheory ProbabilityTheory Matrix Real

/-- Specification: value of the European option on the better of two assets in the two-asset Black-Scholes model. -/
noncomputable def Spec.maxPrice (F1 F2 v1 v2 rho T df K cp : ℝ) : ℝ :=
  df * ∫ z, Spec.payoff cp K (max (Spec.gbmVec ![F1, F2] (Spec.cov2 v1 v2 rho T) z 0) (Spec.gbmVec ![F1, F2] (Spec.cov2 v1 v2 rho T) z 1))
    ∂(Spec.mvn (Spec.cov2 v1 v2 rho T))

namespace Max2

set_option linter.unusedSectionVars false

variable {ι : Type*} [Fintype ι] [DecidableEq ι]

lemma gbm_le_const {F : ι → ℝ} {S : Matrix ι ι ℝ} {z : ι → ℝ} {i : ι} (hF : 0 < F i) {K : ℝ} (hK : 0 < K) :
    Spec.gbmVec F S z i ≤ K ↔ z i ≤ log K - log (F i) + S i i / 2 := by
  unfold Spec.gbmVec
  rw [← log_le_log_iff (mul_pos hF (exp_pos _)) hK, log_mul hF.ne' (exp_pos _).ne', log_exp]
  constructor <;> intro h <;> linarith

lemma gbm_le_gbm {F : ι → ℝ} {S : Matrix ι ι ℝ} {z : ι → ℝ} {i j : ι} (hi : 0 < F i) (hj : 0 < F j) :
    Spec.gbmVec F S z j ≤ Spec.gbmVec F S z i ↔ z j - z i ≤ log (F i / F j) - S i i / 2 + S j j / 2 := by
  unfold Spec.gbmVec
  rw [← log_le_log_iff (mul_pos hj (exp_pos _)) (mul_pos hi (exp_pos _)), log_mul hj.ne' (exp_pos _).ne', log_exp,
    log_mul hi.ne' (exp_pos _).ne', log_exp, log_div hi.ne' hj.ne']
  constructor <;> intro h <;> linarith

/-- Asset `i` delivered when it is the best and above the strike. -/
lemma best_leg {S : Matrix ι ι ℝ} (hS : S.PosSemidef) {F : ι → ℝ} {i j : ι} (hi : 0 < F i) (hj : 0 < F j) {K : ℝ} (hK : 0 < K)
    (hv : 0 < S i i) (hq : 0 < S i i - 2 * S i j + S j j) :
    ∫ z, Spec.gbmVec F S z i * (if Spec.gbmVec F S z j ≤ Spec.gbmVec F S z i ∧ ¬ Spec.gbmVec F S z i ≤ K then 1 else 0) ∂(Spec.mvn S) =
      F i * (ncdf ((log (F i / F j) + (S i i - 2 * S i j + S j j) / 2) / √(S i i - 2 * S i j + S j j)) -
        binormCdf ((log K - log (F i) - S i i / 2) / √(S i i)) ((log (F i / F j) + (S i i - 2 * S i j + S j j) / 2) / √(S i i - 2 * S i j + S j j))
          ((S i j - S i i) / (√(S i i) * √(S i i - 2 * S i j + S j j)))) := by
  have hsym : ∀ k l, S k l = S l k := fun k l => by
    have := hS.1.apply k l; simpa using this.symm
  set b : ι → ℝ := Pi.single j 1 - Pi.single i 1 with hb
  have hqb : b ⬝ᵥ S *ᵥ b = S i i - 2 * S i j + S j j := by
    rw [hb, sub_dotProduct, Matrix.mulVec_sub, dotProduct_sub, dotProduct_sub, MultiLogn.quad_single, MultiLogn.quad_single, MultiLogn.quad_single,
      MultiLogn.quad_single, hsym j i]
    ring
  have hqa : (Pi.single i 1 : ι → ℝ) ⬝ᵥ S *ᵥ Pi.single i 1 = S i i := MultiLogn.quad_single S i i
  have hab : (Pi.single i 1 : ι → ℝ) ⬝ᵥ S *ᵥ b = S i j - S i i := by
    rw [hb, Matrix.mulVec_sub, dotProduct_sub, MultiLogn.quad_single, MultiLogn.quad_single]
  set y := (log (F i / F j) + (S i i - 2 * S i j + S j j) / 2) / √(S i i - 2 * S i j + S j j) with hy
  set x := (log K - log (F i) - S i i / 2) / √(S i i) with hx
  have hm1 : MeasurableSet {z : ι → ℝ | Spec.gbmVec F S z j ≤ Spec.gbmVec F S z i} :=
    measurableSet_le (MultiLogn.measurable_gbmVec F S j) (MultiLogn.measurable_gbmVec F S i)
  have hm2 : MeasurableSet {z : ι → ℝ | Spec.gbmVec F S z i ≤ K} := measurableSet_le (MultiLogn.measurable_gbmVec F S i) measurable_const
  have hms : MeasurableSet {z : ι → ℝ | Spec.gbmVec F S z j ≤ Spec.gbmVec F S z i ∧ ¬ Spec.gbmVec F S z i ≤ K} := hm1.inter hm2.compl
  rw [MultiLogn.tilt_single hS F i (f := fun z => if Spec.gbmVec F S z j ≤ Spec.gbmVec F S z i ∧ ¬ Spec.gbmVec F S z i ≤ K then 1 else 0)
    (Measurable.ite hms measurable_const measurable_const)]
  congr 1
  have hsq : 0 < √(S i i - 2 * S i j + S j j) := sqrt_pos.2 hq
  have hsv : 0 < √(S i i) := sqrt_pos.2 hv
  have e1 : ∀ z : ι → ℝ, (Spec.gbmVec F S (z + fun k => S k i) j ≤ Spec.gbmVec F S (z + fun k => S k i) i) ↔ b ⬝ᵥ z ≤ √(b ⬝ᵥ S *ᵥ b) * y := by
    intro z
    rw [gbm_le_gbm hi hj, hqb, hy, mul_div_cancel₀ _ hsq.ne']
    have : b ⬝ᵥ z = z j - z i := by rw [hb, sub_dotProduct, single_one_dotProduct, single_one_dotProduct]
    rw [this]
    simp only [Pi.add_apply]
    rw [hsym j i]
    constructor <;> intro h <;> linarith
  have e2 : ∀ z : ι → ℝ, (Spec.gbmVec F S (z + fun k => S k i) i ≤ K) ↔
      (Pi.single i 1 : ι → ℝ) ⬝ᵥ z ≤ √((Pi.single i 1 : ι → ℝ) ⬝ᵥ S *ᵥ Pi.single i 1) * x := by
    intro z
    rw [gbm_le_const hi hK, hqa, hx, mul_div_cancel₀ _ hsv.ne', single_one_dotProduct]
    simp only [Pi.add_apply]
    constructor <;> intro h <;> linarith
  have hA : MeasurableSet {z : ι → ℝ | b ⬝ᵥ z ≤ √(b ⬝ᵥ S *ᵥ b) * y} := measurableSet_le (MvGauss.measurable_dot b) measurable_const
  have hB : MeasurableSet {z : ι → ℝ | (Pi.single i 1 : ι → ℝ) ⬝ᵥ z ≤ √((Pi.single i 1 : ι → ℝ) ⬝ᵥ S *ᵥ Pi.single i 1) * x} :=
    measurableSet_le (MvGauss.measurable_dot _) measurable_const
  have hab2 := MultiLogn.halfspace2 hS (Pi.single i 1) b x y (by rw [hqa]; exact hv) (by rw [hqb]; exact hq)
  have hP1 : (Spec.mvn S).real {z : ι → ℝ | b ⬝ᵥ z ≤ √(b ⬝ᵥ S *ᵥ b) * y} = ncdf y := by
    have h := MultiLogn.halfspace hS b (cp := -1) (-(√(b ⬝ᵥ S *ᵥ b) * y)) (Or.inr rfl) (by rw [hqb]; exact hq)
    have e : (fun z : ι → ℝ => if 0 ≤ -1 * (b ⬝ᵥ z + -(√(b ⬝ᵥ S *ᵥ b) * y)) then (1:ℝ) else 0) =
        {z : ι → ℝ | b ⬝ᵥ z ≤ √(b ⬝ᵥ S *ᵥ b) * y}.indicator 1 := by
      ext z
      simp only [Set.indicator_apply, Set.mem_ofPred_eq, Pi.one_apply]
      congr 1
      rw [eq_iff_iff]
      constructor <;> intro h <;> linarith
    rw [e, integral_indicator_one hA] at h
    rw [h]
    congr 1
    rw [hqb]
    field_simp
  have e3 : (fun z : ι → ℝ => if Spec.gbmVec F S (z + fun k => S k i) j ≤ Spec.gbmVec F S (z + fun k => S k i) i ∧
        ¬ Spec.gbmVec F S (z + fun k => S k i) i ≤ K then (1:ℝ) else 0) =
      ({z : ι → ℝ | b ⬝ᵥ z ≤ √(b ⬝ᵥ S *ᵥ b) * y} \ {z : ι → ℝ | (Pi.single i 1 : ι → ℝ) ⬝ᵥ z ≤ √((Pi.single i 1 : ι → ℝ) ⬝ᵥ S *ᵥ Pi.single i 1) * x ∧
        b ⬝ᵥ z ≤ √(b ⬝ᵥ S *ᵥ b) * y}).indicator 1 := by
    ext z
    simp only [e1, e2, Set.indicator_apply, Set.mem_sdiff, Set.mem_ofPred_eq, Pi.one_apply, not_and]
    congr 1
    rw [eq_iff_iff]
    tauto
  have hAB : MeasurableSet {z : ι → ℝ | (Pi.single i 1 : ι → ℝ) ⬝ᵥ z ≤ √((Pi.single i 1 : ι → ℝ) ⬝ᵥ S *ᵥ Pi.single i 1) * x ∧
        b ⬝ᵥ z ≤ √(b ⬝ᵥ S *ᵥ b) * y} := hB.inter hA
  rw [e3, integral_indicator_one (hA.diff hAB), measureReal_sdiff (s₁ := {z : ι → ℝ | b ⬝ᵥ z ≤ √(b ⬝ᵥ S *ᵥ b) * y}) (fun z hz => hz.2) hAB, hP1, hab2, hqa, hqb, hab]
  rfl

lemma max_decomp (a b K : ℝ) (h : a ≠ b) :
    max (max a b) K = a * (if b ≤ a ∧ ¬ a ≤ K then 1 else 0) + b * (if a ≤ b ∧ ¬ b ≤ K then 1 else 0) + K * (if a ≤ K ∧ b ≤ K then 1 else 0) := by
  rcases lt_or_gt_of_ne h with h' | h'
  · have h1 : ¬ b ≤ a := not_le.2 h'
    rw [max_eq_right h'.le]
    by_cases hb : b ≤ K
    · simp [h1, hb, h'.le.trans hb]
    · simp [h1, hb, h'.le, max_eq_left (not_le.1 hb).le]
  · have h1 : ¬ a ≤ b := not_le.2 h'
    rw [max_eq_left h'.le]
    by_cases ha : a ≤ K
    · simp [h1, ha, h'.le.trans ha]
    · simp [h1, ha, h'.le, max_eq_left (not_le.1 ha).le]

lemma integrable_mul_ite {Ω : Type*} [MeasurableSpace Ω] {μ : Measure Ω} {Z : Ω → ℝ} (hZ : Integrable Z μ) {p : Ω → Prop} [DecidablePred p]
    (hp : MeasurableSet {ω | p ω}) : Integrable (fun ω => Z ω * (if p ω then 1 else 0)) μ := by
  refine (hZ.indicator hp).congr (ae_of_all _ fun ω => ?_)
  by_cases h : p ω <;> simp [h]

/-- `E[max(S_i, S_j, K)]`. -/
lemma integral_max3 {S : Matrix ι ι ℝ} (hS : S.PosSemidef) {F : ι → ℝ} {i j : ι} (hi : 0 < F i) (hj : 0 < F j) {K : ℝ} (hK : 0 < K)
    (hvi : 0 < S i i) (hvj : 0 < S j j) (hq : 0 < S i i - 2 * S i j + S j j) :
    ∫ z, max (max (Spec.gbmVec F S z i) (Spec.gbmVec F S z j)) K ∂(Spec.mvn S) =
      F i * (ncdf ((log (F i / F j) + (S i i - 2 * S i j + S j j) / 2) / √(S i i - 2 * S i j + S j j)) -
        binormCdf ((log K - log (F i) - S i i / 2) / √(S i i)) ((log (F i / F j) + (S i i - 2 * S i j + S j j) / 2) / √(S i i - 2 * S i j + S j j))
          ((S i j - S i i) / (√(S i i) * √(S i i - 2 * S i j + S j j)))) +
      F j * (ncdf ((log (F j / F i) + (S i i - 2 * S i j + S j j) / 2) / √(S i i - 2 * S i j + S j j)) -
        binormCdf ((log K - log (F j) - S j j / 2) / √(S j j)) ((log (F j / F i) + (S i i - 2 * S i j + S j j) / 2) / √(S i i - 2 * S i j + S j j))
          ((S i j - S j j) / (√(S j j) * √(S i i - 2 * S i j + S j j)))) +
      K * binormCdf ((log K - log (F i) + S i i / 2) / √(S i i)) ((log K - log (F j) + S j j / 2) / √(S j j)) (S i j / (√(S i i) * √(S j j))) := by
  have hsym : S j i = S i j := by
    have := hS.1.apply i j; simpa using this
  have hb1 := best_leg hS hi hj hK hvi hq
  have hq' : S j j - 2 * S j i + S i i = S i i - 2 * S i j + S j j := by rw [hsym]; ring
  have hb2 := best_leg hS hj hi hK hvj (by rw [hq']; exact hq)
  rw [hq', hsym] at hb2
  rw [← hb1, ← hb2]
  have hm1 : MeasurableSet {z : ι → ℝ | Spec.gbmVec F S z j ≤ Spec.gbmVec F S z i} :=
    measurableSet_le (MultiLogn.measurable_gbmVec F S j) (MultiLogn.measurable_gbmVec F S i)
  have hm1' : MeasurableSet {z : ι → ℝ | Spec.gbmVec F S z i ≤ Spec.gbmVec F S z j} :=
    measurableSet_le (MultiLogn.measurable_gbmVec F S i) (MultiLogn.measurable_gbmVec F S j)
  have hm2 : ∀ k, MeasurableSet {z : ι → ℝ | Spec.gbmVec F S z k ≤ K} := fun k => measurableSet_le (MultiLogn.measurable_gbmVec F S k) measurable_const
  have hI1 := integrable_mul_ite (MultiLogn.integrable_gbmVec hS F i) (p := fun z => Spec.gbmVec F S z j ≤ Spec.gbmVec F S z i ∧ ¬ Spec.gbmVec F S z i ≤ K)
    (hm1.inter (hm2 i).compl)
  have hI2 := integrable_mul_ite (MultiLogn.integrable_gbmVec hS F j) (p := fun z => Spec.gbmVec F S z i ≤ Spec.gbmVec F S z j ∧ ¬ Spec.gbmVec F S z j ≤ K)
    (hm1'.inter (hm2 j).compl)
  have hms3 : MeasurableSet {z : ι → ℝ | Spec.gbmVec F S z i ≤ K ∧ Spec.gbmVec F S z j ≤ K} := (hm2 i).inter (hm2 j)
  have hI3 := integrable_mul_ite (μ := Spec.mvn S) (integrable_const K) hms3
  have h3 : ∫ z, K * (if Spec.gbmVec F S z i ≤ K ∧ Spec.gbmVec F S z j ≤ K then 1 else 0) ∂(Spec.mvn S) =
      K * binormCdf ((log K - log (F i) + S i i / 2) / √(S i i)) ((log K - log (F j) + S j j / 2) / √(S j j)) (S i j / (√(S i i) * √(S j j))) := by
    rw [integral_const_mul]
    congr 1
    rw [show (fun z : ι → ℝ => if Spec.gbmVec F S z i ≤ K ∧ Spec.gbmVec F S z j ≤ K then (1:ℝ) else 0) =
      {z : ι → ℝ | Spec.gbmVec F S z i ≤ K ∧ Spec.gbmVec F S z j ≤ K}.indicator 1 from by ext z; simp [Set.indicator_apply],
      integral_indicator_one hms3]
    have h2 := MultiLogn.halfspace2 hS (Pi.single i 1) (Pi.single j 1) ((log K - log (F i) + S i i / 2) / √(S i i))
      ((log K - log (F j) + S j j / 2) / √(S j j)) (by rw [MultiLogn.quad_single]; exact hvi) (by rw [MultiLogn.quad_single]; exact hvj)
    rw [MultiLogn.quad_single, MultiLogn.quad_single, MultiLogn.quad_single] at h2
    simp only [mul_div_cancel₀ _ (sqrt_pos.2 hvi).ne', mul_div_cancel₀ _ (sqrt_pos.2 hvj).ne', single_one_dotProduct] at h2
    unfold binormCdf
    rw [← h2]
    congr 1
    ext z
    simp only [Set.mem_ofPred_eq]
    rw [gbm_le_const hi hK, gbm_le_const hj hK]
  rw [← h3, ← integral_add hI1 hI2, ← integral_add (f := fun z => Spec.gbmVec F S z i *
      (if Spec.gbmVec F S z j ≤ Spec.gbmVec F S z i ∧ ¬ Spec.gbmVec F S z i ≤ K then 1 else 0) + Spec.gbmVec F S z j *
      (if Spec.gbmVec F S z i ≤ Spec.gbmVec F S z j ∧ ¬ Spec.gbmVec F S z j ≤ K then 1 else 0)) (hI1.add hI2) hI3]
  set b : ι → ℝ := Pi.single j 1 - Pi.single i 1 with hb
  have hqb : b ⬝ᵥ S *ᵥ b = S i i - 2 * S i j + S j j := by
    rw [hb, sub_dotProduct, Matrix.mulVec_sub, dotProduct_sub, dotProduct_sub, MultiLogn.quad_single, MultiLogn.quad_single, MultiLogn.quad_single,
      MultiLogn.quad_single, hsym]
    ring
  have hne := MultiLogn.hyperplane_null hS b (log (F i / F j) - S i i / 2 + S j j / 2) (by rw [hqb]; exact hq)
  refine integral_congr_ae ?_
  filter_upwards [hne] with z hz
  apply max_decomp
  intro heq
  apply hz
  have hbz : b ⬝ᵥ z = z j - z i := by rw [hb, sub_dotProduct, single_one_dotProduct, single_one_dotProduct]
  rw [hbz]
  have hle := (gbm_le_gbm (S := S) (z := z) hi hj).1 heq.ge
  have hge := (gbm_le_gbm (S := S) (z := z) hj hi).1 heq.le
  rw [log_div hj.ne' hi.ne'] at hge
  rw [log_div hi.ne' hj.ne'] at hle ⊢
  linarith

lemma payoff_call_max (K m : ℝ) : Spec.payoff 1 K m = max m K - K := by
  unfold Spec.payoff
  rw [one_mul, ← max_sub_sub_right, sub_self]

lemma payoff_put_max (K m : ℝ) : Spec.payoff (-1) K m = max m K - m := by
  unfold Spec.payoff
  rw [← max_sub_sub_right, sub_self, max_comm]
  ring_nf

lemma max_eq_exchange (a b : ℝ) : max a b = Spec.payoff 1 b a + b := by
  unfold Spec.payoff
  rw [one_mul, ← max_add_add_right]
  ring_nf

lemma sqrt_sq_mul {s T : ℝ} (hs : 0 ≤ s) : √(s ^ 2 * T) = s * √T := by
  rw [sqrt_mul (sq_nonneg s), sqrt_sq hs]

/-- **C91.** `BsmMax2.price` never raises its "lower bound violated" error and returns exactly the discounted expected payoff on
the better of two correlated lognormal assets, for calls and puts, all positive strikes, spots, volatilities and maturities, and every
correlation for which the two assets are not perfectly dependent with equal volatility. -/
theorem max2_price_exact (o : Spread) {K S1 S2 T cp : ℝ} (hcp : Spec.IsCp cp) (hr : |o.rho| ≤ 1) (hT : 0 < T) (hK : 0 < K)
    (h1 : 0 < Spec.forward o.isFwd o.intr o.divr S1 T) (h2 : 0 < Spec.forward o.isFwd o.intr o.divr S2 T) (hs1 : 0 < o.sig1) (hs2 : 0 < o.sig2)
    (hv : eps ≤ √(o.sig1 ^ 2 - 2 * o.rho * o.sig1 * o.sig2 + o.sig2 ^ 2) * √T) :
    BsmMax2.price o K S1 S2 T cp = some (Spec.maxPrice (Spec.forward o.isFwd o.intr o.divr S1 T)
      (Spec.forward o.isFwd o.intr o.divr S2 T) o.sig1 o.sig2 o.rho T (Spec.discount o.intr T) K cp) := by
  have hS := SpreadOpt.posSemidef_cov2 (v1 := o.sig1) (v2 := o.sig2) hr hT.le
  have hkirk := SpreadOpt.kirk_zero_strike_exact ⟨o.sig1, o.sig2, o.rho, 0, 0, true⟩ (S1 := Spec.forward o.isFwd o.intr o.divr S1 T)
    (S2 := Spec.forward o.isFwd o.intr o.divr S2 T) (T := T) (cp := 1) (Or.inl rfl) hr hT.le (by simpa [Spec.forward] using h1)
    (by simpa [Spec.forward] using h2) hv
  have hff : ∀ x : ℝ, Spec.forward true 0 0 x T = x := fun x => by simp [Spec.forward]
  have hd0 : Spec.discount 0 T = 1 := by simp [Spec.discount]
  simp only [hff, hd0] at hkirk
  set F1 := Spec.forward o.isFwd o.intr o.divr S1 T with hF1
  set F2 := Spec.forward o.isFwd o.intr o.divr S2 T with hF2
  set S := Spec.cov2 o.sig1 o.sig2 o.rho T with hSdef
  have e00 : S 0 0 = o.sig1 ^ 2 * T := rfl
  have e01 : S 0 1 = o.rho * o.sig1 * o.sig2 * T := rfl
  have e11 : S 1 1 = o.sig2 ^ 2 * T := rfl
  have hsT : 0 < √T := sqrt_pos.2 hT
  have hq0 : 0 < o.sig1 ^ 2 - 2 * o.rho * o.sig1 * o.sig2 + o.sig2 ^ 2 := by
    by_contra h
    rw [sqrt_eq_zero_of_nonpos (not_lt.1 h), zero_mul] at hv
    exact absurd hv (not_le.2 eps_pos)
  have hq : S 0 0 - 2 * S 0 1 + S 1 1 = (o.sig1 ^ 2 - 2 * o.rho * o.sig1 * o.sig2 + o.sig2 ^ 2) * T := by
    rw [e00, e01, e11]; ring
  have hmax := integral_max3 hS (F := ![F1, F2]) (i := 0) (j := 1) h1 h2 hK (by rw [e00]; positivity) (by rw [e11]; positivity)
    (by rw [hq]; positivity)
  set W := o.sig1 ^ 2 - 2 * o.rho * o.sig1 * o.sig2 + o.sig2 ^ 2 with hW
  set w := √W with hw
  have hwp : 0 < w := sqrt_pos.2 hq0
  have hw2 : w ^ 2 = W := sq_sqrt hq0.le
  rw [hq, sqrt_mul hq0.le, ← hw, e00, e11, e01, sqrt_sq_mul hs1.le, sqrt_sq_mul hs2.le] at hmax
  simp only [cons_val_zero, cons_val_one, cons_val_fin_one] at hmax
  have hTT : √T ^ 2 = T := sq_sqrt hT.le
  set r := √T with hr'
  have hWr : W * T = (w * r) ^ 2 := by rw [mul_pow, hw2, hTT]
  -- the three terms of the code
  have hx1 : -log F1 / (o.sig1 * r) - 0.5 * (o.sig1 * r) + log K / (o.sig1 * r) = (log K - log F1 - o.sig1 ^ 2 * T / 2) / (o.sig1 * r) := by
    rw [← hTT]; field_simp; ring
  have hx2 : -log F2 / (o.sig2 * r) - 0.5 * (o.sig2 * r) + log K / (o.sig2 * r) = (log K - log F2 - o.sig2 ^ 2 * T / 2) / (o.sig2 * r) := by
    rw [← hTT]; field_simp; ring
  have hx1' : (log K - log F1 - o.sig1 ^ 2 * T / 2) / (o.sig1 * r) + o.sig1 * r = (log K - log F1 + o.sig1 ^ 2 * T / 2) / (o.sig1 * r) := by
    rw [← hTT]; field_simp; ring
  have hx2' : (log K - log F2 - o.sig2 ^ 2 * T / 2) / (o.sig2 * r) + o.sig2 * r = (log K - log F2 + o.sig2 ^ 2 * T / 2) / (o.sig2 * r) := by
    rw [← hTT]; field_simp; ring
  have hy : ∀ L : ℝ, L / (w * r) + 0.5 * (w * r) = (L + W * T / 2) / (w * r) := by
    intro L; rw [hWr]; field_simp; ring
  have hr1 : (o.rho * o.sig2 - o.sig1) / w = (o.rho * o.sig1 * o.sig2 * T - o.sig1 ^ 2 * T) / (o.sig1 * r * (w * r)) := by
    rw [← hTT]; field_simp
  have hr2 : (o.rho * o.sig1 - o.sig2) / w = (o.rho * o.sig1 * o.sig2 * T - o.sig2 ^ 2 * T) / (o.sig2 * r * (w * r)) := by
    rw [← hTT]; field_simp
  have hr3 : o.rho * o.sig1 * o.sig2 * T / (o.sig1 * r * (o.sig2 * r)) = o.rho := by
    rw [← hTT]; field_simp
  have hww : √(o.sig1 * o.sig1 + o.sig2 * o.sig2 - 2 * o.rho * o.sig1 * o.sig2) = w := by
    rw [hw, hW]; congr 1; ring
  rw [hr3] at hmax
  have hinv : 1 / (F1 / F2) = F2 / F1 := by rw [one_div, inv_div]
  unfold BsmMax2.price
  simp only [SpreadOpt.mp_fwd, SpreadOpt.mp_df, ← hF1, ← hF2, hww, hx1, hx2, hx1', hx2', hy, hr1, hr2, hinv, ← hr']
  rw [← hmax, hkirk]
  have hM : Integrable (fun z => max (Spec.gbmVec ![F1, F2] S z 0) (Spec.gbmVec ![F1, F2] S z 1)) (Spec.mvn S) :=
    (MultiLogn.integrable_gbmVec hS _ 0).sup (MultiLogn.integrable_gbmVec hS _ 1)
  have hMK : Integrable (fun z => max (max (Spec.gbmVec ![F1, F2] S z 0) (Spec.gbmVec ![F1, F2] S z 1)) K) (Spec.mvn S) :=
    hM.sup (integrable_const K)
  have hlow : K ≤ ∫ z, max (max (Spec.gbmVec ![F1, F2] S z 0) (Spec.gbmVec ![F1, F2] S z 1)) K ∂(Spec.mvn S) := by
    calc K = ∫ _ : Fin 2 → ℝ, K ∂(Spec.mvn S) := by simp
      _ ≤ _ := integral_mono (integrable_const K) hMK fun z => le_max_right _ _
  rw [if_neg (not_lt.2 hlow)]
  congr 1
  unfold Spec.maxPrice
  rw [← hSdef]
  congr 1
  rcases hcp with rfl | rfl
  · rw [if_neg (by norm_num)]
    simp only [payoff_call_max]
    rw [integral_sub hMK (integrable_const K)]
    simp
  · rw [if_pos (by norm_num)]
    simp only [payoff_put_max]
    rw [integral_sub hMK hM]
    have hEM : ∫ z, max (Spec.gbmVec ![F1, F2] S z 0) (Spec.gbmVec ![F1, F2] S z 1) ∂(Spec.mvn S) =
        Spec.spreadPrice F1 F2 o.sig1 o.sig2 o.rho T 1 0 1 + F2 := by
      unfold Spec.spreadPrice
      rw [one_mul, ← hSdef]
      simp only [max_eq_exchange, SpreadOpt.payoff_sub]
      rw [integral_add ?_ (MultiLogn.integrable_gbmVec hS _ 1), MultiLogn.integral_gbmVec hS]
      · rfl
      · simpa [SpreadOpt.payoff_sub] using SpreadOpt.integrable_spread hS ![F1, F2] 1 0
    rw [hEM]
    ring

example : ∃ o : Spread, 0 < o.sig1 ∧ 0 < o.sig2 ∧ |o.rho| ≤ 1 ∧ o.rho ≠ 0 ∧ eps ≤ √(o.sig1 ^ 2 - 2 * o.rho * o.sig1 * o.sig2 + o.sig2 ^ 2) * √1 := by
  refine ⟨⟨0.2, 0.2, 0.5, 0.05, 0.1, false⟩, by norm_num, by norm_num, by norm_num [abs_le], by norm_num, ?_⟩
  have h := eps_lt
  have e : √((0.2 : ℝ) ^ 2 - 2 * 0.5 * 0.2 * 0.2 + 0.2 ^ 2) = 0.2 := by
    rw [show (0.2 : ℝ) ^ 2 - 2 * 0.5 * 0.2 * 0.2 + 0.2 ^ 2 = 0.2 ^ 2 by norm_num]
    exact sqrt_sq (by norm_num)
  simp only
  rw [e, sqrt_one]
  linarith

end Max2

end PyFENG
