import Verif.Model.MaBasket
import Verif.Props.Basket

/-!
# Exercising a basket option according to one normal factor
-/

set_option linter.unusedSectionVars false
set_option linter.style.haveILetI false

namespace PyFENG

open MeasureTheory ProbabilityTheory Matrix Real

/-- Exercise rule based on one number: calls are exercised above the boundary `x`, puts below (the boundary may be infinite). -/
def Spec.exercised (cp : ℝ) (x : EReal) (z : ℝ) : Prop := (cp = 1 ∧ x ≤ (z : EReal)) ∨ (cp = -1 ∧ (z : EReal) ≤ x)

namespace OneFactor

@[simp] lemma ncdfE_top : ncdfE ⊤ = 1 := by simp [ncdfE]
@[simp] lemma ncdfE_bot : ncdfE ⊥ = 0 := by simp [ncdfE]
@[simp] lemma ncdfE_coe (x : ℝ) : ncdfE (x : EReal) = ncdf x := by simp [ncdfE]

lemma ncdfE_neg (x : EReal) : ncdfE (-x) = 1 - ncdfE x := by
  induction x with
  | bot => simp
  | top => simp
  | coe r => rw [← EReal.coe_neg, ncdfE_coe, ncdfE_coe, ncdf_neg]

lemma ncdfE_nonneg (x : EReal) : 0 ≤ ncdfE x := by
  induction x with
  | bot => simp
  | top => simp
  | coe r => rw [ncdfE_coe]; exact ncdf_nonneg r

lemma one_ne_neg : ¬ ((1:ℝ) = -1) := by norm_num
lemma neg_ne_one : ¬ ((-1:ℝ) = 1) := by norm_num

lemma measurableSet_exercised (cp : ℝ) (x : EReal) {Ω : Type*} [MeasurableSpace Ω] {f : Ω → ℝ} (hf : Measurable f) :
    MeasurableSet {ω | Spec.exercised cp x (f ω)} := by
  have h1 : MeasurableSet {ω | x ≤ ((f ω : ℝ) : EReal)} := measurableSet_le measurable_const (by fun_prop)
  have h2 : MeasurableSet {ω | ((f ω : ℝ) : EReal) ≤ x} := measurableSet_le (by fun_prop) measurable_const
  exact ((MeasurableSet.const (cp = 1)).inter h1).union ((MeasurableSet.const (cp = -1)).inter h2)

open Classical in
lemma gaussE_exercise {cp : ℝ} (hcp : Spec.IsCp cp) (x : EReal) (a : ℝ) :
    Spec.gaussE (fun z => if Spec.exercised cp x (z + a) then 1 else 0) = ncdfE (-(cp : EReal) * x + ((cp * a : ℝ) : EReal)) := by
  have hone : Spec.gaussE (fun _ => (1:ℝ)) = 1 := by unfold Spec.gaussE; simp
  have hzero : Spec.gaussE (fun _ => (0:ℝ)) = 0 := by unfold Spec.gaussE; simp
  rcases hcp with rfl | rfl
  · induction x with
    | bot => simpa [Spec.exercised] using hone
    | top =>
      have e : -((1:ℝ) : EReal) * ⊤ + ((1 * a : ℝ) : EReal) = ⊥ := by
        simp
      rw [e, ncdfE_bot]
      refine Eq.trans ?_ hzero
      congr 1
      ext z
      rw [if_neg]
      rintro (⟨_, h⟩ | ⟨h, _⟩)
      · exact absurd h (not_le.2 (EReal.coe_lt_top _))
      · exact one_ne_neg h
    | coe r =>
      have e : -((1:ℝ) : EReal) * (r : EReal) + ((1 * a : ℝ) : EReal) = ((a - r : ℝ) : EReal) := by
        rw [← EReal.coe_neg, ← EReal.coe_mul, ← EReal.coe_add]; congr 1; ring
      rw [e, ncdfE_coe]
      have h := MultiLogn.gaussE_halfline (cp := 1) (c := a - r) (Or.inl rfl) one_pos
      rw [div_one, one_mul] at h
      rw [← h]
      congr 1
      ext z
      refine if_congr ?_ rfl rfl
      unfold Spec.exercised
      simp only [true_and, one_ne_neg, false_and, or_false, EReal.coe_le_coe_iff, one_mul]
      constructor <;> intro <;> linarith
  · induction x with
    | bot =>
      have e : -((-1:ℝ) : EReal) * ⊥ + ((-1 * a : ℝ) : EReal) = ⊥ := by
        simp
      rw [e, ncdfE_bot]
      refine Eq.trans ?_ hzero
      congr 1
      ext z
      rw [if_neg]
      rintro (⟨h, _⟩ | ⟨_, h⟩)
      · exact neg_ne_one h
      · exact absurd h (not_le.2 (EReal.bot_lt_coe _))
    | top =>
      have e : -((-1:ℝ) : EReal) * ⊤ + ((-1 * a : ℝ) : EReal) = ⊤ := by
        rw [← EReal.coe_neg, neg_neg, EReal.coe_one, one_mul, EReal.top_add_coe]
      rw [e, ncdfE_top]
      refine Eq.trans ?_ hone
      congr 1
      ext z
      rw [if_pos]
      exact Or.inr ⟨rfl, le_top⟩
    | coe r =>
      have e : -((-1:ℝ) : EReal) * (r : EReal) + ((-1 * a : ℝ) : EReal) = ((-1 * (a - r) : ℝ) : EReal) := by
        rw [← EReal.coe_neg, ← EReal.coe_mul, ← EReal.coe_add]; congr 1; ring
      rw [e, ncdfE_coe]
      have h := MultiLogn.gaussE_halfline (cp := -1) (c := a - r) (Or.inr rfl) one_pos
      rw [div_one] at h
      rw [← h]
      congr 1
      ext z
      refine if_congr ?_ rfl rfl
      unfold Spec.exercised
      simp only [true_and, neg_ne_one, false_and, false_or, EReal.coe_le_coe_iff, one_mul]
      constructor <;> intro <;> linarith

variable {ι κ : Type*} [Fintype ι] [DecidableEq ι] [Fintype κ] [DecidableEq κ]

lemma iid_eq_mvn : Spec.iid κ = Spec.mvn (1 : Matrix κ κ ℝ) := by
  have h := MvGauss.mvn_eq_map (1 : Matrix κ κ ℝ)
  rw [transpose_one, Matrix.mul_one] at h
  rw [h]
  simp

/-- A unit combination of independent normals is standard normal. -/
lemma integral_dot_iid {q : κ → ℝ} (hq : ∑ k, q k ^ 2 = 1) {f : ℝ → ℝ} (hf : Measurable f) :
    ∫ y, f (q ⬝ᵥ y) ∂(Spec.iid κ) = Spec.gaussE f := by
  rw [iid_eq_mvn, MvGauss.integral_dot_mvn Matrix.PosSemidef.one q hf, Matrix.one_mulVec]
  have : q ⬝ᵥ q = 1 := by rw [← hq]; simp [dotProduct, sq]
  rw [this, sqrt_one]
  simp

lemma gbmVec_factor (F : ι → ℝ) (A : Matrix ι κ ℝ) (y : κ → ℝ) (i : ι) :
    Spec.gbmVec F (A * Aᵀ) (A *ᵥ y) i = F i * exp (∑ k, (A i k * y k - A i k ^ 2 / 2)) := by
  unfold Spec.gbmVec
  congr 2
  rw [Finset.sum_sub_distrib, ← Finset.sum_div]
  congr 1
  simp [Matrix.mul_apply, sq]

lemma integrable_gbmVec_factor (F : ι → ℝ) (A : Matrix ι κ ℝ) (i : ι) :
    Integrable (fun y => Spec.gbmVec F (A * Aᵀ) (A *ᵥ y) i) (Spec.iid κ) := by
  have h := MvGauss.integrable_exp_lin_iid (fun k => A i k)
  refine (h.const_mul (F i * exp (-(∑ k, A i k ^ 2 / 2)))).congr (ae_of_all _ fun y => ?_)
  beta_reduce
  rw [gbmVec_factor, mul_assoc, ← exp_add, Finset.sum_sub_distrib]
  ring_nf

lemma measurable_gbmVec_factor (F : ι → ℝ) (A : Matrix ι κ ℝ) (i : ι) : Measurable (fun y => Spec.gbmVec F (A * Aᵀ) (A *ᵥ y) i) :=
  (MultiLogn.measurable_gbmVec F _ i).comp (by fun_prop)

lemma integrable_basket_factor (w F : ι → ℝ) (A : Matrix ι κ ℝ) :
    Integrable (fun y => Spec.basket w F (A * Aᵀ) (A *ᵥ y)) (Spec.iid κ) := by
  unfold Spec.basket
  exact integrable_finsetSum _ fun i _ => (integrable_gbmVec_factor F A i).const_mul _

lemma measurable_basket_factor (w F : ι → ℝ) (A : Matrix ι κ ℝ) : Measurable (fun y => Spec.basket w F (A * Aᵀ) (A *ᵥ y)) := by
  unfold Spec.basket
  exact Finset.measurable_fun_sum _ fun i _ => (measurable_gbmVec_factor F A i).const_mul _

/-- Delivering asset `i` when the factor `q·y` says so. -/
lemma asset_exercise {cp : ℝ} (hcp : Spec.IsCp cp) (F : ι → ℝ) (A : Matrix ι κ ℝ) {q : κ → ℝ} (hq : ∑ k, q k ^ 2 = 1) (x : EReal) (i : ι) :
    open Classical in
    ∫ y, (if Spec.exercised cp x (q ⬝ᵥ y) then Spec.gbmVec F (A * Aᵀ) (A *ᵥ y) i else 0) ∂(Spec.iid κ) =
      F i * ncdfE (-(cp : EReal) * x + ((cp * (A *ᵥ q) i : ℝ) : EReal)) := by
  classical
  have e : ∀ y : κ → ℝ, (if Spec.exercised cp x (q ⬝ᵥ y) then Spec.gbmVec F (A * Aᵀ) (A *ᵥ y) i else 0) =
      F i * (exp (∑ k, (A i k * y k - A i k ^ 2 / 2)) * if Spec.exercised cp x (q ⬝ᵥ y) then 1 else 0) := by
    intro y
    rw [gbmVec_factor]
    split_ifs <;> ring
  simp_rw [e]
  rw [integral_const_mul, MvGauss.tilt_iid (A i) (fun y => if Spec.exercised cp x (q ⬝ᵥ y) then 1 else 0)]
  have e2 : ∀ y : κ → ℝ, q ⬝ᵥ (y + A i) = q ⬝ᵥ y + (A *ᵥ q) i := fun y => by
    rw [dotProduct_add]; congr 1; exact dotProduct_comm _ _
  simp_rw [e2]
  rw [integral_dot_iid hq (f := fun t => if Spec.exercised cp x (t + (A *ᵥ q) i) then 1 else 0)
    (Measurable.ite (measurableSet_exercised cp x (by fun_prop)) measurable_const measurable_const), gaussE_exercise hcp]

lemma prob_exercise {cp : ℝ} (hcp : Spec.IsCp cp) {q : κ → ℝ} (hq : ∑ k, q k ^ 2 = 1) (x : EReal) :
    open Classical in
    ∫ y, (if Spec.exercised cp x (q ⬝ᵥ y) then (1:ℝ) else 0) ∂(Spec.iid κ) = ncdfE (-(cp : EReal) * x) := by
  classical
  rw [integral_dot_iid hq (f := fun t => if Spec.exercised cp x t then (1:ℝ) else 0)
    (Measurable.ite (measurableSet_exercised cp x measurable_id) measurable_const measurable_const)]
  have h := gaussE_exercise hcp x 0
  simpa using h

/-- Value of the exercise policy: the one-factor formula. -/
lemma policy_value {n : ℕ} {cp : ℝ} (hcp : Spec.IsCp cp) (w F : Fin n → ℝ) (A : Matrix (Fin n) κ ℝ) {q : κ → ℝ} (hq : ∑ k, q k ^ 2 = 1) (K : ℝ) (x : EReal) :
    open Classical in
    ∫ y, (if Spec.exercised cp x (q ⬝ᵥ y) then cp * (Spec.basket w F (A * Aᵀ) (A *ᵥ y) - K) else 0) ∂(Spec.iid κ) =
      Basket1Bm.priceAt (fun i => F i * w i) (A *ᵥ q) K cp x := by
  classical
  have hmeas : MeasurableSet {y : κ → ℝ | Spec.exercised cp x (q ⬝ᵥ y)} := measurableSet_exercised cp x (MvGauss.measurable_dot q)
  have hI : ∀ {f : (κ → ℝ) → ℝ}, Integrable f (Spec.iid κ) → Integrable (fun y => if Spec.exercised cp x (q ⬝ᵥ y) then f y else 0) (Spec.iid κ) :=
    fun hf => (hf.indicator hmeas).congr (ae_of_all _ fun y => by simp [Set.indicator_apply])
  have e : ∀ y : κ → ℝ, (if Spec.exercised cp x (q ⬝ᵥ y) then cp * (Spec.basket w F (A * Aᵀ) (A *ᵥ y) - K) else 0) =
      (∑ i, cp * w i * (if Spec.exercised cp x (q ⬝ᵥ y) then Spec.gbmVec F (A * Aᵀ) (A *ᵥ y) i else 0)) -
        cp * K * (if Spec.exercised cp x (q ⬝ᵥ y) then 1 else 0) := by
    intro y
    unfold Spec.basket
    split_ifs
    · rw [mul_sub, Finset.mul_sum]
      simp only [mul_assoc, mul_one]
    · simp
  simp_rw [e]
  rw [integral_sub (f := fun y => ∑ i, cp * w i * (if Spec.exercised cp x (q ⬝ᵥ y) then Spec.gbmVec F (A * Aᵀ) (A *ᵥ y) i else 0))
    (integrable_finsetSum _ fun i _ => (hI (integrable_gbmVec_factor F A i)).const_mul _)
    ((hI (integrable_const (1:ℝ))).const_mul _), integral_finsetSum _ fun i _ => (hI (integrable_gbmVec_factor F A i)).const_mul _]
  simp_rw [integral_const_mul]
  rw [prob_exercise hcp hq]
  simp_rw [asset_exercise hcp F A hq]
  unfold Basket1Bm.priceAt
  simp only
  rw [sub_mul, Finset.sum_mul]
  congr 1
  · exact Finset.sum_congr rfl fun i _ => by ring
  · ring

lemma integrable_payoff_factor (w F : ι → ℝ) (A : Matrix ι κ ℝ) (cp K : ℝ) :
    Integrable (fun y => Spec.payoff cp K (Spec.basket w F (A * Aᵀ) (A *ᵥ y))) (Spec.iid κ) := by
  unfold Spec.payoff
  exact (((integrable_basket_factor w F A).sub (integrable_const K)).const_mul cp).pos_part

lemma basketPrice_factor (w F : ι → ℝ) (A : Matrix ι κ ℝ) (df K cp : ℝ) :
    Spec.basketPrice w F (A * Aᵀ) df K cp = df * ∫ y, Spec.payoff cp K (Spec.basket w F (A * Aᵀ) (A *ᵥ y)) ∂(Spec.iid κ) := by
  unfold Spec.basketPrice
  rw [MvGauss.integral_mvn_factor A (fun z => Spec.payoff cp K (Spec.basket w F (A * Aᵀ) z))
    ((MultiLogn.continuous_payoff cp K).measurable.comp (Basket.measurable_basket _ _ _)).aestronglyMeasurable]

/-- Any exercise policy is worth at most the option. -/
lemma policy_le {n : ℕ} {cp : ℝ} (hcp : Spec.IsCp cp) (w F : Fin n → ℝ) (A : Matrix (Fin n) κ ℝ) {q : κ → ℝ} (hq : ∑ k, q k ^ 2 = 1) (K : ℝ) (x : EReal)
    {df : ℝ} (hdf : 0 ≤ df) : df * Basket1Bm.priceAt (fun i => F i * w i) (A *ᵥ q) K cp x ≤ Spec.basketPrice w F (A * Aᵀ) df K cp := by
  classical
  rw [← policy_value hcp w F A hq, basketPrice_factor]
  refine mul_le_mul_of_nonneg_left ?_ hdf
  have hmeas : MeasurableSet {y : κ → ℝ | Spec.exercised cp x (q ⬝ᵥ y)} := measurableSet_exercised cp x (MvGauss.measurable_dot q)
  refine integral_mono ?_ (integrable_payoff_factor w F A cp K) fun y => ?_
  · have hf : Integrable (fun y => cp * (Spec.basket w F (A * Aᵀ) (A *ᵥ y) - K)) (Spec.iid κ) :=
      ((integrable_basket_factor w F A).sub (integrable_const K)).const_mul cp
    exact (hf.indicator hmeas).congr (ae_of_all _ fun y => by simp [Set.indicator_apply])
  · beta_reduce
    unfold Spec.payoff
    split_ifs
    · exact le_max_left _ _
    · exact le_max_right _ _

end OneFactor

end PyFENG
