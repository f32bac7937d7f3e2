import Verif.Props.Spread
import Verif.Props.Norm
import Verif.Props.DistQuad
import Verif.Props.InvDist

/-!
# Basket options: Bachelier basket, geometric proxy, exact moments, moment matching (C57, C58, C94)
-/

set_option linter.unusedSectionVars false
set_option linter.style.haveILetI false

namespace PyFENG

open MeasureTheory ProbabilityTheory Matrix Real

/-- Specification: terminal value of the basket with weights `w` in the multi-asset Black-Scholes model. -/
noncomputable def Spec.basket {ι : Type*} [Fintype ι] (w F : ι → ℝ) (S : Matrix ι ι ℝ) (z : ι → ℝ) : ℝ := ∑ i, w i * Spec.gbmVec F S z i

/-- Specification: value of the European basket option: discount factor times the expected payoff, `S` the total covariance. -/
noncomputable def Spec.basketPrice {ι : Type*} [Fintype ι] [DecidableEq ι] (w F : ι → ℝ) (S : Matrix ι ι ℝ) (df K cp : ℝ) : ℝ :=
  df * ∫ z, Spec.payoff cp K (Spec.basket w F S z) ∂(Spec.mvn S)

/-- Specification: the forwards of all assets. -/
noncomputable def Spec.forwards {ι : Type*} (isFwd : Bool) (r q : ℝ) (spot : ι → ℝ) (T : ℝ) (i : ι) : ℝ := Spec.forward isFwd r q (spot i) T

namespace Basket

variable {n : ℕ} (o : Ma n)

lemma fwd_eq (spot : Fin n → ℝ) (T : ℝ) : o.fwd spot T = Spec.forwards o.isFwd o.intr o.divr spot T := by
  ext i
  unfold Ma.fwd Spec.forwards
  rw [MParams.fwd_eq_forward, MParams.forward_eq_spec]
  rfl

lemma df_eq (T : ℝ) : o.mp.df T = Spec.discount o.intr T := by
  rw [MParams.df_eq_spec]; rfl

lemma smul_quad (T : ℝ) (a : Fin n → ℝ) (C : Matrix (Fin n) (Fin n) ℝ) : a ⬝ᵥ (T • C) *ᵥ a = T * (a ⬝ᵥ C *ᵥ a) := by
  rw [smul_mulVec, dotProduct_smul, smul_eq_mul]

lemma posSemidef_smul {C : Matrix (Fin n) (Fin n) ℝ} (hC : C.PosSemidef) {T : ℝ} (hT : 0 ≤ T) : (T • C).PosSemidef := hC.smul hT

/-- What the constructor guarantees implies a covariance matrix. -/
lemma _root_.PyFENG.Ma.Valid.posSemidef {o : Ma n} (h : o.Valid) : o.cov.PosSemidef := by
  rw [← h.chol]
  have := posSemidef_self_mul_conjTranspose o.chol
  rwa [conjTranspose_eq_transpose_of_trivial] at this

lemma normFormula_bach {K F s T : ℝ} (cp : ℝ) (hv : eps ≤ s * √T) : Norm.priceFormula K F s T cp 0 0 true = bach cp F K (s * √T) := by
  have h := Norm.price_eq_bach ⟨s, 0, 0, true⟩ (K := K) (S := F) (T := T) (cp := cp) hv
  unfold Norm.price at h
  simpa [MParams.df, MParams.fwd] using h

/-- **C57.** `NormBasket.price` is exactly the discounted expected payoff of the basket `w'(F + z)` in the multi-asset Bachelier model,
in any dimension and for weights of any sign. -/
theorem norm_basket_exact (ho : o.Valid) {K T cp : ℝ} {spot : Fin n → ℝ} (hcp : Spec.IsCp cp) (hT : 0 ≤ T)
    (hv : eps ≤ √(o.weight ⬝ᵥ o.cov *ᵥ o.weight) * √T) :
    NormBasket.price o K spot T cp = Spec.discount o.intr T *
      ∫ z, Spec.payoff cp K (∑ i, o.weight i * (Spec.forwards o.isFwd o.intr o.divr spot T i + z i)) ∂(Spec.mvn (T • o.cov)) := by
  unfold NormBasket.price
  rw [normFormula_bach cp hv, df_eq, fwd_eq, ← gaussE_bach hcp (eps_pos.trans_le hv)]
  congr 1
  have hS := posSemidef_smul ho.posSemidef hT
  have h := MvGauss.integral_dot_mvn hS o.weight (f := fun y => Spec.payoff cp K (Spec.forwards o.isFwd o.intr o.divr spot T ⬝ᵥ o.weight + y))
    ((MultiLogn.continuous_payoff cp K).measurable.comp (by fun_prop))
  rw [smul_quad, mul_comm T, sqrt_mul' _ hT] at h
  unfold Spec.abm
  rw [← h]
  congr 1
  ext z
  congr 1
  simp only [dotProduct, mul_add, Finset.sum_add_distrib]
  congr 1
  exact Finset.sum_congr rfl fun i _ => mul_comm _ _

/-- **C57.** Put-call parity of `NormBasket`. -/
theorem norm_basket_parity {K T : ℝ} {spot : Fin n → ℝ} (hv : eps ≤ √(o.weight ⬝ᵥ o.cov *ᵥ o.weight) * √T) :
    Spec.Parity (NormBasket.price o K spot T 1) (NormBasket.price o K spot T (-1)) (Spec.discount o.intr T)
      (∑ i, o.weight i * Spec.forwards o.isFwd o.intr o.divr spot T i) K := by
  unfold Spec.Parity NormBasket.price
  rw [normFormula_bach 1 hv, normFormula_bach (-1) hv, df_eq, fwd_eq, ← mul_sub, bach_parity]
  congr 2
  exact Finset.sum_congr rfl fun i _ => mul_comm _ _

/-- **C57.** `BsmBasketGeoApprox.price` is the discounted expected payoff of the lognormal variable
`(w'F) exp(w'z - w'Cw T/2)` driven by the same Gaussian vector as the assets. -/
theorem geo_eq_expectation (ho : o.Valid) {K T cp : ℝ} {spot : Fin n → ℝ} (hcp : Spec.IsCp cp) (hT : 0 ≤ T) (hK : 0 < K)
    (hF : 0 < ∑ i, o.weight i * Spec.forwards o.isFwd o.intr o.divr spot T i) (hv : eps ≤ √(o.weight ⬝ᵥ o.cov *ᵥ o.weight) * √T) :
    GeoApprox.price o K spot T cp = Spec.discount o.intr T *
      ∫ z, Spec.payoff cp K ((∑ i, o.weight i * Spec.forwards o.isFwd o.intr o.divr spot T i) *
        exp (o.weight ⬝ᵥ z - o.weight ⬝ᵥ o.cov *ᵥ o.weight * T / 2)) ∂(Spec.mvn (T • o.cov)) := by
  unfold GeoApprox.price
  have e : Spec.forwards o.isFwd o.intr o.divr spot T ⬝ᵥ o.weight = ∑ i, o.weight i * Spec.forwards o.isFwd o.intr o.divr spot T i :=
    Finset.sum_congr rfl fun i _ => mul_comm _ _
  rw [SpreadOpt.priceFormula_black, sigmaStd_of_le hv, df_eq, fwd_eq, e, ← gaussE_black hcp hF hK (eps_pos.trans_le hv)]
  congr 1
  have hS := posSemidef_smul ho.posSemidef hT
  have h := MvGauss.integral_dot_mvn hS o.weight (f := fun y => Spec.payoff cp K ((∑ i, o.weight i * Spec.forwards o.isFwd o.intr o.divr spot T i) *
        exp (y - o.weight ⬝ᵥ o.cov *ᵥ o.weight * T / 2)))
    ((MultiLogn.continuous_payoff cp K).measurable.comp (by fun_prop))
  rw [h, smul_quad, mul_comm T, sqrt_mul' _ hT]
  unfold Spec.gbm
  congr 1
  ext x
  have hq : 0 ≤ o.weight ⬝ᵥ o.cov *ᵥ o.weight := MvGauss.quad_nonneg ho.posSemidef o.weight
  rw [mul_pow, sq_sqrt hq, sq_sqrt hT]

/-- **C57.** Put-call parity of `BsmBasketGeoApprox`. -/
theorem geo_parity (K T : ℝ) (spot : Fin n → ℝ) :
    Spec.Parity (GeoApprox.price o K spot T 1) (GeoApprox.price o K spot T (-1)) (Spec.discount o.intr T)
      (∑ i, o.weight i * Spec.forwards o.isFwd o.intr o.divr spot T i) K := by
  unfold Spec.Parity GeoApprox.price
  rw [SpreadOpt.priceFormula_black, SpreadOpt.priceFormula_black, df_eq, fwd_eq, ← mul_sub, black_parity]
  congr 2
  exact Finset.sum_congr rfl fun i _ => mul_comm _ _

/-! ### Exact moments -/

section Moments

variable {ι : Type*} [Fintype ι] [DecidableEq ι]

lemma gbmVec_shift (F : ι → ℝ) (S : Matrix ι ι ℝ) (z : ι → ℝ) (i j : ι) :
    Spec.gbmVec F S (z + fun k => S k i) j = exp (S j i) * Spec.gbmVec F S z j := by
  unfold Spec.gbmVec
  simp only [Pi.add_apply]
  rw [mul_left_comm, ← exp_add]
  ring_nf

lemma moment2 {S : Matrix ι ι ℝ} (hS : S.PosSemidef) (F : ι → ℝ) (i j : ι) :
    ∫ z, Spec.gbmVec F S z i * Spec.gbmVec F S z j ∂(Spec.mvn S) = F i * F j * exp (S j i) := by
  rw [MultiLogn.tilt_single hS F i (MultiLogn.measurable_gbmVec F S j)]
  simp only [gbmVec_shift]
  rw [integral_const_mul, MultiLogn.integral_gbmVec hS]
  ring

lemma moment3 {S : Matrix ι ι ℝ} (hS : S.PosSemidef) (F : ι → ℝ) (i j k : ι) :
    ∫ z, Spec.gbmVec F S z i * (Spec.gbmVec F S z j * Spec.gbmVec F S z k) ∂(Spec.mvn S) =
      F i * F j * F k * (exp (S j i) * exp (S k i) * exp (S k j)) := by
  rw [MultiLogn.tilt_single hS F i (f := fun z => Spec.gbmVec F S z j * Spec.gbmVec F S z k)
    ((MultiLogn.measurable_gbmVec F S j).mul (MultiLogn.measurable_gbmVec F S k))]
  simp only [gbmVec_shift]
  have e : ∀ z : ι → ℝ, exp (S j i) * Spec.gbmVec F S z j * (exp (S k i) * Spec.gbmVec F S z k) =
      exp (S j i) * exp (S k i) * (Spec.gbmVec F S z j * Spec.gbmVec F S z k) := fun z => by ring
  simp only [e]
  rw [integral_const_mul, moment2 hS]
  ring

lemma moment4 {S : Matrix ι ι ℝ} (hS : S.PosSemidef) (F : ι → ℝ) (i j k l : ι) :
    ∫ z, Spec.gbmVec F S z i * (Spec.gbmVec F S z j * (Spec.gbmVec F S z k * Spec.gbmVec F S z l)) ∂(Spec.mvn S) =
      F i * F j * F k * F l * (exp (S j i) * exp (S k i) * exp (S l i) * exp (S k j) * exp (S l j) * exp (S l k)) := by
  rw [MultiLogn.tilt_single hS F i (f := fun z => Spec.gbmVec F S z j * (Spec.gbmVec F S z k * Spec.gbmVec F S z l))
    ((MultiLogn.measurable_gbmVec F S j).mul ((MultiLogn.measurable_gbmVec F S k).mul (MultiLogn.measurable_gbmVec F S l)))]
  simp only [gbmVec_shift]
  have e : ∀ z : ι → ℝ, exp (S j i) * Spec.gbmVec F S z j * (exp (S k i) * Spec.gbmVec F S z k * (exp (S l i) * Spec.gbmVec F S z l)) =
      exp (S j i) * exp (S k i) * exp (S l i) * (Spec.gbmVec F S z j * (Spec.gbmVec F S z k * Spec.gbmVec F S z l)) := fun z => by ring
  simp only [e]
  rw [integral_const_mul, moment3 hS]
  ring

lemma integrable4 {S : Matrix ι ι ℝ} (hS : S.PosSemidef) (F : ι → ℝ) (i j k l : ι) :
    Integrable (fun z => Spec.gbmVec F S z i * (Spec.gbmVec F S z j * (Spec.gbmVec F S z k * Spec.gbmVec F S z l))) (Spec.mvn S) := by
  have h := MvGauss.integrable_exp_mvn hS (Pi.single i 1 + Pi.single j 1 + Pi.single k 1 + Pi.single l 1)
  refine (h.const_mul (F i * F j * F k * F l * exp (-(S i i + S j j + S k k + S l l) / 2))).congr (ae_of_all _ fun z => ?_)
  beta_reduce
  unfold Spec.gbmVec
  simp only [add_dotProduct, single_one_dotProduct]
  have e : F i * exp (z i - S i i / 2) * (F j * exp (z j - S j j / 2) * (F k * exp (z k - S k k / 2) * (F l * exp (z l - S l l / 2)))) =
      F i * F j * F k * F l * (exp (z i - S i i / 2) * exp (z j - S j j / 2) * exp (z k - S k k / 2) * exp (z l - S l l / 2)) := by ring
  rw [e, mul_assoc _ (exp _) (exp _), ← exp_add, ← exp_add, ← exp_add, ← exp_add]
  ring_nf

lemma integrable3 {S : Matrix ι ι ℝ} (hS : S.PosSemidef) (F : ι → ℝ) (i j k : ι) :
    Integrable (fun z => Spec.gbmVec F S z i * (Spec.gbmVec F S z j * Spec.gbmVec F S z k)) (Spec.mvn S) := by
  have h := MvGauss.integrable_exp_mvn hS (Pi.single i 1 + Pi.single j 1 + Pi.single k 1)
  refine (h.const_mul (F i * F j * F k * exp (-(S i i + S j j + S k k) / 2))).congr (ae_of_all _ fun z => ?_)
  beta_reduce
  unfold Spec.gbmVec
  simp only [add_dotProduct, single_one_dotProduct]
  have e : F i * exp (z i - S i i / 2) * (F j * exp (z j - S j j / 2) * (F k * exp (z k - S k k / 2))) =
      F i * F j * F k * (exp (z i - S i i / 2) * exp (z j - S j j / 2) * exp (z k - S k k / 2)) := by ring
  rw [e, mul_assoc _ (exp _) (exp _), ← exp_add, ← exp_add, ← exp_add]
  ring_nf

lemma integrable2 {S : Matrix ι ι ℝ} (hS : S.PosSemidef) (F : ι → ℝ) (i j : ι) :
    Integrable (fun z => Spec.gbmVec F S z i * Spec.gbmVec F S z j) (Spec.mvn S) := by
  have h := MvGauss.integrable_exp_mvn hS (Pi.single i 1 + Pi.single j 1)
  refine (h.const_mul (F i * F j * exp (-(S i i + S j j) / 2))).congr (ae_of_all _ fun z => ?_)
  beta_reduce
  unfold Spec.gbmVec
  simp only [add_dotProduct, single_one_dotProduct]
  have e : F i * exp (z i - S i i / 2) * (F j * exp (z j - S j j / 2)) =
      F i * F j * (exp (z i - S i i / 2) * exp (z j - S j j / 2)) := by ring
  rw [e, mul_assoc _ (exp _) (exp _), ← exp_add, ← exp_add]
  ring_nf

/-- Absorb the weights into the forwards. -/
lemma basket_eq (w F : ι → ℝ) (S : Matrix ι ι ℝ) (z : ι → ℝ) : Spec.basket w F S z = ∑ i, Spec.gbmVec (fun i => F i * w i) S z i := by
  unfold Spec.basket Spec.gbmVec
  exact Finset.sum_congr rfl fun i _ => by ring

lemma sum_sq (x : ι → ℝ) : (∑ i, x i) ^ 2 = ∑ i, ∑ j, x i * x j := by
  rw [sq, Finset.sum_mul_sum]

lemma sum_cube (x : ι → ℝ) : (∑ i, x i) ^ 3 = ∑ i, ∑ j, ∑ k, x i * (x j * x k) := by
  rw [show (∑ i, x i) ^ 3 = (∑ i, x i) * (∑ i, x i) ^ 2 by ring, sum_sq, Finset.sum_mul]
  simp only [Finset.mul_sum]

lemma sum_four (x : ι → ℝ) : (∑ i, x i) ^ 4 = ∑ i, ∑ j, ∑ k, ∑ l, x i * (x j * (x k * x l)) := by
  rw [show (∑ i, x i) ^ 4 = (∑ i, x i) * (∑ i, x i) ^ 3 by ring, sum_cube, Finset.sum_mul]
  simp only [Finset.mul_sum]

lemma basket1 {S : Matrix ι ι ℝ} (hS : S.PosSemidef) (v : ι → ℝ) :
    Integrable (fun z => ∑ i, Spec.gbmVec v S z i) (Spec.mvn S) ∧ ∫ z, ∑ i, Spec.gbmVec v S z i ∂(Spec.mvn S) = ∑ i, v i := by
  have hi := fun i => MultiLogn.integrable_gbmVec hS v i
  refine ⟨integrable_finsetSum _ fun i _ => hi i, ?_⟩
  rw [integral_finsetSum _ fun i _ => hi i]
  exact Finset.sum_congr rfl fun i _ => MultiLogn.integral_gbmVec hS v i

lemma basket2 {S : Matrix ι ι ℝ} (hS : S.PosSemidef) (v : ι → ℝ) :
    Integrable (fun z => (∑ i, Spec.gbmVec v S z i) ^ 2) (Spec.mvn S) ∧
      ∫ z, (∑ i, Spec.gbmVec v S z i) ^ 2 ∂(Spec.mvn S) = ∑ i, ∑ j, v i * v j * exp (S j i) := by
  simp only [sum_sq]
  have hi := fun i j => integrable2 hS v i j
  refine ⟨integrable_finsetSum _ fun i _ => integrable_finsetSum _ fun j _ => hi i j, ?_⟩
  rw [integral_finsetSum _ fun i _ => integrable_finsetSum _ fun j _ => hi i j]
  refine Finset.sum_congr rfl fun i _ => ?_
  rw [integral_finsetSum _ fun j _ => hi i j]
  exact Finset.sum_congr rfl fun j _ => moment2 hS v i j

lemma basket3 {S : Matrix ι ι ℝ} (hS : S.PosSemidef) (v : ι → ℝ) :
    Integrable (fun z => (∑ i, Spec.gbmVec v S z i) ^ 3) (Spec.mvn S) ∧
      ∫ z, (∑ i, Spec.gbmVec v S z i) ^ 3 ∂(Spec.mvn S) = ∑ i, ∑ j, ∑ k, v i * v j * v k * (exp (S j i) * exp (S k i) * exp (S k j)) := by
  simp only [sum_cube]
  have hi := fun i j k => integrable3 hS v i j k
  have hj := fun i j => integrable_finsetSum (Finset.univ : Finset ι) fun k _ => hi i j k
  have hk := fun i => integrable_finsetSum (Finset.univ : Finset ι) fun j _ => hj i j
  refine ⟨integrable_finsetSum _ fun i _ => hk i, ?_⟩
  rw [integral_finsetSum _ fun i _ => hk i]
  refine Finset.sum_congr rfl fun i _ => ?_
  rw [integral_finsetSum _ fun j _ => hj i j]
  refine Finset.sum_congr rfl fun j _ => ?_
  rw [integral_finsetSum _ fun k _ => hi i j k]
  exact Finset.sum_congr rfl fun k _ => moment3 hS v i j k

lemma basket4 {S : Matrix ι ι ℝ} (hS : S.PosSemidef) (v : ι → ℝ) :
    Integrable (fun z => (∑ i, Spec.gbmVec v S z i) ^ 4) (Spec.mvn S) ∧
      ∫ z, (∑ i, Spec.gbmVec v S z i) ^ 4 ∂(Spec.mvn S) = ∑ i, ∑ j, ∑ k, ∑ l,
        v i * v j * v k * v l * (exp (S j i) * exp (S k i) * exp (S l i) * exp (S k j) * exp (S l j) * exp (S l k)) := by
  simp only [sum_four]
  have hi := fun i j k l => integrable4 hS v i j k l
  have hj := fun i j k => integrable_finsetSum (Finset.univ : Finset ι) fun l _ => hi i j k l
  have hk := fun i j => integrable_finsetSum (Finset.univ : Finset ι) fun k _ => hj i j k
  have hl := fun i => integrable_finsetSum (Finset.univ : Finset ι) fun j _ => hk i j
  refine ⟨integrable_finsetSum _ fun i _ => hl i, ?_⟩
  rw [integral_finsetSum _ fun i _ => hl i]
  refine Finset.sum_congr rfl fun i _ => ?_
  rw [integral_finsetSum _ fun j _ => hk i j]
  refine Finset.sum_congr rfl fun j _ => ?_
  rw [integral_finsetSum _ fun k _ => hj i j k]
  refine Finset.sum_congr rfl fun k _ => ?_
  rw [integral_finsetSum _ fun l _ => hi i j k l]
  exact Finset.sum_congr rfl fun l _ => moment4 hS v i j k l

end Moments

lemma cov_symm {o : Ma n} (ho : o.Valid) (i j : Fin n) : o.cov i j = o.cov j i := by
  have := ho.posSemidef.1.apply i j; simpa using this.symm

/-- **C58.** The raw moments computed by `price_mvsk` with matrix products are the first four raw moments of the basket
`B = Σ w_i S_i(T)`, in any dimension and for weights of any sign. -/
theorem basket_raw_moments (ho : o.Valid) {T : ℝ} (hT : 0 ≤ T) (fwd : Fin n → ℝ) :
    ∫ z, Spec.basket o.weight fwd (T • o.cov) z ∂(Spec.mvn (T • o.cov)) = BasketABC.m1 o fwd ∧
    ∫ z, Spec.basket o.weight fwd (T • o.cov) z ^ 2 ∂(Spec.mvn (T • o.cov)) = BasketABC.m2 o fwd T ∧
    ∫ z, Spec.basket o.weight fwd (T • o.cov) z ^ 3 ∂(Spec.mvn (T • o.cov)) = BasketABC.m3 o fwd T ∧
    ∫ z, Spec.basket o.weight fwd (T • o.cov) z ^ 4 ∂(Spec.mvn (T • o.cov)) = BasketABC.m4 o fwd T := by
  have hS := posSemidef_smul ho.posSemidef hT
  have eS : ∀ i j, (T • o.cov) i j = o.cov i j * T := fun i j => by simp [mul_comm]
  have hP : ∀ i j, exp (o.cov i j * T) = BasketABC.P o T i j := fun i j => rfl
  have hPs : ∀ i j, BasketABC.P o T i j = BasketABC.P o T j i := fun i j => by unfold BasketABC.P; rw [cov_symm ho i j]
  simp only [basket_eq]
  refine ⟨(basket1 hS _).2, ?_, ?_, ?_⟩
  · rw [(basket2 hS _).2]
    unfold BasketABC.m2 BasketABC.M2 BasketABC.v
    refine Finset.sum_congr rfl fun i _ => Finset.sum_congr rfl fun j _ => ?_
    rw [eS, hP, hPs j i]
  · rw [(basket3 hS _).2]
    unfold BasketABC.m3
    refine Finset.sum_congr rfl fun i _ => Finset.sum_congr rfl fun j _ => ?_
    rw [Matrix.mul_apply, Finset.mul_sum]
    refine Finset.sum_congr rfl fun k _ => ?_
    simp only [BasketABC.M2, BasketABC.v]
    simp only [eS, hP, hPs j i, hPs k i]
    ring
  · rw [(basket4 hS _).2]
    unfold BasketABC.m4 BasketABC.H BasketABC.N BasketABC.M2 BasketABC.v
    refine Finset.sum_congr rfl fun i _ => Finset.sum_congr rfl fun j _ => ?_
    rw [Finset.mul_sum]
    refine Finset.sum_congr rfl fun k _ => ?_
    rw [Finset.mul_sum, Finset.mul_sum]
    refine Finset.sum_congr rfl fun l _ => ?_
    simp only [eS, hP, hPs j i, hPs k i, hPs l i, hPs k j, hPs l j]
    ring

/-- Central moments from raw moments, for a random variable. -/
lemma central_of_raw {Ω : Type*} [MeasurableSpace Ω] {μ : Measure Ω} [IsProbabilityMeasure μ] {X : Ω → ℝ} (hX : Measurable X) {m1 m2 m3 m4 : ℝ}
    (i1 : Integrable X μ) (i2 : Integrable (fun ω => X ω ^ 2) μ) (i3 : Integrable (fun ω => X ω ^ 3) μ) (i4 : Integrable (fun ω => X ω ^ 4) μ)
    (h1 : ∫ ω, X ω ∂μ = m1) (h2 : ∫ ω, X ω ^ 2 ∂μ = m2) (h3 : ∫ ω, X ω ^ 3 ∂μ = m3) (h4 : ∫ ω, X ω ^ 4 ∂μ = m4) :
    centralMoment X 2 μ = m2 - m1 ^ 2 ∧ centralMoment X 3 μ = m3 - 3 * m2 * m1 + 2 * m1 ^ 3 ∧
    centralMoment X 4 μ = m4 - 4 * m3 * m1 + 6 * m2 * m1 ^ 2 - 3 * m1 ^ 4 := by
  haveI : IsProbabilityMeasure (μ.map X) := Measure.isProbabilityMeasure_map hX.aemeasurable
  have hm : ∀ p, ∫ x, x ^ p ∂(μ.map X) = ∫ ω, X ω ^ p ∂μ := fun p => integral_map hX.aemeasurable (by fun_prop)
  have hi : ∀ p, Integrable (fun x => x ^ p) (μ.map X) ↔ Integrable (fun ω => X ω ^ p) μ := fun p => integrable_map_measure (by fun_prop) hX.aemeasurable
  have hc : ∀ p, centralMoment (fun x : ℝ => x) p (μ.map X) = centralMoment X p μ := by
    intro p
    unfold centralMoment
    have e : ∫ x : ℝ, x ∂(μ.map X) = ∫ ω, X ω ∂μ := integral_map hX.aemeasurable (by fun_prop)
    rw [e]
    exact integral_map hX.aemeasurable (by fun_prop)
  have h := centralMoment_of_raw (μ.map X) (by simpa using (hi 1).2 (by simpa using i1)) ((hi 2).2 i2) ((hi 3).2 i3) ((hi 4).2 i4)
    (by have := hm 1; simp only [pow_one] at this; rw [this, h1]) (by rw [hm 2, h2]) (by rw [hm 3, h3]) (by rw [hm 4, h4])
  simpa only [hc] using h

lemma rpow_one_half {x : ℝ} (hx : 0 ≤ x) : x ^ (1.5 : ℝ) = x * √x := by
  rcases hx.eq_or_lt with rfl | h
  · rw [zero_rpow (by norm_num), zero_mul]
  · rw [show (1.5 : ℝ) = 1 + 1 / 2 by norm_num, rpow_add h, rpow_one, sqrt_eq_rpow]

lemma measurable_basket {ι : Type*} [Fintype ι] [DecidableEq ι] (w F : ι → ℝ) (S : Matrix ι ι ℝ) : Measurable (Spec.basket w F S) := by
  unfold Spec.basket Spec.gbmVec; fun_prop

/-- **C58.** `price_mvsk` returns the mean, scaled variance, skewness and excess kurtosis of the basket. -/
theorem price_mvsk_correct (ho : o.Valid) {T : ℝ} (hT : 0 ≤ T) (fwd : Fin n → ℝ) (hm : ∑ i, o.weight i * fwd i ≠ 0) :
    Spec.IsScaledMvsk (Spec.basket o.weight fwd (T • o.cov)) (Spec.mvn (T • o.cov)) (BasketABC.priceMvsk o fwd T).1
      (BasketABC.priceMvsk o fwd T).2.1 (BasketABC.priceMvsk o fwd T).2.2.1 (BasketABC.priceMvsk o fwd T).2.2.2 := by
  obtain ⟨h1, h2, h3, h4⟩ := basket_raw_moments o ho hT fwd
  have hS := posSemidef_smul ho.posSemidef hT
  have hm1 : BasketABC.m1 o fwd ≠ 0 := by
    have e : BasketABC.m1 o fwd = ∑ i, o.weight i * fwd i := Finset.sum_congr rfl fun i _ => mul_comm (fwd i) (o.weight i)
    rw [e]
    exact hm
  have hc := central_of_raw (measurable_basket o.weight fwd (T • o.cov)) (μ := Spec.mvn (T • o.cov))
    (by simp only [funext (basket_eq o.weight fwd (T • o.cov))]; exact (basket1 hS _).1) (by simp only [basket_eq]; exact (basket2 hS _).1)
    (by simp only [basket_eq]; exact (basket3 hS _).1) (by simp only [basket_eq]; exact (basket4 hS _).1) h1 h2 h3 h4
  obtain ⟨c2, c3, c4⟩ := hc
  have hvar : BasketABC.varScaled o fwd T * BasketABC.m1 o fwd ^ 2 = BasketABC.m2 o fwd T - BasketABC.m1 o fwd ^ 2 := by
    unfold BasketABC.varScaled
    field_simp
  have hnn : 0 ≤ BasketABC.m2 o fwd T - BasketABC.m1 o fwd ^ 2 := by
    rw [← c2]
    unfold centralMoment
    exact integral_nonneg fun z => by simp only [Pi.pow_apply]; positivity
  refine ⟨h1, ?_, ?_, ?_⟩
  · rw [c2, h1]
    unfold BasketABC.priceMvsk BasketABC.varScaled
    field_simp
  · rw [c2, c3]
    unfold BasketABC.priceMvsk
    simp only
    rw [hvar, rpow_one_half hnn]
    congr 1
    ring
  · rw [c2, c4]
    unfold BasketABC.priceMvsk
    simp only
    rw [hvar]
    congr 2
    ring

end Basket

end PyFENG
