import Verif.Props.Choi2018
import Verif.Props.Basket1Bm

/-!
# Choi (2018): the quadrature integrates conditional one-factor prices

The basket price is the average, over the factors other than the first, of the price of a one-factor basket; the contribution of
every quadrature node is that conditional price up to the accuracy of the root search.
-/

set_option linter.unusedSectionVars false

namespace PyFENG

open MeasureTheory ProbabilityTheory Matrix Real

/-- Specification: the basket `Σ w_k F_k exp(Σ_j V_kj z_j - V_kj²/2)` when the first factor is `y` and the other factors are `z`. -/
noncomputable def Spec.factorBasket {n m : ℕ} (w F : Fin n → ℝ) (V : Matrix (Fin n) (Fin (m + 1)) ℝ) (z : Fin m → ℝ) (y : ℝ) : ℝ :=
  ∑ k, w k * (F k * (exp (∑ j : Fin m, (V k j.succ * z j - V k j.succ ^ 2 / 2)) * exp (V k 0 * y - V k 0 ^ 2 / 2)))

namespace Choi2018

variable {n m : ℕ}

lemma integral_iid_cons (g : (Fin (m + 1) → ℝ) → ℝ) (hg : Integrable g (Spec.iid (Fin (m + 1)))) :
    ∫ x, g x ∂(Spec.iid (Fin (m + 1))) = ∫ z, Spec.gaussE (fun y => g (Fin.cons y z)) ∂(Spec.iid (Fin m)) := by
  have hmp := (measurePreserving_piFinSuccAbove (fun _ : Fin (m + 1) => gaussianReal 0 1) 0).symm
  unfold Spec.iid at hg ⊢
  have hI := hmp.integrable_comp_of_integrable hg
  rw [← hmp.integral_comp' g]
  refine (integral_prod_symm _ hI).trans ?_
  refine integral_congr_ae (ae_of_all _ fun z => ?_)
  refine integral_congr_ae (ae_of_all _ fun y => ?_)
  show g _ = g _
  congr 1
  ext j
  refine Fin.cases ?_ (fun i => ?_) j <;> simp [MeasurableEquiv.piFinSuccAbove, Fin.insertNthEquiv]

lemma basket_factor (w F : Fin n → ℝ) (V : Matrix (Fin n) (Fin (m + 1)) ℝ) (z : Fin m → ℝ) (y : ℝ) :
    Spec.basket w F (V * Vᵀ) (V *ᵥ (Fin.cons y z : Fin (m + 1) → ℝ)) = Spec.factorBasket w F V z y := by
  unfold Spec.basket Spec.factorBasket
  refine Finset.sum_congr rfl fun k _ => ?_
  rw [OneFactor.gbmVec_factor, Fin.sum_univ_succ, exp_add]
  simp only [Fin.cons_zero, Fin.cons_succ]
  ring

/-- **C93** (conditioning).  The true basket price under covariance `V Vᵀ` is the average over the factors other than the first of one-factor
basket prices. -/
theorem conditional_tower (w F : Fin n → ℝ) (V : Matrix (Fin n) (Fin (m + 1)) ℝ) (df K cp : ℝ) :
    Spec.basketPrice w F (V * Vᵀ) df K cp =
      df * ∫ z, Spec.gaussE (fun y => Spec.payoff cp K (Spec.factorBasket w F V z y)) ∂(Spec.iid (Fin m)) := by
  rw [OneFactor.basketPrice_factor, integral_iid_cons _ (OneFactor.integrable_payoff_factor w F V cp K)]
  simp_rw [basket_factor]

/-- The coefficients of line 729 of `pyfeng/multiasset.py` are the conditional growth factors. -/
lemma fRow_eq (V : Matrix (Fin n) (Fin (m + 1)) ℝ) (z : List ℝ) (k : Fin n) :
    exp (∑ j : Fin m, z.getD j 0 * V k j.succ - 0.5 * ∑ j : Fin m, V k j.succ ^ 2) =
      exp (∑ j : Fin m, (V k j.succ * (fun j : Fin m => z.getD j 0) j - V k j.succ ^ 2 / 2)) := by
  congr 1
  rw [Finset.sum_sub_distrib, Finset.mul_sum]
  congr 1
  · exact Finset.sum_congr rfl fun j _ => by ring
  · exact Finset.sum_congr rfl fun j _ => by norm_num; ring

lemma factorBasket_level (w F : Fin n → ℝ) (V : Matrix (Fin n) (Fin (m + 1)) ℝ) (z : Fin m → ℝ) (f : Fin n → ℝ)
    (hf : ∀ k, f k = exp (∑ j : Fin m, (V k j.succ * z j - V k j.succ ^ 2 / 2))) (y : ℝ) :
    Spec.factorBasket w F V z y = Basket1Bm.level (fun k => (f k * F k) * w k * exp (-(V k 0 ^ 2) / 2)) (fun k => V k 0) y := by
  unfold Spec.factorBasket Basket1Bm.level
  refine Finset.sum_congr rfl fun k _ => ?_
  beta_reduce
  rw [hf]
  generalize exp (∑ j : Fin m, (V k j.succ * z j - V k j.succ ^ 2 / 2)) = e
  rw [exp_sub, neg_div, exp_neg]
  field_simp

lemma basketPrice_col (w F std : Fin n → ℝ) (K cp : ℝ) :
    Spec.basketPrice w F (Basket1Bm.col std * (Basket1Bm.col std)ᵀ) 1 K cp =
      Spec.gaussE (fun y => Spec.payoff cp K (Basket1Bm.level (fun i => F i * w i * exp (-(std i ^ 2) / 2)) std y)) := by
  have hm : Measurable (fun y => Spec.payoff cp K (Basket1Bm.level (fun i => F i * w i * exp (-(std i ^ 2) / 2)) std y)) := by
    unfold Spec.payoff Basket1Bm.level; fun_prop
  rw [OneFactor.basketPrice_factor, one_mul, ← OneFactor.integral_dot_iid (κ := Fin 1) (q := fun _ => 1) Basket1Bm.unit_one hm]
  refine integral_congr_ae (ae_of_all _ fun y => ?_)
  beta_reduce
  have e : (fun _ : Fin 1 => (1:ℝ)) ⬝ᵥ y = y 0 := by simp [dotProduct]
  rw [e, Basket1Bm.basket_col]

/-- **C93** (nodes).  At every quadrature node `z` the price contribution is the value of an exercise policy for the conditional one-factor
basket: it never exceeds the conditional price, and it misses it by at most `δ` when the conditional basket at the exercise point found
by the root search is within `δ` of the strike. -/
theorem node_value {cp : ℝ} (hcp : Spec.IsCp cp) (w F : Fin n → ℝ) (V : Matrix (Fin n) (Fin (m + 1)) ℝ) (K : ℝ) (z : List ℝ) (f : Fin n → ℝ)
    (hf : ∀ k, f k = exp (∑ j : Fin m, z.getD j 0 * V k j.succ - 0.5 * ∑ j : Fin m, V k j.succ ^ 2)) {d : EReal}
    (hd : dm (fun k => F k * w k) (fun k => V k 0) K f = some d) :
    let target := Spec.gaussE (fun y => Spec.payoff cp K (Spec.factorBasket w F V (fun j => z.getD j 0) y))
    let p := contrib (fun k => F k * w k) (fun k => V k 0) K cp f d
    p ≤ target ∧ ∀ (δ x : ℝ), d = ((-x : ℝ) : EReal) → |Spec.factorBasket w F V (fun j => z.getD j 0) x - K| ≤ δ → target ≤ p + δ := by
  classical
  intro target p
  have hf' : ∀ k, f k = exp (∑ j : Fin m, (V k j.succ * (fun j : Fin m => z.getD j 0) j - V k j.succ ^ 2 / 2)) := fun k => by rw [hf, fRow_eq]
  have hlev := factorBasket_level w F V (fun j => z.getD j 0) f hf'
  have ht : target = Spec.basketPrice w (fun k => f k * F k) (Basket1Bm.col (fun k => V k 0) * (Basket1Bm.col (fun k => V k 0))ᵀ) 1 K cp := by
    rw [basketPrice_col]
    show Spec.gaussE _ = _
    simp_rw [hlev]
  obtain ⟨x0, rfl⟩ := dm_of hd
  have hp : p = Basket1Bm.priceAt (fun k => f k * F k * w k) (fun k => V k 0) K cp x0 := by
    show contrib _ _ _ _ _ _ = _
    rw [contrib_eq hcp]
    congr 1
    ext k
    ring
  have hmono : ∀ k, 0 ≤ f k * F k * w k * exp (-(V k 0 ^ 2) / 2) * V k 0 := by
    unfold dm Basket1Bm.root at hd
    by_contra hc
    rw [if_pos] at hd
    · simp at hd
    · refine fun h => hc fun k => ?_
      have := h k
      beta_reduce at this
      have e : -(0.5 * V k 0 ^ 2) = -(V k 0 ^ 2) / 2 := by norm_num; ring
      rw [e] at this
      rw [mul_assoc (f k)]
      exact this
  constructor
  · rw [hp, ht]
    have h := OneFactor.policy_le hcp w (fun k => f k * F k) (Basket1Bm.col fun k => V k 0) (q := fun _ => 1) Basket1Bm.unit_one K x0 (df := 1) zero_le_one
    rw [Basket1Bm.col_mul, one_mul] at h
    exact h
  · intro δ x hx hδ
    obtain rfl : x0 = (x : EReal) := by
      rw [EReal.coe_neg] at hx
      exact neg_injective hx
    rw [hlev] at hδ
    have h := Basket1Bm.policy_gap (w := w) (F := fun k => f k * F k) (std := fun k => V k 0) (K := K) (cp := cp) (df := 1) (x : EReal) hcp
      (D := fun _ => δ) (integrable_const δ) zero_le_one (fun y => Basket1Bm.error_le hcp hmono hδ)
    have hg : Spec.gaussE (fun _ => δ) = δ := by unfold Spec.gaussE; simp
    rw [hg, ← ht, one_mul, one_mul, ← hp] at h
    linarith

end Choi2018

end PyFENG
