import Verif.Lemmas.CirMoments

/-!
# Moment equations of the Heston pair
-/

set_option linter.unusedSimpArgs false
set_option linter.unusedVariables false

namespace PyFENG

open Real Set

/-- Closed form of `E[X^0 V^1]`. -/
noncomputable def hl01 (k th x2 rx m1 m2 : ℝ) : List (ℝ × ℕ × ℕ) :=
  [((1) * th, 0, 0),
    ((-1) * th + (1) * m1, 0, 1)]

/-- Closed form of `E[X^0 V^2]`. -/
noncomputable def hl02 (k th x2 rx m1 m2 : ℝ) : List (ℝ × ℕ × ℕ) :=
  [((1) * th * x2 / (2 * k) + (1) * th ^ 2, 0, 0),
    ((-1) * th * x2 / (k) + (-2) * th ^ 2 + (1) * m1 * x2 / (k) + (2) * m1 * th, 0, 1),
    ((1) * th * x2 / (2 * k) + (1) * th ^ 2 + (-1) * m1 * x2 / (k) + (-2) * m1 * th + (1) * m2, 0, 2)]

/-- Closed form of `E[X^1 V^0]`. -/
noncomputable def hl10 (k th x2 rx m1 m2 : ℝ) : List (ℝ × ℕ × ℕ) :=
  [((1) * th / (2 * k) + (-1) * m1 / (2 * k), 0, 0),
    ((-1) * th / (2 * k) + (1) * m1 / (2 * k), 0, 1),
    ((-1) * th / (2), 1, 0)]

/-- Closed form of `E[X^1 V^1]`. -/
noncomputable def hl11 (k th x2 rx m1 m2 : ℝ) : List (ℝ × ℕ × ℕ) :=
  [((1) * th * rx / (k) + (-1) * th * x2 / (4 * k ^ 2) + (1) * th ^ 2 / (2 * k) + (-1) * m1 * th / (2 * k), 0, 0),
    ((-1) * th * rx / (k) + (-1) * th ^ 2 / (k) + (1) * m1 * x2 / (2 * k ^ 2) + (3) * m1 * th / (2 * k) + (-1) * m2 / (2 * k), 0, 1),
    ((1) * th * x2 / (4 * k ^ 2) + (1) * th ^ 2 / (2 * k) + (-1) * m1 * x2 / (2 * k ^ 2) + (-1) * m1 * th / (k) + (1) * m2 / (2 * k), 0, 2),
    ((-1) * th ^ 2 / (2), 1, 0),
    ((-1) * th * rx + (1) * th * x2 / (2 * k) + (1) * th ^ 2 / (2) + (1) * m1 * rx + (-1) * m1 * x2 / (2 * k) + (-1) * m1 * th / (2), 1, 1)]

/-- Closed form of `E[X^2 V^0]`. -/
noncomputable def hl20 (k th x2 rx m1 m2 : ℝ) : List (ℝ × ℕ × ℕ) :=
  [((2) * th * rx / (k ^ 2) + (-1) * th / (k) + (-5) * th * x2 / (8 * k ^ 3) + (1) * th ^ 2 / (4 * k ^ 2) + (-1) * m1 * rx / (k ^ 2) + (1) * m1 / (k) + (1) * m1 * x2 / (4 * k ^ 3) + (-1) * m1 * th / (2 * k ^ 2) + (1) * m2 / (4 * k ^ 2), 0, 0),
    ((-2) * th * rx / (k ^ 2) + (1) * th / (k) + (1) * th * x2 / (2 * k ^ 3) + (-1) * th ^ 2 / (2 * k ^ 2) + (1) * m1 * rx / (k ^ 2) + (-1) * m1 / (k) + (1) * m1 * th / (k ^ 2) + (-1) * m2 / (2 * k ^ 2), 0, 1),
    ((1) * th * x2 / (8 * k ^ 3) + (1) * th ^ 2 / (4 * k ^ 2) + (-1) * m1 * x2 / (4 * k ^ 3) + (-1) * m1 * th / (2 * k ^ 2) + (1) * m2 / (4 * k ^ 2), 0, 2),
    ((-1) * th * rx / (k) + (1) * th + (1) * th * x2 / (4 * k ^ 2) + (-1) * th ^ 2 / (2 * k) + (1) * m1 * th / (2 * k), 1, 0),
    ((-1) * th * rx / (k) + (1) * th * x2 / (2 * k ^ 2) + (1) * th ^ 2 / (2 * k) + (1) * m1 * rx / (k) + (-1) * m1 * x2 / (2 * k ^ 2) + (-1) * m1 * th / (2 * k), 1, 1),
    ((1) * th ^ 2 / (4), 2, 0)]

section
variable {k th vov rho : ℝ} {init : ℕ → ℝ} {H : ℕ → ℕ → ℝ → ℝ}

lemma H01_eq (hH : Spec.HestonMoments k th vov rho init H) (hk : k ≠ 0) :
    ∀ t, 0 ≤ t → H 0 1 t = ep k (hl01 k th (vov ^ 2) (rho * vov) (init 1) (init 2)) t := by
  refine match_ep (c := 1 * k) (g := fun t => 1 * (k * th) * 1) (fun t ht => ?_) (fun t _ => ?_) ?_
  · have h := hH.ode 0 1 t ht
    refine h.congr_deriv ?_
    simp only [Nat.reduceSub, Nat.reduceAdd, Nat.cast_zero, Nat.cast_one, Nat.cast_ofNat, hH.one t ht]
    ring
  · simp only [ep, epD, hl01, Nat.cast_zero, Nat.cast_one, Nat.cast_ofNat, Nat.reduceSub, pow_zero, pow_one, mul_one, mul_zero, zero_mul]
    generalize exp (-(k * t)) = E
    field_simp
    ring
  · rw [hH.start]
    simp only [ep, hl01, mul_zero, neg_zero, exp_zero, one_pow, mul_one, pow_zero, ne_eq, one_ne_zero, not_false_eq_true, zero_pow, OfNat.ofNat_ne_zero]
    field_simp
    ring

lemma H02_eq (hH : Spec.HestonMoments k th vov rho init H) (hk : k ≠ 0) :
    ∀ t, 0 ≤ t → H 0 2 t = ep k (hl02 k th (vov ^ 2) (rho * vov) (init 1) (init 2)) t := by
  refine match_ep (c := 2 * k) (g := fun t => 2 * (k * th) * ep k (hl01 k th (vov ^ 2) (rho * vov) (init 1) (init 2)) t + 1 * vov ^ 2 * ep k (hl01 k th (vov ^ 2) (rho * vov) (init 1) (init 2)) t) (fun t ht => ?_) (fun t _ => ?_) ?_
  · have h := hH.ode 0 2 t ht
    refine h.congr_deriv ?_
    simp only [Nat.reduceSub, Nat.reduceAdd, Nat.cast_zero, Nat.cast_one, Nat.cast_ofNat, H01_eq hH hk t ht]
    ring
  · simp only [ep, epD, hl02, hl01, Nat.cast_zero, Nat.cast_one, Nat.cast_ofNat, Nat.reduceSub, pow_zero, pow_one, mul_one, mul_zero, zero_mul]
    generalize exp (-(k * t)) = E
    field_simp
    ring
  · rw [hH.start]
    simp only [ep, hl02, mul_zero, neg_zero, exp_zero, one_pow, mul_one, pow_zero, ne_eq, one_ne_zero, not_false_eq_true, zero_pow, OfNat.ofNat_ne_zero]
    field_simp
    ring

lemma H10_eq (hH : Spec.HestonMoments k th vov rho init H) (hk : k ≠ 0) :
    ∀ t, 0 ≤ t → H 1 0 t = ep k (hl10 k th (vov ^ 2) (rho * vov) (init 1) (init 2)) t := by
  refine match_ep (c := 0 * k) (g := fun t => -(1 / 2) * ep k (hl01 k th (vov ^ 2) (rho * vov) (init 1) (init 2)) t) (fun t ht => ?_) (fun t _ => ?_) ?_
  · have h := hH.ode 1 0 t ht
    refine h.congr_deriv ?_
    simp only [Nat.reduceSub, Nat.reduceAdd, Nat.cast_zero, Nat.cast_one, Nat.cast_ofNat, H01_eq hH hk t ht]
    ring
  · simp only [ep, epD, hl10, hl01, Nat.cast_zero, Nat.cast_one, Nat.cast_ofNat, Nat.reduceSub, pow_zero, pow_one, mul_one, mul_zero, zero_mul]
    generalize exp (-(k * t)) = E
    field_simp
    ring
  · rw [hH.startX]
    simp only [ep, hl10, mul_zero, neg_zero, exp_zero, one_pow, mul_one, pow_zero, ne_eq, one_ne_zero, not_false_eq_true, zero_pow, OfNat.ofNat_ne_zero]
    field_simp
    ring

lemma H11_eq (hH : Spec.HestonMoments k th vov rho init H) (hk : k ≠ 0) :
    ∀ t, 0 ≤ t → H 1 1 t = ep k (hl11 k th (vov ^ 2) (rho * vov) (init 1) (init 2)) t := by
  refine match_ep (c := 1 * k) (g := fun t => -(1 / 2) * ep k (hl02 k th (vov ^ 2) (rho * vov) (init 1) (init 2)) t + 1 * (k * th) * ep k (hl10 k th (vov ^ 2) (rho * vov) (init 1) (init 2)) t + 1 * (rho * vov) * ep k (hl01 k th (vov ^ 2) (rho * vov) (init 1) (init 2)) t) (fun t ht => ?_) (fun t _ => ?_) ?_
  · have h := hH.ode 1 1 t ht
    refine h.congr_deriv ?_
    simp only [Nat.reduceSub, Nat.reduceAdd, Nat.cast_zero, Nat.cast_one, Nat.cast_ofNat, H02_eq hH hk t ht, H10_eq hH hk t ht, H01_eq hH hk t ht]
    ring
  · simp only [ep, epD, hl11, hl02, hl10, hl01, Nat.cast_zero, Nat.cast_one, Nat.cast_ofNat, Nat.reduceSub, pow_zero, pow_one, mul_one, mul_zero, zero_mul]
    generalize exp (-(k * t)) = E
    field_simp
    ring
  · rw [hH.startX]
    simp only [ep, hl11, mul_zero, neg_zero, exp_zero, one_pow, mul_one, pow_zero, ne_eq, one_ne_zero, not_false_eq_true, zero_pow, OfNat.ofNat_ne_zero]
    field_simp
    ring

lemma H20_eq (hH : Spec.HestonMoments k th vov rho init H) (hk : k ≠ 0) :
    ∀ t, 0 ≤ t → H 2 0 t = ep k (hl20 k th (vov ^ 2) (rho * vov) (init 1) (init 2)) t := by
  refine match_ep (c := 0 * k) (g := fun t => -(2 / 2) * ep k (hl11 k th (vov ^ 2) (rho * vov) (init 1) (init 2)) t + 1 * ep k (hl01 k th (vov ^ 2) (rho * vov) (init 1) (init 2)) t) (fun t ht => ?_) (fun t _ => ?_) ?_
  · have h := hH.ode 2 0 t ht
    refine h.congr_deriv ?_
    simp only [Nat.reduceSub, Nat.reduceAdd, Nat.cast_zero, Nat.cast_one, Nat.cast_ofNat, H11_eq hH hk t ht, H01_eq hH hk t ht]
    ring
  · simp only [ep, epD, hl20, hl11, hl01, Nat.cast_zero, Nat.cast_one, Nat.cast_ofNat, Nat.reduceSub, pow_zero, pow_one, mul_one, mul_zero, zero_mul]
    generalize exp (-(k * t)) = E
    field_simp
    ring
  · rw [hH.startX]
    simp only [ep, hl20, mul_zero, neg_zero, exp_zero, one_pow, mul_one, pow_zero, ne_eq, one_ne_zero, not_false_eq_true, zero_pow, OfNat.ofNat_ne_zero]
    field_simp
    ring

end

end PyFENG
