import Verif.Lemmas.ExpPoly
import Mathlib.Tactic.FieldSimp
import Mathlib.Tactic.LinearCombination

/-!
# Moment equations of the CIR process and of its time integral
-/

set_option linter.unusedSimpArgs false
set_option linter.unusedVariables false

namespace PyFENG

open Real Set

/-- Specification: joint moments `M i j t = E[V_t^i J_t^j]` of a process `dV = mr (theta - V) dt + sigma sqrt(V) dW` and `J_t = ∫_0^t V ds`,
as the solution of the equations obtained by applying Itô's formula to `V^i J^j` and taking expectations.  `init i` is `E[V_0^i]`. -/
structure Spec.CirMoments (mr theta sigma : ℝ) (init : ℕ → ℝ) (M : ℕ → ℕ → ℝ → ℝ) : Prop where
  one : ∀ t, 0 ≤ t → M 0 0 t = 1
  start : ∀ i, M i 0 0 = init i
  startJ : ∀ i j, M i (j + 1) 0 = 0
  ode : ∀ i j t, 0 ≤ t → HasDerivWithinAt (M i j)
    (i * (mr * theta * M (i - 1) j t - mr * M i j t) + i * (i - 1) / 2 * sigma ^ 2 * M (i - 1) j t + j * M (i + 1) (j - 1) t) (Ici 0) t

/-- Specification: joint moments `H i j t = E[X_t^i V_t^j]` of the Heston pair `dX = -V/2 dt + sqrt(V) dZ`, `dV = mr (theta - V) dt + vov sqrt(V) dW`,
`dZ dW = rho dt`, `X_0 = 0`. `init j` is `E[V_0^j]`. -/
structure Spec.HestonMoments (mr theta vov rho : ℝ) (init : ℕ → ℝ) (H : ℕ → ℕ → ℝ → ℝ) : Prop where
  one : ∀ t, 0 ≤ t → H 0 0 t = 1
  start : ∀ j, H 0 j 0 = init j
  startX : ∀ i j, H (i + 1) j 0 = 0
  ode : ∀ i j t, 0 ≤ t → HasDerivWithinAt (H i j)
    (-(i / 2) * H (i - 1) (j + 1) t + i * (i - 1) / 2 * H (i - 2) (j + 1) t + j * (mr * theta * H i (j - 1) t - mr * H i j t)
      + j * (j - 1) / 2 * vov ^ 2 * H i (j - 1) t + rho * vov * i * j * H (i - 1) j t) (Ici 0) t

/-- Closed form of `E[V^1 J^0]`. -/
noncomputable def cl10 (k th x2 m1 m2 m3 : ℝ) : List (ℝ × ℕ × ℕ) :=
  [((1) * th, 0, 0),
    ((-1) * th + (1) * m1, 0, 1)]

/-- Closed form of `E[V^2 J^0]`. -/
noncomputable def cl20 (k th x2 m1 m2 m3 : ℝ) : List (ℝ × ℕ × ℕ) :=
  [((1) * th * x2 / (2 * k) + (1) * th ^ 2, 0, 0),
    ((-1) * th * x2 / (k) + (-2) * th ^ 2 + (1) * m1 * x2 / (k) + (2) * m1 * th, 0, 1),
    ((1) * th * x2 / (2 * k) + (1) * th ^ 2 + (-1) * m1 * x2 / (k) + (-2) * m1 * th + (1) * m2, 0, 2)]

/-- Closed form of `E[V^3 J^0]`. -/
noncomputable def cl30 (k th x2 m1 m2 m3 : ℝ) : List (ℝ × ℕ × ℕ) :=
  [((1) * th * x2 ^ 2 / (2 * k ^ 2) + (3) * th ^ 2 * x2 / (2 * k) + (1) * th ^ 3, 0, 0),
    ((-3) * th * x2 ^ 2 / (2 * k ^ 2) + (-9) * th ^ 2 * x2 / (2 * k) + (-3) * th ^ 3 + (3) * m1 * x2 ^ 2 / (2 * k ^ 2) + (9) * m1 * th * x2 / (2 * k) + (3) * m1 * th ^ 2, 0, 1),
    ((3) * th * x2 ^ 2 / (2 * k ^ 2) + (9) * th ^ 2 * x2 / (2 * k) + (3) * th ^ 3 + (-3) * m1 * x2 ^ 2 / (k ^ 2) + (-9) * m1 * th * x2 / (k) + (-6) * m1 * th ^ 2 + (3) * m2 * x2 / (k) + (3) * m2 * th, 0, 2),
    ((-1) * th * x2 ^ 2 / (2 * k ^ 2) + (-3) * th ^ 2 * x2 / (2 * k) + (-1) * th ^ 3 + (3) * m1 * x2 ^ 2 / (2 * k ^ 2) + (9) * m1 * th * x2 / (2 * k) + (3) * m1 * th ^ 2 + (-3) * m2 * x2 / (k) + (-3) * m2 * th + (1) * m3, 0, 3)]

/-- Closed form of `E[V^0 J^1]`. -/
noncomputable def cl01 (k th x2 m1 m2 m3 : ℝ) : List (ℝ × ℕ × ℕ) :=
  [((-1) * th / (k) + (1) * m1 / (k), 0, 0),
    ((1) * th / (k) + (-1) * m1 / (k), 0, 1),
    ((1) * th, 1, 0)]

/-- Closed form of `E[V^1 J^1]`. -/
noncomputable def cl11 (k th x2 m1 m2 m3 : ℝ) : List (ℝ × ℕ × ℕ) :=
  [((1) * th * x2 / (2 * k ^ 2) + (-1) * th ^ 2 / (k) + (1) * m1 * th / (k), 0, 0),
    ((2) * th ^ 2 / (k) + (-1) * m1 * x2 / (k ^ 2) + (-3) * m1 * th / (k) + (1) * m2 / (k), 0, 1),
    ((-1) * th * x2 / (2 * k ^ 2) + (-1) * th ^ 2 / (k) + (1) * m1 * x2 / (k ^ 2) + (2) * m1 * th / (k) + (-1) * m2 / (k), 0, 2),
    ((1) * th ^ 2, 1, 0),
    ((-1) * th * x2 / (k) + (-1) * th ^ 2 + (1) * m1 * x2 / (k) + (1) * m1 * th, 1, 1)]

/-- Closed form of `E[V^0 J^2]`. -/
noncomputable def cl02 (k th x2 m1 m2 m3 : ℝ) : List (ℝ × ℕ × ℕ) :=
  [((-5) * th * x2 / (2 * k ^ 3) + (1) * th ^ 2 / (k ^ 2) + (1) * m1 * x2 / (k ^ 3) + (-2) * m1 * th / (k ^ 2) + (1) * m2 / (k ^ 2), 0, 0),
    ((2) * th * x2 / (k ^ 3) + (-2) * th ^ 2 / (k ^ 2) + (4) * m1 * th / (k ^ 2) + (-2) * m2 / (k ^ 2), 0, 1),
    ((1) * th * x2 / (2 * k ^ 3) + (1) * th ^ 2 / (k ^ 2) + (-1) * m1 * x2 / (k ^ 3) + (-2) * m1 * th / (k ^ 2) + (1) * m2 / (k ^ 2), 0, 2),
    ((1) * th * x2 / (k ^ 2) + (-2) * th ^ 2 / (k) + (2) * m1 * th / (k), 1, 0),
    ((2) * th * x2 / (k ^ 2) + (2) * th ^ 2 / (k) + (-2) * m1 * x2 / (k ^ 2) + (-2) * m1 * th / (k), 1, 1),
    ((1) * th ^ 2, 2, 0)]

/-- Closed form of `E[V^2 J^1]`. -/
noncomputable def cl21 (k th x2 m1 m2 m3 : ℝ) : List (ℝ × ℕ × ℕ) :=
  [((1) * th * x2 ^ 2 / (2 * k ^ 3) + (1) * th ^ 2 * x2 / (2 * k ^ 2) + (-1) * th ^ 3 / (k) + (1) * m1 * th * x2 / (2 * k ^ 2) + (1) * m1 * th ^ 2 / (k), 0, 0),
    ((-1) * th * x2 ^ 2 / (2 * k ^ 3) + (1) * th ^ 2 * x2 / (2 * k ^ 2) + (3) * th ^ 3 / (k) + (-1) * m1 * x2 ^ 2 / (2 * k ^ 3) + (-7) * m1 * th * x2 / (2 * k ^ 2) + (-5) * m1 * th ^ 2 / (k) + (1) * m2 * x2 / (k ^ 2) + (2) * m2 * th / (k), 0, 1),
    ((-1) * th * x2 ^ 2 / (2 * k ^ 3) + (-5) * th ^ 2 * x2 / (2 * k ^ 2) + (-3) * th ^ 3 / (k) + (2) * m1 * x2 ^ 2 / (k ^ 3) + (15) * m1 * th * x2 / (2 * k ^ 2) + (7) * m1 * th ^ 2 / (k) + (-4) * m2 * x2 / (k ^ 2) + (-5) * m2 * th / (k) + (1) * m3 / (k), 0, 2),
    ((1) * th * x2 ^ 2 / (2 * k ^ 3) + (3) * th ^ 2 * x2 / (2 * k ^ 2) + (1) * th ^ 3 / (k) + (-3) * m1 * x2 ^ 2 / (2 * k ^ 3) + (-9) * m1 * th * x2 / (2 * k ^ 2) + (-3) * m1 * th ^ 2 / (k) + (3) * m2 * x2 / (k ^ 2) + (3) * m2 * th / (k) + (-1) * m3 / (k), 0, 3),
    ((1) * th ^ 2 * x2 / (2 * k) + (1) * th ^ 3, 1, 0),
    ((-1) * th * x2 ^ 2 / (k ^ 2) + (-3) * th ^ 2 * x2 / (k) + (-2) * th ^ 3 + (1) * m1 * x2 ^ 2 / (k ^ 2) + (3) * m1 * th * x2 / (k) + (2) * m1 * th ^ 2, 1, 1),
    ((1) * th * x2 ^ 2 / (k ^ 2) + (5) * th ^ 2 * x2 / (2 * k) + (1) * th ^ 3 + (-2) * m1 * x2 ^ 2 / (k ^ 2) + (-5) * m1 * th * x2 / (k) + (-2) * m1 * th ^ 2 + (2) * m2 * x2 / (k) + (1) * m2 * th, 1, 2)]

/-- Closed form of `E[V^1 J^2]`. -/
noncomputable def cl12 (k th x2 m1 m2 m3 : ℝ) : List (ℝ × ℕ × ℕ) :=
  [((1) * th * x2 ^ 2 / (k ^ 4) + (-7) * th ^ 2 * x2 / (2 * k ^ 3) + (1) * th ^ 3 / (k ^ 2) + (2) * m1 * th * x2 / (k ^ 3) + (-2) * m1 * th ^ 2 / (k ^ 2) + (1) * m2 * th / (k ^ 2), 0, 0),
    ((1) * th * x2 ^ 2 / (2 * k ^ 4) + (11) * th ^ 2 * x2 / (2 * k ^ 3) + (-3) * th ^ 3 / (k ^ 2) + (-3) * m1 * x2 ^ 2 / (2 * k ^ 4) + (-5) * m1 * th * x2 / (2 * k ^ 3) + (7) * m1 * th ^ 2 / (k ^ 2) + (-1) * m2 * x2 / (k ^ 3) + (-5) * m2 * th / (k ^ 2) + (1) * m3 / (k ^ 2), 0, 1),
    ((-1) * th * x2 ^ 2 / (k ^ 4) + (-1) * th ^ 2 * x2 / (2 * k ^ 3) + (3) * th ^ 3 / (k ^ 2) + (-4) * m1 * th * x2 / (k ^ 3) + (-8) * m1 * th ^ 2 / (k ^ 2) + (4) * m2 * x2 / (k ^ 3) + (7) * m2 * th / (k ^ 2) + (-2) * m3 / (k ^ 2), 0, 2),
    ((-1) * th * x2 ^ 2 / (2 * k ^ 4) + (-3) * th ^ 2 * x2 / (2 * k ^ 3) + (-1) * th ^ 3 / (k ^ 2) + (3) * m1 * x2 ^ 2 / (2 * k ^ 4) + (9) * m1 * th * x2 / (2 * k ^ 3) + (3) * m1 * th ^ 2 / (k ^ 2) + (-3) * m2 * x2 / (k ^ 3) + (-3) * m2 * th / (k ^ 2) + (1) * m3 / (k ^ 2), 0, 3),
    ((2) * th ^ 2 * x2 / (k ^ 2) + (-2) * th ^ 3 / (k) + (2) * m1 * th ^ 2 / (k), 1, 0),
    ((-1) * th * x2 ^ 2 / (k ^ 3) + (3) * th ^ 2 * x2 / (k ^ 2) + (4) * th ^ 3 / (k) + (-1) * m1 * x2 ^ 2 / (k ^ 3) + (-7) * m1 * th * x2 / (k ^ 2) + (-6) * m1 * th ^ 2 / (k) + (2) * m2 * x2 / (k ^ 2) + (2) * m2 * th / (k), 1, 1),
    ((-2) * th * x2 ^ 2 / (k ^ 3) + (-5) * th ^ 2 * x2 / (k ^ 2) + (-2) * th ^ 3 / (k) + (4) * m1 * x2 ^ 2 / (k ^ 3) + (10) * m1 * th * x2 / (k ^ 2) + (4) * m1 * th ^ 2 / (k) + (-4) * m2 * x2 / (k ^ 2) + (-2) * m2 * th / (k), 1, 2),
    ((1) * th ^ 3, 2, 0),
    ((-1) * th * x2 ^ 2 / (k ^ 2) + (-2) * th ^ 2 * x2 / (k) + (-1) * th ^ 3 + (1) * m1 * x2 ^ 2 / (k ^ 2) + (2) * m1 * th * x2 / (k) + (1) * m1 * th ^ 2, 2, 1)]

/-- Closed form of `E[V^0 J^3]`. -/
noncomputable def cl03 (k th x2 m1 m2 m3 : ℝ) : List (ℝ × ℕ × ℕ) :=
  [((-11) * th * x2 ^ 2 / (k ^ 5) + (15) * th ^ 2 * x2 / (2 * k ^ 4) + (-1) * th ^ 3 / (k ^ 3) + (3) * m1 * x2 ^ 2 / (k ^ 5) + (-21) * m1 * th * x2 / (2 * k ^ 4) + (3) * m1 * th ^ 2 / (k ^ 3) + (3) * m2 * x2 / (k ^ 4) + (-3) * m2 * th / (k ^ 3) + (1) * m3 / (k ^ 3), 0, 0),
    ((15) * th * x2 ^ 2 / (2 * k ^ 5) + (-27) * th ^ 2 * x2 / (2 * k ^ 4) + (3) * th ^ 3 / (k ^ 3) + (3) * m1 * x2 ^ 2 / (2 * k ^ 5) + (33) * m1 * th * x2 / (2 * k ^ 4) + (-9) * m1 * th ^ 2 / (k ^ 3) + (-3) * m2 * x2 / (k ^ 4) + (9) * m2 * th / (k ^ 3) + (-3) * m3 / (k ^ 3), 0, 1),
    ((3) * th * x2 ^ 2 / (k ^ 5) + (9) * th ^ 2 * x2 / (2 * k ^ 4) + (-3) * th ^ 3 / (k ^ 3) + (-3) * m1 * x2 ^ 2 / (k ^ 5) + (-3) * m1 * th * x2 / (2 * k ^ 4) + (9) * m1 * th ^ 2 / (k ^ 3) + (-3) * m2 * x2 / (k ^ 4) + (-9) * m2 * th / (k ^ 3) + (3) * m3 / (k ^ 3), 0, 2),
    ((1) * th * x2 ^ 2 / (2 * k ^ 5) + (3) * th ^ 2 * x2 / (2 * k ^ 4) + (1) * th ^ 3 / (k ^ 3) + (-3) * m1 * x2 ^ 2 / (2 * k ^ 5) + (-9) * m1 * th * x2 / (2 * k ^ 4) + (-3) * m1 * th ^ 2 / (k ^ 3) + (3) * m2 * x2 / (k ^ 4) + (3) * m2 * th / (k ^ 3) + (-1) * m3 / (k ^ 3), 0, 3),
    ((3) * th * x2 ^ 2 / (k ^ 4) + (-21) * th ^ 2 * x2 / (2 * k ^ 3) + (3) * th ^ 3 / (k ^ 2) + (6) * m1 * th * x2 / (k ^ 3) + (-6) * m1 * th ^ 2 / (k ^ 2) + (3) * m2 * th / (k ^ 2), 1, 0),
    ((9) * th * x2 ^ 2 / (k ^ 4) + (3) * th ^ 2 * x2 / (k ^ 3) + (-6) * th ^ 3 / (k ^ 2) + (-3) * m1 * x2 ^ 2 / (k ^ 4) + (9) * m1 * th * x2 / (k ^ 3) + (12) * m1 * th ^ 2 / (k ^ 2) + (-6) * m2 * x2 / (k ^ 3) + (-6) * m2 * th / (k ^ 2), 1, 1),
    ((3) * th * x2 ^ 2 / (k ^ 4) + (15) * th ^ 2 * x2 / (2 * k ^ 3) + (3) * th ^ 3 / (k ^ 2) + (-6) * m1 * x2 ^ 2 / (k ^ 4) + (-15) * m1 * th * x2 / (k ^ 3) + (-6) * m1 * th ^ 2 / (k ^ 2) + (6) * m2 * x2 / (k ^ 3) + (3) * m2 * th / (k ^ 2), 1, 2),
    ((3) * th ^ 2 * x2 / (k ^ 2) + (-3) * th ^ 3 / (k) + (3) * m1 * th ^ 2 / (k), 2, 0),
    ((3) * th * x2 ^ 2 / (k ^ 3) + (6) * th ^ 2 * x2 / (k ^ 2) + (3) * th ^ 3 / (k) + (-3) * m1 * x2 ^ 2 / (k ^ 3) + (-6) * m1 * th * x2 / (k ^ 2) + (-3) * m1 * th ^ 2 / (k), 2, 1),
    ((1) * th ^ 3, 3, 0)]


/-- Matching a moment with its closed form. -/
lemma match_ep {c k : ℝ} {y g : ℝ → ℝ} {l : List (ℝ × ℕ × ℕ)} (hy : ∀ t, 0 ≤ t → HasDerivWithinAt y (-(c * y t) + g t) (Ici 0) t)
    (hg : ∀ t, 0 ≤ t → epD k l t = -(c * ep k l t) + g t) (h0 : y 0 = ep k l 0) : ∀ t, 0 ≤ t → y t = ep k l t := by
  intro t ht
  refine linear_ode_unique hy (fun s hs => ?_) h0 ht
  rw [← hg s hs]
  exact (hasDerivAt_ep k l s).hasDerivWithinAt

section
variable {k th sg m1 m2 m3 : ℝ} {init : ℕ → ℝ} {M : ℕ → ℕ → ℝ → ℝ}

lemma M10_eq (hM : Spec.CirMoments k th sg init M) (hk : k ≠ 0) :
    ∀ t, 0 ≤ t → M 1 0 t = ep k (cl10 k th (sg ^ 2) (init 1) (init 2) (init 3)) t := by
  refine match_ep (c := 1 * k) (g := fun t => 1 * (k * th) * 1) (fun t ht => ?_) (fun t _ => ?_) ?_
  · have h := hM.ode 1 0 t ht
    refine h.congr_deriv ?_
    simp only [Nat.reduceSub, Nat.reduceAdd, Nat.cast_zero, Nat.cast_one, Nat.cast_ofNat, hM.one t ht]
    ring
  · simp only [ep, epD, cl10, Nat.cast_zero, Nat.cast_one, Nat.cast_ofNat, Nat.reduceSub, pow_zero, pow_one, mul_one, mul_zero, zero_mul]
    generalize exp (-(k * t)) = E
    field_simp
    ring
  · rw [hM.start]
    simp only [ep, cl10, mul_zero, neg_zero, exp_zero, one_pow, mul_one, pow_zero, ne_eq, one_ne_zero, not_false_eq_true, zero_pow, OfNat.ofNat_ne_zero]
    field_simp
    ring

lemma M20_eq (hM : Spec.CirMoments k th sg init M) (hk : k ≠ 0) :
    ∀ t, 0 ≤ t → M 2 0 t = ep k (cl20 k th (sg ^ 2) (init 1) (init 2) (init 3)) t := by
  refine match_ep (c := 2 * k) (g := fun t => 2 * (k * th) * ep k (cl10 k th (sg ^ 2) (init 1) (init 2) (init 3)) t + 1 * sg ^ 2 * ep k (cl10 k th (sg ^ 2) (init 1) (init 2) (init 3)) t) (fun t ht => ?_) (fun t _ => ?_) ?_
  · have h := hM.ode 2 0 t ht
    refine h.congr_deriv ?_
    simp only [Nat.reduceSub, Nat.reduceAdd, Nat.cast_zero, Nat.cast_one, Nat.cast_ofNat, M10_eq hM hk t ht]
    ring
  · simp only [ep, epD, cl20, cl10, Nat.cast_zero, Nat.cast_one, Nat.cast_ofNat, Nat.reduceSub, pow_zero, pow_one, mul_one, mul_zero, zero_mul]
    generalize exp (-(k * t)) = E
    field_simp
    ring
  · rw [hM.start]
    simp only [ep, cl20, mul_zero, neg_zero, exp_zero, one_pow, mul_one, pow_zero, ne_eq, one_ne_zero, not_false_eq_true, zero_pow, OfNat.ofNat_ne_zero]
    field_simp
    ring

lemma M30_eq (hM : Spec.CirMoments k th sg init M) (hk : k ≠ 0) :
    ∀ t, 0 ≤ t → M 3 0 t = ep k (cl30 k th (sg ^ 2) (init 1) (init 2) (init 3)) t := by
  refine match_ep (c := 3 * k) (g := fun t => 3 * (k * th) * ep k (cl20 k th (sg ^ 2) (init 1) (init 2) (init 3)) t + 3 * sg ^ 2 * ep k (cl20 k th (sg ^ 2) (init 1) (init 2) (init 3)) t) (fun t ht => ?_) (fun t _ => ?_) ?_
  · have h := hM.ode 3 0 t ht
    refine h.congr_deriv ?_
    simp only [Nat.reduceSub, Nat.reduceAdd, Nat.cast_zero, Nat.cast_one, Nat.cast_ofNat, M20_eq hM hk t ht]
    ring
  · simp only [ep, epD, cl30, cl20, Nat.cast_zero, Nat.cast_one, Nat.cast_ofNat, Nat.reduceSub, pow_zero, pow_one, mul_one, mul_zero, zero_mul]
    generalize exp (-(k * t)) = E
    field_simp
    ring
  · rw [hM.start]
    simp only [ep, cl30, mul_zero, neg_zero, exp_zero, one_pow, mul_one, pow_zero, ne_eq, one_ne_zero, not_false_eq_true, zero_pow, OfNat.ofNat_ne_zero]
    field_simp
    ring

lemma M01_eq (hM : Spec.CirMoments k th sg init M) (hk : k ≠ 0) :
    ∀ t, 0 ≤ t → M 0 1 t = ep k (cl01 k th (sg ^ 2) (init 1) (init 2) (init 3)) t := by
  refine match_ep (c := 0 * k) (g := fun t => 1 * ep k (cl10 k th (sg ^ 2) (init 1) (init 2) (init 3)) t) (fun t ht => ?_) (fun t _ => ?_) ?_
  · have h := hM.ode 0 1 t ht
    refine h.congr_deriv ?_
    simp only [Nat.reduceSub, Nat.reduceAdd, Nat.cast_zero, Nat.cast_one, Nat.cast_ofNat, M10_eq hM hk t ht]
    ring
  · simp only [ep, epD, cl01, cl10, Nat.cast_zero, Nat.cast_one, Nat.cast_ofNat, Nat.reduceSub, pow_zero, pow_one, mul_one, mul_zero, zero_mul]
    generalize exp (-(k * t)) = E
    field_simp
    ring
  · rw [hM.startJ]
    simp only [ep, cl01, mul_zero, neg_zero, exp_zero, one_pow, mul_one, pow_zero, ne_eq, one_ne_zero, not_false_eq_true, zero_pow, OfNat.ofNat_ne_zero]
    field_simp
    ring

lemma M11_eq (hM : Spec.CirMoments k th sg init M) (hk : k ≠ 0) :
    ∀ t, 0 ≤ t → M 1 1 t = ep k (cl11 k th (sg ^ 2) (init 1) (init 2) (init 3)) t := by
  refine match_ep (c := 1 * k) (g := fun t => 1 * (k * th) * ep k (cl01 k th (sg ^ 2) (init 1) (init 2) (init 3)) t + 1 * ep k (cl20 k th (sg ^ 2) (init 1) (init 2) (init 3)) t) (fun t ht => ?_) (fun t _ => ?_) ?_
  · have h := hM.ode 1 1 t ht
    refine h.congr_deriv ?_
    simp only [Nat.reduceSub, Nat.reduceAdd, Nat.cast_zero, Nat.cast_one, Nat.cast_ofNat, M01_eq hM hk t ht, M20_eq hM hk t ht]
    ring
  · simp only [ep, epD, cl11, cl01, cl20, Nat.cast_zero, Nat.cast_one, Nat.cast_ofNat, Nat.reduceSub, pow_zero, pow_one, mul_one, mul_zero, zero_mul]
    generalize exp (-(k * t)) = E
    field_simp
    ring
  · rw [hM.startJ]
    simp only [ep, cl11, mul_zero, neg_zero, exp_zero, one_pow, mul_one, pow_zero, ne_eq, one_ne_zero, not_false_eq_true, zero_pow, OfNat.ofNat_ne_zero]
    field_simp
    ring

lemma M02_eq (hM : Spec.CirMoments k th sg init M) (hk : k ≠ 0) :
    ∀ t, 0 ≤ t → M 0 2 t = ep k (cl02 k th (sg ^ 2) (init 1) (init 2) (init 3)) t := by
  refine match_ep (c := 0 * k) (g := fun t => 2 * ep k (cl11 k th (sg ^ 2) (init 1) (init 2) (init 3)) t) (fun t ht => ?_) (fun t _ => ?_) ?_
  · have h := hM.ode 0 2 t ht
    refine h.congr_deriv ?_
    simp only [Nat.reduceSub, Nat.reduceAdd, Nat.cast_zero, Nat.cast_one, Nat.cast_ofNat, M11_eq hM hk t ht]
    ring
  · simp only [ep, epD, cl02, cl11, Nat.cast_zero, Nat.cast_one, Nat.cast_ofNat, Nat.reduceSub, pow_zero, pow_one, mul_one, mul_zero, zero_mul]
    generalize exp (-(k * t)) = E
    field_simp
    ring
  · rw [hM.startJ]
    simp only [ep, cl02, mul_zero, neg_zero, exp_zero, one_pow, mul_one, pow_zero, ne_eq, one_ne_zero, not_false_eq_true, zero_pow, OfNat.ofNat_ne_zero]
    field_simp
    ring

lemma M21_eq (hM : Spec.CirMoments k th sg init M) (hk : k ≠ 0) :
    ∀ t, 0 ≤ t → M 2 1 t = ep k (cl21 k th (sg ^ 2) (init 1) (init 2) (init 3)) t := by
  refine match_ep (c := 2 * k) (g := fun t => 2 * (k * th) * ep k (cl11 k th (sg ^ 2) (init 1) (init 2) (init 3)) t + 1 * sg ^ 2 * ep k (cl11 k th (sg ^ 2) (init 1) (init 2) (init 3)) t + 1 * ep k (cl30 k th (sg ^ 2) (init 1) (init 2) (init 3)) t) (fun t ht => ?_) (fun t _ => ?_) ?_
  · have h := hM.ode 2 1 t ht
    refine h.congr_deriv ?_
    simp only [Nat.reduceSub, Nat.reduceAdd, Nat.cast_zero, Nat.cast_one, Nat.cast_ofNat, M11_eq hM hk t ht, M30_eq hM hk t ht]
    ring
  · simp only [ep, epD, cl21, cl11, cl30, Nat.cast_zero, Nat.cast_one, Nat.cast_ofNat, Nat.reduceSub, pow_zero, pow_one, mul_one, mul_zero, zero_mul]
    generalize exp (-(k * t)) = E
    field_simp
    ring
  · rw [hM.startJ]
    simp only [ep, cl21, mul_zero, neg_zero, exp_zero, one_pow, mul_one, pow_zero, ne_eq, one_ne_zero, not_false_eq_true, zero_pow, OfNat.ofNat_ne_zero]
    field_simp
    ring

lemma M12_eq (hM : Spec.CirMoments k th sg init M) (hk : k ≠ 0) :
    ∀ t, 0 ≤ t → M 1 2 t = ep k (cl12 k th (sg ^ 2) (init 1) (init 2) (init 3)) t := by
  refine match_ep (c := 1 * k) (g := fun t => 1 * (k * th) * ep k (cl02 k th (sg ^ 2) (init 1) (init 2) (init 3)) t + 2 * ep k (cl21 k th (sg ^ 2) (init 1) (init 2) (init 3)) t) (fun t ht => ?_) (fun t _ => ?_) ?_
  · have h := hM.ode 1 2 t ht
    refine h.congr_deriv ?_
    simp only [Nat.reduceSub, Nat.reduceAdd, Nat.cast_zero, Nat.cast_one, Nat.cast_ofNat, M02_eq hM hk t ht, M21_eq hM hk t ht]
    ring
  · simp only [ep, epD, cl12, cl02, cl21, Nat.cast_zero, Nat.cast_one, Nat.cast_ofNat, Nat.reduceSub, pow_zero, pow_one, mul_one, mul_zero, zero_mul]
    generalize exp (-(k * t)) = E
    field_simp
    ring
  · rw [hM.startJ]
    simp only [ep, cl12, mul_zero, neg_zero, exp_zero, one_pow, mul_one, pow_zero, ne_eq, one_ne_zero, not_false_eq_true, zero_pow, OfNat.ofNat_ne_zero]
    field_simp
    ring

lemma M03_eq (hM : Spec.CirMoments k th sg init M) (hk : k ≠ 0) :
    ∀ t, 0 ≤ t → M 0 3 t = ep k (cl03 k th (sg ^ 2) (init 1) (init 2) (init 3)) t := by
  refine match_ep (c := 0 * k) (g := fun t => 3 * ep k (cl12 k th (sg ^ 2) (init 1) (init 2) (init 3)) t) (fun t ht => ?_) (fun t _ => ?_) ?_
  · have h := hM.ode 0 3 t ht
    refine h.congr_deriv ?_
    simp only [Nat.reduceSub, Nat.reduceAdd, Nat.cast_zero, Nat.cast_one, Nat.cast_ofNat, M12_eq hM hk t ht]
    ring
  · simp only [ep, epD, cl03, cl12, Nat.cast_zero, Nat.cast_one, Nat.cast_ofNat, Nat.reduceSub, pow_zero, pow_one, mul_one, mul_zero, zero_mul]
    generalize exp (-(k * t)) = E
    field_simp
    ring
  · rw [hM.startJ]
    simp only [ep, cl03, mul_zero, neg_zero, exp_zero, one_pow, mul_one, pow_zero, ne_eq, one_ne_zero, not_false_eq_true, zero_pow, OfNat.ofNat_ne_zero]
    field_simp
    ring

end

end PyFENG
