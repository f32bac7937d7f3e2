import Mathlib.Algebra.BigOperators.Ring.Finset
import Mathlib.Algebra.BigOperators.Group.Finset.Sigma
import Mathlib.Data.Real.Basic
import Mathlib.Tactic.Ring
import Mathlib.Tactic.Linarith

/-!
# Third and fourth order sums over assets (used for the Ju basket approximation)

`S3 f g = Σ f_i f_j f_k g(i,j,k)`, `S4` likewise; the sums of powers of the pairwise covariances in terms of the contracted sums which
`BsmBasketJu2002` computes.
-/

namespace PyFENG.JuSums

open Finset

variable {ι : Type*} [Fintype ι]

/-- `Σ f_i f_j f_k g(i,j,k)`. -/
def S3 (f : ι → ℝ) (g : ι → ι → ι → ℝ) : ℝ := ∑ i, ∑ j, ∑ k, f i * (f j * (f k * g i j k))

/-- `Σ f_i f_j f_k f_l g(i,j,k,l)`. -/
def S4 (f : ι → ℝ) (g : ι → ι → ι → ι → ℝ) : ℝ := ∑ i, ∑ j, ∑ k, ∑ l, f i * (f j * (f k * (f l * g i j k l)))

lemma S3_add (f : ι → ℝ) (g h : ι → ι → ι → ℝ) : S3 f (fun i j k => g i j k + h i j k) = S3 f g + S3 f h := by
  simp only [S3, mul_add, sum_add_distrib]

lemma S3_smul (f : ι → ℝ) (a : ℝ) (g : ι → ι → ι → ℝ) : S3 f (fun i j k => a * g i j k) = a * S3 f g := by
  simp only [S3, mul_sum]
  refine sum_congr rfl fun i _ => sum_congr rfl fun j _ => sum_congr rfl fun k _ => ?_
  ring

lemma S4_add (f : ι → ℝ) (g h : ι → ι → ι → ι → ℝ) : S4 f (fun i j k l => g i j k l + h i j k l) = S4 f g + S4 f h := by
  simp only [S4, mul_add, sum_add_distrib]

lemma S4_smul (f : ι → ℝ) (a : ℝ) (g : ι → ι → ι → ι → ℝ) : S4 f (fun i j k l => a * g i j k l) = a * S4 f g := by
  simp only [S4, mul_sum]
  refine sum_congr rfl fun i _ => sum_congr rfl fun j _ => sum_congr rfl fun k _ => sum_congr rfl fun l _ => ?_
  ring

lemma S3_sw0 (f : ι → ℝ) (g : ι → ι → ι → ℝ) : S3 f (fun i j k => g j i k) = S3 f g := by
  unfold S3
  rw [sum_comm]
  refine sum_congr rfl fun i _ => sum_congr rfl fun j _ => sum_congr rfl fun k _ => ?_
  ring

lemma S3_sw1 (f : ι → ℝ) (g : ι → ι → ι → ℝ) : S3 f (fun i j k => g i k j) = S3 f g := by
  unfold S3
  refine sum_congr rfl fun i _ => ?_
  rw [sum_comm]
  refine sum_congr rfl fun j _ => sum_congr rfl fun k _ => ?_
  ring

lemma S4_sw0 (f : ι → ℝ) (g : ι → ι → ι → ι → ℝ) : S4 f (fun i j k l => g j i k l) = S4 f g := by
  unfold S4
  rw [sum_comm]
  refine sum_congr rfl fun i _ => sum_congr rfl fun j _ => sum_congr rfl fun k _ => sum_congr rfl fun l _ => ?_
  ring

lemma S4_sw1 (f : ι → ℝ) (g : ι → ι → ι → ι → ℝ) : S4 f (fun i j k l => g i k j l) = S4 f g := by
  unfold S4
  refine sum_congr rfl fun i _ => ?_
  rw [sum_comm]
  refine sum_congr rfl fun j _ => sum_congr rfl fun k _ => sum_congr rfl fun l _ => ?_
  ring

lemma S4_sw2 (f : ι → ℝ) (g : ι → ι → ι → ι → ℝ) : S4 f (fun i j k l => g i j l k) = S4 f g := by
  unfold S4
  refine sum_congr rfl fun i _ => sum_congr rfl fun j _ => ?_
  rw [sum_comm]
  refine sum_congr rfl fun k _ => sum_congr rfl fun l _ => ?_
  ring

lemma S3_p012 (f : ι → ℝ) (g : ι → ι → ι → ℝ) : S3 f (fun i j k => g i j k) = S3 f g := rfl

lemma S3_p102 (f : ι → ℝ) (g : ι → ι → ι → ℝ) : S3 f (fun i j k => g j i k) = S3 f g :=
  (S3_sw0 f (fun i j k => g i j k)).trans (S3_p012 f g)

lemma S3_p021 (f : ι → ℝ) (g : ι → ι → ι → ℝ) : S3 f (fun i j k => g i k j) = S3 f g :=
  (S3_sw1 f (fun i j k => g i j k)).trans (S3_p012 f g)

lemma S3_p201 (f : ι → ℝ) (g : ι → ι → ι → ℝ) : S3 f (fun i j k => g k i j) = S3 f g :=
  (S3_sw1 f (fun i j k => g j i k)).trans (S3_p102 f g)

lemma S3_p120 (f : ι → ℝ) (g : ι → ι → ι → ℝ) : S3 f (fun i j k => g j k i) = S3 f g :=
  (S3_sw0 f (fun i j k => g i k j)).trans (S3_p021 f g)

lemma S3_p210 (f : ι → ℝ) (g : ι → ι → ι → ℝ) : S3 f (fun i j k => g k j i) = S3 f g :=
  (S3_sw0 f (fun i j k => g k i j)).trans (S3_p201 f g)

lemma S4_p0123 (f : ι → ℝ) (g : ι → ι → ι → ι → ℝ) : S4 f (fun i j k l => g i j k l) = S4 f g := rfl

lemma S4_p1023 (f : ι → ℝ) (g : ι → ι → ι → ι → ℝ) : S4 f (fun i j k l => g j i k l) = S4 f g :=
  (S4_sw0 f (fun i j k l => g i j k l)).trans (S4_p0123 f g)

lemma S4_p0213 (f : ι → ℝ) (g : ι → ι → ι → ι → ℝ) : S4 f (fun i j k l => g i k j l) = S4 f g :=
  (S4_sw1 f (fun i j k l => g i j k l)).trans (S4_p0123 f g)

lemma S4_p0132 (f : ι → ℝ) (g : ι → ι → ι → ι → ℝ) : S4 f (fun i j k l => g i j l k) = S4 f g :=
  (S4_sw2 f (fun i j k l => g i j k l)).trans (S4_p0123 f g)

lemma S4_p2013 (f : ι → ℝ) (g : ι → ι → ι → ι → ℝ) : S4 f (fun i j k l => g k i j l) = S4 f g :=
  (S4_sw1 f (fun i j k l => g j i k l)).trans (S4_p1023 f g)

lemma S4_p1032 (f : ι → ℝ) (g : ι → ι → ι → ι → ℝ) : S4 f (fun i j k l => g j i l k) = S4 f g :=
  (S4_sw2 f (fun i j k l => g j i k l)).trans (S4_p1023 f g)

lemma S4_p1203 (f : ι → ℝ) (g : ι → ι → ι → ι → ℝ) : S4 f (fun i j k l => g j k i l) = S4 f g :=
  (S4_sw0 f (fun i j k l => g i k j l)).trans (S4_p0213 f g)

lemma S4_p0312 (f : ι → ℝ) (g : ι → ι → ι → ι → ℝ) : S4 f (fun i j k l => g i l j k) = S4 f g :=
  (S4_sw2 f (fun i j k l => g i k j l)).trans (S4_p0213 f g)

lemma S4_p0231 (f : ι → ℝ) (g : ι → ι → ι → ι → ℝ) : S4 f (fun i j k l => g i k l j) = S4 f g :=
  (S4_sw1 f (fun i j k l => g i j l k)).trans (S4_p0132 f g)

lemma S4_p2103 (f : ι → ℝ) (g : ι → ι → ι → ι → ℝ) : S4 f (fun i j k l => g k j i l) = S4 f g :=
  (S4_sw0 f (fun i j k l => g k i j l)).trans (S4_p2013 f g)

lemma S4_p3012 (f : ι → ℝ) (g : ι → ι → ι → ι → ℝ) : S4 f (fun i j k l => g l i j k) = S4 f g :=
  (S4_sw2 f (fun i j k l => g k i j l)).trans (S4_p2013 f g)

lemma S4_p2031 (f : ι → ℝ) (g : ι → ι → ι → ι → ℝ) : S4 f (fun i j k l => g k i l j) = S4 f g :=
  (S4_sw1 f (fun i j k l => g j i l k)).trans (S4_p1032 f g)

lemma S4_p1302 (f : ι → ℝ) (g : ι → ι → ι → ι → ℝ) : S4 f (fun i j k l => g j l i k) = S4 f g :=
  (S4_sw2 f (fun i j k l => g j k i l)).trans (S4_p1203 f g)

lemma S4_p0321 (f : ι → ℝ) (g : ι → ι → ι → ι → ℝ) : S4 f (fun i j k l => g i l k j) = S4 f g :=
  (S4_sw1 f (fun i j k l => g i l j k)).trans (S4_p0312 f g)

lemma S4_p1230 (f : ι → ℝ) (g : ι → ι → ι → ι → ℝ) : S4 f (fun i j k l => g j k l i) = S4 f g :=
  (S4_sw0 f (fun i j k l => g i k l j)).trans (S4_p0231 f g)

lemma S4_p3102 (f : ι → ℝ) (g : ι → ι → ι → ι → ℝ) : S4 f (fun i j k l => g l j i k) = S4 f g :=
  (S4_sw2 f (fun i j k l => g k j i l)).trans (S4_p2103 f g)

lemma S4_p3021 (f : ι → ℝ) (g : ι → ι → ι → ι → ℝ) : S4 f (fun i j k l => g l i k j) = S4 f g :=
  (S4_sw1 f (fun i j k l => g l i j k)).trans (S4_p3012 f g)

lemma S4_p2130 (f : ι → ℝ) (g : ι → ι → ι → ι → ℝ) : S4 f (fun i j k l => g k j l i) = S4 f g :=
  (S4_sw0 f (fun i j k l => g k i l j)).trans (S4_p2031 f g)

lemma S4_p2301 (f : ι → ℝ) (g : ι → ι → ι → ι → ℝ) : S4 f (fun i j k l => g k l i j) = S4 f g :=
  (S4_sw1 f (fun i j k l => g j l i k)).trans (S4_p1302 f g)

lemma S4_p1320 (f : ι → ℝ) (g : ι → ι → ι → ι → ℝ) : S4 f (fun i j k l => g j l k i) = S4 f g :=
  (S4_sw0 f (fun i j k l => g i l k j)).trans (S4_p0321 f g)

lemma S4_p3201 (f : ι → ℝ) (g : ι → ι → ι → ι → ℝ) : S4 f (fun i j k l => g l k i j) = S4 f g :=
  (S4_sw1 f (fun i j k l => g l j i k)).trans (S4_p3102 f g)

lemma S4_p3120 (f : ι → ℝ) (g : ι → ι → ι → ι → ℝ) : S4 f (fun i j k l => g l j k i) = S4 f g :=
  (S4_sw0 f (fun i j k l => g l i k j)).trans (S4_p3021 f g)

lemma S4_p2310 (f : ι → ℝ) (g : ι → ι → ι → ι → ℝ) : S4 f (fun i j k l => g k l j i) = S4 f g :=
  (S4_sw0 f (fun i j k l => g k l i j)).trans (S4_p2301 f g)

lemma S4_p3210 (f : ι → ℝ) (g : ι → ι → ι → ι → ℝ) : S4 f (fun i j k l => g l k j i) = S4 f g :=
  (S4_sw0 f (fun i j k l => g l k i j)).trans (S4_p3201 f g)

variable (f : ι → ℝ) (c : ι → ι → ℝ)

/-- `Σ f_i`, and the contractions: `A_i = Σ_j f_j c_ij`, `Q_i = Σ_j f_j c_ij²`. -/
def mm : ℝ := ∑ i, f i
def A (i : ι) : ℝ := ∑ j, f j * c i j
def Q (i : ι) : ℝ := ∑ j, f j * c i j ^ 2
def u1 : ℝ := ∑ i, f i * A f c i
def u2 : ℝ := ∑ i, f i * Q f c i
def u3 : ℝ := ∑ i, f i * ∑ j, f j * c i j ^ 3
def H : ℝ := ∑ i, f i * A f c i ^ 2
def G : ℝ := ∑ i, f i * (Q f c i * A f c i)
def Tri : ℝ := ∑ i, ∑ j, ∑ k, f i * (f j * (f k * (c i j * c i k * c j k)))
def Path : ℝ := ∑ i, ∑ j, f i * (f j * (c i j * A f c i * A f c j))
def Star : ℝ := ∑ i, f i * A f c i ^ 3

lemma pull (a : ℝ) (x : ι → ℝ) (y : ι → ℝ) (h : ∀ i, y i = a * x i) : ∑ i, y i = a * ∑ i, x i := by
  rw [mul_sum]; exact sum_congr rfl fun i _ => h i

lemma S3_e : S3 f (fun i j k => c i j) = mm f * u1 f c := by
  have h : ∀ i j, ∑ k, f i * (f j * (f k * c i j)) = f i * (f j * c i j) * mm f := fun i j => pull _ _ _ fun k => by ring
  simp only [S3, h, ← sum_mul]
  rw [mul_comm, u1]
  congr 1
  refine sum_congr rfl fun i _ => ?_
  simp only [A, Q]
  rw [mul_sum]

lemma S3_ee : S3 f (fun i j k => c i j ^ 2) = mm f * u2 f c := by
  have h : ∀ i j, ∑ k, f i * (f j * (f k * c i j ^ 2)) = f i * (f j * c i j ^ 2) * mm f := fun i j => pull _ _ _ fun k => by ring
  simp only [S3, h, ← sum_mul]
  rw [mul_comm, u2]
  congr 1
  refine sum_congr rfl fun i _ => ?_
  simp only [A, Q]
  rw [mul_sum]

lemma S3_ad : S3 f (fun i j k => c i j * c i k) = H f c := by
  have h : ∀ i j, ∑ k, f i * (f j * (f k * (c i j * c i k))) = f i * (f j * c i j) * A f c i := fun i j => pull _ _ _ fun k => by ring
  have h2 : ∀ i, ∑ j, f i * (f j * c i j) * A f c i = f i * A f c i * A f c i := fun i => by rw [← sum_mul, ← mul_sum]; rfl
  simp only [S3, h, h2, H]
  exact sum_congr rfl fun i _ => by ring

lemma S3_eee : S3 f (fun i j k => c i j ^ 3) = mm f * u3 f c := by
  have h : ∀ i j, ∑ k, f i * (f j * (f k * c i j ^ 3)) = f i * (f j * c i j ^ 3) * mm f := fun i j => pull _ _ _ fun k => by ring
  simp only [S3, h, ← sum_mul]
  rw [mul_comm, u3]
  congr 1
  refine sum_congr rfl fun i _ => ?_
  rw [mul_sum]

lemma S3_aad : S3 f (fun i j k => c i j ^ 2 * c i k) = G f c := by
  have h : ∀ i j, ∑ k, f i * (f j * (f k * (c i j ^ 2 * c i k))) = f i * (f j * c i j ^ 2) * A f c i := fun i j => pull _ _ _ fun k => by ring
  have h2 : ∀ i, ∑ j, f i * (f j * c i j ^ 2) * A f c i = f i * Q f c i * A f c i := fun i => by rw [← sum_mul, ← mul_sum]; rfl
  simp only [S3, h, h2, G]
  exact sum_congr rfl fun i _ => by ring

lemma S3_tri : S3 f (fun i j k => c i j * c i k * c j k) = Tri f c := by
  rfl

lemma S4_e : S4 f (fun i j k l => c i j) = mm f ^ 2 * u1 f c := by
  have h : ∀ i j k, ∑ l, f i * (f j * (f k * (f l * (c i j)))) = f i * (f j * (f k * (c i j))) * mm f := fun i j k => pull _ _ _ fun l => by ring
  have h3 := S3_e f c
  simp only [S3] at h3
  simp only [S4, h, ← sum_mul, h3]
  ring

lemma S4_ee : S4 f (fun i j k l => c i j ^ 2) = mm f ^ 2 * u2 f c := by
  have h : ∀ i j k, ∑ l, f i * (f j * (f k * (f l * (c i j ^ 2)))) = f i * (f j * (f k * (c i j ^ 2))) * mm f := fun i j k => pull _ _ _ fun l => by ring
  have h3 := S3_ee f c
  simp only [S3] at h3
  simp only [S4, h, ← sum_mul, h3]
  ring

lemma S4_ad : S4 f (fun i j k l => c i j * c i k) = mm f * H f c := by
  have h : ∀ i j k, ∑ l, f i * (f j * (f k * (f l * (c i j * c i k)))) = f i * (f j * (f k * (c i j * c i k))) * mm f := fun i j k => pull _ _ _ fun l => by ring
  have h3 := S3_ad f c
  simp only [S3] at h3
  simp only [S4, h, ← sum_mul, h3]
  ring

lemma S4_dj : S4 f (fun i j k l => c i j * c k l) = u1 f c ^ 2 := by
  have h : ∀ i j k, ∑ l, f i * (f j * (f k * (f l * (c i j * c k l)))) = f i * (f j * c i j) * (f k * A f c k) := fun i j k => by
    rw [A, mul_sum, mul_sum]; exact sum_congr rfl fun l _ => by ring
  have h2 : ∀ i j, ∑ k, f i * (f j * c i j) * (f k * A f c k) = f i * (f j * c i j) * u1 f c := fun i j => by rw [← mul_sum]; rfl
  have h3 : ∀ i, ∑ j, f i * (f j * c i j) * u1 f c = f i * A f c i * u1 f c := fun i => by rw [← sum_mul, ← mul_sum]; rfl
  simp only [S4, h, h2, h3, ← sum_mul]
  rw [sq]; rfl

lemma S4_eee : S4 f (fun i j k l => c i j ^ 3) = mm f ^ 2 * u3 f c := by
  have h : ∀ i j k, ∑ l, f i * (f j * (f k * (f l * (c i j ^ 3)))) = f i * (f j * (f k * (c i j ^ 3))) * mm f := fun i j k => pull _ _ _ fun l => by ring
  have h3 := S3_eee f c
  simp only [S3] at h3
  simp only [S4, h, ← sum_mul, h3]
  ring

lemma S4_aad : S4 f (fun i j k l => c i j ^ 2 * c i k) = mm f * G f c := by
  have h : ∀ i j k, ∑ l, f i * (f j * (f k * (f l * (c i j ^ 2 * c i k)))) = f i * (f j * (f k * (c i j ^ 2 * c i k))) * mm f := fun i j k => pull _ _ _ fun l => by ring
  have h3 := S3_aad f c
  simp only [S3] at h3
  simp only [S4, h, ← sum_mul, h3]
  ring

lemma S4_ddj : S4 f (fun i j k l => c i j ^ 2 * c k l) = u2 f c * u1 f c := by
  have h : ∀ i j k, ∑ l, f i * (f j * (f k * (f l * (c i j ^ 2 * c k l)))) = f i * (f j * c i j ^ 2) * (f k * A f c k) := fun i j k => by
    rw [A, mul_sum, mul_sum]; exact sum_congr rfl fun l _ => by ring
  have h2 : ∀ i j, ∑ k, f i * (f j * c i j ^ 2) * (f k * A f c k) = f i * (f j * c i j ^ 2) * u1 f c := fun i j => by rw [← mul_sum]; rfl
  have h3 : ∀ i, ∑ j, f i * (f j * c i j ^ 2) * u1 f c = f i * Q f c i * u1 f c := fun i => by rw [← sum_mul, ← mul_sum]; rfl
  simp only [S4, h, h2, h3, ← sum_mul]
  rfl

lemma S4_tri : S4 f (fun i j k l => c i j * c i k * c j k) = mm f * Tri f c := by
  have h : ∀ i j k, ∑ l, f i * (f j * (f k * (f l * (c i j * c i k * c j k)))) = f i * (f j * (f k * (c i j * c i k * c j k))) * mm f := fun i j k => pull _ _ _ fun l => by ring
  have h3 := S3_tri f c
  simp only [S3] at h3
  simp only [S4, h, ← sum_mul, h3]
  ring

lemma S4_path : S4 f (fun i j k l => c i j * c i k * c j l) = Path f c := by
  have h : ∀ i j k, ∑ l, f i * (f j * (f k * (f l * (c i j * c i k * c j l)))) = f i * (f j * (c i j * A f c j)) * (f k * c i k) := fun i j k => by
    rw [A, mul_sum, mul_sum, mul_sum, sum_mul]; exact sum_congr rfl fun l _ => by ring
  have h2 : ∀ i j, ∑ k, f i * (f j * (c i j * A f c j)) * (f k * c i k) = f i * (f j * (c i j * A f c i * A f c j)) := fun i j => by
    rw [← mul_sum, ← A]; ring
  simp only [S4, h, h2]
  rfl

lemma S4_star : S4 f (fun i j k l => c i j * c i k * c i l) = Star f c := by
  have h : ∀ i j k, ∑ l, f i * (f j * (f k * (f l * (c i j * c i k * c i l)))) = f i * (f j * c i j) * A f c i * (f k * c i k) := fun i j k => by
    rw [A, mul_sum, sum_mul]; exact sum_congr rfl fun l _ => by ring
  have h2 : ∀ i j, ∑ k, f i * (f j * c i j) * A f c i * (f k * c i k) = f i * (f j * c i j) * (A f c i * A f c i) := fun i j => by
    rw [← mul_sum, ← A]; ring
  have h3 : ∀ i, ∑ j, f i * (f j * c i j) * (A f c i * A f c i) = f i * A f c i ^ 3 := fun i => by
    rw [← sum_mul, ← mul_sum, ← A]; ring
  simp only [S4, h, h2, h3]
  rfl

variable {f c}

lemma S3_pow1 (hc : ∀ i j, c i j = c j i) : S3 f (fun i j k => (c i j + c i k + c j k)) = 3 * (mm f * u1 f c) := by
  have t0 : S3 f (fun i j k => c i j) = mm f * u1 f c := by
    refine Eq.trans ?_ ((S3_p012 f (fun i j k => c i j)).trans (S3_e f c))
    refine congrArg (S3 f) ?_
    funext i j k
    try ring
  have t1 : S3 f (fun i j k => c i k) = mm f * u1 f c := by
    refine Eq.trans ?_ ((S3_p021 f (fun i j k => c i j)).trans (S3_e f c))
    refine congrArg (S3 f) ?_
    funext i j k
    try ring
  have t2 : S3 f (fun i j k => c j k) = mm f * u1 f c := by
    refine Eq.trans ?_ ((S3_p120 f (fun i j k => c i j)).trans (S3_e f c))
    refine congrArg (S3 f) ?_
    funext i j k
    try ring
  have e : (fun i j k => (c i j + c i k + c j k)) = fun i j k => 1 * (c i j) + 1 * (c i k) + 1 * (c j k) := by
    funext i j k; ring
  rw [e]
  simp only [S3_add, S3_smul, t0, t1, t2]
  ring

lemma S3_pow2 (hc : ∀ i j, c i j = c j i) : S3 f (fun i j k => (c i j + c i k + c j k) ^ 2) = 3 * (mm f * u2 f c) + 6 * (H f c) := by
  have t0 : S3 f (fun i j k => c i j ^ 2) = mm f * u2 f c := by
    refine Eq.trans ?_ ((S3_p012 f (fun i j k => c i j ^ 2)).trans (S3_ee f c))
    refine congrArg (S3 f) ?_
    funext i j k
    try ring
  have t1 : S3 f (fun i j k => c i j * c i k) = H f c := by
    refine Eq.trans ?_ ((S3_p012 f (fun i j k => c i j * c i k)).trans (S3_ad f c))
    refine congrArg (S3 f) ?_
    funext i j k
    try ring
  have t2 : S3 f (fun i j k => c i j * c j k) = H f c := by
    refine Eq.trans ?_ ((S3_p102 f (fun i j k => c i j * c i k)).trans (S3_ad f c))
    refine congrArg (S3 f) ?_
    funext i j k
    rw [hc j i]
    try ring
  have t3 : S3 f (fun i j k => c i k ^ 2) = mm f * u2 f c := by
    refine Eq.trans ?_ ((S3_p021 f (fun i j k => c i j ^ 2)).trans (S3_ee f c))
    refine congrArg (S3 f) ?_
    funext i j k
    try ring
  have t4 : S3 f (fun i j k => c i k * c j k) = H f c := by
    refine Eq.trans ?_ ((S3_p201 f (fun i j k => c i j * c i k)).trans (S3_ad f c))
    refine congrArg (S3 f) ?_
    funext i j k
    rw [hc k i, hc k j]
    try ring
  have t5 : S3 f (fun i j k => c j k ^ 2) = mm f * u2 f c := by
    refine Eq.trans ?_ ((S3_p120 f (fun i j k => c i j ^ 2)).trans (S3_ee f c))
    refine congrArg (S3 f) ?_
    funext i j k
    try ring
  have e : (fun i j k => (c i j + c i k + c j k) ^ 2) = fun i j k => 1 * (c i j ^ 2) + 2 * (c i j * c i k) + 2 * (c i j * c j k) + 1 * (c i k ^ 2) + 2 * (c i k * c j k) + 1 * (c j k ^ 2) := by
    funext i j k; ring
  rw [e]
  simp only [S3_add, S3_smul, t0, t1, t2, t3, t4, t5]
  ring

lemma S3_pow3 (hc : ∀ i j, c i j = c j i) : S3 f (fun i j k => (c i j + c i k + c j k) ^ 3) = 3 * (mm f * u3 f c) + 18 * (G f c) + 6 * (Tri f c) := by
  have t0 : S3 f (fun i j k => c i j ^ 3) = mm f * u3 f c := by
    refine Eq.trans ?_ ((S3_p012 f (fun i j k => c i j ^ 3)).trans (S3_eee f c))
    refine congrArg (S3 f) ?_
    funext i j k
    try ring
  have t1 : S3 f (fun i j k => c i j ^ 2 * c i k) = G f c := by
    refine Eq.trans ?_ ((S3_p012 f (fun i j k => c i j ^ 2 * c i k)).trans (S3_aad f c))
    refine congrArg (S3 f) ?_
    funext i j k
    try ring
  have t2 : S3 f (fun i j k => c i j ^ 2 * c j k) = G f c := by
    refine Eq.trans ?_ ((S3_p102 f (fun i j k => c i j ^ 2 * c i k)).trans (S3_aad f c))
    refine congrArg (S3 f) ?_
    funext i j k
    rw [hc j i]
    try ring
  have t3 : S3 f (fun i j k => c i j * c i k ^ 2) = G f c := by
    refine Eq.trans ?_ ((S3_p021 f (fun i j k => c i j ^ 2 * c i k)).trans (S3_aad f c))
    refine congrArg (S3 f) ?_
    funext i j k
    try ring
  have t4 : S3 f (fun i j k => c i j * c i k * c j k) = Tri f c := by
    refine Eq.trans ?_ ((S3_p012 f (fun i j k => c i j * c i k * c j k)).trans (S3_tri f c))
    refine congrArg (S3 f) ?_
    funext i j k
    try ring
  have t5 : S3 f (fun i j k => c i j * c j k ^ 2) = G f c := by
    refine Eq.trans ?_ ((S3_p120 f (fun i j k => c i j ^ 2 * c i k)).trans (S3_aad f c))
    refine congrArg (S3 f) ?_
    funext i j k
    rw [hc j i]
    try ring
  have t6 : S3 f (fun i j k => c i k ^ 3) = mm f * u3 f c := by
    refine Eq.trans ?_ ((S3_p021 f (fun i j k => c i j ^ 3)).trans (S3_eee f c))
    refine congrArg (S3 f) ?_
    funext i j k
    try ring
  have t7 : S3 f (fun i j k => c i k ^ 2 * c j k) = G f c := by
    refine Eq.trans ?_ ((S3_p201 f (fun i j k => c i j ^ 2 * c i k)).trans (S3_aad f c))
    refine congrArg (S3 f) ?_
    funext i j k
    rw [hc k i, hc k j]
    try ring
  have t8 : S3 f (fun i j k => c i k * c j k ^ 2) = G f c := by
    refine Eq.trans ?_ ((S3_p210 f (fun i j k => c i j ^ 2 * c i k)).trans (S3_aad f c))
    refine congrArg (S3 f) ?_
    funext i j k
    rw [hc k i, hc k j]
    try ring
  have t9 : S3 f (fun i j k => c j k ^ 3) = mm f * u3 f c := by
    refine Eq.trans ?_ ((S3_p120 f (fun i j k => c i j ^ 3)).trans (S3_eee f c))
    refine congrArg (S3 f) ?_
    funext i j k
    try ring
  have e : (fun i j k => (c i j + c i k + c j k) ^ 3) = fun i j k => 1 * (c i j ^ 3) + 3 * (c i j ^ 2 * c i k) + 3 * (c i j ^ 2 * c j k) + 3 * (c i j * c i k ^ 2) + 6 * (c i j * c i k * c j k) + 3 * (c i j * c j k ^ 2) + 1 * (c i k ^ 3) + 3 * (c i k ^ 2 * c j k) + 3 * (c i k * c j k ^ 2) + 1 * (c j k ^ 3) := by
    funext i j k; ring
  rw [e]
  simp only [S3_add, S3_smul, t0, t1, t2, t3, t4, t5, t6, t7, t8, t9]
  ring

lemma S4_pow1 (hc : ∀ i j, c i j = c j i) : S4 f (fun i j k l => (c i j + c i k + c i l + c j k + c j l + c k l)) = 6 * (mm f ^ 2 * u1 f c) := by
  have t0 : S4 f (fun i j k l => c i j) = mm f ^ 2 * u1 f c := by
    refine Eq.trans ?_ ((S4_p0123 f (fun i j k l => c i j)).trans (S4_e f c))
    refine congrArg (S4 f) ?_
    funext i j k l
    try ring
  have t1 : S4 f (fun i j k l => c i k) = mm f ^ 2 * u1 f c := by
    refine Eq.trans ?_ ((S4_p0213 f (fun i j k l => c i j)).trans (S4_e f c))
    refine congrArg (S4 f) ?_
    funext i j k l
    try ring
  have t2 : S4 f (fun i j k l => c i l) = mm f ^ 2 * u1 f c := by
    refine Eq.trans ?_ ((S4_p0312 f (fun i j k l => c i j)).trans (S4_e f c))
    refine congrArg (S4 f) ?_
    funext i j k l
    try ring
  have t3 : S4 f (fun i j k l => c j k) = mm f ^ 2 * u1 f c := by
    refine Eq.trans ?_ ((S4_p1203 f (fun i j k l => c i j)).trans (S4_e f c))
    refine congrArg (S4 f) ?_
    funext i j k l
    try ring
  have t4 : S4 f (fun i j k l => c j l) = mm f ^ 2 * u1 f c := by
    refine Eq.trans ?_ ((S4_p1302 f (fun i j k l => c i j)).trans (S4_e f c))
    refine congrArg (S4 f) ?_
    funext i j k l
    try ring
  have t5 : S4 f (fun i j k l => c k l) = mm f ^ 2 * u1 f c := by
    refine Eq.trans ?_ ((S4_p2301 f (fun i j k l => c i j)).trans (S4_e f c))
    refine congrArg (S4 f) ?_
    funext i j k l
    try ring
  have e : (fun i j k l => (c i j + c i k + c i l + c j k + c j l + c k l)) = fun i j k l => 1 * (c i j) + 1 * (c i k) + 1 * (c i l) + 1 * (c j k) + 1 * (c j l) + 1 * (c k l) := by
    funext i j k l; ring
  rw [e]
  simp only [S4_add, S4_smul, t0, t1, t2, t3, t4, t5]
  ring

lemma S4_pow2 (hc : ∀ i j, c i j = c j i) : S4 f (fun i j k l => (c i j + c i k + c i l + c j k + c j l + c k l) ^ 2) = 6 * (mm f ^ 2 * u2 f c) + 24 * (mm f * H f c) + 6 * (u1 f c ^ 2) := by
  have t0 : S4 f (fun i j k l => c i j ^ 2) = mm f ^ 2 * u2 f c := by
    refine Eq.trans ?_ ((S4_p0123 f (fun i j k l => c i j ^ 2)).trans (S4_ee f c))
    refine congrArg (S4 f) ?_
    funext i j k l
    try ring
  have t1 : S4 f (fun i j k l => c i j * c i k) = mm f * H f c := by
    refine Eq.trans ?_ ((S4_p0123 f (fun i j k l => c i j * c i k)).trans (S4_ad f c))
    refine congrArg (S4 f) ?_
    funext i j k l
    try ring
  have t2 : S4 f (fun i j k l => c i j * c i l) = mm f * H f c := by
    refine Eq.trans ?_ ((S4_p0132 f (fun i j k l => c i j * c i k)).trans (S4_ad f c))
    refine congrArg (S4 f) ?_
    funext i j k l
    try ring
  have t3 : S4 f (fun i j k l => c i j * c j k) = mm f * H f c := by
    refine Eq.trans ?_ ((S4_p1023 f (fun i j k l => c i j * c i k)).trans (S4_ad f c))
    refine congrArg (S4 f) ?_
    funext i j k l
    rw [hc j i]
    try ring
  have t4 : S4 f (fun i j k l => c i j * c j l) = mm f * H f c := by
    refine Eq.trans ?_ ((S4_p1032 f (fun i j k l => c i j * c i k)).trans (S4_ad f c))
    refine congrArg (S4 f) ?_
    funext i j k l
    rw [hc j i]
    try ring
  have t5 : S4 f (fun i j k l => c i j * c k l) = u1 f c ^ 2 := by
    refine Eq.trans ?_ ((S4_p0123 f (fun i j k l => c i j * c k l)).trans (S4_dj f c))
    refine congrArg (S4 f) ?_
    funext i j k l
    try ring
  have t6 : S4 f (fun i j k l => c i k ^ 2) = mm f ^ 2 * u2 f c := by
    refine Eq.trans ?_ ((S4_p0213 f (fun i j k l => c i j ^ 2)).trans (S4_ee f c))
    refine congrArg (S4 f) ?_
    funext i j k l
    try ring
  have t7 : S4 f (fun i j k l => c i k * c i l) = mm f * H f c := by
    refine Eq.trans ?_ ((S4_p0231 f (fun i j k l => c i j * c i k)).trans (S4_ad f c))
    refine congrArg (S4 f) ?_
    funext i j k l
    try ring
  have t8 : S4 f (fun i j k l => c i k * c j k) = mm f * H f c := by
    refine Eq.trans ?_ ((S4_p2013 f (fun i j k l => c i j * c i k)).trans (S4_ad f c))
    refine congrArg (S4 f) ?_
    funext i j k l
    rw [hc k i, hc k j]
    try ring
  have t9 : S4 f (fun i j k l => c i k * c j l) = u1 f c ^ 2 := by
    refine Eq.trans ?_ ((S4_p0213 f (fun i j k l => c i j * c k l)).trans (S4_dj f c))
    refine congrArg (S4 f) ?_
    funext i j k l
    try ring
  have t10 : S4 f (fun i j k l => c i k * c k l) = mm f * H f c := by
    refine Eq.trans ?_ ((S4_p2031 f (fun i j k l => c i j * c i k)).trans (S4_ad f c))
    refine congrArg (S4 f) ?_
    funext i j k l
    rw [hc k i]
    try ring
  have t11 : S4 f (fun i j k l => c i l ^ 2) = mm f ^ 2 * u2 f c := by
    refine Eq.trans ?_ ((S4_p0312 f (fun i j k l => c i j ^ 2)).trans (S4_ee f c))
    refine congrArg (S4 f) ?_
    funext i j k l
    try ring
  have t12 : S4 f (fun i j k l => c i l * c j k) = u1 f c ^ 2 := by
    refine Eq.trans ?_ ((S4_p0312 f (fun i j k l => c i j * c k l)).trans (S4_dj f c))
    refine congrArg (S4 f) ?_
    funext i j k l
    try ring
  have t13 : S4 f (fun i j k l => c i l * c j l) = mm f * H f c := by
    refine Eq.trans ?_ ((S4_p3012 f (fun i j k l => c i j * c i k)).trans (S4_ad f c))
    refine congrArg (S4 f) ?_
    funext i j k l
    rw [hc l i, hc l j]
    try ring
  have t14 : S4 f (fun i j k l => c i l * c k l) = mm f * H f c := by
    refine Eq.trans ?_ ((S4_p3021 f (fun i j k l => c i j * c i k)).trans (S4_ad f c))
    refine congrArg (S4 f) ?_
    funext i j k l
    rw [hc l i, hc l k]
    try ring
  have t15 : S4 f (fun i j k l => c j k ^ 2) = mm f ^ 2 * u2 f c := by
    refine Eq.trans ?_ ((S4_p1203 f (fun i j k l => c i j ^ 2)).trans (S4_ee f c))
    refine congrArg (S4 f) ?_
    funext i j k l
    try ring
  have t16 : S4 f (fun i j k l => c j k * c j l) = mm f * H f c := by
    refine Eq.trans ?_ ((S4_p1230 f (fun i j k l => c i j * c i k)).trans (S4_ad f c))
    refine congrArg (S4 f) ?_
    funext i j k l
    try ring
  have t17 : S4 f (fun i j k l => c j k * c k l) = mm f * H f c := by
    refine Eq.trans ?_ ((S4_p2130 f (fun i j k l => c i j * c i k)).trans (S4_ad f c))
    refine congrArg (S4 f) ?_
    funext i j k l
    rw [hc k j]
    try ring
  have t18 : S4 f (fun i j k l => c j l ^ 2) = mm f ^ 2 * u2 f c := by
    refine Eq.trans ?_ ((S4_p1302 f (fun i j k l => c i j ^ 2)).trans (S4_ee f c))
    refine congrArg (S4 f) ?_
    funext i j k l
    try ring
  have t19 : S4 f (fun i j k l => c j l * c k l) = mm f * H f c := by
    refine Eq.trans ?_ ((S4_p3120 f (fun i j k l => c i j * c i k)).trans (S4_ad f c))
    refine congrArg (S4 f) ?_
    funext i j k l
    rw [hc l j, hc l k]
    try ring
  have t20 : S4 f (fun i j k l => c k l ^ 2) = mm f ^ 2 * u2 f c := by
    refine Eq.trans ?_ ((S4_p2301 f (fun i j k l => c i j ^ 2)).trans (S4_ee f c))
    refine congrArg (S4 f) ?_
    funext i j k l
    try ring
  have e : (fun i j k l => (c i j + c i k + c i l + c j k + c j l + c k l) ^ 2) = fun i j k l => 1 * (c i j ^ 2) + 2 * (c i j * c i k) + 2 * (c i j * c i l) + 2 * (c i j * c j k) + 2 * (c i j * c j l) + 2 * (c i j * c k l) + 1 * (c i k ^ 2) + 2 * (c i k * c i l) + 2 * (c i k * c j k) + 2 * (c i k * c j l) + 2 * (c i k * c k l) + 1 * (c i l ^ 2) + 2 * (c i l * c j k) + 2 * (c i l * c j l) + 2 * (c i l * c k l) + 1 * (c j k ^ 2) + 2 * (c j k * c j l) + 2 * (c j k * c k l) + 1 * (c j l ^ 2) + 2 * (c j l * c k l) + 1 * (c k l ^ 2) := by
    funext i j k l; ring
  rw [e]
  simp only [S4_add, S4_smul, t0, t1, t2, t3, t4, t5, t6, t7, t8, t9, t10, t11, t12, t13, t14, t15, t16, t17, t18, t19, t20]
  ring

lemma S4_pow3 (hc : ∀ i j, c i j = c j i) : S4 f (fun i j k l => (c i j + c i k + c i l + c j k + c j l + c k l) ^ 3) = 6 * (mm f ^ 2 * u3 f c) + 72 * (mm f * G f c) + 18 * (u2 f c * u1 f c) + 24 * (Star f c) + 24 * (mm f * Tri f c) + 72 * (Path f c) := by
  have t0 : S4 f (fun i j k l => c i j ^ 3) = mm f ^ 2 * u3 f c := by
    refine Eq.trans ?_ ((S4_p0123 f (fun i j k l => c i j ^ 3)).trans (S4_eee f c))
    refine congrArg (S4 f) ?_
    funext i j k l
    try ring
  have t1 : S4 f (fun i j k l => c i j ^ 2 * c i k) = mm f * G f c := by
    refine Eq.trans ?_ ((S4_p0123 f (fun i j k l => c i j ^ 2 * c i k)).trans (S4_aad f c))
    refine congrArg (S4 f) ?_
    funext i j k l
    try ring
  have t2 : S4 f (fun i j k l => c i j ^ 2 * c i l) = mm f * G f c := by
    refine Eq.trans ?_ ((S4_p0132 f (fun i j k l => c i j ^ 2 * c i k)).trans (S4_aad f c))
    refine congrArg (S4 f) ?_
    funext i j k l
    try ring
  have t3 : S4 f (fun i j k l => c i j ^ 2 * c j k) = mm f * G f c := by
    refine Eq.trans ?_ ((S4_p1023 f (fun i j k l => c i j ^ 2 * c i k)).trans (S4_aad f c))
    refine congrArg (S4 f) ?_
    funext i j k l
    rw [hc j i]
    try ring
  have t4 : S4 f (fun i j k l => c i j ^ 2 * c j l) = mm f * G f c := by
    refine Eq.trans ?_ ((S4_p1032 f (fun i j k l => c i j ^ 2 * c i k)).trans (S4_aad f c))
    refine congrArg (S4 f) ?_
    funext i j k l
    rw [hc j i]
    try ring
  have t5 : S4 f (fun i j k l => c i j ^ 2 * c k l) = u2 f c * u1 f c := by
    refine Eq.trans ?_ ((S4_p0123 f (fun i j k l => c i j ^ 2 * c k l)).trans (S4_ddj f c))
    refine congrArg (S4 f) ?_
    funext i j k l
    try ring
  have t6 : S4 f (fun i j k l => c i j * c i k ^ 2) = mm f * G f c := by
    refine Eq.trans ?_ ((S4_p0213 f (fun i j k l => c i j ^ 2 * c i k)).trans (S4_aad f c))
    refine congrArg (S4 f) ?_
    funext i j k l
    try ring
  have t7 : S4 f (fun i j k l => c i j * c i k * c i l) = Star f c := by
    refine Eq.trans ?_ ((S4_p0123 f (fun i j k l => c i j * c i k * c i l)).trans (S4_star f c))
    refine congrArg (S4 f) ?_
    funext i j k l
    try ring
  have t8 : S4 f (fun i j k l => c i j * c i k * c j k) = mm f * Tri f c := by
    refine Eq.trans ?_ ((S4_p0123 f (fun i j k l => c i j * c i k * c j k)).trans (S4_tri f c))
    refine congrArg (S4 f) ?_
    funext i j k l
    try ring
  have t9 : S4 f (fun i j k l => c i j * c i k * c j l) = Path f c := by
    refine Eq.trans ?_ ((S4_p0123 f (fun i j k l => c i j * c i k * c j l)).trans (S4_path f c))
    refine congrArg (S4 f) ?_
    funext i j k l
    try ring
  have t10 : S4 f (fun i j k l => c i j * c i k * c k l) = Path f c := by
    refine Eq.trans ?_ ((S4_p0213 f (fun i j k l => c i j * c i k * c j l)).trans (S4_path f c))
    refine congrArg (S4 f) ?_
    funext i j k l
    try ring
  have t11 : S4 f (fun i j k l => c i j * c i l ^ 2) = mm f * G f c := by
    refine Eq.trans ?_ ((S4_p0312 f (fun i j k l => c i j ^ 2 * c i k)).trans (S4_aad f c))
    refine congrArg (S4 f) ?_
    funext i j k l
    try ring
  have t12 : S4 f (fun i j k l => c i j * c i l * c j k) = Path f c := by
    refine Eq.trans ?_ ((S4_p0132 f (fun i j k l => c i j * c i k * c j l)).trans (S4_path f c))
    refine congrArg (S4 f) ?_
    funext i j k l
    try ring
  have t13 : S4 f (fun i j k l => c i j * c i l * c j l) = mm f * Tri f c := by
    refine Eq.trans ?_ ((S4_p0132 f (fun i j k l => c i j * c i k * c j k)).trans (S4_tri f c))
    refine congrArg (S4 f) ?_
    funext i j k l
    try ring
  have t14 : S4 f (fun i j k l => c i j * c i l * c k l) = Path f c := by
    refine Eq.trans ?_ ((S4_p0312 f (fun i j k l => c i j * c i k * c j l)).trans (S4_path f c))
    refine congrArg (S4 f) ?_
    funext i j k l
    rw [hc l k]
    try ring
  have t15 : S4 f (fun i j k l => c i j * c j k ^ 2) = mm f * G f c := by
    refine Eq.trans ?_ ((S4_p1203 f (fun i j k l => c i j ^ 2 * c i k)).trans (S4_aad f c))
    refine congrArg (S4 f) ?_
    funext i j k l
    rw [hc j i]
    try ring
  have t16 : S4 f (fun i j k l => c i j * c j k * c j l) = Star f c := by
    refine Eq.trans ?_ ((S4_p1023 f (fun i j k l => c i j * c i k * c i l)).trans (S4_star f c))
    refine congrArg (S4 f) ?_
    funext i j k l
    rw [hc j i]
    try ring
  have t17 : S4 f (fun i j k l => c i j * c j k * c k l) = Path f c := by
    refine Eq.trans ?_ ((S4_p1203 f (fun i j k l => c i j * c i k * c j l)).trans (S4_path f c))
    refine congrArg (S4 f) ?_
    funext i j k l
    rw [hc j i]
    try ring
  have t18 : S4 f (fun i j k l => c i j * c j l ^ 2) = mm f * G f c := by
    refine Eq.trans ?_ ((S4_p1302 f (fun i j k l => c i j ^ 2 * c i k)).trans (S4_aad f c))
    refine congrArg (S4 f) ?_
    funext i j k l
    rw [hc j i]
    try ring
  have t19 : S4 f (fun i j k l => c i j * c j l * c k l) = Path f c := by
    refine Eq.trans ?_ ((S4_p1302 f (fun i j k l => c i j * c i k * c j l)).trans (S4_path f c))
    refine congrArg (S4 f) ?_
    funext i j k l
    rw [hc j i, hc l k]
    try ring
  have t20 : S4 f (fun i j k l => c i j * c k l ^ 2) = u2 f c * u1 f c := by
    refine Eq.trans ?_ ((S4_p2301 f (fun i j k l => c i j ^ 2 * c k l)).trans (S4_ddj f c))
    refine congrArg (S4 f) ?_
    funext i j k l
    try ring
  have t21 : S4 f (fun i j k l => c i k ^ 3) = mm f ^ 2 * u3 f c := by
    refine Eq.trans ?_ ((S4_p0213 f (fun i j k l => c i j ^ 3)).trans (S4_eee f c))
    refine congrArg (S4 f) ?_
    funext i j k l
    try ring
  have t22 : S4 f (fun i j k l => c i k ^ 2 * c i l) = mm f * G f c := by
    refine Eq.trans ?_ ((S4_p0231 f (fun i j k l => c i j ^ 2 * c i k)).trans (S4_aad f c))
    refine congrArg (S4 f) ?_
    funext i j k l
    try ring
  have t23 : S4 f (fun i j k l => c i k ^ 2 * c j k) = mm f * G f c := by
    refine Eq.trans ?_ ((S4_p2013 f (fun i j k l => c i j ^ 2 * c i k)).trans (S4_aad f c))
    refine congrArg (S4 f) ?_
    funext i j k l
    rw [hc k i, hc k j]
    try ring
  have t24 : S4 f (fun i j k l => c i k ^ 2 * c j l) = u2 f c * u1 f c := by
    refine Eq.trans ?_ ((S4_p0213 f (fun i j k l => c i j ^ 2 * c k l)).trans (S4_ddj f c))
    refine congrArg (S4 f) ?_
    funext i j k l
    try ring
  have t25 : S4 f (fun i j k l => c i k ^ 2 * c k l) = mm f * G f c := by
    refine Eq.trans ?_ ((S4_p2031 f (fun i j k l => c i j ^ 2 * c i k)).trans (S4_aad f c))
    refine congrArg (S4 f) ?_
    funext i j k l
    rw [hc k i]
    try ring
  have t26 : S4 f (fun i j k l => c i k * c i l ^ 2) = mm f * G f c := by
    refine Eq.trans ?_ ((S4_p0321 f (fun i j k l => c i j ^ 2 * c i k)).trans (S4_aad f c))
    refine congrArg (S4 f) ?_
    funext i j k l
    try ring
  have t27 : S4 f (fun i j k l => c i k * c i l * c j k) = Path f c := by
    refine Eq.trans ?_ ((S4_p0231 f (fun i j k l => c i j * c i k * c j l)).trans (S4_path f c))
    refine congrArg (S4 f) ?_
    funext i j k l
    rw [hc k j]
    try ring
  have t28 : S4 f (fun i j k l => c i k * c i l * c j l) = Path f c := by
    refine Eq.trans ?_ ((S4_p0321 f (fun i j k l => c i j * c i k * c j l)).trans (S4_path f c))
    refine congrArg (S4 f) ?_
    funext i j k l
    rw [hc l j]
    try ring
  have t29 : S4 f (fun i j k l => c i k * c i l * c k l) = mm f * Tri f c := by
    refine Eq.trans ?_ ((S4_p0231 f (fun i j k l => c i j * c i k * c j k)).trans (S4_tri f c))
    refine congrArg (S4 f) ?_
    funext i j k l
    try ring
  have t30 : S4 f (fun i j k l => c i k * c j k ^ 2) = mm f * G f c := by
    refine Eq.trans ?_ ((S4_p2103 f (fun i j k l => c i j ^ 2 * c i k)).trans (S4_aad f c))
    refine congrArg (S4 f) ?_
    funext i j k l
    rw [hc k i, hc k j]
    try ring
  have t31 : S4 f (fun i j k l => c i k * c j k * c j l) = Path f c := by
    refine Eq.trans ?_ ((S4_p1230 f (fun i j k l => c i j * c i k * c j l)).trans (S4_path f c))
    refine congrArg (S4 f) ?_
    funext i j k l
    rw [hc k i]
    try ring
  have t32 : S4 f (fun i j k l => c i k * c j k * c k l) = Star f c := by
    refine Eq.trans ?_ ((S4_p2013 f (fun i j k l => c i j * c i k * c i l)).trans (S4_star f c))
    refine congrArg (S4 f) ?_
    funext i j k l
    rw [hc k i, hc k j]
    try ring
  have t33 : S4 f (fun i j k l => c i k * c j l ^ 2) = u2 f c * u1 f c := by
    refine Eq.trans ?_ ((S4_p1302 f (fun i j k l => c i j ^ 2 * c k l)).trans (S4_ddj f c))
    refine congrArg (S4 f) ?_
    funext i j k l
    try ring
  have t34 : S4 f (fun i j k l => c i k * c j l * c k l) = Path f c := by
    refine Eq.trans ?_ ((S4_p2301 f (fun i j k l => c i j * c i k * c j l)).trans (S4_path f c))
    refine congrArg (S4 f) ?_
    funext i j k l
    rw [hc k i, hc l j]
    try ring
  have t35 : S4 f (fun i j k l => c i k * c k l ^ 2) = mm f * G f c := by
    refine Eq.trans ?_ ((S4_p2301 f (fun i j k l => c i j ^ 2 * c i k)).trans (S4_aad f c))
    refine congrArg (S4 f) ?_
    funext i j k l
    rw [hc k i]
    try ring
  have t36 : S4 f (fun i j k l => c i l ^ 3) = mm f ^ 2 * u3 f c := by
    refine Eq.trans ?_ ((S4_p0312 f (fun i j k l => c i j ^ 3)).trans (S4_eee f c))
    refine congrArg (S4 f) ?_
    funext i j k l
    try ring
  have t37 : S4 f (fun i j k l => c i l ^ 2 * c j k) = u2 f c * u1 f c := by
    refine Eq.trans ?_ ((S4_p0312 f (fun i j k l => c i j ^ 2 * c k l)).trans (S4_ddj f c))
    refine congrArg (S4 f) ?_
    funext i j k l
    try ring
  have t38 : S4 f (fun i j k l => c i l ^ 2 * c j l) = mm f * G f c := by
    refine Eq.trans ?_ ((S4_p3012 f (fun i j k l => c i j ^ 2 * c i k)).trans (S4_aad f c))
    refine congrArg (S4 f) ?_
    funext i j k l
    rw [hc l i, hc l j]
    try ring
  have t39 : S4 f (fun i j k l => c i l ^ 2 * c k l) = mm f * G f c := by
    refine Eq.trans ?_ ((S4_p3021 f (fun i j k l => c i j ^ 2 * c i k)).trans (S4_aad f c))
    refine congrArg (S4 f) ?_
    funext i j k l
    rw [hc l i, hc l k]
    try ring
  have t40 : S4 f (fun i j k l => c i l * c j k ^ 2) = u2 f c * u1 f c := by
    refine Eq.trans ?_ ((S4_p1203 f (fun i j k l => c i j ^ 2 * c k l)).trans (S4_ddj f c))
    refine congrArg (S4 f) ?_
    funext i j k l
    try ring
  have t41 : S4 f (fun i j k l => c i l * c j k * c j l) = Path f c := by
    refine Eq.trans ?_ ((S4_p1320 f (fun i j k l => c i j * c i k * c j l)).trans (S4_path f c))
    refine congrArg (S4 f) ?_
    funext i j k l
    rw [hc l i]
    try ring
  have t42 : S4 f (fun i j k l => c i l * c j k * c k l) = Path f c := by
    refine Eq.trans ?_ ((S4_p2310 f (fun i j k l => c i j * c i k * c j l)).trans (S4_path f c))
    refine congrArg (S4 f) ?_
    funext i j k l
    rw [hc k j, hc l i]
    try ring
  have t43 : S4 f (fun i j k l => c i l * c j l ^ 2) = mm f * G f c := by
    refine Eq.trans ?_ ((S4_p3102 f (fun i j k l => c i j ^ 2 * c i k)).trans (S4_aad f c))
    refine congrArg (S4 f) ?_
    funext i j k l
    rw [hc l i, hc l j]
    try ring
  have t44 : S4 f (fun i j k l => c i l * c j l * c k l) = Star f c := by
    refine Eq.trans ?_ ((S4_p3012 f (fun i j k l => c i j * c i k * c i l)).trans (S4_star f c))
    refine congrArg (S4 f) ?_
    funext i j k l
    rw [hc l i, hc l j, hc l k]
    try ring
  have t45 : S4 f (fun i j k l => c i l * c k l ^ 2) = mm f * G f c := by
    refine Eq.trans ?_ ((S4_p3201 f (fun i j k l => c i j ^ 2 * c i k)).trans (S4_aad f c))
    refine congrArg (S4 f) ?_
    funext i j k l
    rw [hc l i, hc l k]
    try ring
  have t46 : S4 f (fun i j k l => c j k ^ 3) = mm f ^ 2 * u3 f c := by
    refine Eq.trans ?_ ((S4_p1203 f (fun i j k l => c i j ^ 3)).trans (S4_eee f c))
    refine congrArg (S4 f) ?_
    funext i j k l
    try ring
  have t47 : S4 f (fun i j k l => c j k ^ 2 * c j l) = mm f * G f c := by
    refine Eq.trans ?_ ((S4_p1230 f (fun i j k l => c i j ^ 2 * c i k)).trans (S4_aad f c))
    refine congrArg (S4 f) ?_
    funext i j k l
    try ring
  have t48 : S4 f (fun i j k l => c j k ^ 2 * c k l) = mm f * G f c := by
    refine Eq.trans ?_ ((S4_p2130 f (fun i j k l => c i j ^ 2 * c i k)).trans (S4_aad f c))
    refine congrArg (S4 f) ?_
    funext i j k l
    rw [hc k j]
    try ring
  have t49 : S4 f (fun i j k l => c j k * c j l ^ 2) = mm f * G f c := by
    refine Eq.trans ?_ ((S4_p1320 f (fun i j k l => c i j ^ 2 * c i k)).trans (S4_aad f c))
    refine congrArg (S4 f) ?_
    funext i j k l
    try ring
  have t50 : S4 f (fun i j k l => c j k * c j l * c k l) = mm f * Tri f c := by
    refine Eq.trans ?_ ((S4_p1230 f (fun i j k l => c i j * c i k * c j k)).trans (S4_tri f c))
    refine congrArg (S4 f) ?_
    funext i j k l
    try ring
  have t51 : S4 f (fun i j k l => c j k * c k l ^ 2) = mm f * G f c := by
    refine Eq.trans ?_ ((S4_p2310 f (fun i j k l => c i j ^ 2 * c i k)).trans (S4_aad f c))
    refine congrArg (S4 f) ?_
    funext i j k l
    rw [hc k j]
    try ring
  have t52 : S4 f (fun i j k l => c j l ^ 3) = mm f ^ 2 * u3 f c := by
    refine Eq.trans ?_ ((S4_p1302 f (fun i j k l => c i j ^ 3)).trans (S4_eee f c))
    refine congrArg (S4 f) ?_
    funext i j k l
    try ring
  have t53 : S4 f (fun i j k l => c j l ^ 2 * c k l) = mm f * G f c := by
    refine Eq.trans ?_ ((S4_p3120 f (fun i j k l => c i j ^ 2 * c i k)).trans (S4_aad f c))
    refine congrArg (S4 f) ?_
    funext i j k l
    rw [hc l j, hc l k]
    try ring
  have t54 : S4 f (fun i j k l => c j l * c k l ^ 2) = mm f * G f c := by
    refine Eq.trans ?_ ((S4_p3210 f (fun i j k l => c i j ^ 2 * c i k)).trans (S4_aad f c))
    refine congrArg (S4 f) ?_
    funext i j k l
    rw [hc l j, hc l k]
    try ring
  have t55 : S4 f (fun i j k l => c k l ^ 3) = mm f ^ 2 * u3 f c := by
    refine Eq.trans ?_ ((S4_p2301 f (fun i j k l => c i j ^ 3)).trans (S4_eee f c))
    refine congrArg (S4 f) ?_
    funext i j k l
    try ring
  have e : (fun i j k l => (c i j + c i k + c i l + c j k + c j l + c k l) ^ 3) = fun i j k l => 1 * (c i j ^ 3) + 3 * (c i j ^ 2 * c i k) + 3 * (c i j ^ 2 * c i l) + 3 * (c i j ^ 2 * c j k) + 3 * (c i j ^ 2 * c j l) + 3 * (c i j ^ 2 * c k l) + 3 * (c i j * c i k ^ 2) + 6 * (c i j * c i k * c i l) + 6 * (c i j * c i k * c j k) + 6 * (c i j * c i k * c j l) + 6 * (c i j * c i k * c k l) + 3 * (c i j * c i l ^ 2) + 6 * (c i j * c i l * c j k) + 6 * (c i j * c i l * c j l) + 6 * (c i j * c i l * c k l) + 3 * (c i j * c j k ^ 2) + 6 * (c i j * c j k * c j l) + 6 * (c i j * c j k * c k l) + 3 * (c i j * c j l ^ 2) + 6 * (c i j * c j l * c k l) + 3 * (c i j * c k l ^ 2) + 1 * (c i k ^ 3) + 3 * (c i k ^ 2 * c i l) + 3 * (c i k ^ 2 * c j k) + 3 * (c i k ^ 2 * c j l) + 3 * (c i k ^ 2 * c k l) + 3 * (c i k * c i l ^ 2) + 6 * (c i k * c i l * c j k) + 6 * (c i k * c i l * c j l) + 6 * (c i k * c i l * c k l) + 3 * (c i k * c j k ^ 2) + 6 * (c i k * c j k * c j l) + 6 * (c i k * c j k * c k l) + 3 * (c i k * c j l ^ 2) + 6 * (c i k * c j l * c k l) + 3 * (c i k * c k l ^ 2) + 1 * (c i l ^ 3) + 3 * (c i l ^ 2 * c j k) + 3 * (c i l ^ 2 * c j l) + 3 * (c i l ^ 2 * c k l) + 3 * (c i l * c j k ^ 2) + 6 * (c i l * c j k * c j l) + 6 * (c i l * c j k * c k l) + 3 * (c i l * c j l ^ 2) + 6 * (c i l * c j l * c k l) + 3 * (c i l * c k l ^ 2) + 1 * (c j k ^ 3) + 3 * (c j k ^ 2 * c j l) + 3 * (c j k ^ 2 * c k l) + 3 * (c j k * c j l ^ 2) + 6 * (c j k * c j l * c k l) + 3 * (c j k * c k l ^ 2) + 1 * (c j l ^ 3) + 3 * (c j l ^ 2 * c k l) + 3 * (c j l * c k l ^ 2) + 1 * (c k l ^ 3) := by
    funext i j k l; ring
  rw [e]
  simp only [S4_add, S4_smul, t0, t1, t2, t3, t4, t5, t6, t7, t8, t9, t10, t11, t12, t13, t14, t15, t16, t17, t18, t19, t20, t21, t22, t23, t24, t25, t26, t27, t28, t29, t30, t31, t32, t33, t34, t35, t36, t37, t38, t39, t40, t41, t42, t43, t44, t45, t46, t47, t48, t49, t50, t51, t52, t53, t54, t55]
  ring

end PyFENG.JuSums
