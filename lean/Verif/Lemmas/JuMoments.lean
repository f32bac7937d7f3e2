import Verif.Lemmas.JuSums
import Mathlib.Analysis.Complex.Exponential
import Mathlib.Tactic.FieldSimp

/-!
# Third-order expansions, with explicit constants, of the moments of a sum of lognormals
-/

namespace PyFENG.JuSums

open Finset Real

/-- `f = 1 + a1 + a2 + a3 + O(δ⁴)` with explicit bounds: `a_k` is at most `A_k δ^k`, the rest at most `r δ⁴`. -/
structure BJ (δ f a1 a2 a3 A1 A2 A3 r : ℝ) : Prop where
  h1 : |a1| ≤ A1 * δ
  h2 : |a2| ≤ A2 * δ ^ 2
  h3 : |a3| ≤ A3 * δ ^ 3
  hr : |f - (1 + a1 + a2 + a3)| ≤ r * δ ^ 4

lemma BJ.mono {δ f a1 a2 a3 A1 A2 A3 r r' : ℝ} (h : BJ δ f a1 a2 a3 A1 A2 A3 r) (hr : r ≤ r') (hδ : 0 ≤ δ) : BJ δ f a1 a2 a3 A1 A2 A3 r' :=
  ⟨h.h1, h.h2, h.h3, h.hr.trans (mul_le_mul_of_nonneg_right hr (by positivity))⟩

lemma abs_poly {δ a1 a2 a3 A1 A2 A3 : ℝ} (hδ : 0 ≤ δ) (hδ' : δ ≤ 1 / 6) (hA1 : 0 ≤ A1) (hA2 : 0 ≤ A2) (hA3 : 0 ≤ A3)
    (h1 : |a1| ≤ A1 * δ) (h2 : |a2| ≤ A2 * δ ^ 2) (h3 : |a3| ≤ A3 * δ ^ 3) :
    |1 + a1 + a2 + a3| ≤ 1 + A1 / 6 + A2 / 36 + A3 / 216 := by
  have d2 : δ ^ 2 ≤ 1 / 36 := by nlinarith
  have d3 : δ ^ 3 ≤ 1 / 216 := by nlinarith [sq_nonneg δ]
  have e1 : A1 * δ ≤ A1 * (1 / 6) := mul_le_mul_of_nonneg_left hδ' hA1
  have e2 : A2 * δ ^ 2 ≤ A2 * (1 / 36) := mul_le_mul_of_nonneg_left d2 hA2
  have e3 : A3 * δ ^ 3 ≤ A3 * (1 / 216) := mul_le_mul_of_nonneg_left d3 hA3
  rw [abs_le] at *
  constructor <;> linarith [h1.1, h1.2, h2.1, h2.2, h3.1, h3.2]

lemma BJ.mul {δ f a1 a2 a3 A1 A2 A3 r g b1 b2 b3 B1 B2 B3 s : ℝ} (hδ : 0 ≤ δ) (hδ' : δ ≤ 1 / 6)
    (hA1 : 0 ≤ A1) (hA2 : 0 ≤ A2) (hA3 : 0 ≤ A3) (hr : 0 ≤ r) (hB1 : 0 ≤ B1) (hB2 : 0 ≤ B2) (hB3 : 0 ≤ B3) (hs : 0 ≤ s)
    (hf : BJ δ f a1 a2 a3 A1 A2 A3 r) (hg : BJ δ g b1 b2 b3 B1 B2 B3 s) :
    BJ δ (f * g) (a1 + b1) (a2 + a1 * b1 + b2) (a3 + a2 * b1 + a1 * b2 + b3)
      (A1 + B1) (A2 + A1 * B1 + B2) (A3 + A2 * B1 + A1 * B2 + B3)
      ((1 + A1 / 6 + A2 / 36 + A3 / 216) * s + (1 + B1 / 6 + B2 / 36 + B3 / 216) * r + r * s / 1296
        + (A1 * B3 + A2 * B2 + A3 * B1) + (A2 * B3 + A3 * B2) / 6 + A3 * B3 / 36) := by
  have mb : ∀ {x y X Y p q : ℝ}, |x| ≤ X * p → |y| ≤ Y * q → |x * y| ≤ X * Y * (p * q) := fun {x y X Y p q} hx hy => by
    rw [abs_mul]
    calc |x| * |y| ≤ (X * p) * (Y * q) := mul_le_mul hx hy (abs_nonneg _) ((abs_nonneg _).trans hx)
      _ = _ := by ring
  have d4 : 0 ≤ δ ^ 4 := by positivity
  have p11 := mb hf.h1 hg.h1
  have p12 := mb hf.h1 hg.h2
  have p13 := mb hf.h1 hg.h3
  have p21 := mb hf.h2 hg.h1
  have p22 := mb hf.h2 hg.h2
  have p23 := mb hf.h2 hg.h3
  have p31 := mb hf.h3 hg.h1
  have p32 := mb hf.h3 hg.h2
  have p33 := mb hf.h3 hg.h3
  have pp := abs_poly hδ hδ' hA1 hA2 hA3 hf.h1 hf.h2 hf.h3
  have qq := abs_poly hδ hδ' hB1 hB2 hB3 hg.h1 hg.h2 hg.h3
  have t1 : |(1 + a1 + a2 + a3) * (g - (1 + b1 + b2 + b3))| ≤ (1 + A1 / 6 + A2 / 36 + A3 / 216) * (s * δ ^ 4) := by
    rw [abs_mul]; exact mul_le_mul pp hg.hr (abs_nonneg _) ((abs_nonneg _).trans pp)
  have t2 : |(1 + b1 + b2 + b3) * (f - (1 + a1 + a2 + a3))| ≤ (1 + B1 / 6 + B2 / 36 + B3 / 216) * (r * δ ^ 4) := by
    rw [abs_mul]; exact mul_le_mul qq hf.hr (abs_nonneg _) ((abs_nonneg _).trans qq)
  have d4' : δ ^ 4 ≤ 1 / 1296 := by
    calc δ ^ 4 ≤ (1 / 6) ^ 4 := pow_le_pow_left₀ hδ hδ' 4
      _ = _ := by norm_num
  have t3 : |(f - (1 + a1 + a2 + a3)) * (g - (1 + b1 + b2 + b3))| ≤ r * s / 1296 * δ ^ 4 := by
    refine (mb hf.hr hg.hr).trans ?_
    have := mul_le_mul_of_nonneg_left d4' (mul_nonneg (mul_nonneg hr hs) d4)
    nlinarith
  have k5 : δ ^ 5 ≤ δ ^ 4 / 6 := by
    calc δ ^ 5 = δ ^ 4 * δ := by ring
      _ ≤ δ ^ 4 * (1 / 6) := mul_le_mul_of_nonneg_left hδ' d4
      _ = _ := by ring
  have k6 : δ ^ 6 ≤ δ ^ 4 / 36 := by
    calc δ ^ 6 = δ ^ 5 * δ := by ring
      _ ≤ δ ^ 5 * (1 / 6) := mul_le_mul_of_nonneg_left hδ' (by positivity)
      _ ≤ _ := by linarith
  have q11 : |a1 * b1| ≤ A1 * B1 * δ ^ 2 := by convert p11 using 1; ring
  have q12 : |a1 * b2| ≤ A1 * B2 * δ ^ 3 := by convert p12 using 1; ring
  have q21 : |a2 * b1| ≤ A2 * B1 * δ ^ 3 := by convert p21 using 1; ring
  clear p11 p12 p21
  have m5 : (A2 * B3 + A3 * B2) * δ ^ 5 ≤ (A2 * B3 + A3 * B2) * (δ ^ 4 / 6) := mul_le_mul_of_nonneg_left k5 (by positivity)
  have m6 : (A3 * B3) * δ ^ 6 ≤ (A3 * B3) * (δ ^ 4 / 36) := mul_le_mul_of_nonneg_left k6 (by positivity)
  have n1 := hf.h1; have n2 := hf.h2; have n3 := hf.h3
  have o1 := hg.h1; have o2 := hg.h2; have o3 := hg.h3
  refine ⟨?_, ?_, ?_, ?_⟩
  · rw [abs_le] at *; constructor <;> linarith [n1.1, n1.2, o1.1, o1.2]
  · rw [abs_le] at *; constructor <;> linarith [n2.1, n2.2, o2.1, o2.2, q11.1, q11.2]
  · rw [abs_le] at *; constructor <;> linarith [n3.1, n3.2, o3.1, o3.2, q21.1, q21.2, q12.1, q12.2]
  · have e : f * g - (1 + (a1 + b1) + (a2 + a1 * b1 + b2) + (a3 + a2 * b1 + a1 * b2 + b3)) =
        (1 + a1 + a2 + a3) * (g - (1 + b1 + b2 + b3)) + (1 + b1 + b2 + b3) * (f - (1 + a1 + a2 + a3))
        + (f - (1 + a1 + a2 + a3)) * (g - (1 + b1 + b2 + b3))
        + (a1 * b3 + a2 * b2 + a3 * b1 + a2 * b3 + a3 * b2 + a3 * b3) := by ring
    rw [e]
    generalize (1 + a1 + a2 + a3) * (g - (1 + b1 + b2 + b3)) = X at *
    generalize (1 + b1 + b2 + b3) * (f - (1 + a1 + a2 + a3)) = Y at *
    generalize (f - (1 + a1 + a2 + a3)) * (g - (1 + b1 + b2 + b3)) = Z at *
    have q13 : |a1 * b3| ≤ A1 * B3 * δ ^ 4 := by convert p13 using 1; ring
    have q22 : |a2 * b2| ≤ A2 * B2 * δ ^ 4 := by convert p22 using 1; ring
    have q31 : |a3 * b1| ≤ A3 * B1 * δ ^ 4 := by convert p31 using 1; ring
    have q23 : |a2 * b3| ≤ A2 * B3 * δ ^ 5 := by convert p23 using 1; ring
    have q32 : |a3 * b2| ≤ A3 * B2 * δ ^ 5 := by convert p32 using 1; ring
    have q33 : |a3 * b3| ≤ A3 * B3 * δ ^ 6 := by convert p33 using 1; ring
    clear p13 p22 p23 p31 p32 p33 q11 q12 q21 n1 n2 n3 o1 o2 o3 pp qq hf hg mb e
    rw [abs_le] at *
    constructor <;>
    linarith [t1.1, t1.2, t2.1, t2.2, t3.1, t3.2, q13.1, q13.2, q22.1, q22.2, q31.1, q31.2, q23.1, q23.2, q32.1, q32.2, q33.1, q33.2]

variable {ι : Type*} [Fintype ι] {f : ι → ℝ} {c : ι → ι → ℝ}

lemma S3_one (f : ι → ℝ) : S3 f (fun _ _ _ => 1) = mm f ^ 3 := by
  simp only [S3, mul_one, ← mul_sum, ← sum_mul, mm]; ring

lemma S4_one (f : ι → ℝ) : S4 f (fun _ _ _ _ => 1) = mm f ^ 4 := by
  simp only [S4, mul_one, ← mul_sum, ← sum_mul, mm]; ring

lemma S3_bound (hf : ∀ i, 0 ≤ f i) {g : ι → ι → ι → ℝ} {B : ℝ} (hg : ∀ i j k, |g i j k| ≤ B) : |S3 f g| ≤ B * mm f ^ 3 := by
  rw [← S3_one, ← S3_smul, S3]
  refine (abs_sum_le_sum_abs _ _).trans (sum_le_sum fun i _ => (abs_sum_le_sum_abs _ _).trans (sum_le_sum fun j _ =>
    (abs_sum_le_sum_abs _ _).trans (sum_le_sum fun k _ => ?_)))
  rw [abs_mul, abs_mul, abs_mul, abs_of_nonneg (hf i), abs_of_nonneg (hf j), abs_of_nonneg (hf k), mul_one]
  have := hf i; have := hf j; have := hf k
  have h := hg i j k
  gcongr

lemma S4_bound (hf : ∀ i, 0 ≤ f i) {g : ι → ι → ι → ι → ℝ} {B : ℝ} (hg : ∀ i j k l, |g i j k l| ≤ B) : |S4 f g| ≤ B * mm f ^ 4 := by
  rw [← S4_one, ← S4_smul, S4]
  refine (abs_sum_le_sum_abs _ _).trans (sum_le_sum fun i _ => (abs_sum_le_sum_abs _ _).trans (sum_le_sum fun j _ =>
    (abs_sum_le_sum_abs _ _).trans (sum_le_sum fun k _ => (abs_sum_le_sum_abs _ _).trans (sum_le_sum fun l _ => ?_))))
  rw [abs_mul, abs_mul, abs_mul, abs_mul, abs_of_nonneg (hf i), abs_of_nonneg (hf j), abs_of_nonneg (hf k), abs_of_nonneg (hf l), mul_one]
  have := hf i; have := hf j; have := hf k; have := hf l
  have h := hg i j k l
  gcongr

lemma exp_cubic {x B : ℝ} (hx : |x| ≤ B) (hB : B ≤ 1) : |exp x - (1 + x + x ^ 2 / 2 + x ^ 3 / 6)| ≤ 5 / 96 * B ^ 4 := by
  have h := Real.exp_bound (hx.trans hB) (n := 4) (by norm_num)
  simp only [sum_range_succ, range_zero, sum_empty] at h
  norm_num [Nat.factorial] at h
  have h4 : |x| ^ 4 ≤ B ^ 4 := pow_le_pow_left₀ (abs_nonneg x) hx 4
  linarith

/-- The normalised sums are at most the matching power of the largest covariance. -/
structure Small (f : ι → ℝ) (c : ι → ι → ℝ) (δ : ℝ) : Prop where
  u1 : |u1 f c / mm f ^ 2| ≤ δ
  u2 : |u2 f c / mm f ^ 2| ≤ δ ^ 2
  u3 : |u3 f c / mm f ^ 2| ≤ δ ^ 3
  H : |H f c / mm f ^ 3| ≤ δ ^ 2
  G : |G f c / mm f ^ 3| ≤ δ ^ 3
  Tri : |Tri f c / mm f ^ 3| ≤ δ ^ 3
  Path : |Path f c / mm f ^ 4| ≤ δ ^ 3
  Star : |Star f c / mm f ^ 4| ≤ δ ^ 3

lemma small (hf : ∀ i, 0 ≤ f i) (hm : 0 < mm f) {δ : ℝ} (hc : ∀ i j, |c i j| ≤ δ) : Small f c δ := by
  have p2 : ∀ i j k l, |c i j * c k l| ≤ δ ^ 2 := fun i j k l => by
    rw [abs_mul, sq]; exact mul_le_mul (hc _ _) (hc _ _) (abs_nonneg _) ((abs_nonneg _).trans (hc i j))
  have p3 : ∀ i j k l a b, |c i j * c k l * c a b| ≤ δ ^ 3 := fun i j k l a b => by
    rw [abs_mul, pow_succ]; exact mul_le_mul (p2 _ _ _ _) (hc _ _) (abs_nonneg _) ((abs_nonneg _).trans (p2 i j k l))
  have d3 : ∀ {X B}, |X| ≤ B * mm f ^ 3 → |X / mm f ^ 3| ≤ B := fun {X B} h => by
    rw [abs_div, abs_of_pos (by positivity : 0 < mm f ^ 3), div_le_iff₀ (by positivity)]; exact h
  have d4 : ∀ {X B}, |X| ≤ B * mm f ^ 4 → |X / mm f ^ 4| ≤ B := fun {X B} h => by
    rw [abs_div, abs_of_pos (by positivity : 0 < mm f ^ 4), div_le_iff₀ (by positivity)]; exact h
  have e : ∀ X : ℝ, X / mm f ^ 2 = mm f * X / mm f ^ 3 := fun X => by field_simp
  refine ⟨?_, ?_, ?_, ?_, ?_, ?_, ?_, ?_⟩
  · rw [e, ← S3_e]; exact d3 (S3_bound hf fun i j _ => hc i j)
  · rw [e, ← S3_ee]; exact d3 (S3_bound hf fun i j _ => by rw [sq]; exact p2 _ _ _ _)
  · rw [e, ← S3_eee]; exact d3 (S3_bound hf fun i j _ => by rw [pow_succ, sq]; exact p3 _ _ _ _ _ _)
  · rw [← S3_ad]; exact d3 (S3_bound hf fun i j k => p2 _ _ _ _)
  · rw [← S3_aad]; exact d3 (S3_bound hf fun i j k => by rw [sq]; exact p3 _ _ _ _ _ _)
  · exact d3 (S3_bound (g := fun i j k => c i j * c i k * c j k) hf fun i j k => p3 _ _ _ _ _ _)
  · rw [← S4_path]; exact d4 (S4_bound hf fun i j k l => p3 _ _ _ _ _ _)
  · rw [← S4_star]; exact d4 (S4_bound hf fun i j k l => p3 _ _ _ _ _ _)

lemma S3_expand (s : ι → ι → ι → ℝ) : S3 f (fun i j k => exp (s i j k)) - (mm f ^ 3 + S3 f s + S3 f (fun i j k => s i j k ^ 2) / 2
      + S3 f (fun i j k => s i j k ^ 3) / 6) =
    S3 f fun i j k => exp (s i j k) - (1 + s i j k + s i j k ^ 2 / 2 + s i j k ^ 3 / 6) := by
  have e : (fun i j k => exp (s i j k) - (1 + s i j k + s i j k ^ 2 / 2 + s i j k ^ 3 / 6)) = fun i j k =>
      exp (s i j k) + ((-1) * 1 + ((-1) * s i j k + ((-1 / 2) * s i j k ^ 2 + (-1 / 6) * s i j k ^ 3))) := by
    funext i j k; ring
  rw [e, S3_add, S3_add, S3_add, S3_add]
  rw [S3_smul f (-1) fun _ _ _ => 1, S3_smul, S3_smul f (-1 / 2), S3_smul f (-1 / 6), S3_one]
  ring

lemma S4_expand (s : ι → ι → ι → ι → ℝ) : S4 f (fun i j k l => exp (s i j k l)) - (mm f ^ 4 + S4 f s + S4 f (fun i j k l => s i j k l ^ 2) / 2
      + S4 f (fun i j k l => s i j k l ^ 3) / 6) =
    S4 f fun i j k l => exp (s i j k l) - (1 + s i j k l + s i j k l ^ 2 / 2 + s i j k l ^ 3 / 6) := by
  have e : (fun i j k l => exp (s i j k l) - (1 + s i j k l + s i j k l ^ 2 / 2 + s i j k l ^ 3 / 6)) = fun i j k l =>
      exp (s i j k l) + ((-1) * 1 + ((-1) * s i j k l + ((-1 / 2) * s i j k l ^ 2 + (-1 / 6) * s i j k l ^ 3))) := by
    funext i j k l; ring
  rw [e, S4_add, S4_add, S4_add, S4_add]
  rw [S4_smul f (-1) fun _ _ _ _ => 1, S4_smul, S4_smul f (-1 / 2), S4_smul f (-1 / 6), S4_one]
  ring

section Jets

variable (hf : ∀ i, 0 ≤ f i) (hm : 0 < mm f) (hs : ∀ i j, c i j = c j i) {δ : ℝ} (hc : ∀ i j, |c i j| ≤ δ) (hδ : 0 ≤ δ) (hδ' : δ ≤ 1 / 6)

include hf hm hc hδ hδ'

lemma jet_v : BJ δ (S3 f (fun i j _ => exp (c i j)) / mm f ^ 3) (u1 f c / mm f ^ 2) (u2 f c / mm f ^ 2 / 2) (u3 f c / mm f ^ 2 / 6)
    1 (1 / 2) (1 / 6) (5 / 96) := by
  have hS := small hf hm hc
  refine ⟨by linarith [hS.u1], ?_, ?_, ?_⟩
  · rw [abs_div, abs_two]; linarith [hS.u2]
  · rw [abs_div, abs_of_pos (by norm_num : (0:ℝ) < 6)]; linarith [hS.u3]
  · have h := S3_expand (f := f) fun i j _ => c i j
    rw [S3_e f c, S3_ee f c, S3_eee f c] at h
    have hb := S3_bound hf (g := fun i j _ => exp (c i j) - (1 + c i j + c i j ^ 2 / 2 + c i j ^ 3 / 6)) fun i j _ =>
      exp_cubic (hc i j) (hδ'.trans (by norm_num))
    rw [← h] at hb
    have e : S3 f (fun i j _ => exp (c i j)) / mm f ^ 3 - (1 + u1 f c / mm f ^ 2 + u2 f c / mm f ^ 2 / 2 + u3 f c / mm f ^ 2 / 6) =
        (S3 f (fun i j _ => exp (c i j)) - (mm f ^ 3 + mm f * u1 f c + mm f * u2 f c / 2 + mm f * u3 f c / 6)) / mm f ^ 3 := by
      field_simp
    rw [e, abs_div, abs_of_pos (by positivity : 0 < mm f ^ 3), div_le_iff₀ (by positivity)]
    exact hb

include hs in
lemma jet_3 : |S3 f (fun i j k => exp (c i j + c i k + c j k)) / mm f ^ 3 - (1 + 3 * (u1 f c / mm f ^ 2)
      + (3 / 2 * (u2 f c / mm f ^ 2) + 3 * (H f c / mm f ^ 3))
      + (1 / 2 * (u3 f c / mm f ^ 2) + 3 * (G f c / mm f ^ 3) + Tri f c / mm f ^ 3))| ≤ 5 * δ ^ 4 := by
  have h := S3_expand (f := f) fun i j k => c i j + c i k + c j k
  rw [S3_pow1 hs, S3_pow2 hs, S3_pow3 hs] at h
  have hb := S3_bound hf (g := fun i j k => exp (c i j + c i k + c j k) - (1 + (c i j + c i k + c j k) + (c i j + c i k + c j k) ^ 2 / 2
      + (c i j + c i k + c j k) ^ 3 / 6)) (B := 5 / 96 * (3 * δ) ^ 4) fun i j k => by
    refine exp_cubic ?_ (by linarith)
    have h1 := abs_le.1 (hc i j); have h2 := abs_le.1 (hc i k); have h3 := abs_le.1 (hc j k)
    rw [abs_le]; constructor <;> linarith
  rw [← h] at hb
  have e : ∀ X : ℝ, X / mm f ^ 3 - (1 + 3 * (u1 f c / mm f ^ 2) + (3 / 2 * (u2 f c / mm f ^ 2) + 3 * (H f c / mm f ^ 3))
      + (1 / 2 * (u3 f c / mm f ^ 2) + 3 * (G f c / mm f ^ 3) + Tri f c / mm f ^ 3)) =
      (X - (mm f ^ 3 + 3 * (mm f * u1 f c) + (3 * (mm f * u2 f c) + 6 * H f c) / 2 + (3 * (mm f * u3 f c) + 18 * G f c + 6 * Tri f c) / 6))
        / mm f ^ 3 := fun X => by
    field_simp
    ring
  rw [e, abs_div, abs_of_pos (by positivity : 0 < mm f ^ 3), div_le_iff₀ (by positivity)]
  refine hb.trans (mul_le_mul_of_nonneg_right ?_ (by positivity))
  rw [mul_pow, ← mul_assoc]
  exact mul_le_mul_of_nonneg_right (by norm_num) (by positivity)

include hs in
lemma jet_4 : |S4 f (fun i j k l => exp (c i j + c i k + c i l + c j k + c j l + c k l)) / mm f ^ 4 - (1 + 6 * (u1 f c / mm f ^ 2)
      + (3 * (u2 f c / mm f ^ 2) + 12 * (H f c / mm f ^ 3) + 3 * (u1 f c / mm f ^ 2) ^ 2)
      + (u3 f c / mm f ^ 2 + 12 * (G f c / mm f ^ 3) + 3 * ((u1 f c / mm f ^ 2) * (u2 f c / mm f ^ 2)) + 4 * (Star f c / mm f ^ 4)
        + 4 * (Tri f c / mm f ^ 3) + 12 * (Path f c / mm f ^ 4)))| ≤ 68 * δ ^ 4 := by
  have h := S4_expand (f := f) fun i j k l => c i j + c i k + c i l + c j k + c j l + c k l
  rw [S4_pow1 hs, S4_pow2 hs, S4_pow3 hs] at h
  have hb := S4_bound hf (g := fun i j k l => exp (c i j + c i k + c i l + c j k + c j l + c k l) - (1 + (c i j + c i k + c i l + c j k + c j l + c k l)
      + (c i j + c i k + c i l + c j k + c j l + c k l) ^ 2 / 2 + (c i j + c i k + c i l + c j k + c j l + c k l) ^ 3 / 6))
      (B := 5 / 96 * (6 * δ) ^ 4) fun i j k l => by
    refine exp_cubic ?_ (by linarith)
    have h1 := abs_le.1 (hc i j); have h2 := abs_le.1 (hc i k); have h3 := abs_le.1 (hc j k)
    have h4 := abs_le.1 (hc i l); have h5 := abs_le.1 (hc j l); have h6 := abs_le.1 (hc k l)
    rw [abs_le]; constructor <;> linarith
  rw [← h] at hb
  have e : ∀ X : ℝ, X / mm f ^ 4 - (1 + 6 * (u1 f c / mm f ^ 2)
      + (3 * (u2 f c / mm f ^ 2) + 12 * (H f c / mm f ^ 3) + 3 * (u1 f c / mm f ^ 2) ^ 2)
      + (u3 f c / mm f ^ 2 + 12 * (G f c / mm f ^ 3) + 3 * ((u1 f c / mm f ^ 2) * (u2 f c / mm f ^ 2)) + 4 * (Star f c / mm f ^ 4)
        + 4 * (Tri f c / mm f ^ 3) + 12 * (Path f c / mm f ^ 4))) =
      (X - (mm f ^ 4 + 6 * (mm f ^ 2 * u1 f c) + (6 * (mm f ^ 2 * u2 f c) + 24 * (mm f * H f c) + 6 * (u1 f c ^ 2)) / 2
        + (6 * (mm f ^ 2 * u3 f c) + 72 * (mm f * G f c) + 18 * (u2 f c * u1 f c) + 24 * (Star f c) + 24 * (mm f * Tri f c) + 72 * (Path f c)) / 6))
        / mm f ^ 4 := fun X => by
    field_simp
    ring
  rw [e, abs_div, abs_of_pos (by positivity : 0 < mm f ^ 4), div_le_iff₀ (by positivity)]
  refine hb.trans (mul_le_mul_of_nonneg_right ?_ (by positivity))
  rw [mul_pow, ← mul_assoc]
  exact mul_le_mul_of_nonneg_right (by norm_num) (by positivity)

include hs in
/-- The lognormal third moment `v³` times Ju's factor is the third moment of the basket up to fourth order. -/
lemma third {v D : ℝ} (hv : v = S3 f (fun i j _ => exp (c i j)) / mm f ^ 3)
    (hD : D = 1 + (-3 * (u1 f c / mm f ^ 2) ^ 2 + 3 * (H f c / mm f ^ 3))
      + (8 * (u1 f c / mm f ^ 2) ^ 3 - 9 * (u1 f c / mm f ^ 2) * (H f c / mm f ^ 3) - 3 * (u1 f c / mm f ^ 2) * (u2 f c / mm f ^ 2)
        + 3 * (G f c / mm f ^ 3) + Tri f c / mm f ^ 3)) :
    |v ^ 3 * D - S3 f (fun i j k => exp (c i j + c i k + c j k)) / mm f ^ 3| ≤ 150 * δ ^ 4 := by
  have hS := small hf hm hc
  have j3 := jet_3 hf hm hs hc hδ hδ'
  have jv := jet_v hf hm hc hδ hδ'
  rw [← hv] at jv
  obtain ⟨s1, s2, s3, sH, sG, sT, -, -⟩ := hS
  generalize u1 f c / mm f ^ 2 = p1 at *
  generalize u2 f c / mm f ^ 2 = p2 at *
  generalize u3 f c / mm f ^ 2 = p3 at *
  generalize H f c / mm f ^ 3 = pH at *
  generalize G f c / mm f ^ 3 = pG at *
  generalize Tri f c / mm f ^ 3 = pT at *
  have mb : ∀ {x y p q : ℝ}, |x| ≤ p → |y| ≤ q → |x * y| ≤ p * q := fun {x y p q} hx hy => by
    rw [abs_mul]; exact mul_le_mul hx hy (abs_nonneg _) ((abs_nonneg _).trans hx)
  have m11 : |p1 ^ 2| ≤ δ ^ 2 := by have := mb s1 s1; convert this using 1 <;> ring_nf
  have m111 : |p1 ^ 3| ≤ δ ^ 3 := by have := mb m11 s1; convert this using 1 <;> ring_nf
  have m1H : |p1 * pH| ≤ δ ^ 3 := by have := mb s1 sH; convert this using 1; ring
  have m12 : |p1 * p2| ≤ δ ^ 3 := by have := mb s1 s2; convert this using 1; ring
  have jD : BJ δ D 0 (-3 * p1 ^ 2 + 3 * pH) (8 * p1 ^ 3 - 9 * p1 * pH - 3 * p1 * p2 + 3 * pG + pT) 0 6 24 0 := by
    refine ⟨by simp, ?_, ?_, by rw [hD]; ring_nf; simp⟩
    · rw [abs_le] at *; constructor <;> linarith [m11.1, m11.2, sH.1, sH.2]
    · rw [abs_le] at *; constructor <;> linarith [m111.1, m111.2, m1H.1, m1H.2, m12.1, m12.2, sG.1, sG.2, sT.1, sT.2]
  have jv2 := (jv.mul hδ hδ' (by norm_num) (by norm_num) (by norm_num) (by norm_num) (by norm_num) (by norm_num) (by norm_num) (by norm_num) jv).mono
    (r' := 3 / 4) (by norm_num) hδ
  have jv3 := (jv2.mul hδ hδ' (by norm_num) (by norm_num) (by norm_num) (by norm_num) (by norm_num) (by norm_num) (by norm_num) (by norm_num) jv).mono
    (r' := 4) (by norm_num) hδ
  have jp := (jv3.mul hδ hδ' (by norm_num) (by norm_num) (by norm_num) (by norm_num) (by norm_num) (by norm_num) (by norm_num) (by norm_num) jD).mono
    (r' := 145) (by norm_num) hδ
  have hr := jp.hr
  have e : v * v * v * D - (1 + (p1 + p1 + p1 + 0) +
        (p2 / 2 + p1 * p1 + p2 / 2 + (p1 + p1) * p1 + p2 / 2 + (p1 + p1 + p1) * 0 + (-3 * p1 ^ 2 + 3 * pH)) +
      (p3 / 6 + p2 / 2 * p1 + p1 * (p2 / 2) + p3 / 6 + (p2 / 2 + p1 * p1 + p2 / 2) * p1 + (p1 + p1) * (p2 / 2) + p3 / 6 +
            (p2 / 2 + p1 * p1 + p2 / 2 + (p1 + p1) * p1 + p2 / 2) * 0 +
          (p1 + p1 + p1) * (-3 * p1 ^ 2 + 3 * pH) +
        (8 * p1 ^ 3 - 9 * p1 * pH - 3 * p1 * p2 + 3 * pG + pT))) = v ^ 3 * D - (1 + 3 * p1 + (3 / 2 * p2 + 3 * pH) + (1 / 2 * p3 + 3 * pG + pT)) := by
    ring
  rw [e] at hr
  rw [abs_le] at *
  constructor <;> linarith [hr.1, hr.2, j3.1, j3.2]

include hs in
/-- The lognormal fourth moment `v⁶` times Ju's factor is the fourth moment of the basket up to fourth order. -/
lemma fourth {v D : ℝ} (hv : v = S3 f (fun i j _ => exp (c i j)) / mm f ^ 3)
    (hD : D = 1 + (-12 * (u1 f c / mm f ^ 2) ^ 2 + 12 * (H f c / mm f ^ 3))
      + (52 * (u1 f c / mm f ^ 2) ^ 3 - 72 * (u1 f c / mm f ^ 2) * (H f c / mm f ^ 3) - 12 * (u1 f c / mm f ^ 2) * (u2 f c / mm f ^ 2)
        + 12 * (Path f c / mm f ^ 4) + 4 * (Star f c / mm f ^ 4) + 12 * (G f c / mm f ^ 3) + 4 * (Tri f c / mm f ^ 3))) :
    |v ^ 6 * D - S4 f (fun i j k l => exp (c i j + c i k + c i l + c j k + c j l + c k l)) / mm f ^ 4| ≤ 3000 * δ ^ 4 := by
  have hS := small hf hm hc
  have j4 := jet_4 hf hm hs hc hδ hδ'
  have jv := jet_v hf hm hc hδ hδ'
  rw [← hv] at jv
  obtain ⟨s1, s2, s3, sH, sG, sT, sP, sS⟩ := hS
  generalize u1 f c / mm f ^ 2 = p1 at *
  generalize u2 f c / mm f ^ 2 = p2 at *
  generalize u3 f c / mm f ^ 2 = p3 at *
  generalize H f c / mm f ^ 3 = pH at *
  generalize G f c / mm f ^ 3 = pG at *
  generalize Tri f c / mm f ^ 3 = pT at *
  generalize Path f c / mm f ^ 4 = pP at *
  generalize Star f c / mm f ^ 4 = pS at *
  have mb : ∀ {x y p q : ℝ}, |x| ≤ p → |y| ≤ q → |x * y| ≤ p * q := fun {x y p q} hx hy => by
    rw [abs_mul]; exact mul_le_mul hx hy (abs_nonneg _) ((abs_nonneg _).trans hx)
  have m11 : |p1 ^ 2| ≤ δ ^ 2 := by have := mb s1 s1; convert this using 1 <;> ring_nf
  have m111 : |p1 ^ 3| ≤ δ ^ 3 := by have := mb m11 s1; convert this using 1 <;> ring_nf
  have m1H : |p1 * pH| ≤ δ ^ 3 := by have := mb s1 sH; convert this using 1; ring
  have m12 : |p1 * p2| ≤ δ ^ 3 := by have := mb s1 s2; convert this using 1; ring
  have jD : BJ δ D 0 (-12 * p1 ^ 2 + 12 * pH) (52 * p1 ^ 3 - 72 * p1 * pH - 12 * p1 * p2 + 12 * pP + 4 * pS + 12 * pG + 4 * pT) 0 24 168 0 := by
    refine ⟨by simp, ?_, ?_, by rw [hD]; ring_nf; simp⟩
    · rw [abs_le] at *; constructor <;> linarith [m11.1, m11.2, sH.1, sH.2]
    · rw [abs_le] at *; constructor <;> linarith [m111.1, m111.2, m1H.1, m1H.2, m12.1, m12.2, sG.1, sG.2, sT.1, sT.2, sP.1, sP.2, sS.1, sS.2]
  have jv2 := (jv.mul hδ hδ' (by norm_num) (by norm_num) (by norm_num) (by norm_num) (by norm_num) (by norm_num) (by norm_num) (by norm_num) jv).mono
    (r' := 3 / 4) (by norm_num) hδ
  have jv3 := (jv2.mul hδ hδ' (by norm_num) (by norm_num) (by norm_num) (by norm_num) (by norm_num) (by norm_num) (by norm_num) (by norm_num) jv).mono
    (r' := 4) (by norm_num) hδ
  have jv6 := (jv3.mul hδ hδ' (by norm_num) (by norm_num) (by norm_num) (by norm_num) (by norm_num) (by norm_num) (by norm_num) (by norm_num) jv3).mono
    (r' := 70) (by norm_num) hδ
  have jp := (jv6.mul hδ hδ' (by norm_num) (by norm_num) (by norm_num) (by norm_num) (by norm_num) (by norm_num) (by norm_num) (by norm_num) jD).mono
    (r' := 2900) (by norm_num) hδ
  have hr := jp.hr
  have hr' : |v ^ 6 * D - (1 + 6 * p1 + (3 * p2 + 12 * pH + 3 * p1 ^ 2) + (p3 + 12 * pG + 3 * (p1 * p2) + 4 * pS + 4 * pT + 12 * pP))|
      ≤ 2900 * δ ^ 4 := by
    convert hr using 2; ring
  rw [abs_le] at *
  constructor <;> linarith [hr'.1, hr'.2, j4.1, j4.2]

end Jets

end PyFENG.JuSums
