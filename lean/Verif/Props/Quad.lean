import Verif.Model.Quad
import Verif.Props.DistQuad
import Mathlib.MeasureTheory.Integral.Pi
import Mathlib.Algebra.MvPolynomial.Eval
import Mathlib.Algebra.MvPolynomial.Degrees

/-!
# C48: the N-dimensional Gauss-Hermite grid
-/

open MeasureTheory ProbabilityTheory

namespace PyFENG

/-- All choices of one element from each list, in lexicographic order (last coordinate fastest). -/
def Spec.cartesian {α : Type*} : List (List α) → List (List α)
  | [] => [[]]
  | l :: ls => l.flatMap fun a => (Spec.cartesian ls).map (a :: ·)

/-- The lists `z`, `w` are a Gauss-Hermite rule for the weight `exp(-x²/2)`: exact for every power below `2 n`. -/
def Spec.IsHermiteList (z w : List ℝ) : Prop :=
  z.length = w.length ∧
    ∀ k < 2 * z.length, (List.zipWith (fun x y => y * x ^ k) z w).sum = √(2 * Real.pi) * Spec.gaussE fun x => x ^ k

namespace NdGHQ

open Spec

lemma mem_cartesian {α : Type*} (ls : List (List α)) (r : List α) :
    r ∈ cartesian ls ↔ List.Forall₂ (· ∈ ·) r ls := by
  induction ls generalizing r with
  | nil => simp [cartesian]
  | cons l ls ih =>
    simp only [cartesian, List.mem_flatMap, List.mem_map, ih]
    constructor
    · rintro ⟨a, ha, t, ht, rfl⟩
      exact .cons ha ht
    · intro h
      cases h with
      | cons ha ht => exact ⟨_, ha, _, ht, rfl⟩

lemma length_cartesian {α : Type*} (ls : List (List α)) : (cartesian ls).length = (ls.map List.length).prod := by
  induction ls with
  | nil => simp [cartesian]
  | cons l ls ih => simp [cartesian, List.length_flatMap, ih]

lemma nodup_cartesian {α : Type*} (ls : List (List α)) (h : ∀ l ∈ ls, l.Nodup) : (cartesian ls).Nodup := by
  induction ls with
  | nil => simp [cartesian]
  | cons l ls ih =>
    simp only [cartesian]
    rw [List.nodup_flatMap]
    refine ⟨fun a _ => (ih fun l hl => h l (List.mem_cons_of_mem _ hl)).map (List.cons_injective), ?_⟩
    have := h l (List.mem_cons_self)
    refine this.imp ?_
    intro a b hab
    rw [Function.onFun, List.disjoint_left]
    intro x hx hx'
    obtain ⟨t, _, rfl⟩ := List.mem_map.1 hx
    obtain ⟨t', _, ht'⟩ := List.mem_map.1 hx'
    exact hab (List.cons.inj ht').1.symm

lemma zipWith_repeat_tile {α β γ : Type*} (f : α → β → γ) (a : List α) (b : List β) :
    List.zipWith f (npRepeat a b.length) (npTile b a.length) = a.flatMap fun x => b.map (f x) := by
  induction a with
  | nil => simp [npRepeat, npTile]
  | cons x a ih =>
    have : npTile b (x :: a).length = b ++ npTile b a.length := by
      simp [npTile, List.replicate_succ]
    rw [this]
    have h2 : npRepeat (x :: a) b.length = List.replicate b.length x ++ npRepeat a b.length := by
      simp [npRepeat]
    rw [h2, List.zipWith_append (by simp), ih]
    simp only [List.flatMap_cons]
    congr 1
    clear ih this h2
    induction b with
    | nil => rfl
    | cons y b ih => simp [List.replicate_succ, ih]

lemma zAll_eq (ls : List (List ℝ)) (l : List ℝ) : ls.foldr zStep (l.map fun x => [x]) = cartesian (ls ++ [l]) := by
  induction ls with
  | nil => simp [cartesian, List.flatMap]; induction l <;> simp_all
  | cons a ls ih => rw [List.foldr_cons, ih, zStep, zipWith_repeat_tile]; rfl

lemma wAll_eq (ls : List (List ℝ)) (l : List ℝ) :
    ls.foldr wStep l = (cartesian (ls ++ [l])).map List.prod := by
  induction ls with
  | nil =>
    simp only [List.foldr_nil, List.nil_append, cartesian]
    induction l with
    | nil => rfl
    | cons x l ih => rw [List.flatMap_cons, List.map_append, ← ih]; simp
  | cons a ls ih =>
    rw [List.foldr_cons, ih, wStep, zipWith_repeat_tile]
    simp [cartesian, List.map_flatMap, Function.comp_def]

lemma scanl_tail (l : List ℕ) (x b : ℕ) : ((l ++ [x]).scanl (· * ·) b) = l.scanl (· * ·) b ++ [l.foldl (· * ·) b * x] := by
  induction l generalizing b with
  | nil => simp
  | cons a l ih => simp [ih]

lemma powers_cons (n : ℕ) (ns : List ℕ) : powers (n :: ns) = (n * ns.prod) :: powers ns := by
  unfold powers npCumprod
  rw [List.reverse_cons, scanl_tail]
  have hne : (ns.reverse.scanl (· * ·) 1) ≠ [] := by cases ns.reverse <;> simp
  rw [List.tail_append_of_ne_nil hne, List.reverse_append]
  have : ns.reverse.foldl (· * ·) 1 = ns.prod := by
    rw [← List.prod_eq_foldl, List.prod_reverse]
  simp [this, mul_comm]

lemma powers_ne_nil (ns : List ℕ) : powers ns ≠ [] := by simp [powers]

lemma powers_head (ns : List ℕ) : ∃ t, powers ns = ns.prod :: t := by
  cases ns with
  | nil => exact ⟨[], by simp [powers, npCumprod]⟩
  | cons n ns => exact ⟨powers ns, by rw [powers_cons]; simp⟩

lemma total_eq (ns : List ℕ) : total ns = ns.prod := by
  obtain ⟨t, ht⟩ := powers_head ns
  simp [total, ht]

lemma indexN_nil (i : ℕ) : indexN [] i = [] := by simp [indexN, powers, npCumprod]

lemma indexN_cons (n : ℕ) (ns : List ℕ) (i : ℕ) :
    indexN (n :: ns) i = (i % (n * ns.prod) / ns.prod) :: indexN ns i := by
  obtain ⟨t, ht⟩ := powers_head ns
  unfold indexN
  rw [powers_cons, List.dropLast_cons_of_ne_nil (powers_ne_nil ns), List.tail_cons]
  conv_lhs => rw [ht]
  simp only [List.zipWith_cons_cons]
  rw [ht]
  simp

lemma indexN_mod (ns : List ℕ) (i m : ℕ) : indexN ns (i % (m * ns.prod)) = indexN ns i := by
  induction ns generalizing m with
  | nil => simp [indexN_nil]
  | cons n ns ih =>
    rw [indexN_cons, indexN_cons, List.prod_cons, ← mul_assoc, ih (m * n)]
    rw [mul_assoc, Nat.mod_mod_of_dvd _ (Dvd.intro_left m rfl)]

lemma range_mul (n P : ℕ) : List.range (n * P) = (List.range n).flatMap fun a => (List.range P).map (a * P + ·) := by
  induction n with
  | zero => simp
  | succ n ih =>
    rw [List.range_succ, List.flatMap_append, ← ih, add_mul, one_mul, List.range_add]
    simp

lemma indexN_add (n : ℕ) (ns : List ℕ) {a b : ℕ} (ha : a < n) (hb : b < ns.prod) :
    indexN (n :: ns) (a * ns.prod + b) = a :: indexN ns b := by
  rw [indexN_cons]
  have hP : 0 < ns.prod := by omega
  congr 1
  · rw [Nat.mod_eq_of_lt, mul_comm a, Nat.mul_add_div hP, Nat.div_eq_of_lt hb, add_zero]
    · calc a * ns.prod + b < a * ns.prod + ns.prod := by omega
        _ = (a + 1) * ns.prod := by ring
        _ ≤ n * ns.prod := Nat.mul_le_mul_right _ ha
  · have := indexN_mod ns (a * ns.prod + b) 1
    rw [← this, one_mul, mul_comm a, Nat.mul_add_mod, Nat.mod_eq_of_lt hb]

/-- **C48** (indices).  `indeces()` lists every multi-index below the sizes exactly once, in lexicographic order. -/
theorem indeces_eq (sizes : List ℕ) :
    indeces sizes = cartesian (sizes.map List.range) ∧ (indeces sizes).Nodup ∧
      ∀ r : List ℕ, r ∈ indeces sizes ↔ List.Forall₂ (· < ·) r sizes := by
  have h : indeces sizes = cartesian (sizes.map List.range) := by
    unfold indeces
    rw [total_eq]
    induction sizes with
    | nil => simp [cartesian, indexN_nil]
    | cons n ns ih =>
      rw [List.prod_cons, range_mul, List.map_flatMap]
      simp only [List.map_cons, cartesian]
      refine List.flatMap_congr fun a ha => ?_
      rw [← ih, List.map_map, List.map_map]
      refine List.map_congr_left fun b hb => ?_
      exact indexN_add n ns (List.mem_range.1 ha) (List.mem_range.1 hb)
  refine ⟨h, ?_, ?_⟩
  · rw [h]
    exact nodup_cartesian _ (by simp [List.nodup_range])
  · intro r
    rw [h, mem_cartesian, List.forall₂_map_right_iff]
    simp only [List.mem_range]

example : indeces [2, 3] = [[0, 0], [0, 1], [0, 2], [1, 0], [1, 1], [1, 2]] := by decide

lemma cartesian_getD {α : Type*} (d : α) (zl : List (List α)) :
    cartesian zl = (cartesian ((zl.map List.length).map List.range)).map (List.zipWith (fun z i => z.getD i d) zl) := by
  induction zl with
  | nil => simp [cartesian]
  | cons z zl ih =>
    simp only [List.map_cons, cartesian, List.map_flatMap, List.map_map]
    conv_lhs => rw [ih]
    have hz : z = (List.range z.length).map fun i => z.getD i d := by
      refine List.ext_getElem (by simp) fun i h1 h2 => ?_
      simp [List.getD_eq_getElem?_getD, h1]
    conv_lhs => rw [hz]
    rw [List.flatMap_map]
    simp [Function.comp_def]

/-- **C48** (nodes).  `z_vec_weight()` returns exactly the Cartesian product of the one-dimensional node lists, each node
vector with the product of its one-dimensional weights, and the number of rows is `total`, the product of the sizes. -/
theorem zVecWeight_eq (zl wl : List (List ℝ)) (hz : zl ≠ []) (hw : wl ≠ []) :
    zVecWeight zl wl = some (cartesian zl, (cartesian wl).map List.prod) ∧
      (cartesian zl).length = total (zl.map List.length) := by
  obtain ⟨za, zb, rfl⟩ := List.exists_cons_of_ne_nil hz |> fun _ => (⟨zl.dropLast, zl.getLast hz, (List.dropLast_append_getLast hz).symm⟩ : ∃ a b, zl = a ++ [b])
  obtain ⟨wa, wb, rfl⟩ := (⟨wl.dropLast, wl.getLast hw, (List.dropLast_append_getLast hw).symm⟩ : ∃ a b, wl = a ++ [b])
  refine ⟨?_, by rw [length_cartesian, total_eq]⟩
  simp [zVecWeight, zAll_eq, wAll_eq]

example : zVecWeight [[-1, 1], [0]] [[1/2, 1/2], [1]] = some ([[-1, 0], [1, 0]], [1/2, 1/2]) := by
  rw [(zVecWeight_eq _ _ (by simp) (by simp)).1]; norm_num [Spec.cartesian]

/-- An empty list of sizes is refused. -/
theorem zVecWeight_empty : zVecWeight [] [] = none := rfl

/-- **C48** (lookup).  `z_vec_weight(ind)` is row `ind` of `z_vec_weight()`, for every valid index; larger indices wrap
around modulo the total. -/
theorem zVecWeightAt_eq (zl wl : List (List ℝ)) (hlen : zl.map List.length = wl.map List.length) (hz : zl ≠ []) :
    ∃ rows weights, zVecWeight zl wl = some (rows, weights) ∧
      ∀ ind, (rows[ind % total (zl.map List.length)]?, weights[ind % total (zl.map List.length)]?) =
        if total (zl.map List.length) = 0 then (none, none) else
          (some (zVecWeightAt (zl.map List.length) zl wl ind).1, some (zVecWeightAt (zl.map List.length) zl wl ind).2) := by
  have hw : wl ≠ [] := by
    rintro rfl
    simp at hlen
    exact hz hlen
  refine ⟨_, _, (zVecWeight_eq zl wl hz hw).1, fun ind => ?_⟩
  have hlw : (cartesian wl).length = total (zl.map List.length) := by rw [length_cartesian, total_eq, hlen]
  have hlz : (cartesian zl).length = total (zl.map List.length) := (zVecWeight_eq zl wl hz hw).2
  set P := total (zl.map List.length) with hP
  split
  · rename_i h0
    rw [h0] at hlw hlz
    rw [List.length_eq_zero_iff] at hlw hlz
    simp [hlw, hlz]
  · rename_i h0
    have hlt : ind % P < P := Nat.mod_lt _ (by omega)
    have hidx : indexN (zl.map List.length) (ind % P) = indexN (zl.map List.length) ind := by
      have := indexN_mod (zl.map List.length) ind 1
      rwa [one_mul, ← total_eq] at this
    have hic := (indeces_eq (zl.map List.length)).1
    have hget : (cartesian ((zl.map List.length).map List.range))[ind % P]? = some (indexN (zl.map List.length) ind) := by
      rw [← hic, indeces, List.getElem?_map, List.getElem?_range hlt, ← hidx]
      rfl
    have h1 : (cartesian zl)[ind % P]? = some (zVecWeightAt (zl.map List.length) zl wl ind).1 := by
      rw [cartesian_getD 0 zl, List.getElem?_map, hget]
      rfl
    have h2 : ((cartesian wl).map List.prod)[ind % P]? = some (zVecWeightAt (zl.map List.length) zl wl ind).2 := by
      rw [cartesian_getD 0 wl, List.map_map, List.getElem?_map, ← hlen, hget]
      rfl
    rw [h1, h2]

/-! ### exactness -/

/-- Sum of `weight * f(row)` over the grid. -/
noncomputable def Spec.gridSum (rows : List (List ℝ)) (weights : List ℝ) (f : List ℝ → ℝ) : ℝ :=
  (List.zipWith (fun r w => w * f r) rows weights).sum

lemma zipWith_flatMap_map {α β γ δ : Type*} (f : α → β → γ) (g : δ → List α) (h : δ → List β) (l : List δ)
    (hl : ∀ x, (g x).length = (h x).length) :
    List.zipWith f (l.flatMap g) (l.flatMap h) = l.flatMap fun x => List.zipWith f (g x) (h x) := by
  induction l with
  | nil => rfl
  | cons a l ih => simp only [List.flatMap_cons]; rw [List.zipWith_append (hl a), ih]

lemma sum_flatMap (l : List (ℝ × ℝ)) (g : ℝ × ℝ → List ℝ) : (l.flatMap g).sum = (l.map fun x => (g x).sum).sum := by
  induction l with
  | nil => rfl
  | cons a l ih => simp [ih]

lemma mul_sum_zipWith {α β : Type*} (c : ℝ) (f : α → β → ℝ) (l : List α) (l' : List β) :
    c * (List.zipWith f l l').sum = (List.zipWith (fun a b => c * f a b) l l').sum := by
  induction l generalizing l' with
  | nil => simp
  | cons a l ih => cases l' with
    | nil => simp
    | cons b l' => simp only [List.zipWith_cons_cons, List.sum_cons, mul_add, ih]

lemma sum_zipWith_add {α β : Type*} (f g : α → β → ℝ) (l : List α) (l' : List β) :
    (List.zipWith (fun a b => f a b + g a b) l l').sum = (List.zipWith f l l').sum + (List.zipWith g l l').sum := by
  induction l generalizing l' with
  | nil => simp
  | cons a l ih => cases l' with
    | nil => simp
    | cons b l' => simp only [List.zipWith_cons_cons, List.sum_cons, ih]; ring

lemma gridSum_finset {ι : Type*} (s : Finset ι) (rows : List (List ℝ)) (ws : List ℝ) (c : ι → ℝ) (f : ι → List ℝ → ℝ) :
    Spec.gridSum rows ws (fun r => ∑ i ∈ s, c i * f i r) = ∑ i ∈ s, c i * Spec.gridSum rows ws (f i) := by
  classical
  unfold Spec.gridSum
  induction s using Finset.induction_on with
  | empty =>
    simp only [Finset.sum_empty, mul_zero]
    induction rows generalizing ws with
    | nil => simp
    | cons r rows ih => cases ws with
      | nil => simp
      | cons w ws => simp [ih]
  | insert a s ha ih =>
    rw [Finset.sum_insert ha, ← ih, mul_sum_zipWith, ← sum_zipWith_add]
    congr 2
    ext r w
    beta_reduce
    rw [Finset.sum_insert ha]
    ring

lemma gridSum_monomial (zl wl : List (List ℝ)) (hlen : zl.map List.length = wl.map List.length) (e : ℕ → ℕ) :
    Spec.gridSum (cartesian zl) ((cartesian wl).map List.prod) (fun r => ∏ i : Fin zl.length, r.getD i 0 ^ e i)
      = ∏ i : Fin zl.length, (List.zipWith (fun x y => y * x ^ e i) (zl.getD i []) (wl.getD i [])).sum := by
  induction zl generalizing wl e with
  | nil =>
    cases wl with
    | nil => simp [cartesian, Spec.gridSum]
    | cons => simp at hlen
  | cons z zl ih =>
    cases wl with
    | nil => simp at hlen
    | cons w wl =>
      simp only [List.map_cons, List.cons.injEq] at hlen
      obtain ⟨hzw, hlen⟩ := hlen
      have ih' := ih wl hlen fun i => e (i + 1)
      have hfin : ∀ (F : ℕ → ℝ), ∏ i : Fin (z :: zl).length, F i = F 0 * ∏ i : Fin zl.length, F (i + 1) := by
        intro F
        show ∏ i : Fin (zl.length + 1), F i = _
        rw [Fin.prod_univ_succ]
        simp
      have hR := hfin fun i => (List.zipWith (fun x y => y * x ^ e i) ((z :: zl).getD i []) ((w :: wl).getD i [])).sum
      have hL : ∀ r : List ℝ, (∏ i : Fin (z :: zl).length, r.getD i 0 ^ e i)
          = r.getD 0 0 ^ e 0 * ∏ i : Fin zl.length, r.getD (i + 1) 0 ^ e (i + 1) := fun r => hfin fun i => r.getD i 0 ^ e i
      simp only [hL]
      refine Eq.trans ?_ hR.symm
      simp only [List.getD_cons_succ, List.getD_cons_zero]
      rw [← ih']
      unfold Spec.gridSum
      simp only [cartesian, List.map_flatMap, List.map_map]
      have hcl : (cartesian zl).length = (cartesian wl).length := by rw [length_cartesian, length_cartesian, hlen]
      have key : ∀ (z w : List ℝ), z.length = w.length →
          (List.zipWith (fun r w => w * (r.getD 0 0 ^ e 0 * ∏ i : Fin zl.length, r.getD (i + 1) 0 ^ e (i + 1)))
            (z.flatMap fun a => (cartesian zl).map (a :: ·))
            (w.flatMap fun a => (cartesian wl).map (List.prod ∘ (a :: ·)))).sum
          = (List.zipWith (fun x y => y * x ^ e 0) z w).sum
            * (List.zipWith (fun r w => w * ∏ i : Fin zl.length, r.getD i 0 ^ e (i + 1)) (cartesian zl)
                ((cartesian wl).map List.prod)).sum := by
        intro z
        induction z with
        | nil => intro w hw; simp
        | cons a z ihz =>
          intro w hw
          cases w with
          | nil => simp at hw
          | cons b w =>
            simp only [List.flatMap_cons]
            rw [List.zipWith_append (by simp [hcl]), List.sum_append, ihz w (by simpa using hw)]
            rw [List.zipWith_cons_cons, List.sum_cons, add_mul]
            congr 1
            rw [List.zipWith_map, List.zipWith_map_right, mul_sum_zipWith]
            congr 2
            ext r v
            simp
            ring
      exact key z w hzw

lemma gaussE_prod_pow {d : ℕ} (e : Fin d → ℕ) :
    ∫ x : Fin d → ℝ, ∏ i, x i ^ e i ∂(Measure.pi fun _ => gaussianReal 0 1) = ∏ i, Spec.gaussE fun x => x ^ e i :=
  integral_fintype_prod_eq_prod fun i x => x ^ e i

/-- **C48** (exactness).  With Gauss-Hermite nodes and weights in every dimension, the grid built by `NdGHQ` integrates every
multivariate polynomial whose degree in variable `i` is below twice the `i`-th size exactly against the standard normal law
of that dimension. -/
theorem exact (zl rawW : List (List ℝ)) (hne : zl ≠ []) (hlen : zl.length = rawW.length)
    (hq : ∀ i < zl.length, Spec.IsHermiteList (zl.getD i []) (rawW.getD i []))
    (p : MvPolynomial (Fin zl.length) ℝ) (hp : ∀ i, p.degreeOf i < 2 * (zl.getD i []).length) :
    ∃ rows weights, zVecWeight zl (wList rawW) = some (rows, weights) ∧
      Spec.gridSum rows weights (fun r => MvPolynomial.eval (fun i : Fin zl.length => r.getD i 0) p)
        = ∫ x : Fin zl.length → ℝ, MvPolynomial.eval x p ∂(Measure.pi fun _ => gaussianReal 0 1) := by
  have hlens : zl.map List.length = (wList rawW).map List.length := by
    refine List.ext_getElem (by simp [wList, hlen]) fun i h1 h2 => ?_
    have h1' : i < zl.length := by simpa using h1
    have := (hq i h1').1
    simp only [List.getD_eq_getElem?_getD, List.getElem?_eq_getElem h1', List.getElem?_eq_getElem (hlen ▸ h1'),
      Option.getD_some] at this
    simp [wList, this]
  have hw : wList rawW ≠ [] := by
    intro h
    rw [h] at hlens
    simp at hlens
    exact hne hlens
  refine ⟨_, _, (zVecWeight_eq zl _ hne hw).1, ?_⟩
  have hd : ∀ m ∈ p.support, ∀ i, m i < 2 * (zl.getD i []).length := fun m hm i =>
    lt_of_le_of_lt (MvPolynomial.monomial_le_degreeOf i hm) (hp i)
  have hone : ∀ m ∈ p.support, ∀ i : Fin zl.length,
      (List.zipWith (fun x y => y * x ^ m i) (zl.getD i []) ((wList rawW).getD i [])).sum = Spec.gaussE fun x => x ^ m i := by
    intro m hm i
    obtain ⟨_, h2⟩ := hq i i.2
    have h3 := h2 (m i) (hd m hm i)
    have h4 : (wList rawW).getD i [] = (rawW.getD i []).map fun x => x / √(2 * Real.pi) := by
      have hi : (i : ℕ) < rawW.length := hlen ▸ i.2
      simp only [wList, List.getD_eq_getElem?_getD, List.getElem?_map, List.getElem?_eq_getElem hi, Option.map_some,
        Option.getD_some]
    have hpos : √(2 * Real.pi) ≠ 0 := by positivity
    rw [h4, List.zipWith_map_right]
    have h5 : (fun (x y : ℝ) => y / √(2 * Real.pi) * x ^ m i) = fun x y => (√(2 * Real.pi))⁻¹ * (y * x ^ m i) := by
      ext x y; field_simp
    rw [h5, ← mul_sum_zipWith, h3]
    field_simp
  have hint : ∀ m : Fin zl.length →₀ ℕ, Integrable (fun x : Fin zl.length → ℝ => p.coeff m * ∏ i, x i ^ m i)
      (Measure.pi fun _ => gaussianReal 0 1) := by
    intro m
    refine Integrable.const_mul ?_ _
    refine Integrable.fintype_prod (f := fun i x => x ^ m i) fun i => ?_
    exact integrable_pow_gauss (m i)
  simp only [MvPolynomial.eval_eq']
  rw [integral_finsetSum _ fun m _ => hint m]
  simp only [integral_const_mul, gaussE_prod_pow]
  rw [gridSum_finset p.support _ _ (fun m => p.coeff m) fun m r => ∏ i : Fin zl.length, r.getD i 0 ^ m i]
  refine Finset.sum_congr rfl fun m hm => ?_
  congr 1
  have := gridSum_monomial zl (wList rawW) hlens fun i => if h : i < zl.length then m ⟨i, h⟩ else 0
  simp only [Fin.is_lt, dite_true, Fin.eta] at this
  rw [this]
  exact Finset.prod_congr rfl fun i _ => hone m hm i

lemma hermiteList_two : Spec.IsHermiteList [-1, 1] [√(2 * Real.pi) / 2, √(2 * Real.pi) / 2] := by
  refine ⟨rfl, fun k hk => ?_⟩
  have h := Spec.hermite_two.exact_pow k (by simpa using hk)
  simp only [Fintype.sum_bool] at h
  simp only [List.zipWith_cons_cons, List.zipWith_nil_right, List.sum_cons, List.sum_nil]
  rw [if_pos trivial, if_neg (by simp)] at h
  linear_combination h

/-- The exactness hypotheses are met, e.g. by the two-point rule in two dimensions. -/
example : ∃ rows weights, zVecWeight [[-1, 1], [-1, 1]]
      (wList [[√(2 * Real.pi) / 2, √(2 * Real.pi) / 2], [√(2 * Real.pi) / 2, √(2 * Real.pi) / 2]]) = some (rows, weights) ∧
      Spec.gridSum rows weights (fun r => MvPolynomial.eval (fun i : Fin 2 => r.getD i 0) (MvPolynomial.X 0 * MvPolynomial.X 1))
        = ∫ x : Fin 2 → ℝ, MvPolynomial.eval x (MvPolynomial.X 0 * MvPolynomial.X 1) ∂(Measure.pi fun _ => gaussianReal 0 1) := by
  refine exact [[-1, 1], [-1, 1]] [[√(2 * Real.pi) / 2, √(2 * Real.pi) / 2], [√(2 * Real.pi) / 2, √(2 * Real.pi) / 2]]
    (by simp) rfl ?_ (MvPolynomial.X (0 : Fin 2) * MvPolynomial.X (1 : Fin 2)) ?_
  · intro i hi
    have : i = 0 ∨ i = 1 := by simp at hi; omega
    rcases this with rfl | rfl <;> exact hermiteList_two
  · intro (i : Fin 2)
    have h : MvPolynomial.degreeOf i (MvPolynomial.X 0 * MvPolynomial.X 1 : MvPolynomial (Fin 2) ℝ) ≤ 1 + 1 := by
      refine (MvPolynomial.degreeOf_mul_le _ _ _).trans (add_le_add ?_ ?_) <;>
        · rw [MvPolynomial.degreeOf_X]; split <;> simp
    fin_cases i <;> exact lt_of_le_of_lt h (by norm_num)

end NdGHQ

/-- **C48** (`GHQ`).  The one-dimensional rule returned by `GHQ(n, loc, scale)` integrates every polynomial of degree below
`2 n` exactly against the normal law with mean `loc` and standard deviation `scale`. -/
theorem ghq_exact (z w : List ℝ) (h : Spec.IsHermiteList z w) (hz : z ≠ []) (loc scale : ℝ) (p : Polynomial ℝ)
    (hp : p.natDegree < 2 * z.length) :
    (List.zipWith (fun x y => y * p.eval x) (ghq z w w.sum loc scale).1 (ghq z w w.sum loc scale).2).sum
      = Spec.gaussE fun x => p.eval (scale * x + loc) := by
  obtain ⟨hl, hq⟩ := h
  have hpos : √(2 * Real.pi) ≠ 0 := by positivity
  have hsum : w.sum = √(2 * Real.pi) := by
    have h0 := hq 0 (by have := List.length_pos_of_ne_nil hz; omega)
    simp only [pow_zero, mul_one, Spec.gaussE, integral_const, probReal_univ, smul_eq_mul] at h0
    rw [← h0]
    congr 1
    refine List.ext_getElem (by simp [hl]) fun i h1 h2 => by simp
  set q : Polynomial ℝ := p.comp (Polynomial.C scale * Polynomial.X + Polynomial.C loc) with hqd
  have hqe : ∀ x, p.eval (scale * x + loc) = q.eval x := fun x => by simp [hqd]
  have hqn : q.natDegree < 2 * z.length := by
    refine lt_of_le_of_lt ?_ hp
    rw [hqd]
    refine Polynomial.natDegree_comp_le.trans ?_
    calc _ ≤ p.natDegree * 1 := Nat.mul_le_mul_left _ (Polynomial.natDegree_linear_le)
      _ = _ := mul_one _
  simp only [hqe, ghq]
  rw [List.zipWith_map, hsum]
  simp only [hqe]
  have hlin : ∀ l l' : List ℝ, (List.zipWith (fun a b => b / √(2 * Real.pi) * q.eval a) l l').sum
      = ∑ i ∈ Finset.range (q.natDegree + 1), q.coeff i * ((√(2 * Real.pi))⁻¹ * (List.zipWith (fun a b => b * a ^ i) l l').sum) := by
    intro l l'
    induction l generalizing l' with
    | nil => simp
    | cons a l ih => cases l' with
      | nil => simp
      | cons b l' =>
        simp only [List.zipWith_cons_cons, List.sum_cons, ih, mul_add, Finset.sum_add_distrib]
        congr 1
        rw [Polynomial.eval_eq_sum_range, Finset.mul_sum]
        exact Finset.sum_congr rfl fun i _ => by field_simp
  rw [hlin]
  simp only [Polynomial.eval_eq_sum_range, Spec.gaussE]
  rw [integral_finsetSum _ fun i _ => (integrable_pow_gauss i).const_mul _]
  refine Finset.sum_congr rfl fun i hi => ?_
  rw [integral_const_mul, hq i (by have := Finset.mem_range.1 hi; omega)]
  congr 1
  rw [Spec.gaussE]
  field_simp

example : (List.zipWith (fun x y => y * (Polynomial.X ^ 2 : Polynomial ℝ).eval x)
    (ghq [-1, 1] [√(2 * Real.pi) / 2, √(2 * Real.pi) / 2] (√(2 * Real.pi) / 2 + (√(2 * Real.pi) / 2 + 0)) 3 2).1
    (ghq [-1, 1] [√(2 * Real.pi) / 2, √(2 * Real.pi) / 2] (√(2 * Real.pi) / 2 + (√(2 * Real.pi) / 2 + 0)) 3 2).2).sum
      = Spec.gaussE fun x => (2 * x + 3) ^ 2 := by
  have := ghq_exact _ _ NdGHQ.hermiteList_two (by simp) 3 2 (Polynomial.X ^ 2) (by simp)
  simpa using this

end PyFENG
