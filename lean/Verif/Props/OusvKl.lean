import Verif.Model.Ousv
import Verif.Lemmas.CothSeries

/-!
# C112: the tail sums of the Karhunen-Loève expansion
-/

set_option linter.unusedSimpArgs false

namespace PyFENG

open Real Filter Topology

/-- The amplitude `a_n = √(2 / (x² + (nπ)²))` of the documentation, `n = 1, 2, ...`. -/
noncomputable def Spec.klA (x : ℝ) (n : ℕ) : ℝ := √(2 / (x ^ 2 + (n * π) ^ 2))

/-- `s` is the sum of `f n` over the integers `n > ns` which are all (`None`), odd (`1`) or even (`2`). -/
def Spec.IsTail (p : Ousv.Parity) (ns : ℕ) (f : ℕ → ℝ) (s : ℝ) : Prop :=
  HasSum (fun n : {n : ℕ // ns < n ∧ (p = .odd → n % 2 = 1) ∧ (p = .even → n % 2 = 0)} => f n) s

namespace Ousv

lemma sinh_ne0 {x : ℝ} (hx : x ≠ 0) : sinh x ≠ 0 := by rw [Ne, ← sinh_zero, sinh_inj]; exact hx

lemma nPi2_pole (k : ℕ) : nPi2 k = Coth.pole k := by unfold nPi2 Coth.pole; ring

lemma pole_double (j : ℕ) : Coth.pole (2 * j + 1) = 4 * Coth.pole j := by unfold Coth.pole; push_cast; ring

/-- Sums over all, odd and even positions from the closed form of the full series and its scaling under halving. -/
lemma isTail_of {F : ℝ → ℕ → ℝ} {A : ℝ → ℝ} (r : ℕ) (hA : ∀ x, x ≠ 0 → HasSum (F x) (A x)) (hF : ∀ x j, F x (2 * j + 1) = F (x / 2) j / 2 ^ r)
    {x : ℝ} (hx : x ≠ 0) (ns : ℕ) (p : Parity) :
    Spec.IsTail p ns (fun n => F x (n - 1)) ((match p with | .even => A (x / 2) / 2 ^ r | .odd => A x - A (x / 2) / 2 ^ r | .all => A x) - sliceSum p ns (F x)) := by
  have he : HasSum (fun k => if Parity.even.keep k then F x k else 0) (A (x / 2) / 2 ^ r) := by
    have h1 := (hA (x / 2) (by positivity)).div_const (2 ^ r)
    have hinj : Function.Injective fun j : ℕ => 2 * j + 1 := fun a b h => by simpa using h
    rw [← hinj.hasSum_iff]
    · refine h1.congr_fun fun j => ?_
      simp [Parity.keep, hF, Nat.add_mod]
    · intro k hk
      rw [if_neg]
      intro h
      simp [Parity.keep] at h
      exact hk ⟨k / 2, by simp; omega⟩
  suffices H : ∀ V, HasSum (fun k => if p.keep k then F x k else 0) V → Spec.IsTail p ns (fun n => F x (n - 1)) (V - sliceSum p ns (F x)) by
    refine H _ ?_
    cases p with
    | all => simpa [Parity.keep] using hA x hx
    | even => exact he
    | odd =>
      refine ((hA x hx).sub he).congr_fun fun k => ?_
      rcases Nat.mod_two_eq_zero_or_one k with h | h <;> simp [Parity.keep, h]
  intro V hall
  have ht := (hasSum_nat_add_iff' ns).2 hall
  have hsl : ∑ k ∈ Finset.range ns, (if p.keep k then F x k else 0) = sliceSum p ns (F x) := by rw [sliceSum, Finset.sum_filter]
  rw [hsl] at ht
  unfold Spec.IsTail
  set S := {n : ℕ | ns < n ∧ (p = .odd → n % 2 = 1) ∧ (p = .even → n % 2 = 0)} with hS
  have hi : HasSum (S.indicator fun n => F x (n - 1)) (V - sliceSum p ns (F x)) := by
    have hinj : Function.Injective fun k : ℕ => k + ns + 1 := fun a b h => by simpa using h
    rw [← hinj.hasSum_iff]
    · refine ht.congr_fun fun k => ?_
      have hk : p.keep (k + ns) = true ↔ k + ns + 1 ∈ S := by
        rw [hS, Set.mem_ofPred_eq]
        cases p <;> simp [Parity.keep] <;> omega
      by_cases h : k + ns + 1 ∈ S
      · simp only [Function.comp, Set.indicator_of_mem h, if_pos (hk.2 h), Nat.add_sub_cancel]
      · simp only [Function.comp, Set.indicator_of_notMem h, if_neg (fun h' => h (hk.1 h'))]
    · intro n hn
      refine Set.indicator_of_notMem (fun h => hn ⟨n - ns - 1, ?_⟩) _
      have := h.1
      simp only
      omega
  exact (hasSum_subtype_iff_indicator (s := S)).2 hi

lemma klA_sq (x : ℝ) (k : ℕ) : Spec.klA x (k + 1) ^ 2 = 2 / (x ^ 2 + Coth.pole k) := by
  unfold Spec.klA
  rw [sq_sqrt (by positivity)]
  unfold Coth.pole
  push_cast
  ring_nf

lemma IsTail.congr {p : Parity} {ns : ℕ} {f g : ℕ → ℝ} {s : ℝ} (h : Spec.IsTail p ns f s) (e : ∀ k, f (k + 1) = g (k + 1)) : Spec.IsTail p ns g s := by
  unfold Spec.IsTail at *
  refine h.congr_fun fun n => ?_
  obtain ⟨k, hk⟩ : ∃ k, (n : ℕ) = k + 1 := ⟨n - 1, by have := n.2.1; omega⟩
  rw [hk, e]

/-- **C112.** `_a2sum(mr_t, ns, odd)` is the tail sum `Σ_{n > ns} a_n²` over all, odd or even `n`. -/
theorem a2sum_correct {x : ℝ} (hx : x ≠ 0) (ns : ℕ) (p : Parity) : Spec.IsTail p ns (fun n => Spec.klA x n ^ 2) (a2sum x ns p) := by
  have hA : ∀ x, x ≠ 0 → HasSum (fun k => 2 / (x ^ 2 + nPi2 k)) (a2All x) := fun x hx => by
    have h := (Coth.hasSum_one hx).mul_left 2
    have e : a2All x = 2 * ((x * (cosh x / sinh x) - 1) / (2 * x ^ 2)) := by
      unfold a2All
      rw [tanh_eq_sinh_div_cosh]
      have := sinh_ne0 hx; have := cosh_pos x
      field_simp
    rw [e]
    exact h.congr_fun fun k => by rw [nPi2_pole]; ring
  refine IsTail.congr (isTail_of 2 hA (fun x j => ?_) hx ns p) fun k => ?_
  · rw [nPi2_pole, nPi2_pole, pole_double]
    have := Coth.pole_pos j
    have : (x / 2) ^ 2 + Coth.pole j ≠ 0 := by positivity
    have : x ^ 2 + 4 * Coth.pole j ≠ 0 := by positivity
    field_simp
    norm_num
  · rw [klA_sq, Nat.add_sub_cancel, nPi2_pole]

/-- **C112.** `_a2overn2sum(mr_t, ns, odd)` is the tail sum `Σ_{n > ns} a_n² / (nπ)²`. -/
theorem a2overn2sum_correct {x : ℝ} (hx : x ≠ 0) (ns : ℕ) (p : Parity) : Spec.IsTail p ns (fun n => Spec.klA x n ^ 2 / (n * π) ^ 2) (a2n2sum x ns p) := by
  have hA : ∀ x, x ≠ 0 → HasSum (fun k => 2 / nPi2 k / (x ^ 2 + nPi2 k)) (a2n2All x) := fun x hx => by
    have h := ((Coth.hasSum_pole1.mul_left 2).sub ((Coth.hasSum_one hx).mul_left 2)).div_const (x ^ 2)
    have e : a2n2All x = (2 * (1 / 6) - 2 * ((x * (cosh x / sinh x) - 1) / (2 * x ^ 2))) / x ^ 2 := by
      unfold a2n2All
      rw [tanh_eq_sinh_div_cosh]
      have := sinh_ne0 hx; have := cosh_pos x
      field_simp
      ring
    rw [e]
    refine h.congr_fun fun k => ?_
    rw [nPi2_pole]
    have := Coth.pole_pos k
    have : x ^ 2 + Coth.pole k ≠ 0 := by positivity
    field_simp
    ring
  refine IsTail.congr (isTail_of 4 hA (fun x j => ?_) hx ns p) fun k => ?_
  · rw [nPi2_pole, nPi2_pole, pole_double]
    have := Coth.pole_pos j
    have : (x / 2) ^ 2 + Coth.pole j ≠ 0 := by positivity
    have : x ^ 2 + 4 * Coth.pole j ≠ 0 := by positivity
    field_simp
    ring
  · rw [klA_sq, Nat.add_sub_cancel, nPi2_pole, show (((k + 1 : ℕ) : ℝ) * π) ^ 2 = Coth.pole k by unfold Coth.pole; push_cast; ring]
    have := Coth.pole_pos k
    have : x ^ 2 + Coth.pole k ≠ 0 := by positivity
    field_simp

lemma a4_hasSum {x : ℝ} (hx : x ≠ 0) : HasSum (fun k => 4 / (x ^ 2 + nPi2 k) ^ 2) (a4All x) := by
  have h := (Coth.hasSum_two hx).mul_left 4
  have e : a4All x = 4 * ((x * (cosh x / sinh x) + x ^ 2 * (1 / sinh x) ^ 2 - 2) / (4 * x ^ 4)) := by
    unfold a4All
    rw [tanh_eq_sinh_div_cosh]
    have := sinh_ne0 hx; have := cosh_pos x
    field_simp
  rw [e]
  exact h.congr_fun fun k => by rw [nPi2_pole]; ring

lemma a6_hasSum {x : ℝ} (hx : x ≠ 0) : HasSum (fun k => 8 / (x ^ 2 + nPi2 k) ^ 3) (a6All x) := by
  have h := (Coth.hasSum_three hx).mul_left 8
  have e : a6All x = 8 * ((2 * x ^ 3 * (cosh x / sinh x) * (1 / sinh x) ^ 2 + 3 * x ^ 2 * (1 / sinh x) ^ 2 + 3 * x * (cosh x / sinh x) - 8) / (16 * x ^ 6)) := by
    unfold a6All
    rw [tanh_eq_sinh_div_cosh]
    have := sinh_ne0 hx; have := cosh_pos x
    field_simp
    ring
  rw [e]
  exact h.congr_fun fun k => by rw [nPi2_pole]; ring

/-- **C112.** `_a4sum(mr_t, ns, odd)` is the tail sum `Σ_{n > ns} a_n⁴`. -/
theorem a4sum_correct {x : ℝ} (hx : x ≠ 0) (ns : ℕ) (p : Parity) : Spec.IsTail p ns (fun n => Spec.klA x n ^ 4) (a4sum x ns p) := by
  refine IsTail.congr (isTail_of 4 (fun _ => a4_hasSum) (fun x j => ?_) hx ns p) fun k => ?_
  · rw [nPi2_pole, nPi2_pole, pole_double]
    have := Coth.pole_pos j
    have : (x / 2) ^ 2 + Coth.pole j ≠ 0 := by positivity
    have : x ^ 2 + 4 * Coth.pole j ≠ 0 := by positivity
    field_simp
    ring
  · rw [show Spec.klA x (k + 1) ^ 4 = (Spec.klA x (k + 1) ^ 2) ^ 2 by ring, klA_sq, Nat.add_sub_cancel, nPi2_pole, div_pow]
    norm_num

/-- **C112.** `_a6sum(mr_t, ns, odd)` is the tail sum `Σ_{n > ns} a_n⁶`. -/
theorem a6sum_correct {x : ℝ} (hx : x ≠ 0) (ns : ℕ) (p : Parity) : Spec.IsTail p ns (fun n => Spec.klA x n ^ 6) (a6sum x ns p) := by
  refine IsTail.congr (isTail_of 6 (fun _ => a6_hasSum) (fun x j => ?_) hx ns p) fun k => ?_
  · rw [nPi2_pole, nPi2_pole, pole_double]
    have := Coth.pole_pos j
    have : (x / 2) ^ 2 + Coth.pole j ≠ 0 := by positivity
    have : x ^ 2 + 4 * Coth.pole j ≠ 0 := by positivity
    field_simp
    ring
  · rw [show Spec.klA x (k + 1) ^ 6 = (Spec.klA x (k + 1) ^ 2) ^ 3 by ring, klA_sq, Nat.add_sub_cancel, nPi2_pole, div_pow]
    norm_num

/-- **C112.** `_a6n2sum(mr_t, ns, odd)` is the tail sum `Σ_{n > ns} (nπ)² a_n⁶`. -/
theorem a6n2sum_correct {x : ℝ} (hx : x ≠ 0) (ns : ℕ) (p : Parity) : Spec.IsTail p ns (fun n => (n * π) ^ 2 * Spec.klA x n ^ 6) (a6n2sum x ns p) := by
  have hA : ∀ x, x ≠ 0 → HasSum (fun k => nPi2 k * 8 / (x ^ 2 + nPi2 k) ^ 3) (a6n2All x) := fun x hx => by
    have h := ((a4_hasSum hx).mul_left 2).sub ((a6_hasSum hx).mul_left (x ^ 2))
    have e : a6n2All x = 2 * a4All x - x ^ 2 * a6All x := by simp [a6n2All, a4sum, a6sum, sliceSum]
    rw [e]
    refine h.congr_fun fun k => ?_
    rw [nPi2_pole]
    have := Coth.pole_pos k
    have : x ^ 2 + Coth.pole k ≠ 0 := by positivity
    field_simp
    ring
  refine IsTail.congr (isTail_of 4 hA (fun x j => ?_) hx ns p) fun k => ?_
  · rw [nPi2_pole, nPi2_pole, pole_double]
    have := Coth.pole_pos j
    have : (x / 2) ^ 2 + Coth.pole j ≠ 0 := by positivity
    have : x ^ 2 + 4 * Coth.pole j ≠ 0 := by positivity
    field_simp
    ring
  · rw [show Spec.klA x (k + 1) ^ 6 = (Spec.klA x (k + 1) ^ 2) ^ 3 by ring, klA_sq, Nat.add_sub_cancel, nPi2_pole,
      show (((k + 1 : ℕ) : ℝ) * π) ^ 2 = Coth.pole k by unfold Coth.pole; push_cast; ring, div_pow]
    ring

/-- **C112.** `unexplained_var_ratio(mr_t, ns)` lies in `[0, 1]`, equals 1 without sine terms and tends to 0 as the number of sine terms grows. -/
theorem unexplained_ratio {x : ℝ} (hx : x ≠ 0) : unexplainedVarRatio x 0 = 1 ∧ (∀ ns, 0 < unexplainedVarRatio x ns ∧ unexplainedVarRatio x (ns + 1) < unexplainedVarRatio x ns) ∧
    Tendsto (unexplainedVarRatio x) atTop (𝓝 0) := by
  have hs := a4_hasSum hx
  have hpos : ∀ k, 0 < 4 / (x ^ 2 + nPi2 k) ^ 2 := fun k => by rw [nPi2_pole]; have := Coth.pole_pos k; positivity
  have e : ∀ ns, a4sum x ns .all = a4All x - ∑ k ∈ Finset.range ns, 4 / (x ^ 2 + nPi2 k) ^ 2 := fun ns => by simp [a4sum, sliceSum, Parity.keep]
  have h0 : a4sum x 0 .all = a4All x := by simp [e]
  have hA : 0 < a4All x := by rw [← hs.tsum_eq]; exact hs.summable.tsum_pos (fun k => (hpos k).le) 0 (hpos 0)
  have ht : ∀ ns, 0 < a4sum x ns .all := fun ns => by
    rw [e]
    have h2 := (hasSum_nat_add_iff' ns).2 hs
    rw [← h2.tsum_eq]
    exact h2.summable.tsum_pos (fun k => (hpos (k + ns)).le) 0 (hpos _)
  refine ⟨?_, fun ns => ⟨?_, ?_⟩, ?_⟩
  · unfold unexplainedVarRatio
    exact div_self (ht 0).ne'
  · exact div_pos (ht _) (ht _)
  · unfold unexplainedVarRatio
    refine div_lt_div_of_pos_right ?_ (ht 0)
    rw [e, e, Finset.sum_range_succ]
    linarith [hpos ns]
  · have h1 : Tendsto (fun ns => a4sum x ns .all) atTop (𝓝 0) := by
      simp_rw [e]
      simpa using (tendsto_const_nhds (x := a4All x)).sub hs.tendsto_sum_nat
    have h2 := h1.div_const (a4sum x 0 .all)
    rw [zero_div] at h2
    exact h2

/-- A concrete tail: the odd tail after two terms at `κT = 1`. -/
example : Spec.IsTail .odd 2 (fun n => Spec.klA 1 n ^ 4) (a4sum 1 2 .odd) := a4sum_correct one_ne_zero 2 .odd

end Ousv

end PyFENG
