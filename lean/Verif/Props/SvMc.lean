import Verif.Model.SvMc
import Mathlib.MeasureTheory.Integral.Bochner.Basic
import Mathlib.MeasureTheory.Function.L1Space.Integrable
import Mathlib.Probability.Independence.InfinitePi
import Mathlib.Probability.Independence.Integration
import Verif.Lemmas.Moments

/-!
# C35, C36, C76: time grid, random numbers and Brownian increments of the Monte-Carlo base class
-/

open MeasureTheory ProbabilityTheory

namespace PyFENG.McState

/-! ### C35: the time grid -/

/-- **C35.**  For a positive expiry, `tobs(T)` is a non-empty strictly increasing list of positive times ending exactly at
`T`; all steps are equal to `T / length`; no step exceeds `dt` (when one is given and is at most `T`, or is `≥ T` with a single
step), and no coarser uniform grid would do. -/
theorem tobs_spec {T : ℝ} (hT : 0 < T) (dt : Option ℝ) (hdt : ∀ d, dt = some d → 0 < d) :
    (tobs dt T) ≠ [] ∧ (tobs dt T).Pairwise (· < ·) ∧ (∀ t ∈ tobs dt T, 0 < t ∧ t ≤ T) ∧ (tobs dt T).getLast? = some T ∧
      (∀ k < (tobs dt T).length, diff0 (tobs dt T) k = T / (tobs dt T).length) ∧
      (∀ d, dt = some d → T / (tobs dt T).length ≤ d) ∧
      (∀ d, dt = some d → ∀ n : ℕ, 0 < n → T / n ≤ d → (tobs dt T).length ≤ n) := by
  have single : ∀ l : List ℝ, l = [T] → (∀ d, dt = some d → T ≤ d) →
      l ≠ [] ∧ l.Pairwise (· < ·) ∧ (∀ t ∈ l, 0 < t ∧ t ≤ T) ∧ l.getLast? = some T ∧
      (∀ k < l.length, diff0 l k = T / l.length) ∧ (∀ d, dt = some d → T / l.length ≤ d) ∧
      (∀ d, dt = some d → ∀ n : ℕ, 0 < n → T / n ≤ d → l.length ≤ n) := by
    rintro l rfl hd
    refine ⟨by simp, by simp, by simp [hT], by simp, ?_, ?_, ?_⟩
    · intro k hk
      have : k = 0 := by simpa using hk
      subst this
      simp [diff0]
    · intro d h; simpa using hd d h
    · intro d h n hn _; simpa [Nat.succ_le_iff] using hn
  cases dt with
  | none => exact single _ rfl (by simp)
  | some d =>
    have hd := hdt d rfl
    by_cases h : d ≥ T
    · refine single _ (by simp [tobs, h]) ?_
      intro d' hd'
      cases hd'
      exact h
    · have hlt : d < T := not_le.1 h
      set n := ⌈T / d⌉₊ with hn
      have hn0 : 0 < n := Nat.ceil_pos.2 (by positivity)
      have hnR : (0 : ℝ) < n := by exact_mod_cast hn0
      have htobs : tobs (some d) T = (List.range n).map fun (k : ℕ) => ((k : ℝ) + 1) / n * T := by
        simp [tobs, h, hn]
      rw [htobs]
      have hlen : ((List.range n).map fun (k : ℕ) => ((k : ℝ) + 1) / n * T).length = n := by simp
      have hget : ∀ k < n, ((List.range n).map fun (k : ℕ) => ((k : ℝ) + 1) / n * T).getD k 0 = ((k : ℝ) + 1) / n * T := by
        intro k hk
        simp [List.getD_eq_getElem?_getD, hk]
      have hstep : T / n ≤ d := by
        rw [div_le_iff₀ hnR]
        have := Nat.le_ceil (T / d)
        rw [← hn, div_le_iff₀ hd] at this
        linarith
      rw [hlen]
      refine ⟨?_, ?_, ?_, ?_, ?_, ?_, ?_⟩
      · intro h0
        rw [h0] at hlen
        simp at hlen
        omega
      · rw [List.pairwise_map]
        refine (List.pairwise_lt_range).imp ?_
        intro a b hab
        have : (a : ℝ) < b := by exact_mod_cast hab
        have h2 : ((a : ℝ) + 1) / n < ((b : ℝ) + 1) / n := by
          apply div_lt_div_of_pos_right _ hnR; linarith
        exact mul_lt_mul_of_pos_right h2 hT
      · intro t ht
        obtain ⟨k, hk, rfl⟩ := List.mem_map.1 ht
        have hk' : (k : ℝ) + 1 ≤ n := by exact_mod_cast List.mem_range.1 hk
        refine ⟨by positivity, ?_⟩
        have : ((k : ℝ) + 1) / n ≤ 1 := by rw [div_le_one hnR]; exact hk'
        nlinarith
      · obtain ⟨m, hm⟩ : ∃ m, n = m + 1 := ⟨n - 1, by omega⟩
        rw [hm, List.range_succ, List.map_append]
        simp only [List.map_cons, List.map_nil, List.getLast?_append, List.getLast?_singleton]
        simp only [Option.some_or, Option.some.injEq]
        push_cast
        have : (m : ℝ) + 1 ≠ 0 := by positivity
        field_simp
      · intro k hk
        unfold diff0
        rw [hget k hk]
        split
        · rename_i h0; subst h0; simp; ring
        · rename_i h0
          rw [hget (k - 1) (by omega)]
          have : ((k - 1 : ℕ) : ℝ) = k - 1 := by rw [Nat.cast_sub (by omega)]; simp
          rw [this]
          ring
      · rintro _ ⟨rfl⟩; exact hstep
      · rintro _ ⟨rfl⟩ m hm hmd
        rw [hn]
        refine Nat.ceil_le.2 ?_
        have hmR : (0 : ℝ) < m := by exact_mod_cast hm
        rw [div_le_iff₀ hmR] at hmd
        rw [div_le_iff₀ hd]
        linarith

example : (tobs (some 0.3) 1).length = 4 := by
  have : ⌈(1 : ℝ) / 0.3⌉₊ = 4 := by
    rw [Nat.ceil_eq_iff (by norm_num)]
    norm_num
  have h : ¬ ((0.3 : ℝ) ≥ 1) := by norm_num
  simp only [tobs, if_neg h, this, List.length_map, List.length_range]

/-! ### C36: antithetic draws -/

lemma sum_flatMap_pair (l : List ℕ) (f g : ℕ → ℝ) :
    (l.flatMap fun i => [f i, g i]).sum = (l.map fun i => f i + g i).sum := by
  induction l with
  | nil => rfl
  | cons a l ih => simp [ih, add_assoc]

/-- **C36** (`rv_normal`).  With `antithetic=True` the draws come in pairs `z, -z`: the sample has `2*(n_path//2)` elements,
and every odd function has sample sum exactly zero (in particular the sample mean is zero). -/
theorem rvNormal_antithetic (R : RngSource) (s : McState) (spawn : ℕ) (ha : s.antithetic = true) :
    (rvNormal R s spawn).1.length = 2 * (s.nPath / 2) ∧
      (∀ i < s.nPath / 2, (rvNormal R s spawn).1.getD (2 * i + 1) 0 = -(rvNormal R s spawn).1.getD (2 * i) 0) ∧
      (∀ f : ℝ → ℝ, (∀ x, f (-x) = -f x) → ((rvNormal R s spawn).1.map f).sum = 0) := by
  have hpair : ∀ (n : ℕ) (z : ℕ → ℝ) (i : ℕ), i < n →
      ((List.range n).flatMap fun i => [z i, -z i]).getD (2 * i) 0 = z i ∧
      ((List.range n).flatMap fun i => [z i, -z i]).getD (2 * i + 1) 0 = -z i := by
    intro n z
    induction n with
    | zero => intro i hi; omega
    | succ n ih =>
      intro i hi
      have hl : ((List.range n).flatMap fun i => [z i, -z i]).length = 2 * n := by
        simp [List.length_flatMap, mul_comm]
      rw [List.range_succ, List.flatMap_append]
      by_cases h : i < n
      · have := ih i h
        simp only [List.getD_eq_getElem?_getD] at this ⊢
        rw [List.getElem?_append_left (by rw [hl]; omega), List.getElem?_append_left (by rw [hl]; omega)]
        exact this
      · have : i = n := by omega
        subst this
        simp only [List.getD_eq_getElem?_getD]
        rw [List.getElem?_append_right (by rw [hl]), List.getElem?_append_right (by rw [hl]; omega), hl]
        simp
  simp only [rvNormal, ha, if_true]
  refine ⟨by simp [List.length_flatMap, mul_comm], ?_, ?_⟩
  · intro i hi
    have := hpair _ (fun i => R.normal s.rnSeed s.entropy spawn (s.posN spawn + i)) i hi
    rw [this.1, this.2]
  · intro f hf
    rw [List.map_flatMap]
    simp only [List.map_cons, List.map_nil, hf]
    rw [sum_flatMap_pair]
    simp

/-- **C36** (`rv_uniform`).  The antithetic uniforms come in pairs `u, 1-u`: the sample sum is exactly half the sample size. -/
theorem rvUniform_antithetic (R : RngSource) (s : McState) (spawn : ℕ) (ha : s.antithetic = true) :
    (rvUniform R s spawn).1.length = 2 * (s.nPath / 2) ∧
      (rvUniform R s spawn).1.sum = (rvUniform R s spawn).1.length / 2 := by
  simp only [rvUniform, ha, if_true]
  have hl : ∀ z : ℕ → ℝ, ((List.range (s.nPath / 2)).flatMap fun i => [z i, 1 - z i]).length = 2 * (s.nPath / 2) := fun z => by
    simp [List.length_flatMap, mul_comm]
  refine ⟨hl _, ?_⟩
  rw [hl, sum_flatMap_pair]
  simp

/-- The number of draws is `n_path` exactly when `n_path` is even; an odd `n_path` silently yields one path fewer. -/
theorem rvNormal_count (R : RngSource) (s : McState) (spawn : ℕ) :
    (rvNormal R s spawn).1.length = s.nPath ↔ (s.antithetic = false ∨ Even s.nPath) := by
  unfold rvNormal
  cases h : s.antithetic with
  | false => simp
  | true =>
    simp only [if_true, List.length_flatMap, Bool.true_eq_false, false_or]
    simp only [List.length_cons, List.length_nil, List.map_const', List.length_range, List.sum_replicate, smul_eq_mul]
    rw [Nat.even_iff]
    omega

/-- **C36** (comment on lines 108-109 of `sv_abc.py`): increasing `n_path` keeps the earlier draws: from the same generator
state the smaller sample is a prefix of the larger. -/
theorem rvNormal_prefix (R : RngSource) (s : McState) (spawn n n' : ℕ) (h : n ≤ n') :
    (rvNormal R { s with nPath := n } spawn).1 <+: (rvNormal R { s with nPath := n' } spawn).1 := by
  have hr : ∀ a b : ℕ, a ≤ b → ∃ l, List.range b = List.range a ++ l := fun a b hab => by
    obtain ⟨c, rfl⟩ := Nat.exists_eq_add_of_le hab
    exact ⟨_, List.range_add⟩
  unfold rvNormal
  cases s.antithetic with
  | false =>
    obtain ⟨l, hl⟩ := hr n n' h
    simp only [Bool.false_eq_true, if_false, hl, List.map_append]
    exact List.prefix_append _ _
  | true =>
    obtain ⟨l, hl⟩ := hr (n / 2) (n' / 2) (Nat.div_le_div_right h)
    simp only [if_true, hl, List.flatMap_append]
    exact List.prefix_append _ _

/-- **C36**: two successive calls on one generator use consecutive, non-overlapping draws: for an even number of paths the two
samples together are the sample one call with twice as many paths would have returned, and the generator ends in the same place. -/
theorem rvNormal_consecutive (R : RngSource) (s : McState) (spawn : ℕ) (hn : s.antithetic = false ∨ Even s.nPath) :
    (rvNormal R s spawn).1 ++ (rvNormal R (rvNormal R s spawn).2 spawn).1 = (rvNormal R { s with nPath := 2 * s.nPath } spawn).1 ∧
      (rvNormal R (rvNormal R s spawn).2 spawn).2.posN = (rvNormal R { s with nPath := 2 * s.nPath } spawn).2.posN := by
  unfold rvNormal
  cases h : s.antithetic with
  | false =>
    simp only [Bool.false_eq_true, if_false, Function.update_self, two_mul, List.range_add, List.map_append, List.map_map]
    constructor
    · congr 1
      refine List.map_congr_left fun i _ => ?_
      simp [add_assoc]
    · rw [Function.update_idem, add_assoc]
  | true =>
    rw [h] at hn
    obtain ⟨k, hk⟩ : Even s.nPath := by simpa using hn
    have e1 : s.nPath / 2 = k := by omega
    have e2 : 2 * s.nPath / 2 = k + k := by omega
    simp only [if_true, Function.update_self, e1, e2, List.range_add, List.flatMap_append, List.flatMap_map]
    constructor
    · congr 1
      refine List.flatMap_congr fun i _ => ?_
      simp [add_assoc]
    · rw [Function.update_idem, add_assoc]

/-- The same for `rv_uniform`. -/
theorem rvUniform_consecutive (R : RngSource) (s : McState) (spawn : ℕ) (hn : s.antithetic = false ∨ Even s.nPath) :
    (rvUniform R s spawn).1 ++ (rvUniform R (rvUniform R s spawn).2 spawn).1
        = (rvUniform R { s with nPath := 2 * s.nPath } spawn).1 ∧
      (rvUniform R (rvUniform R s spawn).2 spawn).2.posU = (rvUniform R { s with nPath := 2 * s.nPath } spawn).2.posU := by
  unfold rvUniform
  cases h : s.antithetic with
  | false =>
    simp only [Bool.false_eq_true, if_false, Function.update_self, two_mul, List.range_add, List.map_append, List.map_map]
    constructor
    · congr 1
      refine List.map_congr_left fun i _ => ?_
      simp [add_assoc]
    · rw [Function.update_idem, add_assoc]
  | true =>
    rw [h] at hn
    obtain ⟨k, hk⟩ : Even s.nPath := by simpa using hn
    have e1 : s.nPath / 2 = k := by omega
    have e2 : 2 * s.nPath / 2 = k + k := by omega
    simp only [if_true, Function.update_self, e1, e2, List.range_add, List.flatMap_append, List.flatMap_map]
    constructor
    · congr 1
      refine List.flatMap_congr fun i _ => ?_
      simp [add_assoc]
    · rw [Function.update_idem, add_assoc]

/-! ### Brownian increments -/

lemma stackReshape_even (b : ℕ → ℕ → ℝ) (nDt h : ℕ) (hh : 0 < h) :
    ∃ a, stackReshape b nDt h (2 * h) = .ok a ∧ a.rows = nDt ∧ a.cols = 2 * h ∧
      ∀ t j, j < h → a.at' t j = b t j ∧ a.at' t (h + j) = -b t j := by
  have h1 : nDt * (2 * h) % (2 * h) = 0 := Nat.mul_mod_left _ _
  have h2 : nDt * (2 * h) / (2 * h) = nDt := Nat.mul_div_left _ (by omega)
  refine ⟨_, by simp only [stackReshape]; rw [if_neg (by omega), if_neg (by simp [h1])], h2, rfl, ?_⟩
  intro t j hj
  have e1 : (t * (2 * h) + j) % (2 * h) = j := by
    rw [mul_comm, Nat.mul_add_mod, Nat.mod_eq_of_lt (by omega)]
  have e2 : (t * (2 * h) + j) / (2 * h) = t := by
    rw [mul_comm, Nat.mul_add_div (by omega), Nat.div_eq_of_lt (by omega), add_zero]
  have e3 : (t * (2 * h) + (h + j)) % (2 * h) = h + j := by
    rw [mul_comm, Nat.mul_add_mod, Nat.mod_eq_of_lt (by omega)]
  have e4 : (t * (2 * h) + (h + j)) / (2 * h) = t := by
    rw [mul_comm, Nat.mul_add_div (by omega), Nat.div_eq_of_lt (by omega), add_zero]
  have e5 : (h + j) / h = 1 := by
    rw [Nat.add_div_left _ hh, Nat.div_eq_of_lt hj]
  have e6 : (h + j) % h = j := by rw [Nat.add_mod_left, Nat.mod_eq_of_lt hj]
  simp only [e1, e2, e3, e4, e5, e6, Nat.div_eq_of_lt hj, Nat.mod_eq_of_lt hj]
  constructor
  · simp
  · simp

/-- The increment of path `j` at time step `t` as the antithetic branch of `_bm_incr` should produce it from the draws `z`. -/
noncomputable def Spec.bmIncrement (z : ℕ → ℝ) (tobs : List ℝ) (t j : ℕ) : ℝ := z (j * tobs.length + t) * √(diff0 tobs t)

/-- **C36** (`_bm_incr`, even number of paths).  The result has one row per observation time and `n_path` columns; path
`n_path/2 + j` is the mirror image of path `j`; every row sums to zero; path `j < n_path/2` uses draws
`j*n_dt, ..., j*n_dt + n_dt - 1` of the stream (independently of `n_path`). -/
theorem bmIncr_even (R : RngSource) (s : McState) (ha : s.antithetic = true) (tobs : List ℝ) (n : ℕ) (hn : Even n) (h0 : 0 < n) :
    ∃ a s', bmIncr R s tobs false (some n) = .ok (a, s') ∧ a.rows = tobs.length ∧ a.cols = n ∧
      (∀ t j, j < n / 2 → a.at' t j = R.normal s.rnSeed s.entropy 0 (s.posN 0 + (j * tobs.length + t)) * √(diff0 tobs t)) ∧
      (∀ t j, j < n / 2 → a.at' t (n / 2 + j) = -a.at' t j) ∧
      (∀ t, ∑ j ∈ Finset.range n, a.at' t j = 0) := by
  obtain ⟨h, rfl⟩ := hn
  have hh : 0 < h := by omega
  have hdiv : (h + h) / 2 = h := by omega
  obtain ⟨a, ha1, hr, hc, hat⟩ := stackReshape_even
    (fun t j => R.normal s.rnSeed s.entropy 0 (s.posN 0 + (j * tobs.length + t)) * √(diff0 tobs t)) tobs.length h hh
  refine ⟨a, { s with posN := Function.update s.posN 0 (s.posN 0 + h * tobs.length) }, ?_, hr, by omega, ?_, ?_, ?_⟩
  · simp only [bmIncr, ha, if_true, Option.getD_some, hdiv]
    rw [show h + h = 2 * h by ring, ha1]
    rfl
  · intro t j hj
    exact (hat t j (by omega)).1
  · intro t j hj
    rw [hdiv, (hat t j (by omega)).1, (hat t j (by omega)).2]
  · intro t
    rw [Finset.sum_range_add, ← Finset.sum_add_distrib]
    refine Finset.sum_eq_zero fun j hj => ?_
    rw [(hat t j (Finset.mem_range.1 hj)).1, (hat t j (Finset.mem_range.1 hj)).2]
    ring

example (R : RngSource) (s : McState) (ha : s.antithetic = true) : ∃ a s', bmIncr R s [0.5, 1] false (some 4) = .ok (a, s') :=
  let ⟨a, s', h, _⟩ := bmIncr_even R s ha [0.5, 1] 4 (by decide) (by norm_num)
  ⟨a, s', h⟩

/-- **C36 fails without antithetic sampling**: `_bm_incr` always raises TypeError. -/
theorem bmIncr_plain_raises (R : RngSource) (s : McState) (ha : s.antithetic = false) (tobs : List ℝ) (cum : Bool)
    (n : Option ℕ) : bmIncr R s tobs cum n = .error .typeError := by
  simp [bmIncr, ha]

/-- **C36 fails for an odd number of paths**: `_bm_incr` raises ValueError, unless `n_path` happens to divide the number of
time steps; then it returns silently an array with too few rows. -/
theorem bmIncr_odd (R : RngSource) (s : McState) (ha : s.antithetic = true) (tobs : List ℝ) (ht : tobs ≠ []) (n : ℕ)
    (hn : Odd n) :
    (¬ n ∣ tobs.length ∧ bmIncr R s tobs false (some n) = .error .valueError) ∨
      (n ∣ tobs.length ∧ ∃ a s', bmIncr R s tobs false (some n) = .ok (a, s') ∧ a.rows < tobs.length) := by
  obtain ⟨h, rfl⟩ := hn
  have hd2 : (2 * h + 1) / 2 = h := by omega
  have hl : 0 < tobs.length := List.length_pos_of_ne_nil ht
  have hdvd : (2 * h + 1) ∣ tobs.length * (2 * h) ↔ (2 * h + 1) ∣ tobs.length := by
    refine ⟨fun hd => Nat.Coprime.dvd_of_dvd_mul_right ?_ hd, fun hd => Dvd.dvd.mul_right hd _⟩
    exact (Nat.coprime_self_add_left).2 (by simp)
  by_cases hd : (2 * h + 1) ∣ tobs.length
  · right
    refine ⟨hd, ?_⟩
    have hm : tobs.length * (2 * h) % (2 * h + 1) = 0 := Nat.eq_zero_of_dvd_of_lt
      ((Nat.dvd_mod_iff (dvd_refl _)).2 (hdvd.2 hd)) (Nat.mod_lt _ (by omega))
    have hres : ∃ f, bmIncr R s tobs false (some (2 * h + 1)) =
        .ok (⟨tobs.length * (2 * h) / (2 * h + 1), 2 * h + 1, f⟩,
          { s with posN := Function.update s.posN 0 (s.posN 0 + h * tobs.length) }) := by
      refine ⟨fun r c => (if (r * (2 * h + 1) + c) % (2 * h) / h = 0 then 1 else -1) *
        (R.normal s.rnSeed s.entropy 0 (s.posN 0 + ((r * (2 * h + 1) + c) % (2 * h) % h * tobs.length
          + (r * (2 * h + 1) + c) / (2 * h))) * √(diff0 tobs ((r * (2 * h + 1) + c) / (2 * h)))), ?_⟩
      simp only [bmIncr, ha, if_true, Option.getD_some, hd2]
      simp only [stackReshape]
      rw [if_neg (by omega), if_neg (by simp [hm])]
      rfl
    · obtain ⟨f, hf⟩ := hres
      refine ⟨_, _, hf, ?_⟩
      show tobs.length * (2 * h) / (2 * h + 1) < tobs.length
      rw [Nat.div_lt_iff_lt_mul (by omega)]
      exact Nat.mul_lt_mul_of_pos_left (by omega) hl
  · left
    refine ⟨hd, ?_⟩
    simp only [bmIncr, ha, if_true, Option.getD_some, hd2, stackReshape]
    have hm : ¬ tobs.length * (2 * h) % (2 * h + 1) = 0 := fun h0 => hd (hdvd.1 (Nat.dvd_of_mod_eq_zero h0))
    rw [if_neg (by omega), if_pos hm]

/-- A concrete silent failure: three paths over three steps give only two rows. -/
example (R : RngSource) (s : McState) (ha : s.antithetic = true) :
    ∃ a s', bmIncr R s [1, 2, 3] false (some 3) = .ok (a, s') ∧ a.rows < 3 := by
  rcases bmIncr_odd R s ha [1, 2, 3] (by simp) 3 (by decide) with h | h
  · exact absurd (by decide : 3 ∣ [1, 2, 3].length) (by simpa using h.1)
  · exact h.2

/-! ### The increments build Brownian motion -/

lemma diff0_telescope (tobs : List ℝ) (t : ℕ) : ∑ i ∈ Finset.range (t + 1), diff0 tobs i = tobs.getD t 0 := by
  induction t with
  | zero => simp [diff0]
  | succ t ih => rw [Finset.sum_range_succ, ih]; simp [diff0]

lemma diff0_nonneg {tobs : List ℝ} (h0 : ∀ t ∈ tobs, 0 ≤ t) (hs : tobs.Pairwise (· ≤ ·)) {k : ℕ} (hk : k < tobs.length) :
    0 ≤ diff0 tobs k := by
  unfold diff0
  have hg : ∀ i (hi : i < tobs.length), tobs.getD i 0 = tobs[i] := fun i hi => by
    simp [List.getD_eq_getElem?_getD, hi]
  rw [hg k hk]
  split
  · simpa using h0 _ (List.getElem_mem hk)
  · rename_i hne
    rw [hg (k - 1) (by omega)]
    have := List.pairwise_iff_getElem.1 hs (k - 1) k (by omega) hk (by omega)
    linarith

lemma cov_sum {Ω : Type*} [MeasurableSpace Ω] (P : Measure Ω) (Z : ℕ → Ω → ℝ)
    (hI : ∀ i k, Integrable (fun ω => Z i ω * Z k ω) P) (hZ : ∀ i k, ∫ ω, Z i ω * Z k ω ∂P = if i = k then 1 else 0)
    (c : ℕ → ℝ) (f g : ℕ → ℕ) (t t' : ℕ) :
    ∫ ω, (∑ i ∈ Finset.range (t + 1), Z (f i) ω * c i) * (∑ k ∈ Finset.range (t' + 1), Z (g k) ω * c k) ∂P
      = ∑ i ∈ Finset.range (t + 1), ∑ k ∈ Finset.range (t' + 1), c i * c k * if f i = g k then 1 else 0 := by
  have h1 : (fun ω => (∑ i ∈ Finset.range (t + 1), Z (f i) ω * c i) * (∑ k ∈ Finset.range (t' + 1), Z (g k) ω * c k))
      = fun ω => ∑ i ∈ Finset.range (t + 1), ∑ k ∈ Finset.range (t' + 1), c i * c k * (Z (f i) ω * Z (g k) ω) := by
    ext ω
    rw [Finset.sum_mul_sum]
    exact Finset.sum_congr rfl fun i _ => Finset.sum_congr rfl fun k _ => by ring
  rw [h1, integral_finsetSum _ fun i _ => integrable_finsetSum _ fun k _ => (hI _ _).const_mul _]
  refine Finset.sum_congr rfl fun i _ => ?_
  rw [integral_finsetSum _ fun k _ => (hI _ _).const_mul _]
  refine Finset.sum_congr rfl fun k _ => ?_
  rw [integral_const_mul, hZ]

/-- **C36** (`_bm_incr(tobs, cum=True)`).  If the draws are uncorrelated with unit second moment, each cumulated path has the
covariance of Brownian motion at the observation times, `E[B_t B_t'] = min(t, t')`, and distinct non-mirrored paths are
uncorrelated. -/
theorem bmIncr_brownian {Ω : Type*} [MeasurableSpace Ω] (P : Measure Ω) (R : Ω → RngSource) (s : McState)
    (ha : s.antithetic = true) (tobs : List ℝ) (h0 : ∀ t ∈ tobs, 0 ≤ t) (hs : tobs.Pairwise (· ≤ ·)) (n : ℕ) (hn : Even n)
    (hn0 : 0 < n)
    (hI : ∀ i k, Integrable (fun ω => (R ω).normal s.rnSeed s.entropy 0 i * (R ω).normal s.rnSeed s.entropy 0 k) P)
    (hZ : ∀ i k, ∫ ω, (R ω).normal s.rnSeed s.entropy 0 i * (R ω).normal s.rnSeed s.entropy 0 k ∂P = if i = k then 1 else 0) :
    ∃ A : Ω → Arr2, (∀ ω, ∃ s', bmIncr (R ω) s tobs true (some n) = .ok (A ω, s')) ∧
      (∀ j < n, ∀ t t', t < tobs.length → t' < tobs.length →
        ∫ ω, (A ω).at' t j * (A ω).at' t' j ∂P = min (tobs.getD t 0) (tobs.getD t' 0)) ∧
      (∀ j < n / 2, ∀ j' < n / 2, j ≠ j' → ∀ t t', t < tobs.length → t' < tobs.length →
        ∫ ω, (A ω).at' t j * (A ω).at' t' j' ∂P = 0) := by
  have hb := fun ω => bmIncr_even (R ω) s ha tobs n hn hn0
  choose a s' h1 hr hc hat hmir _ using hb
  have hcum : ∀ ω, bmIncr (R ω) s tobs true (some n) = .ok (cumsum0 (a ω), s' ω) := by
    intro ω
    have := h1 ω
    simp only [bmIncr, ha, if_true, Option.getD_some] at this ⊢
    split at this
    · cases this
    · rename_i a' ha'
      simp only [Except.ok.injEq, Prod.mk.injEq, Bool.false_eq_true, if_false] at this
      simp [this.1, this.2]
  set c : ℕ → ℝ := fun i => √(diff0 tobs i) with hcdef
  have hval : ∀ ω j, j < n / 2 → ∀ t, (cumsum0 (a ω)).at' t j
      = ∑ i ∈ Finset.range (t + 1), (R ω).normal s.rnSeed s.entropy 0 (s.posN 0 + (j * tobs.length + i)) * c i := by
    intro ω j hj t
    show ∑ i ∈ Finset.range (t + 1), (a ω).at' i j = _
    exact Finset.sum_congr rfl fun i _ => hat ω i j hj
  have hvalm : ∀ ω j, j < n / 2 → ∀ t, (cumsum0 (a ω)).at' t (n / 2 + j) = -(cumsum0 (a ω)).at' t j := by
    intro ω j hj t
    show ∑ i ∈ Finset.range (t + 1), (a ω).at' i (n / 2 + j) = -∑ i ∈ Finset.range (t + 1), (a ω).at' i j
    rw [← Finset.sum_neg_distrib]
    exact Finset.sum_congr rfl fun i _ => hmir ω i j hj
  have hdiag : ∀ j < n / 2, ∀ t t', t ≤ t' → t' < tobs.length →
      ∫ ω, (cumsum0 (a ω)).at' t j * (cumsum0 (a ω)).at' t' j ∂P = tobs.getD t 0 := by
    intro j hj t t' htt ht'
    simp only [hval _ j hj]
    rw [cov_sum P (fun i ω => (R ω).normal s.rnSeed s.entropy 0 i) hI hZ c
      (fun i => s.posN 0 + (j * tobs.length + i)) (fun i => s.posN 0 + (j * tobs.length + i))]
    rw [← diff0_telescope]
    refine Finset.sum_congr rfl fun i hi => ?_
    have hi' := Finset.mem_range.1 hi
    rw [Finset.sum_eq_single i]
    · simp [hcdef, Real.mul_self_sqrt (diff0_nonneg h0 hs (show i < tobs.length by omega))]
    · intro k _ hk
      rw [if_neg (by omega), mul_zero]
    · intro h
      exact absurd (Finset.mem_range.2 (by omega)) h
  have hmono : ∀ t t', t ≤ t' → t' < tobs.length → tobs.getD t 0 ≤ tobs.getD t' 0 := by
    intro t t' h ht'
    simp only [List.getD_eq_getElem?_getD, List.getElem?_eq_getElem ht', List.getElem?_eq_getElem (lt_of_le_of_lt h ht'),
      Option.getD_some]
    rcases h.eq_or_lt with rfl | h
    · exact le_rfl
    · exact List.pairwise_iff_getElem.1 hs t t' (by omega) ht' h
  have hfirst : ∀ j < n / 2, ∀ t t', t < tobs.length → t' < tobs.length →
        ∫ ω, (cumsum0 (a ω)).at' t j * (cumsum0 (a ω)).at' t' j ∂P = min (tobs.getD t 0) (tobs.getD t' 0) := by
    intro j hj t t' ht ht'
    rcases le_total t t' with h | h
    · rw [hdiag j hj t t' h ht', min_eq_left (hmono t t' h ht')]
    · rw [min_eq_right (hmono t' t h ht), ← hdiag j hj t' t h ht]
      congr 1
      ext ω
      ring
  refine ⟨fun ω => cumsum0 (a ω), fun ω => ⟨_, hcum ω⟩, ?_, ?_⟩
  · intro j hj t t' ht ht'
    by_cases h : j < n / 2
    · exact hfirst j h t t' ht ht'
    · obtain ⟨i, hi⟩ : ∃ i, j = n / 2 + i := ⟨j - n / 2, by omega⟩
      have hi2 : i < n / 2 := by
        rw [Nat.even_iff] at hn
        omega
      subst hi
      simp only [hvalm _ i hi2, neg_mul_neg]
      exact hfirst i hi2 t t' ht ht'
  · intro j hj j' hj' hne t t' ht ht'
    simp only [hval _ j hj, hval _ j' hj']
    rw [cov_sum P (fun i ω => (R ω).normal s.rnSeed s.entropy 0 i) hI hZ c
      (fun i => s.posN 0 + (j * tobs.length + i)) (fun i => s.posN 0 + (j' * tobs.length + i))]
    refine Finset.sum_eq_zero fun i hi => Finset.sum_eq_zero fun k hk => ?_
    rw [if_neg, mul_zero]
    intro h
    have hi' := Finset.mem_range.1 hi
    have hk' := Finset.mem_range.1 hk
    have h2 : j * tobs.length + i = j' * tobs.length + k := by omega
    have h3 : (j * tobs.length + i) / tobs.length = (j' * tobs.length + k) / tobs.length := by rw [h2]
    rw [mul_comm j, mul_comm j', Nat.mul_add_div (by omega), Nat.mul_add_div (by omega), Nat.div_eq_of_lt (by omega),
      Nat.div_eq_of_lt (by omega)] at h3
    exact hne (by omega)

/-- Independent standard normal draws: the infinite product of standard normal laws. -/
noncomputable def Spec.iidNormal : Measure (ℕ → ℝ) := Measure.infinitePi fun _ => gaussianReal 0 1

lemma iidNormal_cov (i k : ℕ) : Integrable (fun ω : ℕ → ℝ => ω i * ω k) Spec.iidNormal ∧
    ∫ ω, ω i * ω k ∂Spec.iidNormal = if i = k then 1 else 0 := by
  have hp : ∀ i, MeasurePreserving (fun ω : ℕ → ℝ => ω i) Spec.iidNormal (gaussianReal 0 1) := fun i =>
    measurePreserving_eval_infinitePi _ i
  have hint : ∀ i, Integrable (fun ω : ℕ → ℝ => ω i) Spec.iidNormal := fun i => by
    have := (integrable_pow_gauss 1)
    simp only [pow_one] at this
    exact (hp i).integrable_comp_of_integrable this
  have hmean : ∀ i, ∫ ω, ω i ∂Spec.iidNormal = 0 := fun i => by
    have h1 := integral_map (μ := Spec.iidNormal) (hp i).measurable.aemeasurable (f := fun x : ℝ => x) (by fun_prop)
    rw [(hp i).map_eq] at h1
    rw [← h1]
    simp
  by_cases h : i = k
  · subst h
    rw [if_pos rfl]
    have h2 := integrable_pow_gauss 2
    have e : (fun ω : ℕ → ℝ => ω i * ω i) = (fun x : ℝ => x ^ 2) ∘ fun ω => ω i := by ext ω; simp [pow_two]
    refine ⟨by rw [e]; exact (hp i).integrable_comp_of_integrable h2, ?_⟩
    have h1 := integral_map (μ := Spec.iidNormal) (hp i).measurable.aemeasurable (f := fun x : ℝ => x ^ 2) (by fun_prop)
    rw [(hp i).map_eq] at h1
    have h3 : ∫ ω, ω i * ω i ∂Spec.iidNormal = ∫ ω, ω i ^ 2 ∂Spec.iidNormal := by simp only [pow_two]
    rw [h3, ← h1]
    have := (gaussE_poly 0 0 1 0 0).2
    simpa [Spec.gaussE] using this
  · have hind : IndepFun (fun ω : ℕ → ℝ => ω i) (fun ω => ω k) Spec.iidNormal :=
      (iIndepFun_infinitePi (P := fun _ : ℕ => gaussianReal 0 1) (X := fun _ x => x) fun _ => measurable_id).indepFun h
    refine ⟨hind.integrable_mul (hint i) (hint k), ?_⟩
    rw [hind.integral_fun_mul_eq_mul_integral (hint i).1 (hint k).1, hmean, zero_mul, if_neg h]

/-- The hypotheses on the draws are met by independent standard normals. -/
example (s : McState) (ha : s.antithetic = true) :
    ∃ A : (ℕ → ℝ) → Arr2, (∀ ω, ∃ s', bmIncr ⟨fun _ _ _ i => ω i, fun _ _ _ i => ω i, fun _ _ _ _ _ => rfl, fun _ _ _ _ _ => rfl⟩
        s [0.5, 1] true (some 4) = .ok (A ω, s')) ∧
      ∫ ω, (A ω).at' 0 1 * (A ω).at' 1 1 ∂Spec.iidNormal = 0.5 := by
  obtain ⟨A, h1, h2, _⟩ := bmIncr_brownian Spec.iidNormal
    (fun ω => ⟨fun _ _ _ i => ω i, fun _ _ _ i => ω i, fun _ _ _ _ _ => rfl, fun _ _ _ _ _ => rfl⟩) s ha [0.5, 1]
    (by norm_num) (by norm_num) 4 (by decide) (by norm_num) (fun i k => (iidNormal_cov i k).1) (fun i k => (iidNormal_cov i k).2)
  refine ⟨A, h1, ?_⟩
  rw [h2 1 (by norm_num) 0 1 (by simp) (by simp)]
  norm_num

/-! ### C76: reproducibility -/

/-- What a user can draw from the object. -/
inductive Draw where
  | normal (spawn : ℕ)
  | uniform (spawn : ℕ)
  | brownian (tobs : List ℝ) (cum : Bool) (nPath : Option ℕ)

/-- The outcome of one draw: a sample, a path array or an exception; the state is unchanged by an exception. -/
noncomputable def doDraw (R : RngSource) (s : McState) : Draw → (List ℝ ⊕ Except McErr Arr2) × McState
  | .normal k => (.inl (rvNormal R s k).1, (rvNormal R s k).2)
  | .uniform k => (.inl (rvUniform R s k).1, (rvUniform R s k).2)
  | .brownian tobs cum n =>
    match bmIncr R s tobs cum n with
    | .ok (a, s') => (.inr (.ok a), s')
    | .error e => (.inr (.error e), s)

/-- All outcomes of a sequence of draws. -/
noncomputable def drawAll (R : RngSource) : McState → List Draw → List (List ℝ ⊕ Except McErr Arr2)
  | _, [] => []
  | s, d :: ds => (doDraw R s d).1 :: drawAll R (doDraw R s d).2 ds

lemma drawAll_congr (R : RngSource) (seed : ℕ) (ds : List Draw) : ∀ s s' : McState, s.rnSeed = some seed → s'.rnSeed = some seed →
    s.nPath = s'.nPath → s.antithetic = s'.antithetic → s.posN = s'.posN → s.posU = s'.posU →
    drawAll R s ds = drawAll R s' ds := by
  induction ds with
  | nil => intros; rfl
  | cons d ds ih =>
    intro s s' h1 h2 h3 h4 h5 h6
    have hn : ∀ c i, R.normal s.rnSeed s.entropy c i = R.normal s'.rnSeed s'.entropy c i := fun c i => by
      rw [h1, h2, R.normal_seed seed s.entropy s'.entropy]
    have hu : ∀ c i, R.uniform s.rnSeed s.entropy c i = R.uniform s'.rnSeed s'.entropy c i := fun c i => by
      rw [h1, h2, R.uniform_seed seed s.entropy s'.entropy]
    rw [drawAll, drawAll]
    cases d with
    | normal k =>
      have e1 : (rvNormal R s k).1 = (rvNormal R s' k).1 := by
        simp only [rvNormal, hn, h3, h4, h5]; split <;> rfl
      have e2 : drawAll R (rvNormal R s k).2 ds = drawAll R (rvNormal R s' k).2 ds := by
        apply ih <;> simp only [rvNormal, h4] <;> split <;> simp [*]
      simp only [doDraw, e1, e2]
    | uniform k =>
      have e1 : (rvUniform R s k).1 = (rvUniform R s' k).1 := by
        simp only [rvUniform, hu, h3, h4, h6]; split <;> rfl
      have e2 : drawAll R (rvUniform R s k).2 ds = drawAll R (rvUniform R s' k).2 ds := by
        apply ih <;> simp only [rvUniform, h4] <;> split <;> simp [*]
      simp only [doDraw, e1, e2]
    | brownian tobs cum n =>
      simp only [doDraw, bmIncr, hn, h3, h4, h5]
      cases ha : s'.antithetic with
      | false =>
        simp only [Bool.false_eq_true, if_false]
        rw [ih s s' h1 h2 h3 h4 h5 h6]
      | true =>
        simp only [if_true]
        cases hsr : stackReshape (fun t j => R.normal s'.rnSeed s'.entropy 0 (s'.posN 0 + (j * tobs.length + t)) * √(diff0 tobs t))
          tobs.length (n.getD s'.nPath / 2) (n.getD s'.nPath) with
        | error e => simp only; rw [ih s s' h1 h2 h3 h4 h5 h6]
        | ok a =>
          simp only
          congr 1
          apply ih <;> simp [*]

/-- **C76.**  After `configure(..., rn_seed=k)` every later sequence of draws is determined by the seed, the number of paths
and the antithetic flag alone: two objects with arbitrary different histories give the same numbers, forever. -/
theorem configure_reproducible (R : RngSource) (s s' : McState) (k : ℕ) (nPath : ℕ) (anti : Bool) (dt dt' : Option ℝ)
    (ds : List Draw) :
    drawAll R (s.configure (some nPath) dt (some k) (some anti)) ds
      = drawAll R (s'.configure (some nPath) dt' (some k) (some anti)) ds := by
  apply drawAll_congr R k <;> cases dt <;> cases dt' <;> rfl

/-- **C76.**  `configure()` without arguments keeps the settings and restarts an object that has an explicit seed. -/
theorem configure_restart (R : RngSource) (s : McState) (k : ℕ) (hs : s.rnSeed = some k) (hp : s.posN = fun _ => 0)
    (hu : s.posU = fun _ => 0) (before ds : List Draw) :
    drawAll R ((before.foldl (fun st d => (doDraw R st d).2) s).configure none none none none) ds = drawAll R s ds := by
  have key : ∀ (before : List Draw) (s : McState), (before.foldl (fun st d => (doDraw R st d).2) s).rnSeed = s.rnSeed ∧
      (before.foldl (fun st d => (doDraw R st d).2) s).nPath = s.nPath ∧
      (before.foldl (fun st d => (doDraw R st d).2) s).antithetic = s.antithetic := by
    intro before
    induction before with
    | nil => intro s; simp
    | cons d before ih =>
      intro s
      have hd : (doDraw R s d).2.rnSeed = s.rnSeed ∧ (doDraw R s d).2.nPath = s.nPath ∧
          (doDraw R s d).2.antithetic = s.antithetic := by
        cases d with
        | normal k => simp only [doDraw, rvNormal]; split <;> simp
        | uniform k => simp only [doDraw, rvUniform]; split <;> simp
        | brownian tobs cum n =>
          simp only [doDraw, bmIncr]
          cases hsa : s.antithetic with
          | false => simp [hsa]
          | true =>
            simp only [if_true]
            generalize stackReshape _ _ _ _ = x
            cases x <;> simp [hsa]
      rw [List.foldl_cons]
      obtain ⟨e1, e2, e3⟩ := ih (doDraw R s d).2
      exact ⟨e1.trans hd.1, e2.trans hd.2.1, e3.trans hd.2.2⟩
  obtain ⟨e1, e2, e3⟩ := key before s
  exact drawAll_congr R k ds _ _ (e1.trans hs) hs e2 e3 hp.symm hu.symm

/-- `configure` applies exactly the settings that are passed. -/
theorem configure_fields (s : McState) (n : Option ℕ) (dt : Option ℝ) (r : Option ℕ) (a : Option Bool) :
    (s.configure n dt r a).nPath = n.getD s.nPath ∧ (s.configure n dt r a).antithetic = a.getD s.antithetic ∧
      (s.configure n dt r a).rnSeed = r.orElse (fun _ => s.rnSeed) ∧ (s.configure n dt r a).dt = dt.orElse (fun _ => s.dt) := by
  cases n <;> cases dt <;> cases r <;> cases a <;> exact ⟨rfl, rfl, rfl, rfl⟩

end PyFENG.McState
