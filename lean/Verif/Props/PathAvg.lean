import Verif.Model.PathAvg
import Verif.Props.OusvMom
import Verif.Props.SvMc
import Verif.Lemmas.Follmer

/-!
# The time averages of simulated volatility paths

`cond_states_full` and `cond_spot_sigma_volpath` replace the time integrals of a path by `scipy`'s Simpson rule on the dates of `tobs`.
-/

namespace PyFENG

open MeasureTheory ProbabilityTheory Real Set Filter Topology
open scoped NNReal ENNReal

/-! ### The rule -/

section Rule

variable {ev : SimpsEven} {y y' : ℕ → ℝ} {n : ℕ}

lemma basicSimpson_succ (y : ℕ → ℝ) (s m : ℕ) : basicSimpson y s (m + 1) = basicSimpson y s m + 1 / 3 * (y (s + 2 * m) + 4 * y (s + 2 * m + 1) + y (s + 2 * m + 2)) := by
  unfold basicSimpson
  rw [Finset.sum_range_succ]

lemma basicSimpson_zero (y : ℕ → ℝ) (s : ℕ) : basicSimpson y s 0 = 0 := by simp [basicSimpson]

lemma basicSimpson_mono (s m : ℕ) (h : ∀ j ≤ s + 2 * m, y j ≤ y' j) : basicSimpson y s m ≤ basicSimpson y' s m := by
  unfold basicSimpson
  refine Finset.sum_le_sum fun i hi => ?_
  have hi := Finset.mem_range.1 hi
  have a := h (s + 2 * i) (by omega)
  have b := h (s + 2 * i + 1) (by omega)
  have c := h (s + 2 * i + 2) (by omega)
  linarith

lemma basicSimpson_add (a b : ℝ) (s m : ℕ) : basicSimpson (fun j => a * y j + b * y' j) s m = a * basicSimpson y s m + b * basicSimpson y' s m := by
  unfold basicSimpson
  rw [Finset.mul_sum, Finset.mul_sum, ← Finset.sum_add_distrib]
  refine Finset.sum_congr rfl fun i _ => by ring

/-- Simpson's rule is exact on cubic polynomials. -/
lemma basicSimpson_cubic (c : Fin 4 → ℝ) (s m : ℕ) :
    basicSimpson (fun j => c 0 + c 1 * j + c 2 * j ^ 2 + c 3 * j ^ 3) s m = ∫ x in (s:ℝ)..((s + 2 * m : ℕ) : ℝ), (c 0 + c 1 * x + c 2 * x ^ 2 + c 3 * x ^ 3) := by
  have hF : ∀ a b : ℝ, ∫ x in a..b, (c 0 + c 1 * x + c 2 * x ^ 2 + c 3 * x ^ 3) = (c 0 * b + c 1 * b ^ 2 / 2 + c 2 * b ^ 3 / 3 + c 3 * b ^ 4 / 4) - (c 0 * a + c 1 * a ^ 2 / 2 + c 2 * a ^ 3 / 3 + c 3 * a ^ 4 / 4) := fun a b => by
    rw [intervalIntegral.integral_add, intervalIntegral.integral_add, intervalIntegral.integral_add, intervalIntegral.integral_const_mul, intervalIntegral.integral_const_mul, intervalIntegral.integral_const_mul, integral_id, integral_pow, integral_pow, intervalIntegral.integral_const, smul_eq_mul]
    · push_cast; ring
    all_goals exact Continuous.intervalIntegrable (by fun_prop) _ _
  rw [hF]
  induction m with
  | zero => simp [basicSimpson_zero]
  | succ m ih =>
    rw [basicSimpson_succ, ih]
    push_cast
    ring

lemma simps_odd (ev : SimpsEven) (y : ℕ → ℝ) (m : ℕ) : simps ev y (2 * m + 1) = match m, ev with
    | 0, _ => (y 0 + y 1) / 2
    | m + 1, .avg => ((y (2 * m + 2) + y (2 * m + 3)) / 2 + (y 0 + y 1) / 2) / 2 + (basicSimpson y 0 (m + 1) + basicSimpson y 1 (m + 1)) / 2
    | m + 1, .simpson => basicSimpson y 0 (m + 1) + (5 / 12 * y (2 * m + 3) + 2 / 3 * y (2 * m + 2) - 1 / 12 * y (2 * m + 1)) := by
  unfold simps
  rw [if_neg (by omega)]
  cases m with
  | zero => simp
  | succ m =>
    rw [if_neg (by omega), show (2 * (m + 1) + 1) / 2 = m + 1 by omega]
    cases ev <;> simp [show 2 * (m + 1) = 2 * m + 2 by ring]

lemma simps_even (ev : SimpsEven) (y : ℕ → ℝ) (m : ℕ) : simps ev y (2 * m) = basicSimpson y 0 m := by
  unfold simps
  rw [if_pos (by omega), show 2 * m / 2 = m by omega]

lemma simps_mono (h : ∀ j ≤ n, y j ≤ y' j) : simps ev y n ≤ simps ev y' n := by
  rcases Nat.even_or_odd' n with ⟨m, rfl | rfl⟩
  · rw [simps_even, simps_even]
    exact basicSimpson_mono 0 m fun j hj => h j (by omega)
  · rw [simps_odd, simps_odd]
    cases m with
    | zero => have := h 0 (by omega); have := h 1 (by omega); simp only; linarith
    | succ m =>
      have h0 := h 0 (by omega)
      have h1 := h 1 (by omega)
      have h2 := h (2 * m + 2) (by omega)
      have h3 := h (2 * m + 3) (by omega)
      have h4 := h (2 * m + 1) (by omega)
      have h5 := h (2 * m) (by omega)
      cases ev with
      | avg =>
        have a := basicSimpson_mono (y := y) (y' := y') 0 (m + 1) fun j hj => h j (by omega)
        have b := basicSimpson_mono (y := y) (y' := y') 1 (m + 1) fun j hj => h j (by omega)
        simp only
        linarith
      | simpson =>
        have a := basicSimpson_mono (y := y) (y' := y') 0 m fun j hj => h j (by omega)
        simp only [basicSimpson_succ, zero_add]
        linarith

lemma simps_congr (h : ∀ j ≤ n, y j = y' j) : simps ev y n = simps ev y' n :=
  le_antisymm (simps_mono fun j hj => (h j hj).le) (simps_mono fun j hj => (h j hj).ge)

lemma simps_linear (a b : ℝ) : simps ev (fun j => a * y j + b * y' j) n = a * simps ev y n + b * simps ev y' n := by
  rcases Nat.even_or_odd' n with ⟨m, rfl | rfl⟩
  · simp only [simps_even, basicSimpson_add]
  · simp only [simps_odd]
    cases m with
    | zero => simp only; ring
    | succ m => cases ev <;> simp only [basicSimpson_add] <;> ring

lemma basicSimpson_const (c : ℝ) (s m : ℕ) : basicSimpson (fun _ => c) s m = 2 * m * c := by
  induction m with
  | zero => simp [basicSimpson_zero]
  | succ m ih => rw [basicSimpson_succ, ih]; push_cast; ring

lemma simps_const (c : ℝ) : simps ev (fun _ => c) n = n * c := by
  rcases Nat.even_or_odd' n with ⟨m, rfl | rfl⟩
  · rw [simps_even, basicSimpson_const]; push_cast; ring
  · rw [simps_odd]
    cases m with
    | zero => simp
    | succ m => cases ev <;> simp only [basicSimpson_const] <;> push_cast <;> ring

/-- **C144.** The weights of the rule are non-negative and sum to the number of intervals, whatever the parity and the version of the library: the average
of a path lies between any lower and upper bound of its values, and the square of the average of a path is at most the average of its squares. -/
theorem simps_average (ev : SimpsEven) (y : ℕ → ℝ) {n : ℕ} (hn : 0 < n) :
    (∀ a, (∀ j ≤ n, a ≤ y j) → a ≤ simps ev y n / n) ∧ (∀ b, (∀ j ≤ n, y j ≤ b) → simps ev y n / n ≤ b) ∧
    (simps ev y n / n) ^ 2 ≤ simps ev (fun j => y j ^ 2) n / n := by
  have hn' : (0:ℝ) < n := by exact_mod_cast hn
  refine ⟨fun a h => ?_, fun b h => ?_, ?_⟩
  · rw [le_div_iff₀ hn', mul_comm, ← simps_const (ev := ev)]
    exact simps_mono h
  · rw [div_le_iff₀ hn', mul_comm, ← simps_const (ev := ev)]
    exact simps_mono h
  · set u := simps ev y n / n with hu
    have h0 : 0 ≤ simps ev (fun j => (y j - u) ^ 2) n := by
      have := simps_mono (ev := ev) (n := n) (y := fun _ => 0) (y' := fun j => (y j - u) ^ 2) fun j _ => sq_nonneg _
      rwa [simps_const, mul_zero] at this
    have e : simps ev (fun j => (y j - u) ^ 2) n = simps ev (fun j => y j ^ 2) n - 2 * u * simps ev y n + u ^ 2 * n := by
      rw [show (fun j => (y j - u) ^ 2) = fun j => 1 * (1 * y j ^ 2 + (-(2 * u)) * y j) + 1 * u ^ 2 by ext j; ring, simps_linear, simps_linear, simps_const]
      ring
    rw [e] at h0
    have e2 : simps ev y n = u * n := by rw [hu]; field_simp
    rw [e2] at h0
    rw [le_div_iff₀ hn']
    nlinarith

/-- **C144.** The rule is exact on cubic polynomials of the time for an even number of intervals, on quadratic ones for an odd number of at least three intervals with the
corrected rule, and on affine functions always. -/
theorem simps_exact (ev : SimpsEven) (c : Fin 4 → ℝ) (n : ℕ)
    (h : (n % 2 = 0) ∨ (c 3 = 0 ∧ 3 ≤ n ∧ ev = .simpson) ∨ (c 3 = 0 ∧ c 2 = 0)) :
    simps ev (fun j => c 0 + c 1 * j + c 2 * j ^ 2 + c 3 * j ^ 3) n = ∫ x in (0:ℝ)..n, (c 0 + c 1 * x + c 2 * x ^ 2 + c 3 * x ^ 3) := by
  have hF : ∀ a b : ℝ, ∫ x in a..b, (c 0 + c 1 * x + c 2 * x ^ 2 + c 3 * x ^ 3) = (c 0 * b + c 1 * b ^ 2 / 2 + c 2 * b ^ 3 / 3 + c 3 * b ^ 4 / 4) - (c 0 * a + c 1 * a ^ 2 / 2 + c 2 * a ^ 3 / 3 + c 3 * a ^ 4 / 4) := fun a b => by
    rw [intervalIntegral.integral_add, intervalIntegral.integral_add, intervalIntegral.integral_add, intervalIntegral.integral_const_mul, intervalIntegral.integral_const_mul, intervalIntegral.integral_const_mul, integral_id, integral_pow, integral_pow, intervalIntegral.integral_const, smul_eq_mul]
    · push_cast; ring
    all_goals exact Continuous.intervalIntegrable (by fun_prop) _ _
  rcases Nat.even_or_odd' n with ⟨m, rfl | rfl⟩
  · rw [simps_even, basicSimpson_cubic]
    simp
  · rcases h with h | ⟨h3, hn, rfl⟩ | ⟨h3, h2⟩
    · omega
    · rw [simps_odd]
      obtain ⟨m, rfl⟩ : ∃ k, m = k + 1 := ⟨m - 1, by omega⟩
      simp only [basicSimpson_cubic, hF]
      simp only [h3]
      push_cast
      ring
    · rw [simps_odd]
      cases m with
      | zero => simp only [hF]; simp only [h3, h2]; push_cast; ring
      | succ m =>
        cases ev <;> simp only [basicSimpson_cubic, hF] <;> simp only [h3, h2] <;> push_cast <;> ring

example : simps .avg (fun j => ((j:ℝ)) ^ 2) 3 ≠ ∫ x in (0:ℝ)..3, x ^ 2 := by
  rw [show 3 = 2 * 1 + 1 by rfl, simps_odd]
  simp only [basicSimpson, Finset.sum_range_one, integral_pow]
  norm_num

lemma basicSimpson_near {w : ℝ} (hw : 0 ≤ w) (hy : ∀ i j, i ≤ n → j ≤ n → i ≤ j → j ≤ i + 2 → |y j - y i| ≤ w) (s m : ℕ) (h : s + 2 * m ≤ n) :
    |basicSimpson y s m - ∑ j ∈ Finset.range (2 * m), y (s + j)| ≤ 2 * m * w := by
  induction m with
  | zero => simp [basicSimpson_zero]
  | succ m ih =>
    have ih := abs_le.1 (ih (by omega))
    have a := abs_le.1 (hy (s + 2 * m) (s + 2 * m + 1) (by omega) (by omega) (by omega) (by omega))
    have b := abs_le.1 (hy (s + 2 * m) (s + 2 * m + 2) (by omega) (by omega) (by omega) (by omega))
    rw [basicSimpson_succ, show 2 * (m + 1) = 2 * m + 1 + 1 by ring, Finset.sum_range_succ, Finset.sum_range_succ, ← add_assoc s]
    push_cast
    rw [abs_le]
    constructor <;> linarith [ih.1, ih.2, a.1, a.2, b.1, b.2]

lemma simps_near {w : ℝ} (hw : 0 ≤ w) (hy : ∀ i j, i ≤ n → j ≤ n → i ≤ j → j ≤ i + 2 → |y j - y i| ≤ w) :
    |simps ev y n - ∑ j ∈ Finset.range n, y j| ≤ n * w := by
  rcases Nat.even_or_odd' n with ⟨m, rfl | rfl⟩
  · rw [simps_even]
    have := basicSimpson_near hw hy 0 m (by omega)
    simp only [zero_add] at this
    push_cast
    exact this
  · rw [simps_odd]
    cases m with
    | zero =>
      have a := abs_le.1 (hy 0 1 (by omega) (by omega) (by omega) (by omega))
      simp only [mul_zero, zero_add, Finset.sum_range_one]
      push_cast
      rw [abs_le]
      constructor <;> linarith [a.1, a.2]
    | succ m =>
      have A := abs_le.1 (basicSimpson_near hw hy 0 (m + 1) (by omega))
      have B := abs_le.1 (basicSimpson_near hw hy 1 (m + 1) (by omega))
      have a := abs_le.1 (hy 0 1 (by omega) (by omega) (by omega) (by omega))
      have b := abs_le.1 (hy (2 * m + 2) (2 * m + 3) (by omega) (by omega) (by omega) (by omega))
      have c := abs_le.1 (hy (2 * m + 1) (2 * m + 2) (by omega) (by omega) (by omega) (by omega))
      have e1 : ∑ j ∈ Finset.range (2 * (m + 1) + 1), y j = ∑ j ∈ Finset.range (2 * (m + 1)), y (0 + j) + y (2 * m + 2) := by
        rw [Finset.sum_range_succ]; simp [show 2 * (m + 1) = 2 * m + 2 by ring]
      have e2 : ∑ j ∈ Finset.range (2 * (m + 1) + 1), y j = ∑ j ∈ Finset.range (2 * (m + 1)), y (1 + j) + y 0 := by
        rw [Finset.sum_range_succ']; simp [add_comm]
      push_cast at A B ⊢
      cases ev with
      | avg =>
        simp only
        rw [abs_le]
        constructor <;> linarith [A.1, A.2, B.1, B.2, a.1, a.2, b.1, b.2]
      | simpson =>
        simp only
        rw [abs_le, e1]
        constructor <;> linarith [A.1, A.2, c.1, c.2, b.1, b.2]

/-- **C144.** For every continuous function of the time, the average computed by the rule on `n` intervals converges to the time average as `n` grows, through odd and even values. -/
theorem simps_tendsto (ev : SimpsEven) {f : ℝ → ℝ} (hf : Continuous f) {T : ℝ} (hT : 0 < T) :
    Tendsto (fun n : ℕ => simps ev (fun j => f (j * (T / n))) n / n) atTop (𝓝 (1 / T * ∫ s in (0:ℝ)..T, f s)) := by
  have hR := Follmer.riemann hf (g := fun _ => 1) continuous_const hT (N := fun n => n) tendsto_id
  simp only [mul_one, intervalIntegral.integral_const, smul_eq_mul] at hR
  have hR2 : Tendsto (fun n : ℕ => (∑ i ∈ Finset.range n, f (i * (T / n))) / n) atTop (𝓝 (1 / T * ∫ s in (0:ℝ)..T, f s)) := by
    refine (hR.const_mul (1 / T)).congr' ?_
    filter_upwards [eventually_gt_atTop 0] with n hn
    have hn' : (n:ℝ) ≠ 0 := by exact_mod_cast hn.ne'
    rw [Finset.mul_sum, Finset.sum_div]
    refine Finset.sum_congr rfl fun i _ => ?_
    have hT' := hT.ne'
    push_cast
    field_simp
    ring
  have hd : Tendsto (fun n : ℕ => simps ev (fun j => f (j * (T / n))) n / n - (∑ i ∈ Finset.range n, f (i * (T / n))) / n) atTop (𝓝 0) := by
    rw [Metric.tendsto_atTop]
    intro ε hε
    have huc : UniformContinuousOn f (Icc 0 T) := isCompact_Icc.uniformContinuousOn_of_continuous hf.continuousOn
    obtain ⟨δ, hδ, hδf⟩ := Metric.uniformContinuousOn_iff.1 huc (ε / 2) (by positivity)
    obtain ⟨N, hN⟩ := exists_nat_gt (2 * T / δ)
    refine ⟨N + 1, fun n hn => ?_⟩
    have hn0 : (0 : ℝ) < n := by exact_mod_cast (by omega : 0 < n)
    have hs : 2 * (T / n) < δ := by
      have h1 := (div_lt_iff₀ hδ).1 hN
      have h2 : (N : ℝ) + 1 ≤ n := by exact_mod_cast hn
      rw [← mul_div_assoc, div_lt_iff₀ hn0]
      nlinarith
    have hstep : 0 < T / n := by positivity
    have hmem : ∀ j : ℕ, j ≤ n → (j * (T / n) : ℝ) ∈ Icc 0 T := fun j hj => by
      have hj' : (j:ℝ) ≤ n := by exact_mod_cast hj
      refine ⟨by positivity, ?_⟩
      rw [← mul_div_assoc, div_le_iff₀ hn0]
      nlinarith
    have key := simps_near (ev := ev) (n := n) (y := fun j => f (j * (T / n))) (w := ε / 2) (by positivity) fun i j hi hj hij hij2 => by
      have hd : dist ((j:ℝ) * (T / n)) (i * (T / n)) < δ := by
        have h1 : (i:ℝ) ≤ j := by exact_mod_cast hij
        have h2 : (j:ℝ) ≤ i + 2 := by exact_mod_cast hij2
        rw [Real.dist_eq, abs_of_nonneg (by nlinarith)]
        nlinarith
      have := hδf _ (hmem j hj) _ (hmem i hi) hd
      rw [Real.dist_eq] at this
      exact this.le
    rw [Real.dist_eq, sub_zero, ← sub_div, abs_div, abs_of_pos hn0, div_lt_iff₀ hn0]
    refine lt_of_le_of_lt key ?_
    nlinarith
  have := hd.add hR2
  simpa using this

end Rule

/-! ### The dates -/

lemma McState.tobs_some {d T : ℝ} (hd : 0 < d) (hT : 0 < T) : McState.tobs (some d) T = (List.range ⌈T / d⌉₊).map fun (k : ℕ) => ((k : ℝ) + 1) / ⌈T / d⌉₊ * T := by
  unfold McState.tobs
  by_cases h : d ≥ T
  · have h1 : ⌈T / d⌉₊ = 1 := by
      rw [Nat.ceil_eq_iff one_ne_zero]
      refine ⟨by simp; positivity, ?_⟩
      push_cast
      rw [div_le_one hd]
      exact h
    simp [h, h1]
  · simp [h]

lemma McState.tobs_len_tendsto {T : ℝ} (hT : 0 < T) : Tendsto (fun d : ℝ => ⌈T / d⌉₊) (𝓝[>] 0) atTop := by
  refine tendsto_nat_ceil_atTop.comp ?_
  exact tendsto_inv_nhdsGT_zero.const_mul_atTop hT

lemma simpsList_cons (ev : SimpsEven) (x0 : ℝ) (f : ℝ → ℝ) (n : ℕ) (g : ℕ → ℝ) :
    simpsList ev (x0 :: ((List.range n).map g).map f) = simps ev (fun j => if j = 0 then x0 else f (g (j - 1))) n := by
  unfold simpsList
  simp only [List.length_cons, List.length_map, List.length_range, Nat.add_sub_cancel]
  refine simps_congr fun j hj => ?_
  cases j with
  | zero => simp
  | succ j =>
    have : j < n := by omega
    simp [List.getD, this]

namespace Ousv

variable {Ω : Type*} [mΩ : MeasurableSpace Ω] {P : Measure Ω} {W X : ℝ≥0 → Ω → ℝ}

/-- **C144** (`OusvMcTimeDisc.cond_states_full`).  On every path, with every time step and every parity of the number of steps, the final volatility is the path at the
expiry, the average volatility lies between the extremes of the path, the average variance between the extremes of its square, and the average variance is at least the square of the
average volatility. -/
theorem condStatesFull_range (ev : SimpsEven) (m : Ousv) {dt : Option ℝ} {T : ℝ} (hT : 0 < T) (hdt : ∀ d, dt = some d → 0 < d) (sig0 : ℝ) (bm : ℝ → ℝ) :
    (m.condStatesFull ev dt T sig0 bm).1 = m.volPath bm T ∧
    (∀ a b, a ≤ m.sigma → m.sigma ≤ b → (∀ t ∈ McState.tobs dt T, a ≤ m.volPath bm t ∧ m.volPath bm t ≤ b) →
      a ≤ (m.condStatesFull ev dt T sig0 bm).2.2 ∧ (m.condStatesFull ev dt T sig0 bm).2.2 ≤ b ∧
      (0 ≤ a → a ^ 2 ≤ (m.condStatesFull ev dt T sig0 bm).2.1 ∧ (m.condStatesFull ev dt T sig0 bm).2.1 ≤ b ^ 2)) ∧
    (m.condStatesFull ev dt T sig0 bm).2.2 ^ 2 ≤ (m.condStatesFull ev dt T sig0 bm).2.1 := by
  obtain ⟨h1, -, -, h4, -⟩ := McState.tobs_spec hT dt hdt
  have hlen : 0 < (McState.tobs dt T).length := List.length_pos_iff.2 h1
  unfold condStatesFull volPathList simpsList
  simp only [List.length_cons, List.length_map, Nat.add_sub_cancel]
  set t := McState.tobs dt T with ht
  set y : ℕ → ℝ := fun j => (m.sigma :: t.map (m.volPath bm)).getD j 0 with hy
  have hsq : simps ev (fun j => ((m.sigma :: t.map (m.volPath bm)).map (· ^ 2)).getD j 0) t.length = simps ev (fun j => y j ^ 2) t.length := by
    refine simps_congr fun j hj => ?_
    have : j < (m.sigma :: t.map (m.volPath bm)).length := by simp; omega
    simp only [hy, List.getD_eq_getElem?_getD, List.getElem?_map, List.getElem?_eq_getElem this, Option.map_some, Option.getD_some]
  rw [hsq]
  have hval : ∀ j ≤ t.length, y j ∈ m.sigma :: t.map (m.volPath bm) := fun j hj => by
    have : j < (m.sigma :: t.map (m.volPath bm)).length := by simp; omega
    simp only [hy, List.getD_eq_getElem?_getD, List.getElem?_eq_getElem this]
    exact List.getElem_mem _
  obtain ⟨A, B, C⟩ := simps_average ev y hlen
  refine ⟨?_, fun a b ha hb hab => ?_, C⟩
  · rw [List.getLastD_cons]
    have : (t.map (m.volPath bm)).getLast? = some (m.volPath bm T) := by
      rw [List.getLast?_map, h4]
      rfl
    rw [List.getLastD_eq_getLast?, this]
    rfl
  · have hyab : ∀ j ≤ t.length, a ≤ y j ∧ y j ≤ b := fun j hj => by
      have := hval j hj
      rw [List.mem_cons, List.mem_map] at this
      rcases this with h | ⟨s, hs, h⟩
      · rw [h]; exact ⟨ha, hb⟩
      · rw [← h]; exact hab s hs
    refine ⟨A a fun j hj => (hyab j hj).1, B b fun j hj => (hyab j hj).2, fun ha0 => ?_⟩
    obtain ⟨A2, B2, -⟩ := simps_average ev (fun j => y j ^ 2) hlen
    refine ⟨A2 _ fun j hj => ?_, B2 _ fun j hj => ?_⟩
    · exact pow_le_pow_left₀ ha0 (hyab j hj).1 2
    · exact pow_le_pow_left₀ (ha0.trans (hyab j hj).1) (hyab j hj).2 2

/-- The states computed from the values of a path at the dates. -/
lemma condStatesFull_eq (ev : SimpsEven) (m : Ousv) {d T : ℝ} (hd : 0 < d) (hT : 0 < T) (sig0 : ℝ) (bm : ℝ → ℝ) (x : ℝ → ℝ) (h0 : x 0 = m.sigma)
    (hx : ∀ k : ℕ, 1 ≤ k → k ≤ ⌈T / d⌉₊ → m.volPath bm (k * (T / ⌈T / d⌉₊)) = x (k * (T / ⌈T / d⌉₊))) :
    m.condStatesFull ev (some d) T sig0 bm =
      (x T, simps ev (fun j => x (j * (T / ⌈T / d⌉₊)) ^ 2) ⌈T / d⌉₊ / ⌈T / d⌉₊, simps ev (fun j => x (j * (T / ⌈T / d⌉₊))) ⌈T / d⌉₊ / ⌈T / d⌉₊) := by
  have hn : 0 < ⌈T / d⌉₊ := Nat.ceil_pos.2 (by positivity)
  set n := ⌈T / d⌉₊ with hndef
  have hn' : (n:ℝ) ≠ 0 := by exact_mod_cast hn.ne'
  have h1 := (condStatesFull_range ev m hT (dt := some d) (fun e he => by simp only [Option.some.injEq] at he; rw [← he]; exact hd) sig0 bm).1
  refine Prod.ext ?_ ?_
  · rw [h1]
    have := hx n hn le_rfl
    rwa [show (n:ℝ) * (T / n) = T by field_simp] at this
  · have hg : ∀ k : ℕ, ((k:ℝ) + 1) / n * T = ((k + 1 : ℕ) : ℝ) * (T / n) := fun k => by push_cast; field_simp
    unfold condStatesFull volPathList
    simp only [McState.tobs_some hd hT, ← hndef, List.length_map, List.length_range, List.map_cons, hg]
    rw [List.map_map (f := m.volPath bm), simpsList_cons, simpsList_cons]
    refine Prod.ext ?_ ?_
    · simp only
      congr 1
      refine simps_congr fun j hj => ?_
      cases j with
      | zero => simp [h0]
      | succ j => simp only [Nat.add_sub_cancel, if_neg (Nat.succ_ne_zero j), Function.comp, hx (j + 1) (by omega) hj]
    · show _ / (n:ℝ) = _ / (n:ℝ)
      congr 1
      refine simps_congr fun j hj => ?_
      cases j with
      | zero => simp [h0]
      | succ j => simp only [Nat.add_sub_cancel, if_neg (Nat.succ_ne_zero j), hx (j + 1) (by omega) hj]

lemma continuous_simps {α : Type*} [TopologicalSpace α] (ev : SimpsEven) {y : α → ℕ → ℝ} (hy : ∀ j, Continuous fun a => y a j) (n : ℕ) : Continuous fun a => simps ev (y a) n := by
  have hb : ∀ s k, Continuous fun a => basicSimpson (y a) s k := fun s k => by
    unfold basicSimpson
    fun_prop
  unfold simps
  split_ifs
  · exact hb _ _
  · fun_prop
  · cases ev <;> simp only <;> fun_prop

/-- **C144** (`OusvMcTimeDisc.cond_states_full`), convergence.  Let `X` be a solution of the volatility equation `dσ = mr (θ - σ) dt + vov dW`, `σ_0 = sigma`, and let the paths of the
code be built from a Brownian motion.  As the time step goes to zero, the joint law of (final volatility, average variance, average volatility) returned by the code converges to the
law of `(X_T, (1/T) ∫ X², (1/T) ∫ X)`. -/
theorem condStatesFull_tendsto (ev : SimpsEven) (m : Ousv) (hm : 0 < m.mr) (h : Spec.IsOU P W X m.mr m.theta m.vov m.sigma) {Ω' : Type*} [MeasurableSpace Ω'] {P' : Measure Ω'}
    {B : ℝ≥0 → Ω' → ℝ} (hB : Spec.IsBM P' B) {T : ℝ} (hT : 0 < T) (sig0 : ℝ) (g : ℝ × ℝ × ℝ → ℝ) (hg : Continuous g) {C : ℝ} (hC : ∀ x, |g x| ≤ C) :
    Tendsto (fun d => ∫ ω, g (m.condStatesFull ev (some d) T sig0 fun s => B s.toNNReal ω) ∂P') (𝓝[>] 0)
      (𝓝 (∫ ω, g (X T.toNNReal ω, 1 / T * ∫ s in (0:ℝ)..T, X s.toNNReal ω ^ 2, 1 / T * ∫ s in (0:ℝ)..T, X s.toNNReal ω) ∂P)) := by
  have hP : IsProbabilityMeasure P := h.bm.law.isGaussianProcess.isProbabilityMeasure
  have hXm : ∀ t, Measurable (X t) := fun t => by
    rw [show X t = fun ω => m.theta + (m.sigma - m.theta) * exp (-(m.mr * t)) + m.vov * Ou.zed W m.mr t ω from funext (h.eq t)]
    exact measurable_const.add ((Ou.meas_zed h.bm m.mr t).const_mul _)
  have hX0 : ∀ᵐ ω ∂P, X 0 ω = m.sigma := by
    filter_upwards [h.bm.law.eval_zero_ae_eq_zero] with ω hω
    have := h.sde ω 0
    rw [hω] at this
    simpa using this
  -- the states computed from the process `X`
  set st : ℝ → Ω → ℝ × ℝ × ℝ := fun d ω => (X T.toNNReal ω, simps ev (fun j => (if j = 0 then m.sigma else X (j * (T / ⌈T / d⌉₊)).toNNReal ω) ^ 2) ⌈T / d⌉₊ / ⌈T / d⌉₊,
    simps ev (fun j => if j = 0 then m.sigma else X (j * (T / ⌈T / d⌉₊)).toNNReal ω) ⌈T / d⌉₊ / ⌈T / d⌉₊) with hst
  have hlaw : ∀ d, 0 < d → ∫ ω, g (m.condStatesFull ev (some d) T sig0 fun s => B s.toNNReal ω) ∂P' = ∫ ω, g (st d ω) ∂P := fun d hd => by
    have hn : 0 < ⌈T / d⌉₊ := Nat.ceil_pos.2 (by positivity)
    simp only [hst]
    set n := ⌈T / d⌉₊ with hndef
    have hn' : (n:ℝ) ≠ 0 := by exact_mod_cast hn.ne'
    set τ : ℕ → ℝ≥0 := fun k => (k * (T / n)).toNNReal with hτ
    set I : Finset ℝ≥0 := (Finset.range (n + 1)).image τ with hI
    have hmem : ∀ k, k ≤ n → τ k ∈ I := fun k hk => Finset.mem_image_of_mem _ (Finset.mem_range.2 (by omega))
    have hτn : τ n = T.toNNReal := by
      simp only [hτ]
      rw [show (n:ℝ) * (T / n) = T by field_simp]
    set Y : (I → ℝ) → ℕ → ℝ := fun v j => if j = 0 then m.sigma else if hj : j ≤ n then v ⟨τ j, hmem j hj⟩ else 0 with hY
    set Ψ : (I → ℝ) → ℝ × ℝ × ℝ := fun v => (Y v n, simps ev (fun j => Y v j ^ 2) n / n, simps ev (Y v) n / n) with hΨ
    have hYc : ∀ j, Continuous fun v => Y v j := fun j => by
      simp only [hY]
      split_ifs
      · exact continuous_const
      · exact continuous_apply _
      · exact continuous_const
    have hΨc : Continuous Ψ := (hYc n).prodMk (((continuous_simps ev (fun j => (hYc j).pow 2) n).div_const _).prodMk ((continuous_simps ev hYc n).div_const _))
    have hgΨ : Measurable fun v => g (Ψ v) := (hg.comp hΨc).measurable
    have e1 : ∀ ω, g (m.condStatesFull ev (some d) T sig0 fun s => B s.toNNReal ω) = g (Ψ (I.restrict fun t => m.volPath (fun s => B s.toNNReal ω) t)) := fun ω => by
      rw [condStatesFull_eq ev m hd hT sig0 _ (fun t => if t = 0 then m.sigma else m.volPath (fun s => B s.toNNReal ω) t) (if_pos rfl) (fun k hk hk2 => by
        have : (k:ℝ) * (T / n) ≠ 0 := by
          have : 0 < (k:ℝ) := by exact_mod_cast hk
          positivity
        rw [← hndef, if_neg this]), ← hndef]
      have hv : ∀ j ≤ n, (if (j:ℝ) * (T / n) = 0 then m.sigma else m.volPath (fun s => B s.toNNReal ω) (j * (T / n))) = Y (I.restrict fun t => m.volPath (fun s => B s.toNNReal ω) t) j := fun j hj => by
        simp only [hY]
        by_cases hj0 : j = 0
        · simp [hj0]
        · have : (j:ℝ) * (T / n) ≠ 0 := by
            have : 0 < (j:ℝ) := by exact_mod_cast (Nat.pos_of_ne_zero hj0)
            positivity
          rw [if_neg this, if_neg hj0, dif_pos hj]
          simp only [Finset.restrict, hτ]
          rw [coe_toNNReal _ (by positivity)]
      congr 1
      refine Prod.ext ?_ (Prod.ext ?_ ?_)
      · simp only [hΨ]
        have := hv n le_rfl
        rw [show (n:ℝ) * (T / n) = T by field_simp] at this
        exact this
      · simp only [hΨ]
        congr 1
        exact simps_congr fun j hj => by rw [hv j hj]
      · simp only [hΨ]
        congr 1
        exact simps_congr fun j hj => hv j hj
    have e2 : ∀ ω, g (X T.toNNReal ω, simps ev (fun j => (if j = 0 then m.sigma else X (j * (T / n)).toNNReal ω) ^ 2) n / n,
        simps ev (fun j => if j = 0 then m.sigma else X (j * (T / n)).toNNReal ω) n / n) = g (Ψ (I.restrict (X · ω))) := fun ω => by
      have hv : ∀ j ≤ n, (if j = 0 then m.sigma else X (j * (T / n)).toNNReal ω) = Y (I.restrict (X · ω)) j := fun j hj => by
        simp only [hY]
        by_cases hj0 : j = 0
        · simp [hj0]
        · rw [if_neg hj0, if_neg hj0, dif_pos hj]
          rfl
      congr 1
      refine Prod.ext ?_ (Prod.ext ?_ ?_)
      · simp only [hΨ]
        have := hv n le_rfl
        rw [if_neg hn.ne'] at this
        rw [← this, ← hτn]
      · simp only [hΨ]
        congr 1
        exact simps_congr fun j hj => by rw [hv j hj]
      · simp only [hΨ]
        congr 1
        exact simps_congr fun j hj => hv j hj
    simp only [e1, e2]
    have hmX : AEMeasurable (fun ω => I.restrict (X · ω)) P := aemeasurable_pi_lambda _ fun t => (hXm t).aemeasurable
    have hmV : AEMeasurable (fun ω => I.restrict fun t : ℝ≥0 => m.volPath (fun s => B s.toNNReal ω) t) P' := aemeasurable_pi_lambda _ fun t => by
      refine Measurable.aemeasurable ?_
      show Measurable fun ω => m.volPath (fun s => B s.toNNReal ω) (t : ℝ≥0)
      unfold volPath
      exact measurable_const.add (((measurable_const.add ((hB.meas _).const_mul _))).div_const _)
    rw [← integral_map hmV hgΨ.aestronglyMeasurable, ← integral_map hmX hgΨ.aestronglyMeasurable, vol_paths_law m hm h hB I]
  have hlim : Tendsto (fun d => ∫ ω, g (st d ω) ∂P) (𝓝[>] 0)
      (𝓝 (∫ ω, g (X T.toNNReal ω, 1 / T * ∫ s in (0:ℝ)..T, X s.toNNReal ω ^ 2, 1 / T * ∫ s in (0:ℝ)..T, X s.toNNReal ω) ∂P)) := by
    refine tendsto_integral_filter_of_dominated_convergence (fun _ => C) (Eventually.of_forall fun d => ?_) (Eventually.of_forall fun d => ae_of_all _ fun ω => hC _) (integrable_const _) ?_
    · refine (hg.measurable.comp ?_).aestronglyMeasurable
      have hms : ∀ y : Ω → ℕ → ℝ, (∀ j, Measurable fun ω => y ω j) → ∀ n, Measurable fun ω => simps ev (y ω) n := fun y hy n =>
        (continuous_simps (α := ℕ → ℝ) ev (y := fun v => v) (fun j => continuous_apply j) n).measurable.comp (measurable_pi_lambda _ hy)
      have hyy : ∀ j : ℕ, Measurable fun ω => if j = 0 then m.sigma else X (j * (T / ⌈T / d⌉₊)).toNNReal ω := fun j => by
        split_ifs
        · exact measurable_const
        · exact hXm _
      exact (hXm _).prodMk (((hms _ (fun j => (hyy j).pow_const 2) _).div_const _).prodMk ((hms _ hyy _).div_const _))
    · filter_upwards [hX0] with ω hω
      refine (hg.tendsto _).comp ?_
      have hc : Continuous fun s : ℝ => X s.toNNReal ω := (h.cont ω).comp continuous_real_toNNReal
      have c1 := (simps_tendsto ev hc hT).comp (McState.tobs_len_tendsto hT)
      have c2 := (simps_tendsto ev (hc.pow 2) hT).comp (McState.tobs_len_tendsto hT)
      have hif : ∀ (j : ℕ) (u : ℝ), (if j = 0 then m.sigma else X (j * u).toNNReal ω) = X (j * u).toNNReal ω := fun j u => by
        split_ifs with hj
        · rw [hj]; simp [hω]
        · rfl
      simp only [hst, hif]
      exact tendsto_const_nhds.prodMk_nhds (c2.prodMk_nhds c1)
  refine hlim.congr' ?_
  filter_upwards [self_mem_nhdsWithin] with d hd
  exact (hlaw d hd).symm

/-- The hypotheses can be met: there is a solution of the volatility equation, driven by a Brownian motion. -/
example (m : Ousv) : ∃ (Ω : Type) (_ : MeasurableSpace Ω) (P : Measure Ω) (W X : ℝ≥0 → Ω → ℝ), Spec.IsOU P W X m.mr m.theta m.vov m.sigma ∧ Spec.IsBM P W := by
  obtain ⟨Ω, mΩ, P, W, hB⟩ := Spec.exists_isBM
  exact ⟨Ω, mΩ, P, W, _, Ou.isOU hB m.mr m.theta m.vov m.sigma, hB⟩

/-- With a single date the averages are those of the trapezoidal rule. -/
example (ev : SimpsEven) (m : Ousv) (sig0 : ℝ) (bm : ℝ → ℝ) : m.condStatesFull ev none 1 sig0 bm = (m.volPath bm 1, (m.sigma ^ 2 + m.volPath bm 1 ^ 2) / 2, (m.sigma + m.volPath bm 1) / 2) := by
  simp [condStatesFull, McState.tobs, volPathList, simpsList, simps]

end Ousv

namespace Sabr

/-- The volatility relative to its initial value, on a Brownian path `z` with the drift shift `mu` of the importance sampling. -/
noncomputable def _root_.PyFENG.Spec.sabrVolRatio (vov mu T : ℝ) (z : ℝ → ℝ) (t : ℝ) : ℝ := exp (vov * (z t + mu * t / √T) - vov ^ 2 * t / 2)

lemma exists_min (l : List ℝ) (h : ∀ x ∈ l, 0 < x) : ∃ c, 0 < c ∧ ∀ x ∈ l, c ≤ x := by
  induction l with
  | nil => exact ⟨1, one_pos, fun x hx => by simp at hx⟩
  | cons a l ih =>
    obtain ⟨c, hc, hcl⟩ := ih (fun x hx => h x (List.mem_cons_of_mem _ hx))
    refine ⟨min a c, lt_min (h a List.mem_cons_self) hc, fun x hx => ?_⟩
    rcases List.mem_cons.1 hx with rfl | h
    · exact min_le_left _ _
    · exact (min_le_right _ _).trans (hcl x h)

lemma zipWith_map_self {α β : Type*} (f : α → α → β) (g : α → α) (l : List α) : List.zipWith f (l.map g) l = l.map fun t => f (g t) t := by
  induction l with
  | nil => rfl
  | cons a l ih => simp [ih]

lemma volPathMu_eq (m : Sabr) {dt : Option ℝ} {T : ℝ} (hT : 0 < T) (hdt : ∀ d, dt = some d → 0 < d) (z : ℝ → ℝ) (mu : ℝ) :
    m.volPathMu (McState.tobs dt T) ((McState.tobs dt T).map fun t => z t / √T) mu =
      (1 :: (McState.tobs dt T).map (Spec.sabrVolRatio m.vov mu T z), -mu * (z T / √T + 0.5 * mu)) := by
  obtain ⟨-, -, -, h4, -⟩ := McState.tobs_spec hT dt hdt
  have hl : (McState.tobs dt T).getLastD 0 = T := by rw [List.getLastD_eq_getLast?, h4]; rfl
  have hl2 : ((McState.tobs dt T).map fun t => z t / √T).getLastD 0 = z T / √T := by
    rw [List.getLastD_eq_getLast?, List.getLast?_map, h4]; rfl
  unfold volPathMu
  simp only [hl, hl2, zipWith_map_self]
  have hs : √T ≠ 0 := (sqrt_pos.2 hT).ne'
  have hss : √T ^ 2 = T := sq_sqrt hT.le
  refine Prod.ext ?_ ?_
  · show _ :: _ = _ :: _
    congr 1
    refine List.map_congr_left fun t _ => ?_
    unfold Spec.sabrVolRatio
    congr 1
    rw [show (0.5:ℝ) = 1 / 2 by norm_num]
    generalize √T = r at *
    subst hss
    field_simp
    ring
  · simp only
    split_ifs with h
    · simp [h]
    · rfl

open Classical in
/-- **C144** (`SabrMcTimeDisc.cond_spot_sigma_volpath`).  On every Brownian path, with every time step and shift `mu`, the average variance behind `vol_cond` is positive and lies between the extremes of
the squared volatility path; the returned values are the conditional spot and volatility of the final volatility and that average. -/
theorem condSpotSigmaVolpath_range (ev : SimpsEven) (m : Sabr) {dt : Option ℝ} {T : ℝ} (hT : 0 < T) (hdt : ∀ d, dt = some d → 0 < d) (sigma0 : ℝ) (z : ℝ → ℝ) (mu : ℝ) :
    ∃ v : ℝ, 0 < v ∧ (∀ a b, 0 ≤ a → a ≤ 1 → 1 ≤ b → (∀ t ∈ McState.tobs dt T, a ≤ Spec.sabrVolRatio m.vov mu T z t ∧ Spec.sabrVolRatio m.vov mu T z t ≤ b) → a ^ 2 ≤ v ∧ v ≤ b ^ 2) ∧
      m.condSpotSigmaVolpath ev dt T sigma0 ((McState.tobs dt T).map fun t => z t / √T) mu =
        ((if npIsclose m.beta 0 then m.rho * sigma0 * (Spec.sabrVolRatio m.vov mu T z T - 1) / m.vov
          else exp (m.rho * sigma0 * (Spec.sabrVolRatio m.vov mu T z T - 1) / m.vov - (m.rho * sigma0) ^ 2 * v * T / 2)),
          √(1 - m.rho ^ 2) * √v, -mu * (z T / √T + mu / 2)) := by
  obtain ⟨h1, -, -, h4, -⟩ := McState.tobs_spec hT dt hdt
  have hlen : 0 < (McState.tobs dt T).length := List.length_pos_iff.2 h1
  have hlast := h4
  set t := McState.tobs dt T with ht
  set f := Spec.sabrVolRatio m.vov mu T z with hf
  set l : List ℝ := 1 :: t.map f with hl
  set y : ℕ → ℝ := fun j => l.getD j 0 with hy
  have hll : l.length = t.length + 1 := by simp [hl]
  have hval : ∀ j ≤ t.length, y j ∈ l := fun j hj => by
    have : j < l.length := by omega
    simp only [hy, List.getD_eq_getElem?_getD, List.getElem?_eq_getElem this]
    exact List.getElem_mem _
  have hpos : ∀ x ∈ l, 0 < x := fun x hx => by
    rw [hl, List.mem_cons, List.mem_map] at hx
    rcases hx with rfl | ⟨s, -, rfl⟩
    · exact one_pos
    · exact exp_pos _
  have hsq : simpsList ev (l.map (· ^ 2)) = simps ev (fun j => y j ^ 2) t.length := by
    unfold simpsList
    rw [List.length_map, hll, Nat.add_sub_cancel]
    refine simps_congr fun j hj => ?_
    have : j < l.length := by omega
    simp only [hy, List.getD_eq_getElem?_getD, List.getElem?_map, List.getElem?_eq_getElem this, Option.map_some, Option.getD_some]
  obtain ⟨A, B, -⟩ := simps_average ev (fun j => y j ^ 2) hlen
  obtain ⟨c, hc, hcl⟩ := exists_min l hpos
  refine ⟨simps ev (fun j => y j ^ 2) t.length / t.length, lt_of_lt_of_le (by positivity : 0 < c ^ 2) (A _ fun j hj => pow_le_pow_left₀ hc.le (hcl _ (hval j hj)) 2), fun a b ha ha1 hb hab => ?_, ?_⟩
  · have hyab : ∀ j ≤ t.length, a ≤ y j ∧ y j ≤ b := fun j hj => by
      have := hval j hj
      rw [hl, List.mem_cons, List.mem_map] at this
      rcases this with h | ⟨s, hs, h⟩
      · rw [h]; exact ⟨ha1, hb⟩
      · rw [← h]; exact hab s hs
    exact ⟨A _ fun j hj => pow_le_pow_left₀ ha (hyab j hj).1 2, B _ fun j hj => pow_le_pow_left₀ (ha.trans (hyab j hj).1) (hyab j hj).2 2⟩
  · have hV := volPathMu_eq m hT hdt z mu
    rw [← ht, ← hf, ← hl] at hV
    have hlastl : l.getLastD 0 = f T := by
      rw [List.getLastD_eq_getLast?, hl, List.getLast?_cons, List.getLast?_map, hlast]
      rfl
    unfold condSpotSigmaVolpath
    simp only [← ht, hV, hlastl, hsq]
    unfold volpathResult
    simp only [show (0.5:ℝ) = 1 / 2 by norm_num, show (1.0:ℝ) = 1 by norm_num]
    generalize simps ev (fun j => y j ^ 2) t.length / t.length = v
    refine Prod.ext ?_ (Prod.ext rfl ?_)
    · simp only
      split_ifs
      · ring
      · congr 1
        ring
    · simp only
      ring

open Classical in
/-- **C144** (`SabrMcTimeDisc.cond_spot_sigma_volpath`), convergence.  On every continuous Brownian path, as the time step goes to zero, the returned conditional spot and volatility converge to those of the exact
integral `∫ σ_t² dt` of the volatility path. -/
theorem condSpotSigmaVolpath_tendsto (ev : SimpsEven) (m : Sabr) {T : ℝ} (hT : 0 < T) (sigma0 : ℝ) {z : ℝ → ℝ} (hz : Continuous z) (hz0 : z 0 = 0) (mu : ℝ) :
    Tendsto (fun d => m.condSpotSigmaVolpath ev (some d) T sigma0 ((McState.tobs (some d) T).map fun t => z t / √T) mu) (𝓝[>] 0)
      (𝓝 ((if npIsclose m.beta 0 then m.rho * sigma0 * (Spec.sabrVolRatio m.vov mu T z T - 1) / m.vov
          else exp (m.rho * sigma0 * (Spec.sabrVolRatio m.vov mu T z T - 1) / m.vov - (m.rho * sigma0) ^ 2 / 2 * ∫ t in (0:ℝ)..T, Spec.sabrVolRatio m.vov mu T z t ^ 2)),
          √(1 - m.rho ^ 2) * √(1 / T * ∫ t in (0:ℝ)..T, Spec.sabrVolRatio m.vov mu T z t ^ 2), -mu * (z T / √T + mu / 2))) := by
  set f := Spec.sabrVolRatio m.vov mu T z with hf
  have hfc : Continuous f := by
    rw [hf]
    unfold Spec.sabrVolRatio
    fun_prop
  have hf0 : f 0 = 1 := by simp [hf, Spec.sabrVolRatio, hz0]
  have c2 := (simps_tendsto ev (hfc.pow 2) hT).comp (McState.tobs_len_tendsto hT)
  set V : ℝ → ℝ := fun d => simps ev (fun j => f (j * (T / ⌈T / d⌉₊)) ^ 2) ⌈T / d⌉₊ / ⌈T / d⌉₊ with hVdef
  have hV : Tendsto V (𝓝[>] 0) (𝓝 (1 / T * ∫ t in (0:ℝ)..T, f t ^ 2)) := c2
  have hval : ∀ d, 0 < d → m.condSpotSigmaVolpath ev (some d) T sigma0 ((McState.tobs (some d) T).map fun t => z t / √T) mu =
      ((if npIsclose m.beta 0 then m.rho * sigma0 * (f T - 1) / m.vov else exp (m.rho * sigma0 * (f T - 1) / m.vov - (m.rho * sigma0) ^ 2 / 2 * (T * V d))),
          √(1 - m.rho ^ 2) * √(V d), -mu * (z T / √T + mu / 2)) := fun d hd => by
    have hdt : ∀ e, some d = some e → 0 < e := fun e he => by simp only [Option.some.injEq] at he; rw [← he]; exact hd
    have hvp := volPathMu_eq m hT hdt z mu
    rw [← hf] at hvp
    obtain ⟨-, -, -, h4, -⟩ := McState.tobs_spec hT (some d) hdt
    have hlastl : (1 :: (McState.tobs (some d) T).map f).getLastD 0 = f T := by
      rw [List.getLastD_eq_getLast?, List.getLast?_cons, List.getLast?_map, h4]
      rfl
    have hn : 0 < ⌈T / d⌉₊ := Nat.ceil_pos.2 (by positivity)
    have hvv : simpsList ev ((1 :: (McState.tobs (some d) T).map f).map (· ^ 2)) / ((McState.tobs (some d) T).length : ℝ) = V d := by
      rw [McState.tobs_some hd hT]
      simp only [hVdef]
      set n := ⌈T / d⌉₊ with hndef
      have hn' : (n:ℝ) ≠ 0 := by exact_mod_cast hn.ne'
      have hg : ∀ k : ℕ, ((k:ℝ) + 1) / n * T = ((k + 1 : ℕ) : ℝ) * (T / n) := fun k => by push_cast; field_simp
      simp only [List.length_map, List.length_range, List.map_cons, hg]
      rw [List.map_map (f := f), simpsList_cons]
      congr 1
      refine simps_congr fun j hj => ?_
      cases j with
      | zero => simp [hf0]
      | succ j => simp only [Nat.add_sub_cancel, if_neg (Nat.succ_ne_zero j), Function.comp]
    unfold condSpotSigmaVolpath
    simp only [hvp, hlastl, hvv]
    unfold volpathResult
    simp only [show (0.5:ℝ) = 1 / 2 by norm_num, show (1.0:ℝ) = 1 by norm_num]
    refine Prod.ext ?_ (Prod.ext rfl ?_)
    · simp only
      split_ifs
      · ring
      · congr 1
        ring
    · simp only
      ring
  have hlim : Tendsto (fun d => ((if npIsclose m.beta 0 then m.rho * sigma0 * (f T - 1) / m.vov else exp (m.rho * sigma0 * (f T - 1) / m.vov - (m.rho * sigma0) ^ 2 / 2 * (T * V d))),
          √(1 - m.rho ^ 2) * √(V d), -mu * (z T / √T + mu / 2))) (𝓝[>] 0)
      (𝓝 ((if npIsclose m.beta 0 then m.rho * sigma0 * (f T - 1) / m.vov
          else exp (m.rho * sigma0 * (f T - 1) / m.vov - (m.rho * sigma0) ^ 2 / 2 * ∫ t in (0:ℝ)..T, f t ^ 2)),
          √(1 - m.rho ^ 2) * √(1 / T * ∫ t in (0:ℝ)..T, f t ^ 2), -mu * (z T / √T + mu / 2))) := by
    refine Tendsto.prodMk_nhds ?_ (Tendsto.prodMk_nhds ((hV.sqrt).const_mul _) tendsto_const_nhds)
    split_ifs
    · exact tendsto_const_nhds
    · refine (continuous_exp.tendsto _).comp (tendsto_const_nhds.sub (Tendsto.const_mul _ ?_))
      have := hV.const_mul T
      rwa [← mul_assoc, mul_one_div_cancel hT.ne', one_mul] at this
  refine hlim.congr' ?_
  filter_upwards [self_mem_nhdsWithin] with d hd
  exact (hval d hd).symm

end Sabr

end PyFENG
