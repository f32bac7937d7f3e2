import Verif.Lemmas.FollmerMore

/-! # The integral of the exponential martingale along a path with quadratic variation `t` -/

namespace PyFENG

open Real MeasureTheory Filter Set Topology
open scoped NNReal

namespace Follmer

lemma exp_rem (c : ℝ) : ∃ C, 0 ≤ C ∧ ∀ d h δ : ℝ, 0 ≤ h → h ≤ δ → |d| ≤ δ → δ ≤ 1 → (|c| + c ^ 2 / 2) * δ ≤ 1 →
    |exp (c * d - c ^ 2 * h / 2) - 1 - c * d + c ^ 2 * h / 2 - c ^ 2 * d ^ 2 / 2| ≤ δ * C * (d ^ 2 + h) := by
  refine ⟨(|c| + c ^ 2 / 2) * (2 * c ^ 2 + c ^ 4 / 2) + |c| ^ 3 / 2 + c ^ 4 / 8, by positivity, fun d h δ h0 h1 h2 h3 h4 => ?_⟩
  have hδ : 0 ≤ δ := (abs_nonneg d).trans h2
  set u := c * d - c ^ 2 * h / 2 with hu
  have hul : |u| ≤ (|c| + c ^ 2 / 2) * δ := by
    calc |u| ≤ |c * d| + |c ^ 2 * h / 2| := abs_sub _ _
      _ ≤ |c| * δ + c ^ 2 / 2 * δ := by
          rw [abs_mul, abs_of_nonneg (by positivity : 0 ≤ c ^ 2 * h / 2)]
          have := mul_le_mul_of_nonneg_left h2 (abs_nonneg c)
          have := mul_le_mul_of_nonneg_left h1 (by positivity : 0 ≤ c ^ 2 / 2)
          linarith
      _ = _ := by ring
  have b1 := Real.exp_bound (hul.trans h4) (n := 3) (by norm_num)
  simp only [Finset.sum_range_succ, Finset.sum_range_zero, Nat.factorial] at b1
  norm_num at b1
  have hu2 : u ^ 2 ≤ 2 * c ^ 2 * d ^ 2 + c ^ 4 / 2 * h ^ 2 := by rw [hu]; nlinarith [sq_nonneg (c * d + c ^ 2 * h / 2)]
  have hu3 : |u| ^ 3 ≤ (|c| + c ^ 2 / 2) * δ * (2 * c ^ 2 * d ^ 2 + c ^ 4 / 2 * h) := by
    have e : |u| ^ 3 = |u| * u ^ 2 := by rw [← sq_abs u]; ring
    have hh : h ^ 2 ≤ h := by nlinarith
    rw [e]
    have hu2' : u ^ 2 ≤ 2 * c ^ 2 * d ^ 2 + c ^ 4 / 2 * h := hu2.trans (by have := mul_le_mul_of_nonneg_left hh (by positivity : 0 ≤ c ^ 4 / 2); linarith)
    exact mul_le_mul hul hu2' (sq_nonneg _) (by positivity)
  have e2 : exp u - 1 - c * d + c ^ 2 * h / 2 - c ^ 2 * d ^ 2 / 2 = (exp u - (1 + u + u ^ 2 / 2)) + (-(c ^ 3 * d * h / 2) + c ^ 4 * h ^ 2 / 8) := by rw [hu]; ring
  rw [e2]
  have b2 : |-(c ^ 3 * d * h / 2) + c ^ 4 * h ^ 2 / 8| ≤ |c| ^ 3 / 2 * δ * h + c ^ 4 / 8 * δ * h := by
    refine (abs_add_le _ _).trans (add_le_add ?_ ?_)
    · rw [abs_neg, abs_div, abs_mul, abs_mul, abs_pow, abs_of_nonneg h0, abs_two]
      have := mul_le_mul_of_nonneg_right (mul_le_mul_of_nonneg_left h2 (by positivity : 0 ≤ |c| ^ 3 / 2)) h0
      linarith
    · rw [abs_of_nonneg (by positivity)]
      have := mul_le_mul_of_nonneg_left (mul_le_mul_of_nonneg_right h1 h0) (by positivity : 0 ≤ c ^ 4 / 8)
      nlinarith
  have b3 : |u| ^ 3 * (2 / 9) ≤ |u| ^ 3 := by have := pow_nonneg (abs_nonneg u) 3; linarith
  have hd2 := sq_nonneg d
  calc _ ≤ |u| ^ 3 * (2 / 9) + (|c| ^ 3 / 2 * δ * h + c ^ 4 / 8 * δ * h) := (abs_add_le _ _).trans (add_le_add b1 b2)
    _ ≤ (|c| + c ^ 2 / 2) * δ * (2 * c ^ 2 * d ^ 2 + c ^ 4 / 2 * h) + (|c| ^ 3 / 2 * δ * h + c ^ 4 / 8 * δ * h) := by linarith
    _ ≤ _ := by
      have p1 : 0 ≤ (|c| + c ^ 2 / 2) * δ * (c ^ 4 / 2 * d ^ 2) := by positivity
      have p2 : 0 ≤ (|c| + c ^ 2 / 2) * δ * (2 * c ^ 2 * h) := by positivity
      have p3 : 0 ≤ δ * (|c| ^ 3 / 2 + c ^ 4 / 8) * d ^ 2 := by positivity
      nlinarith

/-- Along a continuous path `b` with quadratic variation `t`, the integral of `exp(c b_t - c² t/2)` against `b` is the increment of the exponential over `c`. -/
theorem exp_integral {b : ℝ → ℝ} {T : ℝ} (hT : 0 < T) {N : ℕ → ℕ} (hb : Continuous b) (h : Spec.HasQuadVar b (fun _ => 1) T N) {c : ℝ} (hc : c ≠ 0) :
    Spec.IsPathIntegral (fun t => exp (c * b t - c ^ 2 * t / 2)) b T N ((exp (c * b T - c ^ 2 * T / 2) - exp (c * b 0)) / c) := by
  set e : ℝ → ℝ := fun t => exp (c * b t - c ^ 2 * t / 2) with he
  have hce : Continuous e := by fun_prop
  have Q := weak_qv hT h continuous_const hce
  have Q1 := weak_qv hT h continuous_const (g := fun _ => 1) continuous_const
  have D := riemann hce (g := fun _ => 1) continuous_const hT h.1
  simp only [mul_one, one_mul] at Q Q1 D
  obtain ⟨C, hC0, hC⟩ := exp_rem c
  obtain ⟨M, hM⟩ := isCompact_Icc.exists_bound_of_continuousOn (s := Icc 0 T) hce.continuousOn
  have hM0 : 0 ≤ M := (norm_nonneg _).trans (hM 0 ⟨le_rfl, hT.le⟩)
  set d : ℕ → ℕ → ℝ := fun n i => b ((i + 1 : ℕ) * (T / N n)) - b (i * (T / N n)) with hd
  set r : ℕ → ℕ → ℝ := fun n i => e (i * (T / N n)) * (exp (c * d n i - c ^ 2 * (T / N n) / 2) - 1 - c * d n i + c ^ 2 * (T / N n) / 2 - c ^ 2 * d n i ^ 2 / 2) with hr
  have hh : Tendsto (fun n => T / (N n : ℝ)) atTop (𝓝 0) := tendsto_const_nhds.div_atTop (tendsto_natCast_atTop_atTop.comp h.1)
  have R : Tendsto (fun n => ∑ i ∈ Finset.range (N n), r n i) atTop (𝓝 0) := by
    rw [Metric.tendsto_nhds]
    intro ε hε
    set δ := min 1 (min (1 / (|c| + c ^ 2 / 2)) (ε / (M * C * (2 * T + 1) + 1))) with hδ
    have hA : 0 < |c| + c ^ 2 / 2 := by positivity
    have hδ0 : 0 < δ := lt_min one_pos (lt_min (by positivity) (by positivity))
    have hδ1 : δ ≤ 1 := min_le_left _ _
    have hδ2 : (|c| + c ^ 2 / 2) * δ ≤ 1 := by
      have := mul_le_mul_of_nonneg_left ((min_le_right _ _).trans (min_le_left _ _) : δ ≤ 1 / (|c| + c ^ 2 / 2)) hA.le
      rwa [mul_one_div_cancel hA.ne'] at this
    have hδ3 : δ ≤ ε / (M * C * (2 * T + 1) + 1) := (min_le_right _ _).trans (min_le_right _ _)
    have q : ∀ᶠ n in atTop, ∑ i ∈ Finset.range (N n), d n i ^ 2 < T + 1 := by
      refine Q1.eventually_lt_const ?_
      rw [intervalIntegral.integral_const]; simp
    filter_upwards [small_incr hb hT h.1 hδ0, hh.eventually_lt_const hδ0, q, h.1.eventually_gt_atTop 0] with n h1 h2 h3 h4
    have hn : (0:ℝ) < N n := by exact_mod_cast h4
    have hpos : 0 ≤ T / (N n : ℝ) := by positivity
    have key : ∀ i ∈ Finset.range (N n), |r n i| ≤ M * (δ * C * (d n i ^ 2 + T / N n)) := fun i hi => by
      have hi' := Finset.mem_range.1 hi
      rw [hr]
      simp only
      rw [abs_mul]
      exact mul_le_mul (hM _ (grid_mem hT hi').1) (hC _ _ δ hpos h2.le (h1 i hi').le hδ1 hδ2) (abs_nonneg _) hM0
    rw [dist_zero_right, norm_eq_abs]
    calc |∑ i ∈ Finset.range (N n), r n i| ≤ ∑ i ∈ Finset.range (N n), |r n i| := Finset.abs_sum_le_sum_abs _ _
      _ ≤ ∑ i ∈ Finset.range (N n), M * (δ * C * (d n i ^ 2 + T / N n)) := Finset.sum_le_sum key
      _ = δ * (M * C) * (∑ i ∈ Finset.range (N n), d n i ^ 2 + T) := by
          rw [← Finset.mul_sum, ← Finset.mul_sum, Finset.sum_add_distrib, Finset.sum_const, Finset.card_range, nsmul_eq_mul, mul_div_cancel₀ _ hn.ne']
          ring
      _ ≤ δ * (M * C) * (2 * T + 1) := mul_le_mul_of_nonneg_left (by linarith) (by positivity)
      _ < ε := by
          have hden : 0 < M * C * (2 * T + 1) + 1 := by positivity
          have := (le_div_iff₀ hden).1 hδ3
          nlinarith
  have tel : ∀ᶠ n in atTop, ∑ i ∈ Finset.range (N n), (e ((i + 1 : ℕ) * (T / N n)) - e (i * (T / N n))) = e T - e 0 := by
    filter_upwards [h.1.eventually_gt_atTop 0] with n h4
    have hn : (N n : ℝ) ≠ 0 := by exact_mod_cast h4.ne'
    rw [Finset.sum_range_sub (fun i : ℕ => e (i * (T / N n)))]
    simp only [Nat.cast_zero, zero_mul]
    rw [mul_div_cancel₀ _ hn]
  have eq : ∀ (n : ℕ) (i : ℕ), e (i * (T / N n)) * d n i = 1 / c * ((e ((i + 1 : ℕ) * (T / N n)) - e (i * (T / N n))) - r n i + c ^ 2 / 2 * (e (i * (T / N n)) * (T / N n)) - c ^ 2 / 2 * (e (i * (T / N n)) * d n i ^ 2)) := fun n i => by
    have e1 : e ((i + 1 : ℕ) * (T / N n)) = e (i * (T / N n)) * exp (c * d n i - c ^ 2 * (T / N n) / 2) := by
      rw [he, hd]
      simp only
      rw [← exp_add]
      congr 1
      push_cast
      ring
    rw [hr]
    simp only
    rw [e1]
    generalize e (i * (T / N n)) = x
    generalize exp (c * d n i - c ^ 2 * (T / N n) / 2) = y
    field_simp
    ring
  have D' : Tendsto (fun n => ∑ i ∈ Finset.range (N n), e (i * (T / N n)) * (T / N n)) atTop (𝓝 (∫ s in (0:ℝ)..T, e s)) := by
    refine D.congr fun n => Finset.sum_congr rfl fun i _ => ?_
    rw [intervalIntegral.integral_const, smul_eq_mul, mul_one]
    push_cast
    ring
  have L := ((((tendsto_const_nhds (x := e T - e 0)).congr' (tel.mono fun n hn => hn.symm)).sub R).add (D'.const_mul (c ^ 2 / 2))).sub (Q.const_mul (c ^ 2 / 2)) |>.const_mul (1 / c)
  unfold Spec.IsPathIntegral
  have hlim : 1 / c * (e T - e 0 - 0 + c ^ 2 / 2 * (∫ s in (0:ℝ)..T, e s) - c ^ 2 / 2 * ∫ s in (0:ℝ)..T, e s) = (exp (c * b T - c ^ 2 * T / 2) - exp (c * b 0)) / c := by
    rw [he]; simp; ring
  rw [hlim] at L
  refine L.congr fun n => ?_
  rw [Finset.mul_sum, Finset.mul_sum, ← Finset.sum_sub_distrib, ← Finset.sum_add_distrib, ← Finset.sum_sub_distrib, Finset.mul_sum]
  exact Finset.sum_congr rfl fun i _ => (eq n i).symm

end Follmer

end PyFENG
