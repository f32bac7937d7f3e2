import Mathlib.Analysis.SpecialFunctions.Trigonometric.Deriv
import Mathlib.Analysis.SpecialFunctions.Trigonometric.Bounds
import Mathlib.Analysis.Calculus.Deriv.MeanValue
import Mathlib.Analysis.Real.Pi.Bounds
import Mathlib.Tactic

/-!
# The Fourier series of the sawtooth

`∑ sin(kθ)/k = (π - θ)/2` on `(0, 2π)` with an explicit bound of the remainder after `N` terms, and a bound of the partial sums that is uniform in `θ` and `N`.
-/

namespace PyFENG

open Real Filter Topology

namespace Sawtooth

/-- The partial sum of the sawtooth series. -/
noncomputable def S (N : ℕ) (θ : ℝ) : ℝ := ∑ k ∈ Finset.range N, sin ((k + 1 : ℕ) * θ) / (k + 1 : ℕ)

lemma S_zero (θ : ℝ) : S 0 θ = 0 := by simp [S]

lemma S_pi (N : ℕ) : S N π = 0 := by
  unfold S
  refine Finset.sum_eq_zero fun k _ => ?_
  rw [sin_nat_mul_pi, zero_div]

lemma S_at_zero (N : ℕ) : S N 0 = 0 := by simp [S]

lemma S_neg (N : ℕ) (θ : ℝ) : S N (-θ) = -S N θ := by
  unfold S
  rw [← Finset.sum_neg_distrib]
  refine Finset.sum_congr rfl fun k _ => ?_
  rw [mul_neg, sin_neg, neg_div]

lemma S_periodic (N : ℕ) (θ : ℝ) : S N (θ + 2 * π) = S N θ := by
  unfold S
  refine Finset.sum_congr rfl fun k _ => ?_
  rw [mul_add, sin_add_nat_mul_two_pi]

lemma S_refl (N : ℕ) (θ : ℝ) : S N (2 * π - θ) = -S N θ := by
  rw [show 2 * π - θ = -θ + 2 * π by ring, S_periodic, S_neg]

lemma hasDerivAt_S (N : ℕ) (θ : ℝ) : HasDerivAt (S N) (∑ k ∈ Finset.range N, cos ((k + 1 : ℕ) * θ)) θ := by
  unfold S
  refine HasDerivAt.fun_sum fun k _ => ?_
  have h := ((((hasDerivAt_id' θ).const_mul ((k + 1 : ℕ) : ℝ)).sin).div_const ((k + 1 : ℕ) : ℝ))
  refine h.congr_deriv ?_
  have : ((k + 1 : ℕ) : ℝ) ≠ 0 := by positivity
  field_simp

lemma dirichlet (N : ℕ) (θ : ℝ) : 2 * sin (θ / 2) * (∑ k ∈ Finset.range N, cos ((k + 1 : ℕ) * θ) + 1 / 2) = sin ((N + 1 / 2) * θ) := by
  induction N with
  | zero => simp; ring_nf
  | succ n ih =>
    rw [Finset.sum_range_succ, add_right_comm, mul_add, ih]
    have h := sin_sub_sin (((n + 1 : ℕ) + 1 / 2) * θ) (((n:ℝ) + 1 / 2) * θ)
    have e1 : (((n + 1 : ℕ) + 1 / 2) * θ - ((n:ℝ) + 1 / 2) * θ) / 2 = θ / 2 := by push_cast; ring
    have e2 : (((n + 1 : ℕ) + 1 / 2) * θ + ((n:ℝ) + 1 / 2) * θ) / 2 = ((n + 1 : ℕ) : ℝ) * θ := by push_cast; ring
    rw [e1, e2] at h
    linarith

/-- The remainder with its oscillating part removed. -/
noncomputable def G (N : ℕ) (θ : ℝ) : ℝ := S N θ - (π - θ) / 2 + cos ((N + 1 / 2) * θ) / ((2 * N + 1) * sin (θ / 2))

/-- The bound. -/
noncomputable def B (N : ℕ) (θ : ℝ) : ℝ := 1 / ((2 * N + 1) * sin (θ / 2))

lemma half_pos {θ : ℝ} (h0 : 0 < θ) (h1 : θ ≤ π) : 0 < sin (θ / 2) := sin_pos_of_pos_of_lt_pi (by linarith) (by linarith [pi_pos])

lemma hasDerivAt_B (N : ℕ) {θ : ℝ} (h0 : 0 < θ) (h1 : θ ≤ π) : HasDerivAt (B N) (-(cos (θ / 2) / (2 * (2 * N + 1) * sin (θ / 2) ^ 2))) θ := by
  have hs := half_pos h0 h1
  have hd : HasDerivAt (fun θ : ℝ => (2 * (N:ℝ) + 1) * sin (θ / 2)) ((2 * (N:ℝ) + 1) * (cos (θ / 2) * (1 / 2))) θ :=
    (((hasDerivAt_id' θ).div_const 2).sin).const_mul _
  have hp : (0:ℝ) < 2 * N + 1 := by positivity
  have hn : (2 * (N:ℝ) + 1) * sin (θ / 2) ≠ 0 := (mul_pos hp hs).ne'
  have h := (hasDerivAt_const θ (1:ℝ)).fun_div hd hn
  refine h.congr_deriv ?_
  generalize sin (θ / 2) = s at *
  generalize cos (θ / 2) = c at *
  field_simp
  ring

lemma hasDerivAt_G (N : ℕ) {θ : ℝ} (h0 : 0 < θ) (h1 : θ ≤ π) :
    HasDerivAt (G N) (-(cos ((N + 1 / 2) * θ) * (cos (θ / 2) / (2 * (2 * N + 1) * sin (θ / 2) ^ 2)))) θ := by
  have hs := half_pos h0 h1
  have hd : HasDerivAt (fun θ : ℝ => (2 * (N:ℝ) + 1) * sin (θ / 2)) ((2 * (N:ℝ) + 1) * (cos (θ / 2) * (1 / 2))) θ :=
    (((hasDerivAt_id' θ).div_const 2).sin).const_mul _
  have hp : (0:ℝ) < 2 * N + 1 := by positivity
  have hn : (2 * (N:ℝ) + 1) * sin (θ / 2) ≠ 0 := (mul_pos hp hs).ne'
  have hc : HasDerivAt (fun θ : ℝ => cos (((N:ℝ) + 1 / 2) * θ)) (-sin (((N:ℝ) + 1 / 2) * θ) * (((N:ℝ) + 1 / 2) * 1)) θ :=
    ((hasDerivAt_id' θ).const_mul _).cos
  have hl : HasDerivAt (fun θ : ℝ => (π - θ) / 2) (-1 / 2) θ := ((hasDerivAt_id' θ).const_sub π).div_const 2
  have h := ((hasDerivAt_S N θ).fun_sub hl).fun_add (hc.fun_div hd hn)
  refine h.congr_deriv ?_
  have hD := dirichlet N θ
  generalize ∑ k ∈ Finset.range N, cos ((k + 1 : ℕ) * θ) = D at *
  rw [← hD]
  generalize cos (((N:ℝ) + 1 / 2) * θ) = C
  generalize sin (θ / 2) = s at *
  generalize cos (θ / 2) = c at *
  have hN : (2 * (N:ℝ) + 1) ≠ 0 := hp.ne'
  have hs' := hs.ne'
  field_simp
  ring

lemma G_pi (N : ℕ) : G N π = 0 := by
  have : cos (((N:ℝ) + 1 / 2) * π) = 0 := by
    rw [cos_eq_zero_iff]
    exact ⟨N, by push_cast; ring⟩
  unfold G
  rw [S_pi, this]
  simp

lemma B_pos (N : ℕ) {θ : ℝ} (h0 : 0 < θ) (h1 : θ ≤ π) : 0 < B N θ := by
  have := half_pos h0 h1
  unfold B
  positivity

lemma deriv_bound (N : ℕ) {θ : ℝ} (h0 : 0 < θ) (h1 : θ ≤ π) (c : ℝ) (hc : |c| ≤ 1) :
    c * (cos (θ / 2) / (2 * (2 * N + 1) * sin (θ / 2) ^ 2)) ≤ cos (θ / 2) / (2 * (2 * N + 1) * sin (θ / 2) ^ 2) ∧
    -(cos (θ / 2) / (2 * (2 * N + 1) * sin (θ / 2) ^ 2)) ≤ c * (cos (θ / 2) / (2 * (2 * N + 1) * sin (θ / 2) ^ 2)) := by
  have hcos : 0 ≤ cos (θ / 2) := cos_nonneg_of_mem_Icc ⟨by linarith [pi_pos], by linarith⟩
  have hs := half_pos h0 h1
  have hq : 0 ≤ cos (θ / 2) / (2 * (2 * N + 1) * sin (θ / 2) ^ 2) := by positivity
  have := abs_le.1 hc
  constructor <;> nlinarith

lemma G_abs (N : ℕ) {θ : ℝ} (h0 : 0 < θ) (h1 : θ ≤ π) : |G N θ| ≤ B N θ := by
  have hmem : ∀ x ∈ Set.Icc θ π, 0 < x ∧ x ≤ π := fun x hx => ⟨h0.trans_le hx.1, hx.2⟩
  have hint : ∀ x ∈ interior (Set.Icc θ π), 0 < x ∧ x ≤ π := fun x hx => hmem x (interior_subset hx)
  have hcont : ∀ s : ℝ, ContinuousOn (fun x => B N x + s * G N x) (Set.Icc θ π) := fun s x hx =>
    (((hasDerivAt_B N (hmem x hx).1 (hmem x hx).2).fun_add ((hasDerivAt_G N (hmem x hx).1 (hmem x hx).2).const_mul s)).continuousAt).continuousWithinAt
  have hmono : ∀ s : ℝ, |s| ≤ 1 → AntitoneOn (fun x => B N x + s * G N x) (Set.Icc θ π) := fun s hs => by
    refine antitoneOn_of_deriv_nonpos (convex_Icc θ π) (hcont s) ?_ ?_
    · intro x hx
      exact ((hasDerivAt_B N (hint x hx).1 (hint x hx).2).fun_add ((hasDerivAt_G N (hint x hx).1 (hint x hx).2).const_mul s)).differentiableAt.differentiableWithinAt
    · intro x hx
      rw [((hasDerivAt_B N (hint x hx).1 (hint x hx).2).fun_add ((hasDerivAt_G N (hint x hx).1 (hint x hx).2).const_mul s)).deriv]
      have hc : |s * cos ((N + 1 / 2) * x)| ≤ 1 := by
        rw [abs_mul]
        exact mul_le_one₀ hs (abs_nonneg _) (abs_cos_le_one _)
      have := (deriv_bound N (hint x hx).1 (hint x hx).2 _ hc).2
      linarith
  have hθ : θ ∈ Set.Icc θ π := ⟨le_rfl, h1⟩
  have hπ : π ∈ Set.Icc θ π := ⟨h1, le_rfl⟩
  have hB := B_pos N pi_pos le_rfl
  have m1 := hmono 1 (by norm_num) hθ hπ h1
  have m2 := hmono (-1) (by norm_num) hθ hπ h1
  simp only [G_pi] at m1 m2
  rw [abs_le]
  constructor <;> linarith

/-- The remainder of the sawtooth series after `N` terms. -/
theorem S_error (N : ℕ) {θ : ℝ} (h0 : 0 < θ) (h1 : θ ≤ π) : |S N θ - (π - θ) / 2| ≤ 2 * B N θ := by
  have hG := abs_le.1 (G_abs N h0 h1)
  have hc := abs_le.1 (abs_cos_le_one (((N:ℝ) + 1 / 2) * θ))
  have hB := B_pos N h0 h1
  have e : cos ((N + 1 / 2) * θ) / ((2 * N + 1) * sin (θ / 2)) = cos ((N + 1 / 2) * θ) * B N θ := by unfold B; ring
  unfold G at hG
  rw [e] at hG
  rw [abs_le]
  constructor <;> nlinarith

lemma sin_half_ge {θ : ℝ} (h0 : 0 < θ) (h1 : θ ≤ π) : θ / π ≤ sin (θ / 2) := by
  have := mul_le_sin (x := θ / 2) (by linarith) (by linarith)
  refine le_trans (le_of_eq ?_) this
  field_simp

/-- The partial sums are bounded, uniformly in the point and in the number of terms. -/
theorem S_bounded_half (N : ℕ) {θ : ℝ} (h0 : 0 < θ) (h1 : θ ≤ π) : |S N θ| ≤ 5 := by
  have hpi := pi_lt_d2
  have hpi' := pi_gt_three
  by_cases hN : (N:ℝ) * θ ≤ 1
  · have : |S N θ| ≤ ∑ k ∈ Finset.range N, θ := by
      refine (Finset.abs_sum_le_sum_abs _ _).trans (Finset.sum_le_sum fun k _ => ?_)
      have hk : (0:ℝ) < (k + 1 : ℕ) := by positivity
      rw [abs_div, abs_of_pos hk, div_le_iff₀ hk]
      refine (abs_sin_le_abs).trans ?_
      rw [abs_of_pos (mul_pos hk h0), mul_comm]
    rw [Finset.sum_const, Finset.card_range, nsmul_eq_mul] at this
    linarith
  · push Not at hN
    have he := abs_le.1 (S_error N h0 h1)
    have hB : B N θ ≤ π / 2 := by
      unfold B
      have hs := sin_half_ge h0 h1
      have hp : 0 < θ / π := by positivity
      have h2 : 2 / π ≤ (2 * N + 1) * sin (θ / 2) := by
        calc 2 / π ≤ 2 * (N * θ) / π := by gcongr; linarith
          _ ≤ (2 * N + 1) * (θ / π) := by rw [mul_div_assoc' , div_le_div_iff_of_pos_right pi_pos]; nlinarith
          _ ≤ _ := by gcongr
      rw [div_le_iff₀ (lt_of_lt_of_le (by positivity) h2)]
      calc (1:ℝ) = π / 2 * (2 / π) := by field_simp
        _ ≤ _ := by gcongr
    norm_num at hpi
    rw [abs_le]
    constructor <;> linarith

theorem S_bounded (N : ℕ) (θ : ℝ) : |S N θ| ≤ 5 := by
  have hper : Function.Periodic (fun θ => |S N θ|) (2 * π) := fun θ => by simp only [S_periodic]
  obtain ⟨y, hy, hyx⟩ := hper.exists_mem_Ico₀ (by positivity) θ
  rw [hyx]
  rcases hy.1.eq_or_lt with h | h
  · simp only [← h, S_at_zero]; norm_num
  · rcases le_total y π with h1 | h1
    · exact S_bounded_half N h h1
    · have := S_bounded_half N (θ := 2 * π - y) (by linarith [hy.2]) (by linarith)
      rw [S_refl, abs_neg] at this
      exact this

/-- The limit of the partial sums on the open interval. -/
theorem S_tendsto {θ : ℝ} (h0 : 0 < θ) (h1 : θ < 2 * π) : Tendsto (fun N => S N θ) atTop (𝓝 ((π - θ) / 2)) := by
  have key : ∀ {θ : ℝ}, 0 < θ → θ ≤ π → Tendsto (fun N => S N θ) atTop (𝓝 ((π - θ) / 2)) := fun {θ} h0 h1 => by
    rw [tendsto_iff_dist_tendsto_zero]
    have hs := half_pos h0 h1
    have hB : Tendsto (fun N : ℕ => 2 * B N θ) atTop (𝓝 0) := by
      have h2 : Tendsto (fun N : ℕ => 2 * (N:ℝ) + 1) atTop atTop :=
        tendsto_atTop_add_const_right _ _ (tendsto_natCast_atTop_atTop.const_mul_atTop (by norm_num))
      have h3 : Tendsto (fun N : ℕ => (2 * (N:ℝ) + 1) * sin (θ / 2)) atTop atTop := h2.atTop_mul_const hs
      have := (h3.inv_tendsto_atTop).const_mul 2
      rw [mul_zero] at this
      refine this.congr fun N => ?_
      unfold B
      simp
    exact squeeze_zero (fun _ => dist_nonneg) (fun N => by rw [dist_eq]; exact S_error N h0 h1) hB
  rcases le_total θ π with h | h
  · exact key h0 h
  · have := (key (θ := 2 * π - θ) (by linarith) (by linarith)).neg
    simp only [S_refl, neg_neg] at this
    convert this using 2
    ring

end Sawtooth

end PyFENG
