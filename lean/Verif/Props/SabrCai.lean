import Verif.Props.SabrMc
import Verif.Props.CevLaw

/-!
# C124: the distribution function used by the exact SABR simulation of Cai et al. (2017)
-/

namespace PyFENG

open Real MeasureTheory ProbabilityTheory Filter Set Topology
open scoped NNReal

namespace Sabr

/-! ### The series of Ding (1992) -/

lemma gammaPdf_step {a y : ℝ} (ha : 0 < a) (hy : 0 ≤ y) : gammaPdf (a + 1 + 1) y = gammaPdf (a + 1) y * y / (a + 1) := by
  unfold gammaPdf
  rw [Real.Gamma_add_one (s := a + 1) (by linarith), add_sub_cancel_right, add_sub_cancel_right]
  have h : y ^ (a + 1) = y ^ a * y := by
    rcases hy.eq_or_lt with h | h
    · rw [← h, zero_rpow (by linarith), mul_zero]
    · rw [rpow_add h, rpow_one]
  have hG := (Real.Gamma_pos_of_pos (show 0 < a + 1 by linarith)).ne'
  have h1 : a + 1 ≠ 0 := by linarith
  rw [h]
  field_simp

lemma tendsto_gammaInc_shift {a y : ℝ} (ha : 0 < a) (hy : 0 ≤ y) : Tendsto (fun k : ℕ => gammaInc (a + k) y) atTop (𝓝 0) := by
  have h2 : Tendsto (fun k : ℕ => exp y * (1 / 2) ^ a * (1 / 2 : ℝ) ^ k) atTop (𝓝 (exp y * (1 / 2) ^ a * 0)) :=
    (tendsto_pow_atTop_nhds_zero_of_lt_one (by norm_num) (by norm_num)).const_mul _
  rw [mul_zero] at h2
  refine tendsto_of_tendsto_of_tendsto_of_le_of_le tendsto_const_nhds h2 (fun k => gammaInc_nonneg (by positivity) hy) fun k => ?_
  refine (gammaInc_le_two (a := a + k) (by positivity) hy).trans_eq ?_
  rw [rpow_add (by norm_num), rpow_natCast]
  ring

/-- The remainder bound of the stopping rule. -/
lemma gammaInc_tail {a y : ℝ} (ha : 0 < a) (hy : 0 ≤ y) {k : ℕ} (hk : 1 ≤ k) (h : y < a + k) : gammaInc (a + k) y ≤ gammaPdf (a + k) y * y / (a + k - y) := by
  set B : ℕ → ℝ := fun j => gammaPdf (a + k + j) y * y / (a + k + j - y) with hB
  have hstep : ∀ j : ℕ, gammaInc (a + k + j) y - B j ≤ gammaInc (a + k + (j + 1 : ℕ)) y - B (j + 1) := by
    intro j
    have hpos : 0 < a + k + j - y := by have : (0:ℝ) ≤ j := Nat.cast_nonneg j; linarith
    have hk1 : (1:ℝ) ≤ k := by exact_mod_cast hk
    have hq : 0 < a + (k - 1) + j := by have : (0:ℝ) ≤ j := Nat.cast_nonneg j; linarith
    have e1 := gammaInc_succ (a := a + k + j) (by linarith) hy
    have e2 : gammaPdf (a + k + j + 1) y = gammaPdf (a + k + j) y * y / (a + k + j) := by
      have := gammaPdf_step hq hy
      rw [show a + ((k:ℝ) - 1) + j + 1 = a + k + j by ring] at this
      exact this
    have hg := gammaPdf_nonneg (a := a + k + j) (by linarith) hy
    have e3 : B (j + 1) = gammaPdf (a + k + j + 1) y * y / (a + k + j + 1 - y) := by
      rw [hB]; push_cast; simp only [← add_assoc]
    have e4 : B j = gammaPdf (a + k + j) y * y / (a + k + j - y) := rfl
    rw [e3, e4, e2, show a + (k:ℝ) + ((j + 1 : ℕ) : ℝ) = a + k + j + 1 by push_cast; ring]
    rw [e2] at e1
    have key : gammaPdf (a + k + j) y * y / (a + k + j) + gammaPdf (a + k + j) y * y / (a + k + j) * y / (a + k + j + 1 - y) ≤ gammaPdf (a + k + j) y * y / (a + k + j - y) := by
      set g := gammaPdf (a + k + j) y * y with hgd
      have hg' : 0 ≤ g := mul_nonneg hg hy
      obtain ⟨q, hqd⟩ : ∃ q, q = a + (k:ℝ) + j - y := ⟨_, rfl⟩
      have : a + (k:ℝ) + j = q + y := by rw [hqd]; ring
      rw [this, show q + y + 1 - y = q + 1 by ring, show q + y - y = q by ring]
      have hq0 : 0 < q := hqd ▸ hpos
      have : g / q - (g / (q + y) + g / (q + y) * y / (q + 1)) = g * y / (q * (q + y) * (q + 1)) := by
        have : q + y ≠ 0 := by positivity
        field_simp
        ring
      have h2 : 0 ≤ g * y / (q * (q + y) * (q + 1)) := by positivity
      linarith
    linarith
  have hmono : ∀ j : ℕ, gammaInc (a + k + (0 : ℕ)) y - B 0 ≤ gammaInc (a + k + j) y - B j := by
    intro j
    induction j with
    | zero => exact le_refl _
    | succ n ih => exact ih.trans (hstep n)
  have hle : ∀ j : ℕ, gammaInc (a + k + (0 : ℕ)) y - B 0 ≤ gammaInc (a + k + j) y := fun j => by
    refine (hmono j).trans (sub_le_self _ ?_)
    have hj : (0:ℝ) ≤ j := Nat.cast_nonneg j
    have hk0 : (0:ℝ) ≤ k := Nat.cast_nonneg k
    exact div_nonneg (mul_nonneg (gammaPdf_nonneg (by positivity) hy) hy) (by linarith)
  have hlim := ge_of_tendsto' (tendsto_gammaInc_shift (a := a + k) (by positivity) hy) hle
  rw [hB] at hlim
  simp only [Nat.cast_zero, add_zero] at hlim
  linarith

/-- The Poisson weights. -/
noncomputable def pw (l : ℝ) (j : ℕ) : ℝ := exp (-(l / 2)) * ((l / 2) ^ j / j.factorial)

/-- The state after `k + 1` turns of the loop. -/
noncomputable def dingAt (x sigma l : ℝ) (k : ℕ) : DingState :=
  ⟨∑ i ∈ Finset.range (k + 1), (∑ j ∈ Finset.range (i + 1), pw l j) * gammaPdf (sigma / 2 + i + 1) (x / 2), k + 1,
    gammaPdf (sigma / 2 + k + 1) (x / 2), ∑ j ∈ Finset.range (k + 1), pw l j, pw l k⟩

/-- The stopping test after `k + 1` turns. -/
def DingStops (x sigma : ℝ) (k : ℕ) : Prop :=
  x < sigma + 2 * ((k + 1 : ℕ) : ℝ) ∧ gammaPdf (sigma / 2 + k + 1) (x / 2) * x / (sigma + 2 * ((k + 1 : ℕ) : ℝ) - x) ≤ 1e-7

lemma dingStep_zero {x sigma l : ℝ} : dingStep x sigma l ⟨0, 0, 0, 0, 0⟩ = some (dingAt x sigma l 0) := by
  unfold dingStep dingAt
  rw [if_neg (by simp)]
  simp only [if_true, Option.some.injEq, DingState.mk.injEq, zero_add, Finset.range_one, Finset.sum_singleton, pw, pow_zero, Nat.factorial_zero, Nat.cast_one, div_one, mul_one, Nat.cast_zero, add_zero,
    true_and, neg_div]
  have : gammaPdf (sigma / 2 + 1) (x / 2) = 1 / Real.Gamma (sigma / 2 + 1) * (x / 2) ^ (sigma / 2) * exp (-(x / 2)) := by
    unfold gammaPdf; rw [add_sub_cancel_right]; ring
  rw [this]
  exact ⟨rfl, rfl, trivial⟩

lemma dingStep_succ {x sigma l : ℝ} (hx : 0 ≤ x) (hs : 0 < sigma) (k : ℕ) : (DingStops x sigma k → dingStep x sigma l (dingAt x sigma l k) = none) ∧
    (¬ DingStops x sigma k → dingStep x sigma l (dingAt x sigma l k) = some (dingAt x sigma l (k + 1))) := by
  have hk : (dingAt x sigma l k).k = k + 1 := rfl
  have hiff : ((dingAt x sigma l k).k ≥ 1 ∧ sigma + 2 * ((dingAt x sigma l k).k : ℝ) > x ∧
      (dingAt x sigma l k).t * x / (sigma + 2 * ((dingAt x sigma l k).k : ℝ) - x) ≤ 1e-7) ↔ DingStops x sigma k := by
    unfold DingStops
    rw [hk]
    exact ⟨fun h => ⟨h.2.1, h.2.2⟩, fun h => ⟨by omega, h.1, h.2⟩⟩
  unfold dingStep
  refine ⟨fun h => if_pos (hiff.2 h), fun h => ?_⟩
  rw [if_neg (fun h' => h (hiff.1 h'))]
  have e1 : gammaPdf (sigma / 2 + k + 1) (x / 2) * x / (sigma + 2 * ((k + 1 : ℕ) : ℝ)) = gammaPdf (sigma / 2 + (k + 1 : ℕ) + 1) (x / 2) := by
    have := gammaPdf_step (a := sigma / 2 + k) (y := x / 2) (by positivity) (by positivity)
    rw [show sigma / 2 + ((k + 1 : ℕ) : ℝ) + 1 = sigma / 2 + k + 1 + 1 by push_cast; ring, this]
    have : sigma / 2 + k + 1 ≠ 0 := by positivity
    have : sigma + 2 * ((k + 1 : ℕ) : ℝ) ≠ 0 := by positivity
    push_cast at *
    field_simp
    ring
  have e2 : pw l k * l / (2 * ((k + 1 : ℕ) : ℝ)) = pw l (k + 1) := by
    unfold pw
    rw [Nat.factorial_succ, pow_succ]
    have : (k.factorial : ℝ) ≠ 0 := by positivity
    push_cast
    field_simp
  simp only [hk, Nat.succ_ne_zero, if_false]
  show some (DingState.mk _ _ _ _ _) = some (DingState.mk _ _ _ _ _)
  simp only [dingAt, e1, e2]
  rw [Finset.sum_range_succ _ (k + 1), Finset.sum_range_succ (fun j => pw l j) (k + 1)]

lemma ding_run {x sigma l : ℝ} (hx : 0 ≤ x) (hs : 0 < sigma) : ∀ n k : ℕ, ∀ c, dingLoop x sigma l n (dingAt x sigma l k) = some c →
    ∃ k', k ≤ k' ∧ DingStops x sigma k' ∧ c = (dingAt x sigma l k').cdf := by
  intro n
  induction n with
  | zero => intro k c h; simp [dingLoop] at h
  | succ n ih =>
    intro k c h
    by_cases hst : DingStops x sigma k
    · rw [dingLoop, (dingStep_succ hx hs k).1 hst] at h
      simp only [Option.some.injEq] at h
      exact ⟨k, le_refl _, hst, h.symm⟩
    · rw [dingLoop, (dingStep_succ hx hs k).2 hst] at h
      obtain ⟨k', h1, h2⟩ := ih (k + 1) c h
      exact ⟨k', by omega, h2⟩

lemma ding_halts {x sigma l : ℝ} (hx : 0 ≤ x) (hs : 0 < sigma) : ∀ d k : ℕ, DingStops x sigma (k + d) → ∀ n, d < n → (dingLoop x sigma l n (dingAt x sigma l k)).isSome := by
  intro d
  induction d with
  | zero =>
    intro k h n hn
    obtain ⟨n, rfl⟩ : ∃ j, n = j + 1 := ⟨n - 1, by omega⟩
    rw [dingLoop, (dingStep_succ hx hs k).1 h]; rfl
  | succ d ih =>
    intro k h n hn
    obtain ⟨n, rfl⟩ : ∃ j, n = j + 1 := ⟨n - 1, by omega⟩
    by_cases hst : DingStops x sigma k
    · rw [dingLoop, (dingStep_succ hx hs k).1 hst]; rfl
    · rw [dingLoop, (dingStep_succ hx hs k).2 hst]
      exact ih (k + 1) (by rwa [show k + 1 + d = k + (d + 1) by ring]) n (by omega)

lemma ding_stops_eventually {x sigma : ℝ} (hx : 0 ≤ x) (hs : 0 < sigma) : ∃ k, DingStops x sigma k := by
  have h1 : Tendsto (fun k : ℕ => gammaInc (sigma / 2 + k) (x / 2)) atTop (𝓝 0) := tendsto_gammaInc_shift (by positivity) (by positivity)
  have h2 : ∀ᶠ k : ℕ in atTop, gammaInc (sigma / 2 + k) (x / 2) * x ≤ 1e-7 := by
    have h3 := h1.mul_const x
    rw [zero_mul] at h3
    exact h3.eventually_le_const (by norm_num)
  have h3 : ∀ᶠ k : ℕ in atTop, x + 1 ≤ k := (tendsto_natCast_atTop_atTop (R := ℝ)).eventually_ge_atTop _
  obtain ⟨k, h4, h5⟩ := (h2.and h3).exists
  refine ⟨k, by push_cast; linarith, ?_⟩
  have hpos : 1 ≤ sigma + 2 * ((k + 1 : ℕ) : ℝ) - x := by push_cast; linarith
  have hle : gammaPdf (sigma / 2 + k + 1) (x / 2) ≤ gammaInc (sigma / 2 + k) (x / 2) := by
    have := gammaInc_succ (a := sigma / 2 + k) (y := x / 2) (by positivity) (by positivity)
    have h6 := gammaInc_nonneg (a := sigma / 2 + k + 1) (y := x / 2) (by positivity) (by positivity)
    linarith
  have h7 : gammaPdf (sigma / 2 + k + 1) (x / 2) * x ≤ 1e-7 := (mul_le_mul_of_nonneg_right hle hx).trans h4
  have h8 : 0 ≤ gammaPdf (sigma / 2 + k + 1) (x / 2) * x := mul_nonneg (gammaPdf_nonneg (by positivity) (by positivity)) hx
  exact (div_le_self h8 hpos).trans h7

lemma ding_abel (w G : ℕ → ℝ) (n : ℕ) : ∑ i ∈ Finset.range n, (∑ j ∈ Finset.range (i + 1), w j) * (G i - G (i + 1)) = ∑ j ∈ Finset.range n, w j * (G j - G n) := by
  induction n with
  | zero => simp
  | succ n ih =>
    rw [Finset.sum_range_succ, ih, Finset.sum_range_succ (fun j => w j * (G j - G (n + 1)))]
    have : ∑ j ∈ Finset.range n, w j * (G j - G (n + 1)) = ∑ j ∈ Finset.range n, w j * (G j - G n) + (∑ j ∈ Finset.range n, w j) * (G n - G (n + 1)) := by
      rw [Finset.sum_mul, ← Finset.sum_add_distrib]
      exact Finset.sum_congr rfl fun j _ => by ring
    rw [this, Finset.sum_range_succ]
    ring

lemma hasSum_pw {l : ℝ} : HasSum (pw l) 1 := by
  have h := (NormedSpace.expSeries_div_hasSum_exp (𝔸 := ℝ) (l / 2)).mul_left (exp (-(l / 2)))
  rw [← Real.exp_eq_exp_ℝ, ← exp_add, neg_add_cancel, exp_zero] at h
  exact h

lemma ding_value {x sigma l : ℝ} (hx : 0 ≤ x) (hs : 0 < sigma) (hl : 0 ≤ l) {k : ℕ} (hk : DingStops x sigma k) :
    (dingAt x sigma l k).cdf ≤ ncx2Cdf x sigma l ∧ ncx2Cdf x sigma l ≤ (dingAt x sigma l k).cdf + 1e-7 := by
  set G : ℕ → ℝ := fun j => gammaInc (sigma / 2 + j) (x / 2) with hG
  have hx2 : 0 ≤ x / 2 := by positivity
  have hG0 : ∀ j, 0 ≤ G j := fun j => gammaInc_nonneg (by positivity) hx2
  have hw : ∀ j, 0 ≤ pw l j := fun j => by unfold pw; positivity
  have e1 : (dingAt x sigma l k).cdf = ∑ j ∈ Finset.range (k + 1), pw l j * (G j - G (k + 1)) := by
    rw [← ding_abel]
    show ∑ i ∈ Finset.range (k + 1), (∑ j ∈ Finset.range (i + 1), pw l j) * gammaPdf (sigma / 2 + i + 1) (x / 2) = _
    refine Finset.sum_congr rfl fun i _ => ?_
    congr 1
    rw [hG]
    simp only
    rw [← gammaInc_succ (a := sigma / 2 + i) (by positivity) hx2]
    push_cast
    simp only [← add_assoc]
  have hsum : HasSum (fun j : ℕ => pw l j * G j) (ncx2Cdf x sigma l) := by
    have h := (summable_pow_div_factorial_mul (gammaInc_abs (a := sigma / 2) (by positivity) hx2) (l / 2)).hasSum.mul_left (exp (-(l / 2)))
    refine h.congr_fun fun j => ?_
    unfold pw
    rw [hG]
    ring
  have hG1 : ∀ j, k + 1 ≤ j → G j ≤ G (k + 1) := fun j hj => by
    obtain ⟨i, rfl⟩ := Nat.exists_eq_add_of_le hj
    have := gammaInc_antitone (a := sigma / 2 + (k + 1 : ℕ)) (by positivity) hx2 i
    rw [hG]
    simp only
    push_cast at this ⊢
    rwa [← add_assoc]
  have htail := gammaInc_tail (a := sigma / 2) (y := x / 2) (k := k + 1) (by positivity) hx2 (by omega) (by have := hk.1; push_cast at this ⊢; linarith)
  have hGk : G (k + 1) ≤ 1e-7 := by
    refine (le_trans htail (le_of_eq ?_)).trans hk.2
    have hp : sigma / 2 + ((k + 1 : ℕ) : ℝ) - x / 2 = (sigma + 2 * ((k + 1 : ℕ) : ℝ) - x) / 2 := by ring
    rw [hp, show sigma / 2 + ((k + 1 : ℕ) : ℝ) = sigma / 2 + k + 1 by push_cast; ring, mul_div_assoc', div_div_div_cancel_right₀ two_ne_zero]
  -- the difference is the sum of min(G j, G (k+1))
  have hd : HasSum (fun j => pw l j * (if j < k + 1 then G (k + 1) else G j)) (ncx2Cdf x sigma l - (dingAt x sigma l k).cdf) := by
    have hfin : HasSum (fun j => if j < k + 1 then pw l j * (G j - G (k + 1)) else 0) (dingAt x sigma l k).cdf := by
      rw [e1]
      have := hasSum_sum_of_ne_finset_zero (L := SummationFilter.unconditional ℕ) (f := fun j => if j < k + 1 then pw l j * (G j - G (k + 1)) else 0) (s := Finset.range (k + 1))
        (fun j hj => if_neg (by simpa using hj))
      convert this using 1
      exact Finset.sum_congr rfl fun j hj => (if_pos (Finset.mem_range.1 hj)).symm
    refine (hsum.sub hfin).congr_fun fun j => ?_
    split_ifs <;> ring
  have h0 : 0 ≤ ncx2Cdf x sigma l - (dingAt x sigma l k).cdf := hd.nonneg fun j => mul_nonneg (hw j) (by split_ifs <;> exact hG0 _)
  have h1 : ncx2Cdf x sigma l - (dingAt x sigma l k).cdf ≤ G (k + 1) := by
    have h2 := (hasSum_pw (l := l)).mul_right (G (k + 1))
    rw [one_mul] at h2
    refine hasSum_le (fun j => ?_) hd h2
    refine mul_le_mul_of_nonneg_left ?_ (hw j)
    split_ifs with hj
    · exact le_refl _
    · exact hG1 j (by omega)
  constructor <;> linarith

/-- **C124.** `chi2_cdf_appr(x, sigma, l)` for `x, l ≤ 500`: the loop stops, and whenever it stops the returned value is at most `1e-7` below the distribution function at `x` of the noncentral chi-squared law
with `sigma` degrees of freedom and noncentrality `l`, and never above it. -/
theorem chi2_cdf_appr_correct {x sigma l : ℝ} (hx : 0 ≤ x) (hx5 : x ≤ 500) (hs : 0 < sigma) (hl : 0 ≤ l) (hl5 : l ≤ 500) :
    (∃ N, ∀ n ≥ N, (chi2CdfAppr n x sigma l).isSome) ∧
    ∀ n c, chi2CdfAppr n x sigma l = some c → c ≤ ncx2Cdf x sigma l ∧ ncx2Cdf x sigma l ≤ c + 1e-7 := by
  have h0 : ∀ n, chi2CdfAppr (n + 1) x sigma l = dingLoop x sigma l n (dingAt x sigma l 0) := fun n => by
    unfold chi2CdfAppr
    rw [if_pos ⟨hx5, hl5⟩, dingLoop, dingStep_zero]
  constructor
  · obtain ⟨k, hk⟩ := ding_stops_eventually hx hs
    refine ⟨k + 2, fun n hn => ?_⟩
    obtain ⟨n, rfl⟩ : ∃ j, n = j + 1 := ⟨n - 1, by omega⟩
    rw [h0]
    exact ding_halts hx hs k 0 (by rwa [zero_add]) n (by omega)
  · intro n c h
    cases n with
    | zero => unfold chi2CdfAppr at h; rw [if_pos ⟨hx5, hl5⟩] at h; simp [dingLoop] at h
    | succ n =>
      rw [h0] at h
      obtain ⟨k, -, h1, rfl⟩ := ding_run hx hs n 0 c h
      exact ding_value hx hs hl h1

/-! ### The CEV law -/

lemma caiA0_eq {beta σ T F : ℝ} (hF : 0 < F) (m : Cev) (hm : m = ⟨σ, beta, 0, 0, true⟩) : caiA0 beta (σ ^ 2 * T) F = 2 * m.lev T F := by
  rw [← m.z0_eq hF T, hm]
  unfold caiA0
  simp only [sub_self, mul_zero, zero_mul, exprel, if_true, mul_one]
  have := rpow_pos_of_pos hF (1 - beta)
  rw [mul_pow, div_pow, div_pow]
  simp only [one_div, mul_inv, inv_div]
  ring

lemma caiC0_eq {beta σ T u : ℝ} (m : Cev) (hm : m = ⟨σ, beta, 0, 0, true⟩) : caiC0 (σ ^ 2 * T) beta u = 2 * m.lev T u := by
  rw [hm]
  unfold caiC0 Cev.lev cevLev Cev.effVar
  simp only [sub_self, mul_zero, zero_mul, exprel, if_true, mul_one]
  rw [mul_div_assoc', mul_div_mul_left _ _ two_ne_zero, div_mul_eq_mul_div, one_mul, div_div]
  congr 1
  ring

/-- **C124.** `central_chi2_cdf` and `sabr_chi2_cdf`: with `VT = σ²T`, `1 - central_chi2_cdf` is the CEV mass at zero, and `sabr_chi2_cdf(u)` is within `1e-7` of the CEV probability of finishing above `u`
(arguments of the chi-squared function up to 500). -/
theorem sabr_chi2_cdf_correct {beta σ T F u : ℝ} (hb : beta < 1) (hσ : 0 < σ) (hT : 0 < T) (hF : 0 < F) (hu : 0 < u)
    (hA : caiA0 beta (σ ^ 2 * T) F ≤ 500) (hC : caiC0 (σ ^ 2 * T) beta u ≤ 500) :
    let m : Cev := ⟨σ, beta, 0, 0, true⟩
    m.massZero F T = some (1 - centralChi2Cdf beta (σ ^ 2 * T) F) ∧
    ∃ p, m.cdf u F T 1 = some p ∧ (∃ N, ∀ n ≥ N, (sabrChi2Cdf n beta (σ ^ 2 * T) F u).isSome) ∧
      ∀ n c, sabrChi2Cdf n beta (σ ^ 2 * T) F u = some c → c ≤ p ∧ p ≤ c + 1e-7 := by
  intro m
  have hmb : m.beta = beta := rfl
  have hfw : m.mp.fwd F T = F := by
    rw [← Cev.fwd_spec]; unfold Spec.forward; simp [m]
  have hfw' : m.mp.forward F T = F := by rw [← MParams.fwd_eq_forward, hfw]
  have hbi : ¬ (1 / (1 - m.beta) ≤ 0) := not_le.2 (div_pos one_pos (by rw [hmb]; linarith))
  have hdf : 0 < 1 / (1 - beta) := div_pos one_pos (by linarith)
  have e0 := caiA0_eq (beta := beta) (σ := σ) (T := T) hF m rfl
  have eK := caiC0_eq (beta := beta) (σ := σ) (T := T) (u := u) m rfl
  constructor
  · rw [m.massZero_eq hb (by rw [hfw]; exact hF), hfw]
    unfold centralChi2Cdf
    rw [e0, mul_div_cancel_left₀ _ two_ne_zero, (Cev.dofs (1 - beta)).2.1]
  · have hc : m.cdf u F T 1 = some (ncx2Cdf (caiA0 beta (σ ^ 2 * T) F) (1 / (1 - beta)) (caiC0 (σ ^ 2 * T) beta u)) := by
      unfold Cev.cdf
      simp only [hfw', m.vars_eq hF hu T, hbi, if_false, gt_iff_lt, zero_lt_one, if_true, e0, eK]
      rfl
    have hA0 : 0 ≤ caiA0 beta (σ ^ 2 * T) F := by unfold caiA0; positivity
    have hC0 : 0 ≤ caiC0 (σ ^ 2 * T) beta u := by unfold caiC0; positivity
    obtain ⟨h1, h2⟩ := chi2_cdf_appr_correct hA0 hA hdf hC0 hC
    exact ⟨_, hc, h1, h2⟩

/-- **C124.** `simu_ST`: if the root finder solves its equation to within `tol` (with arguments of the chi-squared function up to 500), the simulated terminal price has the CEV distribution function
(mass at zero included) to within `tol + 1e-7` at every level. -/
theorem simu_ST_law {beta σ T F K tol : ℝ} (hb : beta < 1) (hσ : 0 < σ) (hT : 0 < T) (hF : 0 < F) (hK : 0 < K) (hA : caiA0 beta (σ ^ 2 * T) F ≤ 500) (htol : 0 ≤ tol)
    (solve : ℝ → ℝ) (hm : Measurable solve)
    (hsol : ∀ u ∈ Ioo (1 - centralChi2Cdf beta (σ ^ 2 * T) F) 1, 0 < solve u ∧ caiC0 (σ ^ 2 * T) beta (solve u) ≤ 500 ∧
      ∃ n c, sabrChi2Cdf n beta (σ ^ 2 * T) F (solve u) = some c ∧ |1 - c - u| ≤ tol) :
    ∃ p, (⟨σ, beta, 0, 0, true⟩ : Cev).cdf K F T (-1) = some p ∧
      |simuST rngEx solve beta (σ ^ 2 * T) F (fun s => if s ≤ K then 1 else 0) - p| ≤ tol + 1e-7 := by
  obtain ⟨m, hmd⟩ : ∃ m : Cev, m = ⟨σ, beta, 0, 0, true⟩ := ⟨_, rfl⟩
  rw [← hmd]
  have hmb : m.beta = beta := by rw [hmd]
  have hms : m.sigma = σ := by rw [hmd]
  have hfw : m.mp.fwd F T = F := by
    rw [← Cev.fwd_spec]; unfold Spec.forward; simp [hmd]
  have hfw' : m.mp.forward F T = F := by rw [← MParams.fwd_eq_forward, hfw]
  have hbi : ¬ (1 / (1 - m.beta) ≤ 0) := not_le.2 (div_pos one_pos (by rw [hmb]; linarith))
  set a := 1 / (2 * (1 - beta)) with ha
  have ha0 : 0 < a := div_pos one_pos (by linarith)
  have hlev : ∀ k, 0 < k → 0 < m.lev T k := fun k hk => m.lev_pos (by rw [hmb]; exact hb.ne) (by rw [hms]; exact hσ) hT hk
  set y := m.lev T F with hy
  have hy0 : 0 < y := hlev F hF
  have d2 : 1 / (1 - m.beta) / 2 = a := by rw [(Cev.dofs (1 - m.beta)).2.1, hmb]
  set H : ℝ → ℝ := fun k => 1 - ncP a y (m.lev T k) with hH
  have hcdf1 : ∀ k, 0 < k → m.cdf k F T 1 = some (1 - H k) := fun k hk => by
    unfold Cev.cdf
    simp only [hfw', m.vars_eq hF hk T, hbi, if_false, gt_iff_lt, zero_lt_one, if_true, ncx2Cdf_eq, d2, Cev.half_double]
    rw [hH]; simp only [sub_sub_cancel]; rfl
  have hcdf2 : m.cdf K F T (-1) = some (H K) := by
    unfold Cev.cdf
    simp only [hfw', m.vars_eq hF hK T, hbi, if_false, gt_iff_lt, show ¬ (0 : ℝ) < -1 by norm_num, ncx2Sf, ncx2Cdf_eq, d2, Cev.half_double]
    rfl
  have hp0 : 1 - centralChi2Cdf beta (σ ^ 2 * T) F = 1 - gammaInc a y := by
    unfold centralChi2Cdf
    rw [caiA0_eq hF m hmd, mul_div_cancel_left₀ _ two_ne_zero, (Cev.dofs (1 - beta)).2.1]
  have hanti : StrictAntiOn (fun μ => ncP a y μ) (Ici 0) := by
    refine strictAntiOn_of_deriv_neg (convex_Ici 0) (fun μ _ => (hasDerivAt_ncP_mu ha0 hy0.le μ).continuousAt.continuousWithinAt) fun μ hμ => ?_
    rw [interior_Ici] at hμ
    rw [(hasDerivAt_ncP_mu ha0 hy0.le μ).deriv, neg_lt_zero]
    exact ncG_pos (by linarith) hy0 (le_of_lt hμ)
  have hlevmono : ∀ k k', 0 < k → k < k' → m.lev T k < m.lev T k' := fun k k' hk h => by
    have hV := m.effVar_pos (by rw [hmb]; exact hb.ne) (by rw [hms]; exact hσ) hT
    unfold Cev.lev cevLev
    refine div_lt_div_of_pos_right (rpow_lt_rpow hk.le h (by rw [hmb]; linarith)) (by positivity)
  have hHmono : ∀ k k', 0 < k → k < k' → H k < H k' := fun k k' hk h => by
    have := hanti (hlev k hk).le (hlev k' (hk.trans h)).le (hlevmono k k' hk h)
    simp only [hH]; linarith
  have hHp0 : 1 - gammaInc a y ≤ H K := by
    simp only [hH]; linarith [ncP_le_gammaInc ha0 hy0.le (hlev K hK).le]
  have hH0 : 0 ≤ H K := by simp only [hH]; linarith [ncP_le_one ha0 hy0.le (hlev K hK).le]
  have hH1 : H K ≤ 1 := by simp only [hH]; linarith [ncP_nonneg ha0 hy0.le (hlev K hK).le]
  rw [hp0] at hsol
  -- what the root finder returns
  have hroot : ∀ u ∈ Ioo (1 - gammaInc a y) 1, 0 < solve u ∧ H (solve u) ≤ u + tol ∧ u - tol - 1e-7 ≤ H (solve u) := fun u hu => by
    obtain ⟨h1, h2, n, c, h3, h4⟩ := hsol u hu
    obtain ⟨-, p, h5, -, h6⟩ := sabr_chi2_cdf_correct hb hσ hT hF h1 hA h2
    rw [← hmd, hcdf1 _ h1, Option.some.injEq] at h5
    obtain ⟨h7, h8⟩ := h6 n c h3
    rw [abs_le] at h4
    exact ⟨h1, by linarith, by linarith⟩
  set A : Set ℝ := {u | (if u ≤ 1 - gammaInc a y then 0 else solve u) ≤ K} with hAdef
  have hAm : MeasurableSet A := measurableSet_le (Measurable.ite measurableSet_Iic measurable_const hm) measurable_const
  have hsub1 : Ioo 0 (H K - tol) ⊆ A ∩ Ioo 0 1 := fun u hu => by
    refine ⟨?_, hu.1, by linarith [hu.2]⟩
    show (if u ≤ 1 - gammaInc a y then 0 else solve u) ≤ K
    split_ifs with h
    · exact hK.le
    · obtain ⟨h1, h2, -⟩ := hroot u ⟨not_le.1 h, by linarith [hu.2]⟩
      by_contra hc
      have := hHmono K _ hK (not_le.1 hc)
      linarith [hu.2]
  have hsub2 : A ∩ Ioo 0 1 ⊆ Ioc 0 (H K + (tol + 1e-7)) := fun u hu => by
    refine ⟨hu.2.1, ?_⟩
    have h := hu.1
    change (if u ≤ 1 - gammaInc a y then 0 else solve u) ≤ K at h
    split_ifs at h with h'
    · have : (0:ℝ) ≤ 1e-7 := by norm_num
      linarith
    · obtain ⟨h1, -, h3⟩ := hroot u ⟨not_le.1 h', hu.2.2⟩
      have : H (solve u) ≤ H K := by
        rcases h.eq_or_lt with h4 | h4
        · rw [h4]
        · exact (hHmono _ _ h1 h4).le
      linarith
  have hval : simuST rngEx solve beta (σ ^ 2 * T) F (fun s => if s ≤ K then 1 else 0) = (volume (A ∩ Ioo 0 1)).toReal := by
    show ∫ u in Ioo (0:ℝ) 1, (fun s => if s ≤ K then (1:ℝ) else 0) (if u ≤ 1 - centralChi2Cdf beta (σ ^ 2 * T) F then 0 else solve u) = _
    rw [hp0]
    have : (fun u => (fun s => if s ≤ K then (1:ℝ) else 0) (if u ≤ 1 - gammaInc a y then 0 else solve u)) = A.indicator 1 := by
      funext u
      simp only [indicator_apply, hAdef, mem_ofPred_eq, Pi.one_apply]
    rw [this, integral_indicator_one hAm, measureReal_restrict_apply hAm]
    rfl
  refine ⟨H K, hcdf2, ?_⟩
  rw [hval, abs_le]
  have hfin : volume (A ∩ Ioo 0 1) ≠ ⊤ := ((measure_mono hsub2).trans_lt (by rw [Real.volume_Ioc]; exact ENNReal.ofReal_lt_top)).ne
  have hu1 : (volume (A ∩ Ioo 0 1)).toReal ≤ H K + (tol + 1e-7) := by
    refine ENNReal.toReal_le_of_le_ofReal (by have : (0:ℝ) ≤ 1e-7 := by norm_num
                                              linarith) ((measure_mono hsub2).trans (by rw [Real.volume_Ioc, sub_zero]))
  have hl1 : H K - tol ≤ (volume (A ∩ Ioo 0 1)).toReal := by
    have h1 := ENNReal.toReal_mono hfin (measure_mono hsub1)
    rw [Real.volume_Ioo, sub_zero] at h1
    exact (le_max_left _ 0).trans (by rwa [ENNReal.toReal_ofReal'] at h1)
  constructor <;> [skip; linarith]
  have : (0:ℝ) ≤ 1e-7 := by norm_num
  linarith

/-- The hypothesis of `simu_ST_law` can be met: there is a solver whose residual is at most `1e-7` plus the probability of ending above the level where the noncentrality is 500. -/
theorem simu_ST_solvable {beta σ T F : ℝ} (hb : beta < 1) (hσ : 0 < σ) (hT : 0 < T) (hF : 0 < F) (hA : caiA0 beta (σ ^ 2 * T) F ≤ 500) :
    ∃ solve : ℝ → ℝ, Measurable solve ∧ ∀ u ∈ Ioo (1 - centralChi2Cdf beta (σ ^ 2 * T) F) 1, 0 < solve u ∧ caiC0 (σ ^ 2 * T) beta (solve u) ≤ 500 ∧
      ∃ n c, sabrChi2Cdf n beta (σ ^ 2 * T) F (solve u) = some c ∧ |1 - c - u| ≤ 1e-7 + ncx2Cdf (caiA0 beta (σ ^ 2 * T) F) (1 / (1 - beta)) 500 := by
  classical
  have hb1 : 0 < 1 - beta := by linarith
  have hV : 0 < σ ^ 2 * T * (1 - beta) ^ 2 := by positivity
  obtain ⟨x, hx⟩ : ∃ x, x = caiA0 beta (σ ^ 2 * T) F := ⟨_, rfl⟩
  have hx0 : 0 < x := by rw [hx]; unfold caiA0; positivity
  obtain ⟨d, hd⟩ : ∃ d, d = 1 / (1 - beta) := ⟨_, rfl⟩
  have hd0 : 0 < d := by rw [hd]; positivity
  have hcen : centralChi2Cdf beta (σ ^ 2 * T) F = ncx2Cdf x d 0 := by
    unfold centralChi2Cdf; rw [ncx2Cdf_eq, zero_div, ncP_zero, hx, hd]
  obtain ⟨C, hC⟩ : ∃ C : ℝ → ℝ, C = caiC0 (σ ^ 2 * T) beta := ⟨_, rfl⟩
  have hCe : ∀ u, C u = u ^ (2 * (1 - beta)) / (σ ^ 2 * T * (1 - beta) ^ 2) := fun u => by
    rw [hC]; unfold caiC0; rw [div_mul_eq_mul_div, one_mul, div_div]
  have hCc : Continuous C := by
    have : C = fun u => u ^ (2 * (1 - beta)) / (σ ^ 2 * T * (1 - beta) ^ 2) := funext hCe
    rw [this]
    exact (continuous_id.rpow_const fun _ => Or.inr (by positivity)).div_const _
  have hC0 : C 0 = 0 := by rw [hCe, zero_rpow (by positivity), zero_div]
  obtain ⟨R, hR⟩ : ∃ R, R = (500 * (σ ^ 2 * T * (1 - beta) ^ 2)) ^ (1 / (2 * (1 - beta))) := ⟨_, rfl⟩
  have hR0 : 0 < R := by rw [hR]; positivity
  have hCR : C R = 500 := by
    rw [hCe, hR, ← rpow_mul (by positivity), one_div, inv_mul_cancel₀ (by positivity), rpow_one, mul_div_assoc, div_self hV.ne', mul_one]
  have hCm : ∀ s t, 0 ≤ s → s < t → C s < C t := fun s t hs h => by
    rw [hCe, hCe]
    exact div_lt_div_of_pos_right (rpow_lt_rpow hs h (by positivity)) hV
  have hCm' : ∀ s t, 0 ≤ s → s ≤ t → C s ≤ C t := fun s t hs h => by
    rcases h.eq_or_lt with h | h
    · rw [h]
    · exact (hCm s t hs h).le
  have hCn : ∀ s, 0 ≤ s → 0 ≤ C s := fun s hs => by rw [hCe]; positivity
  have hanti : StrictAntiOn (fun μ => ncP (d / 2) (x / 2) μ) (Ici 0) := by
    refine strictAntiOn_of_deriv_neg (convex_Ici 0) (fun μ _ => (hasDerivAt_ncP_mu (by positivity) (by positivity) μ).continuousAt.continuousWithinAt) fun μ hμ => ?_
    rw [interior_Ici] at hμ
    rw [(hasDerivAt_ncP_mu (by positivity) (by positivity) μ).deriv, neg_lt_zero]
    exact ncG_pos (by positivity) (by positivity) (le_of_lt hμ)
  set H : ℝ → ℝ := fun s => 1 - ncx2Cdf x d (C s) with hH
  have hHm : ∀ s t, 0 ≤ s → s < t → H s < H t := fun s t hs h => by
    have := hanti (show 0 ≤ C s / 2 from div_nonneg (hCn s hs) two_pos.le) (show 0 ≤ C t / 2 from div_nonneg (hCn t (hs.trans h.le)) two_pos.le) (div_lt_div_of_pos_right (hCm s t hs h) two_pos)
    simp only [hH, ncx2Cdf_eq]; simp only at this; linarith
  have hHle : ∀ s t, 0 ≤ s → 0 ≤ t → H s ≤ H t → s ≤ t := fun s t hs ht h => by
    by_contra hc
    linarith [hHm t s ht (not_le.1 hc)]
  have hHc : ContinuousOn H (Icc 0 R) := by
    refine continuousOn_const.sub ?_
    have h1 : Continuous fun μ => ncP (d / 2) (x / 2) μ := continuous_iff_continuousAt.2 fun μ => (hasDerivAt_ncP_mu (by positivity) (by positivity) μ).continuousAt
    exact (h1.comp (hCc.div_const 2)).continuousOn
  have hH0 : H 0 = 1 - ncx2Cdf x d 0 := by simp only [hH, hC0]
  have hivt : Icc (H 0) (H R) ⊆ H '' Icc 0 R := intermediate_value_Icc hR0.le hHc
  let solve : ℝ → ℝ := fun u => if h : ∃ s ∈ Icc 0 R, H s = u then h.choose else if u ≤ H 0 then 0 else R
  have hyes : ∀ u, (h : ∃ s ∈ Icc 0 R, H s = u) → solve u ∈ Icc 0 R ∧ H (solve u) = u := fun u h => by
    simp only [solve, dif_pos h]; exact h.choose_spec
  have hno : ∀ u, ¬ (∃ s ∈ Icc 0 R, H s = u) → (u < H 0 ∧ solve u = 0) ∨ (H R < u ∧ solve u = R) := fun u h => by
    have h' : u ∉ Icc (H 0) (H R) := fun hu => h (hivt hu)
    rcases lt_or_ge u (H 0) with h1 | h1
    · exact Or.inl ⟨h1, by simp only [solve, dif_neg h, if_pos h1.le]⟩
    · have h2 : H R < u := by by_contra hc; exact h' ⟨h1, not_lt.1 hc⟩
      have h3 : ¬ u ≤ H 0 := not_le.2 (lt_trans (hHm 0 R le_rfl hR0) h2)
      exact Or.inr ⟨h2, by simp only [solve, dif_neg h, if_neg h3]⟩
  have hr : ∀ u, solve u ∈ Icc 0 R := fun u => by
    by_cases h : ∃ s ∈ Icc 0 R, H s = u
    · exact (hyes u h).1
    · rcases hno u h with h1 | h1
      · rw [h1.2]; exact ⟨le_rfl, hR0.le⟩
      · rw [h1.2]; exact ⟨hR0.le, le_rfl⟩
  have hHR : ∀ s ∈ Icc 0 R, H 0 ≤ H s ∧ H s ≤ H R := fun s hs => by
    constructor
    · rcases hs.1.eq_or_lt with h | h
      · rw [← h]
      · exact (hHm 0 s le_rfl h).le
    · rcases hs.2.eq_or_lt with h | h
      · rw [h]
      · exact (hHm s R hs.1 h).le
  have hmono : Monotone solve := fun u v huv => by
    by_cases hu : ∃ s ∈ Icc 0 R, H s = u
    · obtain ⟨h1, h2⟩ := hyes u hu
      by_cases hv : ∃ s ∈ Icc 0 R, H s = v
      · obtain ⟨h3, h4⟩ := hyes v hv
        exact hHle _ _ h1.1 h3.1 (by rw [h2, h4]; exact huv)
      · rcases hno v hv with h3 | h3
        · have := (hHR _ h1).1
          rw [h2] at this; linarith [h3.1]
        · rw [h3.2]; exact h1.2
    · rcases hno u hu with h1 | h1
      · rw [h1.2]; exact (hr v).1
      · rw [h1.2]
        have hv : ¬ ∃ s ∈ Icc 0 R, H s = v := fun ⟨s, hs, he⟩ => by
          have := (hHR s hs).2; rw [he] at this; linarith [h1.1]
        rcases hno v hv with h3 | h3
        · linarith [h3.1, h1.1, hHm 0 R le_rfl hR0]
        · rw [h3.2]
  refine ⟨solve, hmono.measurable, fun u hu => ?_⟩
  rw [hcen] at hu
  have hHu : H (solve u) ≤ u ∧ u ≤ max (H (solve u)) (if solve u = R then 1 else 0) ∧ 0 < solve u := by
    by_cases h : ∃ s ∈ Icc 0 R, H s = u
    · obtain ⟨h1, h2⟩ := hyes u h
      refine ⟨h2.le, h2.ge.trans (le_max_left _ _), lt_of_le_of_ne h1.1 fun h0 => ?_⟩
      rw [← h0, hH0] at h2; linarith [hu.1]
    · rcases hno u h with h1 | h1
      · rw [hH0] at h1; linarith [hu.1, h1.1]
      · rw [h1.2]
        refine ⟨h1.1.le, ?_, hR0⟩
        rw [if_pos rfl]
        exact hu.2.le.trans (le_max_right _ _)
  obtain ⟨g1, g2, g3⟩ := hHu
  have gC : caiC0 (σ ^ 2 * T) beta (solve u) ≤ 500 := by
    rw [← hC, ← hCR]; exact hCm' _ _ (hr u).1 (hr u).2
  refine ⟨g3, gC, ?_⟩
  obtain ⟨k1, k2⟩ := chi2_cdf_appr_correct (x := x) (sigma := d) (l := C (solve u)) hx0.le (hx ▸ hA) hd0 (hCn _ (hr u).1) (by rw [hC]; exact gC)
  obtain ⟨N, hN⟩ := k1
  obtain ⟨c, hc⟩ := Option.isSome_iff_exists.1 (hN N le_rfl)
  obtain ⟨k3, k4⟩ := k2 N c hc
  refine ⟨N, c, by unfold sabrChi2Cdf; rw [← hx, ← hd, ← hC]; exact hc, ?_⟩
  rw [← hx, ← hd]
  have hHv : H (solve u) = 1 - ncx2Cdf x d (C (solve u)) := rfl
  have hnn : 0 ≤ ncx2Cdf x d 500 := by
    rw [ncx2Cdf_eq]; exact ncP_nonneg (by positivity) (by positivity) (by norm_num)
  have h7 : (0:ℝ) ≤ 1e-7 := by norm_num
  rw [abs_le]
  constructor
  · by_cases hR' : solve u = R
    · have : H (solve u) = 1 - ncx2Cdf x d 500 := by rw [hHv, hR', hCR]
      linarith [hu.2]
    · rw [if_neg hR'] at g2
      have hp : 0 ≤ H (solve u) := by
        rw [hHv, ncx2Cdf_eq]
        linarith [ncP_le_one (a := d / 2) (y := x / 2) (mu := C (solve u) / 2) (by positivity) (by positivity) (div_nonneg (hCn _ (hr u).1) two_pos.le)]
      rw [max_eq_left hp] at g2
      linarith
  · linarith

/-- The hypotheses of the theorems above are met by a non-trivial case: `beta = 1/2`, variance 1, spot 1. -/
example : caiA0 (1 / 2) (1 ^ 2 * 1) 1 = 4 ∧ caiA0 (1 / 2) (1 ^ 2 * 1) 1 ≤ 500 ∧ caiC0 (1 ^ 2 * 1) (1 / 2) 4 = 16 := by
  have h1 : caiA0 (1 / 2) (1 ^ 2 * 1) 1 = 4 := by unfold caiA0; norm_num
  refine ⟨h1, by rw [h1]; norm_num, ?_⟩
  unfold caiC0; norm_num

end Sabr

end PyFENG
