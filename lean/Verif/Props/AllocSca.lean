import Mathlib.Algebra.BigOperators.Field
import Verif.Model.Alloc
import Mathlib.Analysis.Calculus.Deriv.Mul
import Mathlib.Analysis.Calculus.Deriv.Add
import Mathlib.Analysis.Calculus.Deriv.Pow
import Mathlib.Topology.Order.IntermediateValue
import Mathlib.Topology.Algebra.Order.LiminfLimsup
import Mathlib.LinearAlgebra.Matrix.PosDef

/-!
# C50, C80, C81: capped risk-parity portfolios (`RiskParitySCA`)
-/

namespace PyFENG

open Real

namespace Alloc

/-! ### Specification -/

/-- Long-only portfolios with total weight `s` and every weight at most `u`. -/
def Spec.capped {n : ℕ} (u s : ℝ) : Set (Fin n → ℝ) := {w | (∀ i, 0 ≤ w i ∧ w i ≤ u) ∧ ∑ i, w i = s}

/-- Squared Euclidean distance. -/
noncomputable def Spec.dist2 {n : ℕ} (v w : Fin n → ℝ) : ℝ := ∑ i, (v i - w i) ^ 2

variable {n : ℕ}

/-! ### The clipped sum as a function of the multiplier -/

noncomputable def clipSum (v : Fin n → ℝ) (u τ : ℝ) : ℝ := ∑ i, clip u (v i - τ)

lemma clip_mem {u : ℝ} (hu : 0 ≤ u) (x : ℝ) : 0 ≤ clip u x ∧ clip u x ≤ u :=
  ⟨le_min (le_max_right _ _) hu, min_le_right _ _⟩

lemma clip_mono (u : ℝ) : Monotone (clip u) := fun _ _ h => min_le_min_right _ (max_le_max_right _ h)

lemma clip_lip (u x y : ℝ) (h : x ≤ y) : clip u y - clip u x ≤ y - x := by
  unfold clip
  rcases le_total x 0 with h1 | h1 <;> rcases le_total y 0 with h2 | h2 <;>
    simp only [h1, h2, max_eq_left, max_eq_right] <;>
    rcases le_total (0 : ℝ) u with h3 | h3 <;>
    rcases le_total x u with h4 | h4 <;> rcases le_total y u with h5 | h5 <;>
    simp only [h3, h4, h5, min_eq_left, min_eq_right] <;> linarith

lemma clipSum_anti (v : Fin n → ℝ) (u : ℝ) : Antitone (clipSum v u) :=
  fun _ _ h => Finset.sum_le_sum fun _ _ => clip_mono u (by linarith)

lemma clipSum_lip (v : Fin n → ℝ) (u a b : ℝ) (h : a ≤ b) : clipSum v u a - clipSum v u b ≤ n * (b - a) := by
  unfold clipSum
  rw [← Finset.sum_sub_distrib]
  refine (Finset.sum_le_sum (g := fun _ => b - a) fun i _ => ?_).trans (le_of_eq (by simp [mul_sub]))
  have := clip_lip u (v i - b) (v i - a) (by linarith)
  linarith

lemma clipSum_cont (v : Fin n → ℝ) (u : ℝ) : Continuous (clipSum v u) := by
  unfold clipSum clip
  fun_prop

/-! ### The bisection -/

lemma projLoop_spec (v : Fin n → ℝ) (u : ℝ) (fuel : ℕ) : ∀ lo hi : ℝ, lo ≤ hi → 1 - 1e-12 ≤ clipSum v u lo →
    clipSum v u hi ≤ 1 →
    ∃ τ, lo ≤ τ ∧ τ ≤ hi ∧ (projLoop v u fuel lo hi = fun i => clip u (v i - τ)) ∧
      |clipSum v u τ - 1| ≤ 1e-12 + n * (hi - lo) / 2 ^ (fuel + 1) := by
  induction fuel with
  | zero =>
    intro lo hi hlh hlo hhi
    refine ⟨0.5 * (lo + hi), by norm_num; linarith, by norm_num; linarith, rfl, ?_⟩
    have h1 := clipSum_lip v u lo (0.5 * (lo + hi)) (by norm_num; linarith)
    have h2 := clipSum_lip v u (0.5 * (lo + hi)) hi (by norm_num; linarith)
    have e : (n : ℝ) * (0.5 * (lo + hi) - lo) = n * (hi - lo) / 2 := by ring
    have e' : (n : ℝ) * (hi - 0.5 * (lo + hi)) = n * (hi - lo) / 2 := by ring
    rw [e] at h1; rw [e'] at h2
    rw [abs_le]
    norm_num at *
    constructor <;> linarith
  | succ fuel ih =>
    intro lo hi hlh hlo hhi
    have hm1 : lo ≤ 0.5 * (lo + hi) := by norm_num; linarith
    have hm2 : 0.5 * (lo + hi) ≤ hi := by norm_num; linarith
    have hpow : (0 : ℝ) ≤ n * (hi - lo) / 2 ^ (fuel + 1 + 1) := by
      have : 0 ≤ hi - lo := by linarith
      positivity
    unfold projLoop
    simp only
    change ∃ τ, lo ≤ τ ∧ τ ≤ hi ∧ ((if |clipSum v u (0.5 * (lo + hi)) - 1| < 1e-12 then _ else
      if clipSum v u (0.5 * (lo + hi)) > 1 then _ else _) = _) ∧ _
    split_ifs with h1 h2
    · exact ⟨0.5 * (lo + hi), hm1, hm2, rfl, by linarith⟩
    · obtain ⟨τ, a, b, c, d⟩ := ih (0.5 * (lo + hi)) hi hm2 (by norm_num at *; linarith) hhi
      refine ⟨τ, hm1.trans a, b, c, d.trans (le_of_eq ?_)⟩
      rw [pow_succ 2 (fuel + 1)]
      ring
    · obtain ⟨τ, a, b, c, d⟩ := ih lo (0.5 * (lo + hi)) hm1 hlo (not_lt.1 h2)
      refine ⟨τ, a, b.trans hm2, c, d.trans (le_of_eq ?_)⟩
      rw [pow_succ 2 (fuel + 1)]
      ring

lemma bracket (v : Fin n → ℝ) {u : ℝ} (hu : 0 < u) (hn : 1 - 1e-12 ≤ u * n) :
    (⨅ i, v i) - u ≤ ⨆ i, v i ∧ clipSum v u ((⨅ i, v i) - u) = u * n ∧ clipSum v u (⨆ i, v i) = 0 := by
  have hne : Nonempty (Fin n) := by
    rcases Nat.eq_zero_or_pos n with h | h
    · subst h; norm_num at hn
    · exact ⟨⟨0, h⟩⟩
  have hmin : ∀ i, (⨅ i, v i) ≤ v i := fun i => ciInf_le (Set.finite_range v).bddBelow i
  have hmax : ∀ i, v i ≤ ⨆ i, v i := fun i => le_ciSup (Set.finite_range v).bddAbove i
  refine ⟨?_, ?_, ?_⟩
  · have i := hne.some
    linarith [hmin i, hmax i]
  · unfold clipSum
    rw [Finset.sum_congr rfl (g := fun _ => u) fun i _ => ?_]
    · simp [mul_comm]
    · unfold clip
      exact min_eq_right (le_max_of_le_left (by linarith [hmin i]))
  · unfold clipSum
    refine Finset.sum_eq_zero fun i _ => ?_
    unfold clip
    rw [max_eq_right (by linarith [hmax i]), min_eq_left hu.le]

/-- The bound on the total-weight error: bisection tolerance plus what 100 halvings leave of the bracket. -/
noncomputable def sumTol (v : Fin n → ℝ) (u : ℝ) : ℝ := 1e-12 + n * ((⨆ i, v i) - (⨅ i, v i) + u) / 2 ^ 101

lemma project_tau (v : Fin n → ℝ) (u : ℝ) {w : Fin n → ℝ} (h : projectSimplexBox v u = some w) :
    0 < u ∧ 1 - 1e-12 ≤ u * n ∧ ∃ τ, (w = fun i => clip u (v i - τ)) ∧ |clipSum v u τ - 1| ≤ sumTol v u := by
  unfold projectSimplexBox at h
  split_ifs at h with h1 h2
  push Not at h1 h2
  obtain ⟨b1, b2, b3⟩ := bracket v h1 h2
  obtain ⟨τ, _, _, c, d⟩ := projLoop_spec v u 100 _ _ b1 (b2 ▸ h2) (b3 ▸ zero_le_one)
  refine ⟨h1, h2, τ, by rw [← c]; exact (Option.some.inj h).symm, d.trans (le_of_eq ?_)⟩
  unfold sumTol
  ring

/-- **C50**: the projection raises ValueError exactly when the cap is not positive or too small for the number of assets. -/
theorem project_error_iff (v : Fin n → ℝ) (u : ℝ) : projectSimplexBox v u = none ↔ u ≤ 0 ∨ u * n < 1 - 1e-12 := by
  unfold projectSimplexBox
  split_ifs with h1 h2 <;> simp [h1] <;> norm_num at * <;> linarith

/-- **C50**: every weight is in `[0, u]` and the weights add to one up to the bisection tolerance (`1e-12` plus `n` times
`2^{-101}` of the initial bracket). -/
theorem project_feasible (v : Fin n → ℝ) (u : ℝ) {w : Fin n → ℝ} (h : projectSimplexBox v u = some w) :
    (∀ i, 0 ≤ w i ∧ w i ≤ u) ∧ |∑ i, w i - 1| ≤ 1e-12 + n * ((⨆ i, v i) - (⨅ i, v i) + u) / 2 ^ 101 := by
  obtain ⟨hu, _, τ, rfl, hs⟩ := project_tau v u h
  exact ⟨fun i => clip_mem hu.le _, hs⟩

lemma kkt_term {u : ℝ} (hu : 0 ≤ u) (x z : ℝ) (hz : 0 ≤ z ∧ z ≤ u) : (x - clip u x) * (z - clip u x) ≤ 0 := by
  unfold clip
  rcases le_total x 0 with h | h
  · rw [max_eq_right h, min_eq_left hu]
    nlinarith [hz.1]
  · rw [max_eq_left h]
    rcases le_total x u with h' | h'
    · rw [min_eq_left h']; simp
    · rw [min_eq_right h']
      nlinarith [hz.2]

/-- Clipping at a common multiplier is the projection onto the portfolios with the same total. -/
lemma clip_isProj {u : ℝ} (hu : 0 ≤ u) (v : Fin n → ℝ) (τ : ℝ) (z : Fin n → ℝ) (hz : z ∈ Spec.capped u (clipSum v u τ)) :
    Spec.dist2 v (fun i => clip u (v i - τ)) + Spec.dist2 z (fun i => clip u (v i - τ)) ≤ Spec.dist2 v z := by
  obtain ⟨hb, hs⟩ := hz
  unfold Spec.dist2
  have hk : ∑ i, (v i - τ - clip u (v i - τ)) * (z i - clip u (v i - τ)) ≤ 0 :=
    Finset.sum_nonpos fun i _ => kkt_term hu _ _ (hb i)
  have hz0 : ∑ i, (z i - clip u (v i - τ)) = 0 := by
    rw [Finset.sum_sub_distrib, hs]
    simp [clipSum]
  have e : ∑ i, (v i - z i) ^ 2 = ∑ i, (v i - clip u (v i - τ)) ^ 2 + ∑ i, (z i - clip u (v i - τ)) ^ 2
      - 2 * ∑ i, (v i - τ - clip u (v i - τ)) * (z i - clip u (v i - τ)) - 2 * τ * ∑ i, (z i - clip u (v i - τ)) := by
    rw [Finset.mul_sum, Finset.mul_sum, ← Finset.sum_add_distrib, ← Finset.sum_sub_distrib, ← Finset.sum_sub_distrib]
    exact Finset.sum_congr rfl fun i _ => by ring
  rw [e, hz0]
  linarith

/-- **C50**: the result is the exact Euclidean projection of `v` onto the capped portfolios having the result's own total:
every other one is farther from `v`, by at least its squared distance to the result. -/
theorem project_optimal (v : Fin n → ℝ) (u : ℝ) {w : Fin n → ℝ} (h : projectSimplexBox v u = some w) (z : Fin n → ℝ)
    (hz : z ∈ Spec.capped u (∑ i, w i)) : Spec.dist2 v w + Spec.dist2 z w ≤ Spec.dist2 v z := by
  obtain ⟨hu, _, τ, rfl, _⟩ := project_tau v u h
  exact clip_isProj hu.le v τ z hz

/-- **C50**: the result is within the same tolerance, in total absolute weight, of the true projection `z` of `v` onto the
capped simplex. -/
theorem project_near_exact (v : Fin n → ℝ) (u : ℝ) {w : Fin n → ℝ} (h : projectSimplexBox v u = some w) (z : Fin n → ℝ)
    (hz : z ∈ Spec.capped u 1) (hmin : ∀ y ∈ Spec.capped u 1, Spec.dist2 v z ≤ Spec.dist2 v y) :
    ∑ i, |w i - z i| ≤ 1e-12 + n * ((⨆ i, v i) - (⨅ i, v i) + u) / 2 ^ 101 := by
  obtain ⟨hu, hn, τ, rfl, hs⟩ := project_tau v u h
  have hun : 1 ≤ u * n := by
    have : ∑ i, z i ≤ ∑ _i : Fin n, u := Finset.sum_le_sum fun i _ => (hz.1 i).2
    rw [hz.2] at this
    simpa [mul_comm] using this
  obtain ⟨b1, b2, b3⟩ := bracket v hu hn
  obtain ⟨σ, _, hσ⟩ : (1 : ℝ) ∈ clipSum v u '' Set.Icc ((⨅ i, v i) - u) (⨆ i, v i) :=
    intermediate_value_Icc' b1 (clipSum_cont v u).continuousOn ⟨by rw [b3]; exact zero_le_one, by rw [b2]; exact hun⟩
  have hzσ : z = fun i => clip u (v i - σ) := by
    have h1 := clip_isProj hu.le v σ z (by rw [hσ]; exact hz)
    have h2 := hmin (fun i => clip u (v i - σ)) ⟨fun i => clip_mem hu.le _, hσ⟩
    have h3 : Spec.dist2 z (fun i => clip u (v i - σ)) ≤ 0 := by linarith
    have h4 := (Finset.sum_eq_zero_iff_of_nonneg (fun i _ => sq_nonneg (z i - clip u (v i - σ)))).1
      (le_antisymm h3 (Finset.sum_nonneg fun i _ => sq_nonneg _))
    ext i
    have := h4 i (Finset.mem_univ i)
    nlinarith [sq_nonneg (z i - clip u (v i - σ))]
  have key : ∑ i, |clip u (v i - τ) - z i| = |clipSum v u τ - 1| := by
    rw [hzσ, ← hσ]
    unfold clipSum
    rw [← Finset.sum_sub_distrib]
    rcases le_total τ σ with hts | hts
    · have hp : ∀ i, 0 ≤ clip u (v i - τ) - clip u (v i - σ) := fun i => sub_nonneg.2 (clip_mono u (by linarith))
      rw [abs_of_nonneg (Finset.sum_nonneg fun i _ => hp i)]
      exact Finset.sum_congr rfl fun i _ => abs_of_nonneg (hp i)
    · have hp : ∀ i, clip u (v i - τ) - clip u (v i - σ) ≤ 0 := fun i => sub_nonpos.2 (clip_mono u (by linarith))
      rw [abs_of_nonpos (Finset.sum_nonpos fun i _ => hp i), ← Finset.sum_neg_distrib]
      exact Finset.sum_congr rfl fun i _ => abs_of_nonpos (hp i)
  exact key ▸ hs

/-- The projection theorems are not vacuous: three assets, cap 1/2. -/
example : ∃ w, projectSimplexBox (![1, 2, 3] : Fin 3 → ℝ) (1/2) = some w := by
  rw [← Option.ne_none_iff_exists', Ne, project_error_iff]
  norm_num

example : (![0, 1/2, 1/2] : Fin 3 → ℝ) ∈ Spec.capped (1/2) 1 := by
  refine ⟨fun i => ?_, ?_⟩
  · fin_cases i <;> norm_num
  · simp [Fin.sum_univ_three]; norm_num

/-! ### The search direction -/

lemma sum_centred (x : Fin n → ℝ) : ∑ i, centred x i = 0 := by
  unfold centred
  rw [Finset.sum_sub_distrib]
  rcases Nat.eq_zero_or_pos n with h | h
  · subst h; simp
  · have : (n : ℝ) ≠ 0 := by positivity
    simp
    field_simp
    ring

/-- The gradient of the objective. -/
noncomputable def Spec.grad (cov : Fin n → Fin n → ℝ) (w : Fin n → ℝ) : Fin n → ℝ := fun i =>
  2 * ((∑ j, cov i j * w j) * centred (fun k => w k * ∑ j, cov k j * w j) i
    + ∑ j, cov i j * (w j * centred (fun k => w k * ∑ l, cov k l * w l) j))

/-- **C80**: the objective (sum of squared deviations of the risk contributions from their mean) has the gradient
`2 (Σw ∘ r + Σ (w ∘ r))`: this is its directional derivative in every direction. -/
theorem objective_gradient (cov : Fin n → Fin n → ℝ) (hsym : ∀ i j, cov i j = cov j i) (w d : Fin n → ℝ) :
    HasDerivAt (fun t => objective cov fun i => w i + t * d i) (∑ i, Spec.grad cov w i * d i) 0 := by
  have hlin : ∀ i, HasDerivAt (fun t : ℝ => w i + t * d i) (d i) 0 := fun i => by
    simpa using ((hasDerivAt_id' (0 : ℝ)).mul_const (d i)).const_add (w i)
  have hrc : ∀ i, HasDerivAt (fun t => riskContributions cov (fun i => w i + t * d i) i)
      (d i * mulVec cov w i + w i * mulVec cov d i) 0 := fun i => by
    unfold riskContributions mulVec dot
    have h2 : HasDerivAt (fun t : ℝ => ∑ j, cov i j * (w j + t * d j)) (∑ j, cov i j * d j) 0 :=
      HasDerivAt.fun_sum fun j _ => (hlin j).const_mul (cov i j)
    refine ((hlin i).fun_mul h2).congr_deriv ?_
    simp
  have hc : ∀ i, HasDerivAt (fun t => centred (riskContributions cov (fun i => w i + t * d i)) i)
      (centred (fun i => d i * mulVec cov w i + w i * mulVec cov d i) i) 0 := fun i => by
    unfold centred
    exact (hrc i).sub ((HasDerivAt.fun_sum fun j _ => hrc j).div_const _)
  have hobj : HasDerivAt (fun t => objective cov fun i => w i + t * d i)
      (∑ i, 2 * centred (riskContributions cov w) i * centred (fun i => d i * mulVec cov w i + w i * mulVec cov d i) i) 0 := by
    unfold objective
    refine (HasDerivAt.fun_sum fun i _ => (hc i).pow 2).congr_deriv ?_
    refine Finset.sum_congr rfl fun i _ => ?_
    simp
  refine hobj.congr_deriv ?_
  have hr := sum_centred (riskContributions cov w)
  set r := centred (riskContributions cov w) with hrdef
  have e1 : ∑ i, 2 * r i * centred (fun i => d i * mulVec cov w i + w i * mulVec cov d i) i
      = 2 * ∑ i, r i * (d i * mulVec cov w i + w i * mulVec cov d i) := by
    unfold centred
    simp only [mul_sub, Finset.sum_sub_distrib, ← Finset.sum_mul, ← Finset.mul_sum, mul_assoc, hr]
    simp
  rw [e1]
  have e2 : ∑ i, r i * (w i * mulVec cov d i) = ∑ i, (∑ j, cov i j * (w j * r j)) * d i := by
    unfold mulVec dot
    simp only [Finset.mul_sum, Finset.sum_mul]
    rw [Finset.sum_comm]
    refine Finset.sum_congr rfl fun i _ => Finset.sum_congr rfl fun j _ => ?_
    rw [hsym j i]; ring
  have e3 : (fun i => Spec.grad cov w i) = fun i => 2 * (mulVec cov w i * r i + ∑ j, cov i j * (w j * r j)) := rfl
  calc 2 * ∑ i, r i * (d i * mulVec cov w i + w i * mulVec cov d i)
      = 2 * (∑ i, mulVec cov w i * r i * d i + ∑ i, r i * (w i * mulVec cov d i)) := by
        rw [← Finset.sum_add_distrib]
        congr 1
        exact Finset.sum_congr rfl fun i _ => by ring
    _ = ∑ i, 2 * (mulVec cov w i * r i + ∑ j, cov i j * (w j * r j)) * d i := by
        rw [e2, ← Finset.sum_add_distrib, Finset.mul_sum]
        exact Finset.sum_congr rfl fun i _ => by ring

/-- **C80** (uncorrelated assets): the search direction of the code is the gradient when the covariance is diagonal. -/
theorem scaGrad_eq_of_diagonal (cov : Fin n → Fin n → ℝ) (hd : ∀ i j, i ≠ j → cov i j = 0) (w : Fin n → ℝ) :
    scaGrad cov w = Spec.grad cov w := by
  ext i
  unfold scaGrad Spec.grad
  have h : ∀ x : Fin n → ℝ, ∑ j, cov i j * x j = cov i i * x i := fun x =>
    Finset.sum_eq_single i (fun j _ hj => by rw [hd i j hj.symm, zero_mul]) (by simp)
  have e : mulVec cov (centred (riskContributions cov w)) i = cov i i * centred (riskContributions cov w) i := h _
  simp only [e, h fun j => w j * centred (fun k => w k * ∑ l, cov k l * w l) j]
  have e2 : centred (riskContributions cov w) i = centred (fun k => w k * ∑ l, cov k l * w l) i := rfl
  rw [e2]
  unfold mulVec dot
  ring

/-- A positive definite 3x3 covariance matrix. -/
noncomputable def exCov : Fin 3 → Fin 3 → ℝ := ![![1, 2, -2], ![2, 5, -5], ![-2, -5, 6]]

noncomputable def exW : Fin 3 → ℝ := ![1/2, 1/6, 1/3]

/-- **C80 is false for the code**: for a positive definite covariance and a strictly positive portfolio the search direction
(projected on fully invested portfolios) is an ascent direction: the objective strictly increases along it. -/
theorem scaGrad_ascends : (∀ i j, exCov i j = exCov j i) ∧ (∀ x : Fin 3 → ℝ, x ≠ 0 → 0 < ∑ i, ∑ j, x i * exCov i j * x j) ∧
    exW ∈ Spec.capped 1 1 ∧ (∀ i, 0 < exW i) ∧
    ∃ c > 0, HasDerivAt (fun t => objective exCov fun i => exW i + t * -centred (scaGrad exCov exW) i) c 0 := by
  have hsym : ∀ i j, exCov i j = exCov j i := by
    intro i j; fin_cases i <;> fin_cases j <;> simp [exCov]
  refine ⟨hsym, ?_, ?_, ?_, ?_⟩
  · intro x hx
    have e : ∑ i, ∑ j, x i * exCov i j * x j = (x 0 + 2 * x 1 - 2 * x 2) ^ 2 + (x 1 - x 2) ^ 2 + x 2 ^ 2 := by
      simp [Fin.sum_univ_three, exCov]; ring
    rw [e]
    by_contra hcon
    push Not at hcon
    apply hx
    have h2 : x 2 = 0 := by nlinarith [sq_nonneg (x 0 + 2 * x 1 - 2 * x 2), sq_nonneg (x 1 - x 2), sq_nonneg (x 2)]
    have h1 : x 1 = 0 := by
      rw [h2] at hcon
      nlinarith [sq_nonneg (x 0 + 2 * x 1 - 2 * 0), sq_nonneg (x 1)]
    have h0 : x 0 = 0 := by
      rw [h2, h1] at hcon
      nlinarith [sq_nonneg (x 0)]
    ext i
    fin_cases i <;> simp [h0, h1, h2]
  · refine ⟨fun i => ?_, ?_⟩
    · fin_cases i <;> norm_num [exW]
    · simp [Fin.sum_univ_three, exW]; norm_num
  · intro i; fin_cases i <;> norm_num [exW]
  · refine ⟨_, ?_, objective_gradient exCov hsym exW _⟩
    simp [Spec.grad, scaGrad, centred, riskContributions, mulVec, dot, Fin.sum_univ_three, exCov, exW]
    norm_num

/-! ### The line search and the fit -/

lemma lineSearch_total (cov : Fin n → Fin n → ℝ) {wMax : ℝ} (hw : 0 < wMax) (hn : 1 - 1e-12 ≤ wMax * n) (w g : Fin n → ℝ)
    (c : ℝ) (k : ℕ) : ∀ s : ℝ, s * 0.5 ^ k ≤ 1e-12 → ∀ fuel, k + 1 ≤ fuel →
      ∃ r, lineSearch cov wMax w g c fuel s = some r ∧ lineSearch cov wMax w g c (k + 1) s = some r := by
  have hproj : ∀ v : Fin n → ℝ, ∃ x, projectSimplexBox v wMax = some x := fun v => by
    rw [← Option.ne_none_iff_exists', Ne, project_error_iff]
    push Not
    exact ⟨hw, hn⟩
  induction k with
  | zero =>
    intro s hs fuel hf
    obtain ⟨f, rfl⟩ : ∃ f, fuel = f + 1 := ⟨fuel - 1, by omega⟩
    obtain ⟨x, hx⟩ := hproj fun i => w i - s * g i
    rw [pow_zero, mul_one] at hs
    refine ⟨(x, s), ?_, ?_⟩ <;> · unfold lineSearch; simp only [hx]; rw [if_pos (Or.inr hs)]
  | succ k ih =>
    intro s hs fuel hf
    obtain ⟨f, rfl⟩ : ∃ f, fuel = f + 1 := ⟨fuel - 1, by omega⟩
    obtain ⟨x, hx⟩ := hproj fun i => w i - s * g i
    unfold lineSearch
    simp only [hx]
    split_ifs with h
    · exact ⟨_, rfl, rfl⟩
    · exact ih (s * 0.5) (by rw [pow_succ] at hs; linarith [hs, mul_comm (0.5 ^ k : ℝ) 0.5, mul_assoc s 0.5 ((0.5 : ℝ) ^ k)])
        f (by omega)

/-- **C81** (line search): starting from any step at most one, the `while True` loop ends after at most 41 trials, and its
result does not depend on how many more were allowed. -/
theorem lineSearch_terminates (cov : Fin n → Fin n → ℝ) {wMax : ℝ} (hw : 0 < wMax) (hn : 1 - 1e-12 ≤ wMax * n) (w g : Fin n → ℝ)
    (c : ℝ) {s : ℝ} (hs : s ≤ 1) {fuel : ℕ} (hf : 41 ≤ fuel) :
    ∃ r, lineSearch cov wMax w g c fuel s = some r ∧ lineSearch cov wMax w g c 41 s = some r := by
  refine lineSearch_total cov hw hn w g c 40 s ?_ fuel hf
  have : s * (0.5 : ℝ) ^ 40 ≤ 1 * 0.5 ^ 40 := mul_le_mul_of_nonneg_right hs (by positivity)
  refine this.trans ?_
  norm_num

/-- What the line search returns: a projected step, which lowers the objective by `1e-12` unless the step has become tiny. -/
lemma lineSearch_spec (cov : Fin n → Fin n → ℝ) (wMax : ℝ) (w g : Fin n → ℝ) (c : ℝ) (fuel : ℕ) : ∀ s x t,
    lineSearch cov wMax w g c fuel s = some (x, t) → 0 < s →
      0 < t ∧ t ≤ s ∧ projectSimplexBox (fun i => w i - t * g i) wMax = some x ∧ (c - objective cov x ≥ 1e-12 ∨ t ≤ 1e-12) := by
  induction fuel with
  | zero => intro s x t h; simp [lineSearch] at h
  | succ fuel ih =>
    intro s x t h hs
    unfold lineSearch at h
    rcases hp : projectSimplexBox (fun i => w i - s * g i) wMax with _ | y
    · simp [hp] at h
    · simp only [hp] at h
      split_ifs at h with hc
      · obtain ⟨rfl, rfl⟩ : y = x ∧ s = t := by simpa using h
        exact ⟨hs, le_rfl, hp, hc⟩
      · obtain ⟨a, b, c1, d⟩ := ih (s * 0.5) x t h (by positivity)
        exact ⟨a, b.trans (by norm_num; linarith), c1, d⟩

/-- **C81** (line search): the accepted portfolio lowers the objective by at least `1e-12`, or the step has shrunk to `1e-12`
(in which case the code accepts it whatever its objective). -/
theorem lineSearch_decreases (cov : Fin n → Fin n → ℝ) (wMax : ℝ) (w g x : Fin n → ℝ) (c : ℝ) (fuel : ℕ) {s t : ℝ} (hs : 0 < s)
    (h : lineSearch cov wMax w g c fuel s = some (x, t)) : objective cov x ≤ c - 1e-12 ∨ t ≤ 1e-12 := by
  rcases (lineSearch_spec cov wMax w g c fuel s x t h hs).2.2.2 with h | h
  · left; linarith
  · right; exact h

/-- A bound for the search direction on the box. -/
lemma scaGrad_bound (cov : Fin n → Fin n → ℝ) {M u : ℝ} (hM : ∀ i j, |cov i j| ≤ M) (hM0 : 0 ≤ M) (w : Fin n → ℝ)
    (hw : ∀ i, 0 ≤ w i ∧ w i ≤ u) (hu : 0 ≤ u) (i : Fin n) : |scaGrad cov w i| ≤ 8 * n ^ 2 * M ^ 2 * u ^ 3 := by
  have hmv : ∀ (x : Fin n → ℝ) (B : ℝ), 0 ≤ B → (∀ j, |x j| ≤ B) → ∀ k, |mulVec cov x k| ≤ n * M * B := by
    intro x B hB hx k
    unfold mulVec dot
    refine (Finset.abs_sum_le_sum_abs _ _).trans ?_
    refine (Finset.sum_le_sum (g := fun _ => M * B) fun j _ => ?_).trans (le_of_eq (by simp; ring))
    rw [abs_mul]
    exact mul_le_mul (hM k j) (hx j) (abs_nonneg _) hM0
  have hwabs : ∀ j, |w j| ≤ u := fun j => by rw [abs_of_nonneg (hw j).1]; exact (hw j).2
  have hsw := hmv w u hu hwabs
  have hrc : ∀ k, |riskContributions cov w k| ≤ n * M * u ^ 2 := fun k => by
    unfold riskContributions
    rw [abs_mul]
    calc |w k| * |mulVec cov w k| ≤ u * (n * M * u) := mul_le_mul (hwabs k) (hsw k) (abs_nonneg _) hu
      _ = _ := by ring
  have hn0 : 0 < n := i.pos
  have hnr : (0 : ℝ) < n := by exact_mod_cast hn0
  have hcen : ∀ k, |centred (riskContributions cov w) k| ≤ 2 * (n * M * u ^ 2) := fun k => by
    unfold centred
    refine (abs_sub _ _).trans ?_
    have : |(∑ j, riskContributions cov w j) / n| ≤ n * M * u ^ 2 := by
      rw [abs_div, abs_of_pos hnr, div_le_iff₀ hnr]
      refine (Finset.abs_sum_le_sum_abs _ _).trans ?_
      refine (Finset.sum_le_sum fun j _ => hrc j).trans (le_of_eq (by simp; ring))
    linarith [hrc k]
  have hcr := hmv _ _ (by positivity) hcen i
  unfold scaGrad
  rw [abs_mul, abs_two]
  have h1 : |mulVec cov w i * centred (riskContributions cov w) i| ≤ n * M * u * (2 * (n * M * u ^ 2)) := by
    rw [abs_mul]
    exact mul_le_mul (hsw i) (hcen i) (abs_nonneg _) (by positivity)
  have h2 : |w i * mulVec cov (centred (riskContributions cov w)) i| ≤ u * (n * M * (2 * (n * M * u ^ 2))) := by
    rw [abs_mul]
    exact mul_le_mul (hwabs i) hcr (abs_nonneg _) hu
  calc 2 * |_| ≤ 2 * (n * M * u * (2 * (n * M * u ^ 2)) + u * (n * M * (2 * (n * M * u ^ 2)))) := by
        gcongr
        exact (abs_add_le _ _).trans (add_le_add h1 h2)
    _ = _ := by ring

lemma range_le (v : Fin n → ℝ) {a b : ℝ} (hn : 0 < n) (h : ∀ i, a ≤ v i ∧ v i ≤ b) : (⨆ i, v i) - (⨅ i, v i) ≤ b - a := by
  have : Nonempty (Fin n) := ⟨⟨0, hn⟩⟩
  linarith [ciSup_le fun i => (h i).2, le_ciInf fun i => (h i).1]

lemma scaLoop_feasible (cov : Fin n → Fin n → ℝ) {M wMax tol : ℝ} (hM : ∀ i j, |cov i j| ≤ M) (hM0 : 0 ≤ M) (sf fuel : ℕ) :
    ∀ (w : Fin n → ℝ) (s : ℝ), 0 < s → s ≤ 1 → (∀ i, 0 ≤ w i ∧ w i ≤ wMax) → ∀ x, scaLoop cov wMax tol sf fuel w s = some x →
      (∀ i, 0 ≤ x i ∧ x i ≤ wMax) ∧ |∑ i, x i - 1| ≤ 1e-12 + n * (2 * wMax + 16 * n ^ 2 * M ^ 2 * wMax ^ 3) / 2 ^ 101 := by
  induction fuel with
  | zero => intro w s _ _ _ x h; simp [scaLoop] at h
  | succ fuel ih =>
    intro w s hs hs1 hw x h
    unfold scaLoop at h
    rcases hl : lineSearch cov wMax w (scaGrad cov w) (objective cov w) sf s with _ | ⟨y, t⟩
    · simp [hl] at h
    · simp only [hl] at h
      obtain ⟨ht, hts, hp, _⟩ := lineSearch_spec cov wMax w _ _ sf s y t hl hs
      have hf := project_feasible _ _ hp
      obtain ⟨hu, hnu, _⟩ := project_tau _ _ hp
      split_ifs at h with hc
      · obtain rfl : y = x := by simpa using h
        refine ⟨hf.1, hf.2.trans ?_⟩
        have hn0 : 0 < n := by
          rcases Nat.eq_zero_or_pos n with h | h
          · subst h; norm_num at hnu
          · exact h
        have hg := scaGrad_bound cov hM hM0 w hw hu.le
        have hB : (0 : ℝ) ≤ 8 * n ^ 2 * M ^ 2 * wMax ^ 3 := by positivity
        have hr := range_le (fun i => w i - t * scaGrad cov w i) hn0 (a := -(8 * n ^ 2 * M ^ 2 * wMax ^ 3))
          (b := wMax + 8 * n ^ 2 * M ^ 2 * wMax ^ 3) fun i => by
            have h1 : |t * scaGrad cov w i| ≤ 1 * (8 * n ^ 2 * M ^ 2 * wMax ^ 3) := by
              rw [abs_mul, abs_of_pos ht]
              exact mul_le_mul (hts.trans hs1) (hg i) (abs_nonneg _) zero_le_one
            rw [one_mul, abs_le] at h1
            constructor <;> linarith [(hw i).1, (hw i).2, h1.1, h1.2]
        have hle : (⨆ i, w i - t * scaGrad cov w i) - (⨅ i, w i - t * scaGrad cov w i) + wMax
            ≤ 2 * wMax + 16 * n ^ 2 * M ^ 2 * wMax ^ 3 := by linarith
        have := mul_le_mul_of_nonneg_left hle (Nat.cast_nonneg (α := ℝ) n)
        linarith [div_le_div_of_nonneg_right this (by positivity : (0 : ℝ) ≤ 2 ^ 101)]
      · exact ih y (min (t * 1.5) 1) (lt_min (by positivity) one_pos) (min_le_right _ _) hf.1 x h

/-- **C81**: whatever the start, cap, tolerance and iteration limit, the weights `fit_sca` returns are a long-only portfolio
respecting the cap, whose total is one up to `1e-12` plus a `2^{-101}` fraction of the size of the problem. -/
theorem fitSca_feasible (cov : Fin n → Fin n → ℝ) {M : ℝ} (hM : ∀ i j, |cov i j| ≤ M) (hM0 : 0 ≤ M) (wMax tol : ℝ)
    (sf maxIter : ℕ) (w0 : Fin n → ℝ) {w : Fin n → ℝ} (h : fitSca cov wMax tol sf maxIter w0 = some w) :
    (∀ i, 0 ≤ w i ∧ w i ≤ wMax) ∧ |∑ i, w i - 1| ≤ 1e-12 + n * (2 * wMax + 16 * n ^ 2 * M ^ 2 * wMax ^ 3) / 2 ^ 101 := by
  unfold fitSca at h
  rcases hp : projectSimplexBox (fun i => clip wMax (w0 i)) wMax with _ | y
  · simp [hp] at h
  · simp only [hp] at h
    exact scaLoop_feasible cov hM hM0 sf maxIter y 1 one_pos le_rfl (project_feasible _ _ hp).1 w h

/-- `fitSca_feasible` is not vacuous: two uncorrelated assets of equal variance give the equally weighted portfolio. -/
example {tol : ℝ} (ht : 0 < tol) : fitSca ![![1, 0], ![0, 1]] 1 tol 41 1 (![1/2, 1/2] : Fin 2 → ℝ) = some ![1/2, 1/2] := by
  have hinf : (⨅ i, (![1/2, 1/2] : Fin 2 → ℝ) i) = 1/2 := by
    rw [show (![1/2, 1/2] : Fin 2 → ℝ) = fun _ => 1/2 by ext i; fin_cases i <;> rfl]; exact ciInf_const
  have hsup : (⨆ i, (![1/2, 1/2] : Fin 2 → ℝ) i) = 1/2 := by
    rw [show (![1/2, 1/2] : Fin 2 → ℝ) = fun _ => 1/2 by ext i; fin_cases i <;> rfl]; exact ciSup_const
  have hproj : projectSimplexBox (![1/2, 1/2] : Fin 2 → ℝ) 1 = some ![1/2, 1/2] := by
    unfold projectSimplexBox
    rw [hinf, hsup, if_neg (by norm_num), if_neg (by norm_num)]
    congr 1
    unfold projLoop
    have hw : (fun i => clip 1 ((![1/2, 1/2] : Fin 2 → ℝ) i - 0.5 * (1/2 - 1 + 1/2))) = ![1/2, 1/2] := by
      ext i; fin_cases i <;> norm_num [clip]
    simp only [hw]
    rw [if_pos (by norm_num [Fin.sum_univ_two])]
  have hg : scaGrad ![![1, 0], ![0, 1]] (![1/2, 1/2] : Fin 2 → ℝ) = fun _ => 0 := by
    ext i
    fin_cases i <;> simp [scaGrad, mulVec, dot, centred, riskContributions, Fin.sum_univ_two]
  unfold fitSca
  rw [show (fun i => clip 1 ((![1/2, 1/2] : Fin 2 → ℝ) i)) = ![1/2, 1/2] by ext i; fin_cases i <;> norm_num [clip], hproj]
  simp only
  unfold scaLoop
  obtain ⟨⟨x, t⟩, h1, _⟩ := lineSearch_terminates ![![1, 0], ![0, 1]] (wMax := 1) one_pos (by norm_num)
    (![1/2, 1/2] : Fin 2 → ℝ) (fun _ => 0) (objective ![![1, 0], ![0, 1]] ![1/2, 1/2]) (s := 1) le_rfl (fuel := 41) le_rfl
  have h2 := (lineSearch_spec _ _ _ _ _ _ _ _ _ h1 one_pos).2.2.1
  simp only [mul_zero, sub_zero] at h2
  rw [hproj, Option.some.injEq] at h2
  rw [hg, h1, ← h2]
  simp [ht]

/-- **C81**: `fit_sca` fails only by ValueError on an infeasible cap or by running out of iterations, never because the line
search runs forever: any inner limit of at least 41 gives the same outcome. -/
theorem fitSca_inner_bound (cov : Fin n → Fin n → ℝ) (wMax tol : ℝ) (maxIter : ℕ) (w0 : Fin n → ℝ) {sf : ℕ} (hsf : 41 ≤ sf) :
    fitSca cov wMax tol sf maxIter w0 = fitSca cov wMax tol 41 maxIter w0 := by
  unfold fitSca
  rcases hp : projectSimplexBox (fun i => clip wMax (w0 i)) wMax with _ | y
  · rfl
  · simp only
    obtain ⟨hu, hnu, _⟩ := project_tau _ _ hp
    have key : ∀ fuel (w : Fin n → ℝ) s, s ≤ 1 → scaLoop cov wMax tol sf fuel w s = scaLoop cov wMax tol 41 fuel w s := by
      intro fuel
      induction fuel with
      | zero => intro w s _; rfl
      | succ fuel ih =>
        intro w s hs
        obtain ⟨r, h1, h2⟩ := lineSearch_terminates cov hu hnu w (scaGrad cov w) (objective cov w) hs hsf
        unfold scaLoop
        rw [h1, h2]
        simp only
        split_ifs
        · rfl
        · exact ih _ _ (min_le_right _ _)
    exact key _ _ _ le_rfl

end Alloc

end PyFENG
