import Verif.Props.SabrVol
import Mathlib.Analysis.SpecialFunctions.Integrals.Basic

/-!
# SABR volatility approximations: the short-maturity smile

As the expiry goes to zero the implied volatilities of the SABR model converge to explicit limits: the volatility under which the strike is as far from
the forward in the base model as it is in the SABR geometry.  The leading orders of the approximations are compared with these limits.
-/

namespace PyFENG

open Real Filter Topology Asymptotics

namespace Sabr

/-! ## The function `H` near zero -/

/-- The first four terms of `1/√(1+2ρy+y²)`. -/
noncomputable def legP (ρ y : ℝ) : ℝ := 1 - ρ * y + (3 * ρ ^ 2 - 1) / 2 * y ^ 2 - (5 * ρ ^ 3 - 3 * ρ) / 2 * y ^ 3

/-- Their integral. -/
noncomputable def legI (ρ z : ℝ) : ℝ := z - ρ / 2 * z ^ 2 + (3 * ρ ^ 2 - 1) / 6 * z ^ 3 - (5 * ρ ^ 3 - 3 * ρ) / 8 * z ^ 4

lemma mono_bound {ρ y : ℝ} (hρ : |ρ| ≤ 1) (hy : |y| ≤ 1 / 10) (i j : ℕ) : |ρ ^ i * y ^ j| ≤ (1 / 10) ^ j := by
  rw [abs_mul, abs_pow, abs_pow]
  calc |ρ| ^ i * |y| ^ j ≤ 1 ^ i * (1 / 10) ^ j := by gcongr
    _ = (1 / 10) ^ j := by rw [one_pow, one_mul]

lemma leg_sq {ρ y : ℝ} (hρ : |ρ| ≤ 1) (hy : |y| ≤ 1 / 10) : |legP ρ y ^ 2 * (1 + 2 * ρ * y + y ^ 2) - 1| ≤ 20 * y ^ 4 := by
  have e : legP ρ y ^ 2 * (1 + 2 * ρ * y + y ^ 2) - 1 = (15 / 2 * (ρ ^ 2 * y ^ 0) - 3 / 4 * (ρ ^ 0 * y ^ 0) - 35 / 4 * (ρ ^ 4 * y ^ 0) - 10 * (ρ ^ 3 * y ^ 1)
      + 3 * (ρ ^ 1 * y ^ 1) + 7 * (ρ ^ 5 * y ^ 1) + 55 / 4 * (ρ ^ 4 * y ^ 2) - 21 / 4 * (ρ ^ 2 * y ^ 2) - 35 / 4 * (ρ ^ 6 * y ^ 2) + 1 / 4 * (ρ ^ 0 * y ^ 2)
      - 45 / 2 * (ρ ^ 5 * y ^ 3) + 23 / 2 * (ρ ^ 3 * y ^ 3) - 3 / 2 * (ρ ^ 1 * y ^ 3) + 25 / 2 * (ρ ^ 7 * y ^ 3)
      + 25 / 4 * (ρ ^ 6 * y ^ 4) - 15 / 2 * (ρ ^ 4 * y ^ 4) + 9 / 4 * (ρ ^ 2 * y ^ 4)) * y ^ 4 := by
    unfold legP
    ring
  rw [e, abs_mul, abs_of_nonneg (by positivity : (0:ℝ) ≤ y ^ 4)]
  refine mul_le_mul_of_nonneg_right ?_ (by positivity)
  have b := fun i j => abs_le.1 (mono_bound hρ hy i j)
  rw [abs_le]
  have b20 := b 2 0; have b00 := b 0 0; have b40 := b 4 0; have b31 := b 3 1; have b11 := b 1 1; have b51 := b 5 1
  have b42 := b 4 2; have b22 := b 2 2; have b62 := b 6 2; have b02 := b 0 2; have b53 := b 5 3; have b33 := b 3 3; have b13 := b 1 3; have b73 := b 7 3
  have b64 := b 6 4; have b44 := b 4 4; have b24 := b 2 4
  constructor <;> linarith

lemma leg_pos {ρ y : ℝ} (hρ : |ρ| ≤ 1) (hy : |y| ≤ 1 / 10) : 0 < legP ρ y := by
  have b := fun i j => abs_le.1 (mono_bound hρ hy i j)
  have b11 := b 1 1; have b22 := b 2 2; have b02 := b 0 2; have b33 := b 3 3; have b13 := b 1 3
  have e : legP ρ y = 1 - ρ ^ 1 * y ^ 1 + 3 / 2 * (ρ ^ 2 * y ^ 2) - 1 / 2 * (ρ ^ 0 * y ^ 2) - 5 / 2 * (ρ ^ 3 * y ^ 3) + 3 / 2 * (ρ ^ 1 * y ^ 3) := by
    unfold legP; ring
  rw [e]
  linarith

lemma quad_ge {ρ y : ℝ} (hρ : |ρ| ≤ 1) (hy : |y| ≤ 1 / 10) : 0.9 ≤ √(1 + 2 * ρ * y + y ^ 2) := by
  refine le_sqrt_of_sq_le ?_
  have h1 : |ρ * y| ≤ |y| := by rw [abs_mul]; exact mul_le_of_le_one_left (abs_nonneg _) hρ
  have h2 := (abs_le.1 h1).1
  have h3 : y ^ 2 = |y| ^ 2 := (sq_abs y).symm
  nlinarith [abs_nonneg y]

lemma leg_error {ρ y : ℝ} (hρ : |ρ| ≤ 1) (hy : |y| ≤ 1 / 10) : |1 / √(1 + 2 * ρ * y + y ^ 2) - legP ρ y| ≤ 25 * y ^ 4 := by
  have hs := quad_ge hρ hy
  set s := √(1 + 2 * ρ * y + y ^ 2) with hsd
  have hs0 : 0 < s := by norm_num at hs ⊢; linarith
  have hss : s ^ 2 = 1 + 2 * ρ * y + y ^ 2 := sq_sqrt (by
    by_contra hc
    push Not at hc
    rw [hsd, sqrt_eq_zero_of_nonpos hc.le] at hs0
    exact lt_irrefl _ hs0)
  have hp := leg_pos hρ hy
  have h := leg_sq hρ hy
  rw [← hss] at h
  have e : 1 / s - legP ρ y = -(legP ρ y ^ 2 * s ^ 2 - 1) / (s * (legP ρ y * s + 1)) := by
    have : legP ρ y * s + 1 ≠ 0 := by positivity
    field_simp
    ring
  rw [e, abs_div, abs_neg, abs_of_pos (a := s * (legP ρ y * s + 1)) (by positivity), div_le_iff₀ (by positivity)]
  refine h.trans ?_
  have h1 : 0.9 ≤ s * (legP ρ y * s + 1) := by
    have : 0 ≤ s * (legP ρ y * s) := by positivity
    linarith
  have hy4 : 0 ≤ y ^ 4 := by positivity
  nlinarith

lemma geo_error {ρ z : ℝ} (hρ : |ρ| ≤ 1) (hz : |z| ≤ 1 / 10) : |Spec.geo ρ z - legI ρ z| ≤ 5 * |z| ^ 5 := by
  have hmem : ∀ y ∈ Set.uIcc 0 z, |y| ≤ |z| := fun y hy => by
    rcases le_total 0 z with h | h
    · rw [Set.uIcc_of_le h] at hy
      rw [abs_of_nonneg hy.1, abs_of_nonneg h]; exact hy.2
    · rw [Set.uIcc_of_ge h] at hy
      rw [abs_of_nonpos hy.2, abs_of_nonpos h]; linarith [hy.1]
  have hI : ∫ y in (0:ℝ)..z, legP ρ y = legI ρ z := by
    have hd : ∀ y ∈ Set.uIcc 0 z, HasDerivAt (legI ρ) (legP ρ y) y := fun y _ => by
      have h := (((hasDerivAt_id' y).fun_sub ((hasDerivAt_pow 2 y).const_mul (ρ / 2))).fun_add ((hasDerivAt_pow 3 y).const_mul ((3 * ρ ^ 2 - 1) / 6))).fun_sub
        ((hasDerivAt_pow 4 y).const_mul ((5 * ρ ^ 3 - 3 * ρ) / 8))
      refine h.congr_deriv ?_
      unfold legP
      norm_num
      ring
    rw [intervalIntegral.integral_eq_sub_of_hasDerivAt hd (Continuous.intervalIntegrable (by unfold legP; fun_prop) _ _)]
    simp [legI]
  have hc : ContinuousOn (fun y : ℝ => 1 / √(1 + 2 * ρ * y + y ^ 2)) (Set.uIcc 0 z) := by
    refine ContinuousOn.div continuousOn_const (by fun_prop) fun y hy => ?_
    have := quad_ge hρ ((hmem y hy).trans hz)
    norm_num at this
    exact (lt_of_lt_of_le (by norm_num) this).ne'
  unfold Spec.geo
  rw [← hI, ← intervalIntegral.integral_sub hc.intervalIntegrable (Continuous.intervalIntegrable (by unfold legP; fun_prop) _ _)]
  have hb : ∀ y ∈ Set.uIoc 0 z, ‖1 / √(1 + 2 * ρ * y + y ^ 2) - legP ρ y‖ ≤ 25 * y ^ 4 := fun y hy => by
    rw [norm_eq_abs]
    exact leg_error hρ ((hmem y (Set.uIoc_subset_uIcc hy)).trans hz)
  have h := intervalIntegral.norm_integral_le_abs_of_norm_le (MeasureTheory.ae_restrict_of_forall_mem measurableSet_uIoc hb)
    (Continuous.intervalIntegrable (μ := MeasureTheory.volume) (by fun_prop : Continuous fun y : ℝ => 25 * y ^ 4) 0 z)
  rw [norm_eq_abs] at h
  refine h.trans (le_of_eq ?_)
  rw [intervalIntegral.integral_const_mul, integral_pow]
  norm_num
  rw [abs_div, abs_pow]
  norm_num
  ring

lemma hh_poly {ρ z : ℝ} (hρ : |ρ| ≤ 1) (hz : |z| ≤ 1 / 10) :
    |(1 + z * (ρ / 2 + z * (1 / 6 - ρ * ρ / 4 + ρ * (6 * (ρ * ρ) - 5) / 24 * z))) * legI ρ z - z| ≤ 2 * |z| ^ 5 ∧
    |1 + z * (ρ / 2 + z * (1 / 6 - ρ * ρ / 4 + ρ * (6 * (ρ * ρ) - 5) / 24 * z))| ≤ 1.1 := by
  have b := fun i j => abs_le.1 (mono_bound hρ hz i j)
  have b40 := b 4 0; have b20 := b 2 0; have b00 := b 0 0; have b51 := b 5 1; have b31 := b 3 1; have b11 := b 1 1
  have b62 := b 6 2; have b42 := b 4 2; have b22 := b 2 2; have b02 := b 0 2; have b33 := b 3 3; have b13 := b 1 3
  constructor
  · have e : (1 + z * (ρ / 2 + z * (1 / 6 - ρ * ρ / 4 + ρ * (6 * (ρ * ρ) - 5) / 24 * z))) * legI ρ z - z =
        (-9 / 16 * (ρ ^ 4 * z ^ 0) + 5 / 12 * (ρ ^ 2 * z ^ 0) - 1 / 36 * (ρ ^ 0 * z ^ 0) + 9 / 32 * (ρ ^ 5 * z ^ 1) - 11 / 32 * (ρ ^ 3 * z ^ 1) + 7 / 72 * (ρ ^ 1 * z ^ 1)
          - 5 / 32 * (ρ ^ 6 * z ^ 2) + 43 / 192 * (ρ ^ 4 * z ^ 2) - 5 / 64 * (ρ ^ 2 * z ^ 2)) * z ^ 5 := by
      unfold legI; ring
    rw [e, abs_mul, abs_pow]
    refine mul_le_mul_of_nonneg_right ?_ (by positivity)
    rw [abs_le]
    constructor <;> linarith
  · have e : 1 + z * (ρ / 2 + z * (1 / 6 - ρ * ρ / 4 + ρ * (6 * (ρ * ρ) - 5) / 24 * z)) =
        1 + 1 / 2 * (ρ ^ 1 * z ^ 1) + 1 / 6 * (ρ ^ 0 * z ^ 2) - 1 / 4 * (ρ ^ 2 * z ^ 2) + 1 / 4 * (ρ ^ 3 * z ^ 3) - 5 / 24 * (ρ ^ 1 * z ^ 3) := by ring
    rw [e, abs_le]
    norm_num at *
    constructor <;> linarith

/-- **C133.**  `H(z)` is `z` over the geodesic distance for every `z`: exactly for `|z| ≥ 1e-3`, and with relative error below `1e-11` where the code switches to a series. -/
theorem hh_accuracy {ρ : ℝ} (hρ : |ρ| < 1) (z : ℝ) : |hh z ρ * Spec.geo ρ z - z| ≤ 1e-11 * |z| ∧ (1e-3 ≤ |z| → hh z ρ * Spec.geo ρ z = z) := by
  have hx : 1e-3 ≤ |z| → hh z ρ * Spec.geo ρ z = z := fun h => by
    have hp := (hh_pos hρ z).1
    rw [hh_correct hρ h] at hp ⊢
    have : Spec.geo ρ z ≠ 0 := fun h0 => by rw [h0, div_zero] at hp; exact lt_irrefl _ hp
    field_simp
  refine ⟨?_, hx⟩
  by_cases hz : 1e-3 ≤ |z|
  · rw [hx hz, sub_self, abs_zero]; positivity
  · push Not at hz
    have hz' : |z| ≤ 1 / 10 := by norm_num at hz ⊢; linarith
    obtain ⟨p1, p2⟩ := hh_poly hρ.le hz'
    have g := geo_error hρ.le hz'
    have e : hh z ρ = 1 + z * (ρ / 2 + z * (1 / 6 - ρ * ρ / 4 + ρ * (6 * (ρ * ρ) - 5) / 24 * z)) := by
      unfold hh
      simp only [if_pos hz]
    rw [e]
    set h := 1 + z * (ρ / 2 + z * (1 / 6 - ρ * ρ / 4 + ρ * (6 * (ρ * ρ) - 5) / 24 * z)) with hh'
    have e2 : h * Spec.geo ρ z - z = h * (Spec.geo ρ z - legI ρ z) + (h * legI ρ z - z) := by ring
    have h1 : |h * (Spec.geo ρ z - legI ρ z)| ≤ 1.1 * (5 * |z| ^ 5) := by
      rw [abs_mul]
      exact mul_le_mul p2 g (abs_nonneg _) (by norm_num)
    have h2 : |h * Spec.geo ρ z - z| ≤ 7.5 * |z| ^ 5 := by
      rw [e2]
      refine (abs_add_le _ _).trans ?_
      norm_num at h1 ⊢
      linarith
    refine h2.trans ?_
    have h4 : |z| ^ 4 ≤ (1e-3) ^ 4 := pow_le_pow_left₀ (abs_nonneg _) hz.le 4
    have : |z| ^ 5 = |z| ^ 4 * |z| := by ring
    rw [this, ← mul_assoc]
    refine mul_le_mul_of_nonneg_right ?_ (abs_nonneg _)
    norm_num at h4 ⊢
    linarith

/-! ## The short-maturity smile -/

/-- Specification: `∫_F^K x^(-β) dx`, the distance from the forward to the strike in the CEV model with unit volatility. -/
noncomputable def Spec.levDist (β F K : ℝ) : ℝ := ∫ x in F..K, x ^ (-β)

/-- Specification: the distance from the forward to the strike in the SABR model (multiplied by the volatility of volatility). -/
noncomputable def Spec.sabrDist (σ vov ρ β F K : ℝ) : ℝ := Spec.geo ρ (vov / σ * Spec.levDist β F K)

lemma levDist_eq {β F K : ℝ} (hF : 0 < F) (hK : 0 < K) :
    Spec.levDist β F K = F ^ (1 - β) * (_root_.PyFENG.Spec.avgPow (K / F - 1) (1 - β) * (K / F - 1)) := by
  have h := intervalIntegral.integral_comp_mul_left (f := fun x : ℝ => x ^ (-β)) (a := 1) (b := K / F) hF.ne'
  rw [mul_one, mul_div_cancel₀ _ hF.ne', smul_eq_mul] at h
  have hm : ∀ t ∈ Set.uIcc 1 (K / F), 0 < t := fun t ht => by
    have hkf := div_pos hK hF
    rcases Set.mem_uIcc.1 ht with h | h <;> linarith [h.1]
  have h2 : ∫ t in (1:ℝ)..K / F, (F * t) ^ (-β) = F ^ (-β) * ∫ t in (1:ℝ)..K / F, t ^ (-β) := by
    rw [← intervalIntegral.integral_const_mul]
    refine intervalIntegral.integral_congr fun t ht => ?_
    exact mul_rpow hF.le (hm t ht).le
  rw [h2] at h
  have h3 : ∫ t in (1:ℝ)..K / F, t ^ (-β) = _root_.PyFENG.Spec.avgPow (K / F - 1) (1 - β) * (K / F - 1) := by
    unfold _root_.PyFENG.Spec.avgPow
    by_cases h0 : K / F - 1 = 0
    · have : K / F = 1 := by linarith
      simp [this]
    · rw [if_neg h0, show (1:ℝ) + (K / F - 1) = K / F by ring, show 1 - β - 1 = -β by ring, mul_comm (1 / _), mul_assoc, one_div, inv_mul_cancel₀ h0, mul_one]
  rw [← h3]
  unfold Spec.levDist
  have h4 : F ^ (1 - β) = F * F ^ (-β) := by rw [sub_eq_add_neg, rpow_add hF, rpow_one]
  rw [h4, mul_assoc, h]
  field_simp

lemma short_core {m : Sabr} (hρ : |m.rho| < 1) (hv : 0 ≤ m.vov) {F K bs : ℝ} (hF : 0 < F) (hK : 0 < K) (ha : 0 < m.sigma) :
    let x := K / F - 1
    let a := m.sigma / F ^ (1 - m.beta)
    let z := m.vov / a * (_root_.PyFENG.Spec.avgPow x (1 - m.beta) * x)
    |a * F ^ (1 - bs) * (_root_.PyFENG.Spec.avgPow x (1 - bs) / _root_.PyFENG.Spec.avgPow x (1 - m.beta)) * hh z m.rho * Spec.sabrDist m.sigma m.vov m.rho m.beta F K
      - m.vov * Spec.levDist bs F K| ≤ 1e-11 * |m.vov * Spec.levDist bs F K| ∧
    (1e-3 ≤ |m.vov / m.sigma * Spec.levDist m.beta F K| →
      a * F ^ (1 - bs) * (_root_.PyFENG.Spec.avgPow x (1 - bs) / _root_.PyFENG.Spec.avgPow x (1 - m.beta)) * hh z m.rho *
        Spec.sabrDist m.sigma m.vov m.rho m.beta F K = m.vov * Spec.levDist bs F K) := by
  intro x a z
  have hx : -1 < x := by have := div_pos hK hF; show -1 < K / F - 1; linarith
  have hpb := rpow_pos_of_pos hF (1 - m.beta)
  have hps := rpow_pos_of_pos hF (1 - bs)
  have hA := powrel_pos x (1 - m.beta) hx
  have hB := powrel_pos x (1 - bs) hx
  have hz : z = m.vov / m.sigma * Spec.levDist m.beta F K := by
    rw [levDist_eq hF hK]
    show m.vov / (m.sigma / F ^ (1 - m.beta)) * (_root_.PyFENG.Spec.avgPow x (1 - m.beta) * x) =
      m.vov / m.sigma * (F ^ (1 - m.beta) * (_root_.PyFENG.Spec.avgPow x (1 - m.beta) * x))
    generalize _root_.PyFENG.Spec.avgPow x (1 - m.beta) * x = y
    field_simp
  have hD : Spec.sabrDist m.sigma m.vov m.rho m.beta F K = Spec.geo m.rho z := by rw [hz]; rfl
  set c := a * F ^ (1 - bs) * (_root_.PyFENG.Spec.avgPow x (1 - bs) / _root_.PyFENG.Spec.avgPow x (1 - m.beta)) with hc
  have hcz : c * z = m.vov * Spec.levDist bs F K := by
    rw [hz, levDist_eq hF hK, levDist_eq hF hK, hc]
    show m.sigma / F ^ (1 - m.beta) * F ^ (1 - bs) * (_root_.PyFENG.Spec.avgPow x (1 - bs) / _root_.PyFENG.Spec.avgPow x (1 - m.beta)) *
      (m.vov / m.sigma * (F ^ (1 - m.beta) * (_root_.PyFENG.Spec.avgPow x (1 - m.beta) * x))) = m.vov * (F ^ (1 - bs) * (_root_.PyFENG.Spec.avgPow x (1 - bs) * x))
    field_simp
  obtain ⟨h1, h2⟩ := hh_accuracy hρ z
  constructor
  · rw [hD, ← hcz, show c * hh z m.rho * Spec.geo m.rho z - c * z = c * (hh z m.rho * Spec.geo m.rho z - z) by ring, abs_mul, abs_mul c z,
      mul_left_comm]
    exact mul_le_mul_of_nonneg_left h1 (abs_nonneg c)
  · intro h
    rw [← hz] at h
    rw [hD, ← hcz, mul_assoc, h2 h]

lemma avgPow_ratio_self {x a : ℝ} (hx : -1 < x) : _root_.PyFENG.Spec.avgPow x a / _root_.PyFENG.Spec.avgPow x a = 1 := div_self (powrel_pos x a hx).ne'

/-- **C133** (Choi and Wu, leading order).  With `approx_order = 0` both Choi-Wu classes return, for every base beta, the volatility under which the strike is as far from the
forward in the base CEV model as in the SABR model: exactly when `|z| ≥ 1e-3`, and with relative error below `1e-11` otherwise. -/
theorem choiWu_short (m : Sabr) (b : Option ℝ) (ho : m.approxOrder = 0) (hρ : |m.rho| < 1) (hv : 0 ≤ m.vov) (hσ : 0 < m.sigma) {K S T : ℝ} (hK : 0 < K) (hS : 0 < S)
    (ha : eps ≤ m.sigma / _root_.PyFENG.Spec.forward m.isFwd m.intr m.divr S T ^ (1 - m.beta)) :
    ∃ v, m.choiWuHVol b K S T = .ok v ∧ m.choiWuPVol b K S T = .ok v ∧
      let F := _root_.PyFENG.Spec.forward m.isFwd m.intr m.divr S T
      |v * Spec.sabrDist m.sigma m.vov m.rho m.beta F K - m.vov * Spec.levDist (b.getD m.beta) F K| ≤ 1e-11 * |m.vov * Spec.levDist (b.getD m.beta) F K| ∧
      (1e-3 ≤ |m.vov / m.sigma * Spec.levDist m.beta F K| →
        v * Spec.sabrDist m.sigma m.vov m.rho m.beta F K = m.vov * Spec.levDist (b.getD m.beta) F K) := by
  classical
  have e1 : m.mp.fwd S T = _root_.PyFENG.Spec.forward m.isFwd m.intr m.divr S T := by rw [MParams.fwd_eq_forward, MParams.forward_eq_spec]; rfl
  have hF := m.mp.fwd_pos hS T
  rw [e1] at hF
  set F := _root_.PyFENG.Spec.forward m.isFwd m.intr m.divr S T with hFd
  have hx : -1 < K / F - 1 := by have := div_pos hK hF; linarith
  have core := short_core (m := m) hρ hv (bs := b.getD m.beta) hF hK hσ
  refine ⟨_, ?_, ?_, core⟩
  · unfold choiWuHVol vars
    simp only [e1, powrel_correct _ _ hx, Bind.bind, Except.bind, pure, Except.pure, ho, if_true, one_mul, max_eq_left ha]
    cases b with
    | none => simp only [Option.getD_none, avgPow_ratio_self hx, mul_assoc]
    | some b => simp only [Option.getD_some, mul_assoc]
  · unfold choiWuPVol vars
    simp only [e1, powrel_correct _ _ hx, Bind.bind, Except.bind, pure, Except.pure, ho, if_true, one_mul, max_eq_left ha]
    cases b with
    | none => simp only [Option.getD_none, avgPow_ratio_self hx, mul_assoc]
    | some b => simp only [Option.getD_some, mul_assoc]

/-- **C133** (normal SABR, leading order).  The normal volatility of `SabrNormVolApprox` with `approx_order = 0` or `is_atmvol=True` is the one under which the strike is as far from the
forward in the Bachelier model as in the normal SABR model. -/
theorem norm_short (m : Sabr) (ho : m.approxOrder = 0 ∨ m.isAtmvol = true) (hρ : |m.rho| < 1) (hσ : 0 < m.sigma) (K S T : ℝ) :
    let F := _root_.PyFENG.Spec.forward m.isFwd m.intr m.divr S T
    |m.normVol K S T * Spec.sabrDist m.sigma m.vov m.rho 0 F K - m.vov * (K - F)| ≤ 1e-11 * |m.vov * (K - F)| ∧
      (1e-3 ≤ |m.vov / m.sigma * (K - F)| → m.normVol K S T * Spec.sabrDist m.sigma m.vov m.rho 0 F K = m.vov * (K - F)) := by
  intro F
  have e1 : m.mp.forward S T = F := by rw [MParams.forward_eq_spec]; rfl
  have hl : Spec.levDist 0 F K = K - F := by unfold Spec.levDist; simp
  obtain ⟨h1, h2⟩ := hh_accuracy hρ (m.vov / m.sigma * (K - F))
  have hn : m.normVol K S T = m.sigma * hh (m.vov / m.sigma * (K - F)) m.rho := by
    unfold normVol
    simp only [e1, if_pos ho, one_mul]
  have hcz : m.vov * (K - F) = m.sigma * (m.vov / m.sigma * (K - F)) := by field_simp
  unfold Spec.sabrDist
  rw [hn, hl]
  constructor
  · rw [hcz, mul_assoc, ← mul_sub, abs_mul, abs_mul m.sigma]
    rw [mul_left_comm]
    exact mul_le_mul_of_nonneg_left h1 (abs_nonneg m.sigma)
  · intro h
    rw [mul_assoc, h2 h, ← hcz]

end Sabr

end PyFENG
