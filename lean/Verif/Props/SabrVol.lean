import Verif.Model.Sabr
import Verif.Props.Bsm
import Verif.Props.Norm
import Verif.Props.Cev
import Verif.Props.CevMass
import Verif.Props.Util
import Mathlib.Analysis.SpecialFunctions.Trigonometric.DerivHyp
import Mathlib.Analysis.SpecialFunctions.Trigonometric.Series

/-!
# C62, C97, C98: SABR volatility approximations
-/

namespace PyFENG

open Real MeasureTheory Set
open scoped Topology

set_option linter.unusedSimpArgs false

namespace Sabr

lemma close_self (x : ℝ) : npIsclose x x := by
  unfold npIsclose
  simp only [sub_self, abs_zero]
  positivity

lemma not_close_zero_one : ¬ npIsclose 0 1 := by
  unfold npIsclose
  norm_num

/-! ## Parity -/

/-- **C62.** Whatever volatility is fed to the base model, call minus put is the discounted forward minus strike.  When the base model is
the normal model the total volatility must be at least machine epsilon (below it the code's normal price loses parity, see C20). -/
theorem base_parity (m : Sabr) (b : Option ℝ) (vol K S T : ℝ)
    (h : ¬ npIsclose (b.getD m.beta) 1 → npIsclose (b.getD m.beta) 0 → eps ≤ vol * √T) :
    Spec.Parity (m.basePrice b vol K S T 1) (m.basePrice b vol K S T (-1)) (Spec.discount m.intr T) (Spec.forward m.isFwd m.intr m.divr S T) K := by
  classical
  unfold basePrice
  simp only
  split_ifs with h1 h2
  · exact bsm_put_call_parity ⟨vol, m.intr, m.divr, m.isFwd⟩ K S T
  · exact norm_put_call_parity ⟨vol, m.intr, m.divr, m.isFwd⟩ (h h1 h2)
  · exact Cev.cev_parity ⟨vol, _, m.intr, m.divr, m.isFwd⟩ K S T

/-- **C62.** Parity of Hagan prices. -/
theorem hagan_parity (m : Sabr) (K S T : ℝ) :
    Spec.Parity (m.haganPrice K S T 1) (m.haganPrice K S T (-1)) (Spec.discount m.intr T) (Spec.forward m.isFwd m.intr m.divr S T) K :=
  m.base_parity _ _ K S T fun h => absurd (close_self 1) h

/-- **C62.** Parity of Lorig et al. prices. -/
theorem lorig_parity (m : Sabr) (K S T : ℝ) :
    Spec.Parity (m.lorigPrice K S T 1) (m.lorigPrice K S T (-1)) (Spec.discount m.intr T) (Spec.forward m.isFwd m.intr m.divr S T) K :=
  m.base_parity _ _ K S T fun h => absurd (close_self 1) h

/-- **C62.** Parity of normal-SABR prices, when the total normal volatility is at least machine epsilon. -/
theorem norm_parity (m : Sabr) {K S T : ℝ} (h : eps ≤ m.normVol K S T * √T) :
    Spec.Parity (m.normPrice K S T 1) (m.normPrice K S T (-1)) (Spec.discount m.intr T) (Spec.forward m.isFwd m.intr m.divr S T) K :=
  m.base_parity _ _ K S T fun _ _ => h

/-- **C62.** Parity of the Choi-Wu prices (both classes), for every base beta that is not normal: the call and the put succeed for the same
arguments and satisfy parity. -/
theorem choiWuH_parity (m : Sabr) (b : Option ℝ) {K S T c : ℝ} (hb : npIsclose (b.getD m.beta) 0 → npIsclose (b.getD m.beta) 1)
    (hc : m.choiWuHPrice b K S T 1 = .ok c) :
    ∃ p, m.choiWuHPrice b K S T (-1) = .ok p ∧ Spec.Parity c p (Spec.discount m.intr T) (Spec.forward m.isFwd m.intr m.divr S T) K := by
  unfold choiWuHPrice at hc ⊢
  rcases hv : m.choiWuHVol b K S T with e | v
  · rw [hv] at hc; cases hc
  · rw [hv] at hc
    cases hc
    exact ⟨_, rfl, m.base_parity b v K S T fun h1 h2 => absurd (hb h2) h1⟩

/-- **C62.** Parity of the second-order Choi-Wu prices. -/
theorem choiWuP_parity (m : Sabr) (b : Option ℝ) {K S T c : ℝ} (hb : npIsclose (b.getD m.beta) 0 → npIsclose (b.getD m.beta) 1)
    (hc : m.choiWuPPrice b K S T 1 = .ok c) :
    ∃ p, m.choiWuPPrice b K S T (-1) = .ok p ∧ Spec.Parity c p (Spec.discount m.intr T) (Spec.forward m.isFwd m.intr m.divr S T) K := by
  unfold choiWuPPrice at hc ⊢
  rcases hv : m.choiWuPVol b K S T with e | v
  · rw [hv] at hc; cases hc
  · rw [hv] at hc
    cases hc
    exact ⟨_, rfl, m.base_parity b v K S T fun h1 h2 => absurd (hb h2) h1⟩

/-! ## The function `H` -/

lemma vv_sq_pos {ρ : ℝ} (hρ : |ρ| < 1) (z : ℝ) : 0 < 1 + z * (z + 2 * ρ) := by
  have := abs_lt.1 hρ
  nlinarith [sq_nonneg (z + ρ)]

lemma vv_pos {ρ : ℝ} (hρ : |ρ| < 1) (z : ℝ) : 0 < vv z ρ := sqrt_pos.2 (vv_sq_pos hρ z)

lemma vv_sq {ρ : ℝ} (hρ : |ρ| < 1) (z : ℝ) : vv z ρ ^ 2 = 1 + z * (z + 2 * ρ) := sq_sqrt (vv_sq_pos hρ z).le

lemma vv_gt {ρ : ℝ} (hρ : |ρ| < 1) (z : ℝ) : |z + ρ| < vv z ρ := by
  refine abs_lt_of_sq_lt_sq ?_ (vv_pos hρ z).le
  rw [vv_sq hρ]
  have := abs_lt.1 hρ
  nlinarith

lemma hasDerivAt_geo {ρ : ℝ} (hρ : |ρ| < 1) (z : ℝ) : HasDerivAt (fun z => log (vv z ρ + z + ρ)) (1 / √(1 + 2 * ρ * z + z ^ 2)) z := by
  have h1 : HasDerivAt (fun z => 1 + z * (z + 2 * ρ)) (2 * z + 2 * ρ) z := by
    have := (((hasDerivAt_id' z).fun_mul ((hasDerivAt_id' z).add_const (2 * ρ)))).const_add 1
    exact this.congr_deriv (by ring)
  have h2 := h1.sqrt (vv_sq_pos hρ z).ne'
  have hp : 0 < vv z ρ + z + ρ := by
    have := (abs_lt.1 (vv_gt hρ z)).1
    linarith
  have h3 := ((h2.add (hasDerivAt_id' z)).add_const ρ).log (by exact hp.ne')
  refine h3.congr_deriv ?_
  have hv := vv_pos hρ z
  rw [show 1 + 2 * ρ * z + z ^ 2 = 1 + z * (z + 2 * ρ) by ring]
  change ((2 * z + 2 * ρ) / (2 * vv z ρ) + 1) / (vv z ρ + z + ρ) = 1 / vv z ρ
  field_simp
  ring

/-- The geodesic distance `∫_0^z dy/√(1 + 2ρy + y²)`. -/
noncomputable def Spec.geo (ρ z : ℝ) : ℝ := ∫ y in (0:ℝ)..z, 1 / √(1 + 2 * ρ * y + y ^ 2)

lemma geo_eq {ρ : ℝ} (hρ : |ρ| < 1) (z : ℝ) : Spec.geo ρ z = log ((vv z ρ + z + ρ) / (1 + ρ)) := by
  have hc : Continuous fun y : ℝ => 1 / √(1 + 2 * ρ * y + y ^ 2) := by
    refine Continuous.div continuous_const (by fun_prop) fun y => ?_
    have := vv_pos hρ y
    unfold vv at this
    rw [show 1 + 2 * ρ * y + y ^ 2 = 1 + y * (y + 2 * ρ) by ring]
    exact this.ne'
  have h := intervalIntegral.integral_eq_sub_of_hasDerivAt (f := fun z => log (vv z ρ + z + ρ)) (f' := fun y => 1 / √(1 + 2 * ρ * y + y ^ 2)) (a := 0) (b := z)
    (fun y _ => hasDerivAt_geo hρ y) (hc.intervalIntegrable _ _)
  have hp : 0 < vv z ρ + z + ρ := by
    have := (abs_lt.1 (vv_gt hρ z)).1
    linarith
  have h1 : 0 < 1 + ρ := by have := abs_lt.1 hρ; linarith
  unfold Spec.geo
  rw [h, log_div hp.ne' h1.ne']
  have : vv 0 ρ = 1 := by unfold vv; simp
  simp only [this, add_zero]

/-- **C97.** Away from `z = 0` (`|z| ≥ 1e-3`) the function `H(z)` of the SABR volatility formulas is `z` over the geodesic distance
`∫_0^z dy/√(1+2ρy+y²)`, on both `np.where` branches. -/
theorem hh_correct {z ρ : ℝ} (hρ : |ρ| < 1) (hz : 1e-3 ≤ |z|) : hh z ρ = z / Spec.geo ρ z := by
  unfold hh
  rw [if_neg (not_lt.2 hz), geo_eq hρ]
  split_ifs with h
  · rfl
  · have ha := abs_lt.1 (vv_gt hρ z)
    have h1 := abs_lt.1 hρ
    have hm : 0 < vv z ρ - z - ρ := by linarith
    have : (1 - ρ) / (vv z ρ - z - ρ) = (vv z ρ + z + ρ) / (1 + ρ) := by
      rw [div_eq_div_iff hm.ne' (by linarith)]
      have := vv_sq hρ z
      linear_combination -this
    rw [this]

lemma geo_pos {ρ z : ℝ} (hρ : |ρ| < 1) (hz : 0 < z) : 0 < Spec.geo ρ z := by
  rw [geo_eq hρ]
  have h1 := abs_lt.1 hρ
  refine log_pos ?_
  rw [lt_div_iff₀ (by linarith)]
  have h2 := vv_gt hρ z
  have : 1 - z < vv z ρ := by
    by_cases hz1 : 1 < z
    · have := vv_pos hρ z; linarith
    · refine lt_of_pow_lt_pow_left₀ 2 (vv_pos hρ z).le ?_
      rw [vv_sq hρ]
      nlinarith
  linarith

lemma geo_neg (ρ z : ℝ) : Spec.geo (-ρ) (-z) = -Spec.geo ρ z := by
  unfold Spec.geo
  have := intervalIntegral.integral_comp_neg (a := 0) (b := -z) fun y : ℝ => 1 / √(1 + 2 * ρ * y + y ^ 2)
  rw [neg_zero, neg_neg] at this
  rw [← intervalIntegral.integral_symm, ← this]
  congr 1
  ext y
  congr 2
  ring

/-- **C97.** Reflection symmetry of `H`. -/
theorem hh_symm {ρ : ℝ} (hρ : |ρ| < 1) (z : ℝ) : hh (-z) (-ρ) = hh z ρ := by
  by_cases hz : |z| < 1e-3
  · unfold hh
    simp only [abs_neg, if_pos hz]
    ring
  · rw [hh_correct hρ (not_lt.1 hz), hh_correct (by rwa [abs_neg]) (by rw [abs_neg]; exact not_lt.1 hz), geo_neg, neg_div_neg_eq]

/-- **C97.** `H` is positive everywhere (so every leading-order volatility is), and `H(0) = 1`. -/
theorem hh_pos {ρ : ℝ} (hρ : |ρ| < 1) (z : ℝ) : 0 < hh z ρ ∧ hh 0 ρ = 1 := by
  refine ⟨?_, by unfold hh; norm_num⟩
  by_cases hz : |z| < 1e-3
  · unfold hh
    simp only [if_pos hz]
    obtain ⟨z1, z2⟩ := abs_lt.1 hz
    obtain ⟨r1, r2⟩ := abs_lt.1 hρ
    norm_num at z1 z2
    have hr2 : 0 ≤ ρ * ρ ∧ ρ * ρ ≤ 1 := ⟨mul_self_nonneg _, by nlinarith⟩
    have c3 : |ρ * (6 * (ρ * ρ) - 5) / 24| ≤ 1 := by
      rw [abs_div, abs_mul]
      have : |6 * (ρ * ρ) - 5| ≤ 5 := abs_le.2 ⟨by linarith, by linarith⟩
      have h24 : |(24:ℝ)| = 24 := by norm_num
      rw [h24, div_le_one (by norm_num)]
      nlinarith [abs_nonneg ρ, abs_nonneg (6 * (ρ * ρ) - 5)]
    have q3 : |ρ * (6 * (ρ * ρ) - 5) / 24 * z| ≤ 1 := by
      rw [abs_mul]
      nlinarith [abs_nonneg (ρ * (6 * (ρ * ρ) - 5) / 24), abs_nonneg z]
    have q2 : |1 / 6 - ρ * ρ / 4 + ρ * (6 * (ρ * ρ) - 5) / 24 * z| ≤ 2 := by
      obtain ⟨a, b⟩ := abs_le.1 q3
      exact abs_le.2 ⟨by linarith, by linarith⟩
    have q1 : |ρ / 2 + z * (1 / 6 - ρ * ρ / 4 + ρ * (6 * (ρ * ρ) - 5) / 24 * z)| ≤ 3 := by
      refine (abs_add_le _ _).trans ?_
      rw [abs_mul z, abs_div]
      have : |(2:ℝ)| = 2 := by norm_num
      rw [this]
      have hzz : |z| ≤ 1 := by linarith [show (1e-3 : ℝ) ≤ 1 by norm_num, hz.le]
      nlinarith [abs_nonneg z, abs_nonneg (1 / 6 - ρ * ρ / 4 + ρ * (6 * (ρ * ρ) - 5) / 24 * z), hρ.le]
    have q0 : |z * (ρ / 2 + z * (1 / 6 - ρ * ρ / 4 + ρ * (6 * (ρ * ρ) - 5) / 24 * z))| < 1 := by
      rw [abs_mul]
      norm_num at hz
      nlinarith [abs_nonneg z, abs_nonneg (ρ / 2 + z * (1 / 6 - ρ * ρ / 4 + ρ * (6 * (ρ * ρ) - 5) / 24 * z))]
    have := (abs_lt.1 q0).1
    linarith
  · rw [hh_correct hρ (not_lt.1 hz)]
    rcases lt_trichotomy z 0 with h | h | h
    · have h1 := geo_pos (ρ := -ρ) (by rwa [abs_neg]) (neg_pos.2 h)
      rw [geo_neg] at h1
      exact div_pos_of_neg_of_neg h (by linarith)
    · subst h
      norm_num at hz
    · exact div_pos h (geo_pos hρ h)

/-! ## Symmetry, homogeneity, limits -/

lemma fwd_forward (m : Sabr) (S T : ℝ) : m.mp.fwd S T = Spec.forward m.isFwd m.intr m.divr S T := by
  rw [MParams.fwd_eq_forward, MParams.forward_eq_spec]; rfl

lemma norm_base (m : Sabr) (vol K S T cp : ℝ) : m.basePrice (some 0) vol K S T cp = Norm.price ⟨vol, m.intr, m.divr, m.isFwd⟩ K S T cp := by
  classical
  unfold basePrice
  simp only [Option.getD_some]
  rw [if_neg not_close_zero_one, if_pos (close_self 0)]

lemma bsm_base (m : Sabr) (vol K S T cp : ℝ) : m.basePrice (some 1) vol K S T cp = Bsm.price ⟨vol, m.intr, m.divr, m.isFwd⟩ K S T cp := by
  classical
  unfold basePrice
  simp only [Option.getD_some]
  rw [if_pos (close_self 1)]

lemma norm_code (v : ℝ) (r q : ℝ) (isFwd : Bool) (K S T cp : ℝ) :
    Norm.price ⟨v, r, q, isFwd⟩ K S T cp = exp (-T * r) * (v * √T) *
      (cp * ((Spec.forward isFwd r q S T - K) / max (v * √T) eps) * ncdf (cp * ((Spec.forward isFwd r q S T - K) / max (v * √T) eps))
        + npdf ((Spec.forward isFwd r q S T - K) / max (v * √T) eps)) := by
  have : S * (if isFwd = true then 1 else exp (-T * q) / exp (-T * r)) = Spec.forward isFwd r q S T := by
    unfold Spec.forward
    cases isFwd
    · simp only [Bool.false_eq_true, if_false]
      rw [← exp_sub]; congr 2; ring
    · simp
  unfold Norm.price Norm.priceFormula
  simp only [this]

lemma npdf_even (x : ℝ) : npdf (-x) = npdf x := by unfold npdf; rw [neg_sq]

/-- **C97.** Reflection symmetry of the normal SABR smile: a call struck `x` above the forward costs the same as a put struck `x` below it in
the model with the opposite correlation. -/
theorem norm_symm (m : Sabr) (hρ : |m.rho| < 1) (x S T : ℝ) :
    m.normPrice (Spec.forward m.isFwd m.intr m.divr S T + x) S T 1 =
      { m with rho := -m.rho }.normPrice (Spec.forward m.isFwd m.intr m.divr S T - x) S T (-1) := by
  unfold normPrice
  rw [norm_base, norm_base]
  have hv : m.normVol (Spec.forward m.isFwd m.intr m.divr S T + x) S T =
      { m with rho := -m.rho }.normVol (Spec.forward m.isFwd m.intr m.divr S T - x) S T := by
    unfold normVol
    have e1 : m.mp.forward S T = Spec.forward m.isFwd m.intr m.divr S T := by rw [MParams.forward_eq_spec]; rfl
    have e2 : (mp { m with rho := -m.rho }).forward S T = Spec.forward m.isFwd m.intr m.divr S T := by rw [MParams.forward_eq_spec]; rfl
    simp only [e1, e2]
    rw [show m.vov / m.sigma * (Spec.forward m.isFwd m.intr m.divr S T - x - Spec.forward m.isFwd m.intr m.divr S T)
      = -(m.vov / m.sigma * (Spec.forward m.isFwd m.intr m.divr S T + x - Spec.forward m.isFwd m.intr m.divr S T)) by ring, hh_symm hρ, neg_sq]
  rw [hv, norm_code, norm_code]
  simp only
  generalize { m with rho := -m.rho }.normVol _ S T = v
  generalize Spec.forward m.isFwd m.intr m.divr S T = F
  rw [show (F - (F + x)) / max (v * √T) eps = -(x / max (v * √T) eps) by ring, show (F - (F - x)) / max (v * √T) eps = x / max (v * √T) eps by ring, npdf_even]
  congr 2
  ring_nf

/-- **C97.** `is_atmvol=True` means what it says: the normal volatility at the money is `sigma`, whatever the other parameters. -/
theorem norm_atmvol (m : Sabr) (h : m.isAtmvol = true) (S T : ℝ) :
    m.normVol (Spec.forward m.isFwd m.intr m.divr S T) S T = m.sigma := by
  have e1 : m.mp.forward S T = Spec.forward m.isFwd m.intr m.divr S T := by rw [MParams.forward_eq_spec]; rfl
  have h0 : ∀ r, hh 0 r = 1 := fun r => by unfold hh; norm_num
  unfold normVol
  simp [h, e1, h0]

/-- **C97.** Homogeneity of Hagan's price: rescaling strike and spot by `l`, and `sigma` by `l^(1-beta)`, rescales the price by `l`. -/
theorem hagan_smul (m : Sabr) {l S : ℝ} (hl : 0 < l) (hS : 0 < S) (K T cp : ℝ) :
    { m with sigma := m.sigma * l ^ (1 - m.beta) }.haganPrice (l * K) (l * S) T cp = l * m.haganPrice K S T cp := by
  have hF := m.mp.fwd_pos hS T
  have ef : (mp { m with sigma := m.sigma * l ^ (1 - m.beta) }).fwd (l * S) T = l * m.mp.fwd S T := by
    rw [fwd_forward, fwd_forward]
    unfold Spec.forward
    simp only
    split_ifs <;> ring
  have ea : m.sigma * l ^ (1 - m.beta) / (l * S) ^ (1 - m.beta) = m.sigma / S ^ (1 - m.beta) := by
    rw [mul_rpow hl.le hS.le]
    have h1 := (rpow_pos_of_pos hl (1 - m.beta)).ne'
    have h2 := (rpow_pos_of_pos hS (1 - m.beta)).ne'
    field_simp
  have hv : { m with sigma := m.sigma * l ^ (1 - m.beta) }.haganVol (l * K) (l * S) T = m.haganVol K S T := by
    unfold haganVol vars
    simp only [ef, ea]
    rw [mul_div_mul_left _ _ hl.ne', mul_div_mul_left _ _ hl.ne']
  unfold haganPrice
  rw [bsm_base, bsm_base, hv, Bsm.price_eq_black, Bsm.price_eq_black]
  simp only
  have e3 : (MParams.fwd ⟨m.haganVol K S T, m.intr, m.divr, m.isFwd⟩ (l * S) T) = l * MParams.fwd ⟨m.haganVol K S T, m.intr, m.divr, m.isFwd⟩ S T := by
    simp only [MParams.fwd_eq_forward, MParams.forward_eq_spec, Spec.forward]
    split_ifs <;> ring
  rw [e3, black_smul hl]
  ring

/-- **C97.** Without volatility of volatility the approximations return the base model: the Choi-Wu CEV volatilities and the normal volatility are
`sigma` at every strike; for `beta = 1` so are the Black-Scholes volatilities of Hagan and of Lorig et al. -/
theorem zero_vov (m : Sabr) (h : m.vov = 0) {K S T : ℝ} (hK : 0 < K) (hS : 0 < S) (hT : 0 < T) :
    m.choiWuHVol none K S T = .ok m.sigma ∧ m.choiWuPVol none K S T = .ok m.sigma ∧ m.normVol K S T = m.sigma ∧
    (m.beta = 1 → m.haganVol K S T = m.sigma ∧ m.lorigVol K S T = m.sigma) := by
  classical
  have hF := m.mp.fwd_pos hS T
  have hx : -1 < K / m.mp.fwd S T - 1 := by have := div_pos hK hF; linarith
  have hp := (rpow_pos_of_pos hF (1 - m.beta)).ne'
  have h0 : ∀ r, hh 0 r = 1 := fun r => by unfold hh; norm_num
  have hc := close_self m.beta
  refine ⟨?_, ?_, ?_, ?_⟩
  · unfold choiWuHVol vars
    simp only [Option.getD_none, powrel_correct _ _ hx, bind, Except.bind, pure, Except.pure, h, zero_div, zero_mul, h0, if_pos hc]
    simp [div_mul_cancel₀ _ hp]
  · unfold choiWuPVol vars
    simp only [Option.getD_none, powrel_correct _ _ hx, bind, Except.bind, pure, Except.pure, h, zero_div, zero_mul, h0, if_pos hc, abs_zero]
    rw [if_pos (by norm_num : (0:ℝ) < 1e-6)]
    simp [div_mul_cancel₀ _ hp]
  · unfold normVol
    simp only [h, zero_div, zero_mul, h0]
    simp
  · intro hb
    have hb1 : 1 - m.beta = 0 := by rw [hb]; ring
    constructor
    · unfold haganVol vars
      simp only [h, hb1, zero_mul, mul_zero, zero_div, neg_zero, h0, if_neg (not_le.2 hT)]
      simp
    · unfold lorigVol vars
      simp only [h, hb1]
      simp

/-- **C97.** Without volatility of volatility the Choi-Wu price is the CEV price (for `beta` away from the normal and lognormal cases, which the
code dispatches to `Norm` and `Bsm`). -/
theorem zero_vov_price (m : Sabr) (h : m.vov = 0) (h1 : ¬ npIsclose m.beta 1) (h0 : ¬ npIsclose m.beta 0)
    {K S T : ℝ} (hK : 0 < K) (hS : 0 < S) (hT : 0 < T) (cp : ℝ) :
    m.choiWuHPrice none K S T cp = .ok (Cev.price ⟨m.sigma, m.beta, m.intr, m.divr, m.isFwd⟩ K S T cp) := by
  classical
  unfold choiWuHPrice
  rw [(m.zero_vov h hK hS hT).1]
  simp only [bind, Except.bind, pure, Except.pure, basePrice, Option.getD_none, if_neg h1, if_neg h0]

/-! ## Agreement at the money -/

/-- The first-order at-the-money Black-Scholes volatility of the SABR model. -/
noncomputable def Spec.sabrAtm (σ vov ρ β F T : ℝ) : ℝ :=
  let s0 := σ / F ^ (1 - β)
  s0 * (1 + T * ((1 - β) ^ 2 * s0 ^ 2 / 24 + ρ * β * vov * s0 / 4 + (2 - 3 * ρ ^ 2) / 24 * vov ^ 2))

/-- **C97.** At the money the four Black-Scholes-volatility approximations agree to first order in time: the two Choi-Wu classes with
`_base_beta = 1`, Lorig et al. with `approx_order = 1`, and Hagan when the spot is the forward. -/
theorem atm_agree (m : Sabr) (ho : m.approxOrder = 1) (hb : ¬ npIsclose m.beta 1) {S T : ℝ} (hS : 0 < S) (hT : 0 < T) :
    let F := Spec.forward m.isFwd m.intr m.divr S T
    m.choiWuHVol (some 1) F S T = .ok (Spec.sabrAtm m.sigma m.vov m.rho m.beta F T) ∧
    m.choiWuPVol (some 1) F S T = .ok (Spec.sabrAtm m.sigma m.vov m.rho m.beta F T) ∧
    m.lorigVol F S T = Spec.sabrAtm m.sigma m.vov m.rho m.beta F T ∧
    (F = S → m.haganVol F S T = Spec.sabrAtm m.sigma m.vov m.rho m.beta F T) := by
  classical
  intro F
  have eF : m.mp.fwd S T = F := m.fwd_forward S T
  have hF : 0 < F := eF ▸ m.mp.fwd_pos hS T
  have hx : (-1:ℝ) < F / F - 1 := by rw [div_self hF.ne']; norm_num
  have h0 : ∀ r, hh 0 r = 1 := fun r => by unfold hh; norm_num
  have hv0 : ∀ r, vv 0 r = 1 := fun r => by unfold vv; simp
  have hk : F / F - 1 = 0 := by rw [div_self hF.ne']; norm_num
  have ha : ∀ a, Spec.avgPow 0 a = 1 := fun a => by unfold Spec.avgPow; simp
  refine ⟨?_, ?_, ?_, ?_⟩
  · unfold choiWuHVol vars Spec.sabrAtm
    simp only [eF, Option.getD_some, hk, powrel_correct 0 _ (by norm_num : (-1:ℝ) < 0), ha, bind, Except.bind, pure, Except.pure, h0, if_neg hb, mul_zero, abs_zero, ho]
    rw [if_pos (by norm_num : (0:ℝ) < 1e-6)]
    norm_num
    ring
  · unfold choiWuPVol vars Spec.sabrAtm
    simp only [eF, Option.getD_some, hk, powrel_correct 0 _ (by norm_num : (-1:ℝ) < 0), ha, bind, Except.bind, pure, Except.pure, h0, if_neg hb, mul_zero, abs_zero, ho]
    rw [if_pos (by norm_num : (0:ℝ) < 1e-6)]
    norm_num
    ring
  · unfold lorigVol vars Spec.sabrAtm
    simp only [eF, div_self hF.ne', log_one, ho]
    norm_num
    ring
  · intro hFS
    unfold haganVol vars Spec.sabrAtm
    simp only [eF, div_self hF.ne', log_one, ho, if_neg (not_le.2 hT), mul_zero, zero_mul, zero_div, neg_zero, h0, one_rpow]
    rw [← hFS]
    norm_num
    ring

/-! ## Dependence on the spot through the forward -/

/-- **C98.** The normal, Choi-Wu and Lorig prices depend on the spot only through the forward: quoting the forward with `is_fwd=True` gives the same
price as quoting the spot. -/
theorem fwd_consistent (m : Sabr) {S : ℝ} (K T cp : ℝ) :
    let F := Spec.forward m.isFwd m.intr m.divr S T
    { m with isFwd := true }.normPrice K F T cp = m.normPrice K S T cp ∧
    { m with isFwd := true }.lorigPrice K F T cp = m.lorigPrice K S T cp ∧
    (∀ b, { m with isFwd := true }.choiWuHVol b K F T = m.choiWuHVol b K S T) ∧
    (∀ b, { m with isFwd := true }.choiWuPVol b K F T = m.choiWuPVol b K S T) := by
  intro F
  have e1 : (mp { m with isFwd := true }).fwd F T = m.mp.fwd S T := by
    rw [fwd_forward, fwd_forward]; rfl
  have e2 : (mp { m with isFwd := true }).forward F T = m.mp.forward S T := by
    rw [MParams.forward_eq_spec, MParams.forward_eq_spec]; rfl
  refine ⟨?_, ?_, fun b => ?_, fun b => ?_⟩
  · unfold normPrice
    rw [norm_base, norm_base]
    have : { m with isFwd := true }.normVol K F T = m.normVol K S T := by
      unfold normVol; simp only [e2]
    rw [this, norm_code, norm_code]
    rfl
  · unfold lorigPrice
    rw [bsm_base, bsm_base]
    have : { m with isFwd := true }.lorigVol K F T = m.lorigVol K S T := by
      unfold lorigVol vars; simp only [e1]
    rw [this, Bsm.price_eq_black, Bsm.price_eq_black]
    simp only [MParams.fwd_eq_forward, MParams.forward_eq_spec, MParams.df_eq_spec]
    rfl
  · unfold choiWuHVol vars; simp only [e1]
  · unfold choiWuPVol vars; simp only [e1]; rfl

/-- **C98.** Hagan's volatility is consistent in the lognormal case `beta = 1`. -/
theorem hagan_fwd_consistent_partial (m : Sabr) (hb : m.beta = 1) (K S T : ℝ) :
    { m with isFwd := true }.haganVol K (Spec.forward m.isFwd m.intr m.divr S T) T = m.haganVol K S T := by
  have e1 : (mp { m with isFwd := true }).fwd (Spec.forward m.isFwd m.intr m.divr S T) T = m.mp.fwd S T := by
    rw [fwd_forward, fwd_forward]; rfl
  unfold haganVol vars
  simp only [e1]
  simp only [hb, sub_self, rpow_zero]

/-- **C98 is false of the code** for Hagan: `vol_for_price` scales `sigma` with the spot instead of the forward.  For every `beta < 1` and every carry
`intr ≠ divr`, at the money and to leading order, quoting the forward or the spot gives different volatilities. -/
theorem hagan_spot_wrong (m : Sabr) (hf : m.isFwd = false) (ho : m.approxOrder = 0) (hσ : 0 < m.sigma) (hb : m.beta < 1)
    {S T : ℝ} (hS : 0 < S) (hT : 0 < T) (hc : m.intr ≠ m.divr) :
    let F := Spec.forward m.isFwd m.intr m.divr S T
    { m with isFwd := true }.haganVol F F T = m.sigma / F ^ (1 - m.beta) ∧ m.haganVol F S T = m.sigma / S ^ (1 - m.beta) ∧
    { m with isFwd := true }.haganVol F F T ≠ m.haganVol F S T := by
  intro F
  have eF : m.mp.fwd S T = F := m.fwd_forward S T
  have hF : 0 < F := eF ▸ m.mp.fwd_pos hS T
  have e1 : (mp { m with isFwd := true }).fwd F T = F := by
    rw [fwd_forward]; simp [Spec.forward]
  have h0 : ∀ r, hh 0 r = 1 := fun r => by unfold hh; norm_num
  have a1 : { m with isFwd := true }.haganVol F F T = m.sigma / F ^ (1 - m.beta) := by
    unfold haganVol vars
    simp only [e1]
    simp only [div_self hF.ne', log_one, ho, if_neg (not_le.2 hT), mul_zero, zero_mul, zero_div, neg_zero, h0, one_rpow]
    norm_num
  have a2 : m.haganVol F S T = m.sigma / S ^ (1 - m.beta) := by
    unfold haganVol vars
    simp only [eF, div_self hF.ne', log_one, ho, if_neg (not_le.2 hT), mul_zero, zero_mul, zero_div, neg_zero, h0, one_rpow]
    norm_num
  refine ⟨a1, a2, ?_⟩
  rw [a1, a2]
  intro h
  have hp1 := rpow_pos_of_pos hF (1 - m.beta)
  have hp2 := rpow_pos_of_pos hS (1 - m.beta)
  have h1 : F ^ (1 - m.beta) = S ^ (1 - m.beta) := by
    rw [div_eq_div_iff hp1.ne' hp2.ne'] at h
    exact (mul_left_cancel₀ hσ.ne' h).symm
  have h2 : F = S := (rpow_left_inj hF.le hS.le (by linarith)).1 h1
  have h3 : F = S * exp ((m.intr - m.divr) * T) := by
    show Spec.forward m.isFwd m.intr m.divr S T = _
    unfold Spec.forward; simp [hf]
  rw [h3] at h2
  have h4 : exp ((m.intr - m.divr) * T) = 1 := by
    have := mul_left_cancel₀ hS.ne' (h2.trans (mul_one S).symm)
    exact this
  have h5 : (m.intr - m.divr) * T = 0 := by rwa [exp_eq_one_iff] at h4
  rcases mul_eq_zero.1 h5 with h6 | h6
  · exact hc (sub_eq_zero.1 h6)
  · exact hT.ne' h6

/-! ## Mass at zero -/

/-- **C99 is false of the code**: `SabrChoiWu2021H.mass_zero` raises for every model, spot and expiry, because the volatility at strike zero is
computed with `powrel(-1, ...)`. -/
theorem mass_zero_raises (m : Sabr) (S T : ℝ) : ∃ e, m.choiWuHMassZero S T = .error e := by
  obtain ⟨e, he⟩ := (rel_domain (0 / m.mp.fwd S T - 1) (1 - m.beta)).1.2 (by rw [zero_div]; norm_num)
  refine ⟨e, ?_⟩
  unfold choiWuHMassZero choiWuHVol vars
  simp only [he, bind, Except.bind]

/-- **C99.** `mass_zero_t0` is half the squared geodesic distance to zero, divided by `vov²`. -/
theorem mass_zero_t0_geo (m : Sabr) (hρ : |m.rho| < 1) (hv : 0 < m.vov) (hσ : 0 < m.sigma) (hb : m.beta < 1) {S T : ℝ} (hS : 0 < S)
    (hz : 1e-3 ≤ m.vov * Spec.forward m.isFwd m.intr m.divr S T ^ (1 - m.beta) / (m.sigma * (1 - m.beta))) :
    m.choiWuHMassZeroT0 S T =
      Spec.geo m.rho (-(m.vov * Spec.forward m.isFwd m.intr m.divr S T ^ (1 - m.beta) / (m.sigma * (1 - m.beta)))) ^ 2 / (2 * m.vov ^ 2) := by
  have e1 : m.mp.forward S T = Spec.forward m.isFwd m.intr m.divr S T := by rw [MParams.forward_eq_spec]; rfl
  have hF : 0 < Spec.forward m.isFwd m.intr m.divr S T := m.fwd_forward S T ▸ m.mp.fwd_pos hS T
  have hp := rpow_pos_of_pos hF (1 - m.beta)
  have hbc : 0 < 1 - m.beta := by linarith
  unfold choiWuHMassZeroT0 vars
  simp only [e1]
  generalize Spec.forward m.isFwd m.intr m.divr S T ^ (1 - m.beta) = p at *
  have ez : -m.vov / (m.sigma / p * (1 - m.beta)) = -(m.vov * p / (m.sigma * (1 - m.beta))) := by field_simp
  rw [ez]
  set z := m.vov * p / (m.sigma * (1 - m.beta)) with hzd
  have hz0 : 0 < z := by rw [hzd]; positivity
  rw [hh_correct hρ (by rw [abs_neg, abs_of_pos hz0]; exact hz)]
  have hg : Spec.geo m.rho (-z) ≠ 0 := by
    have h1 := geo_pos (ρ := -m.rho) (by rwa [abs_neg]) hz0
    have h2 := geo_neg m.rho (-z)
    rw [neg_neg] at h2
    rw [h2] at h1
    linarith
  have : (1 - m.beta) * (m.sigma / p) = m.vov / z := by rw [hzd]; field_simp
  rw [this]
  field_simp
  norm_num

/-- **C99.** ... and it is the small-time limit of `-T log` of the mass at zero of the CEV model with the leading-order volatility at strike zero. -/
theorem mass_zero_t0_limit (m : Sabr) (hρ : |m.rho| < 1) (hσ : 0 < m.sigma) (hb : m.beta < 1) (hf : m.isFwd = true) {S : ℝ} (hS : 0 < S) (T : ℝ) :
    Filter.Tendsto (fun t => -t * log ((Cev.massZero ⟨m.sigma * hh (-m.vov / (m.sigma / S ^ (1 - m.beta) * (1 - m.beta))) m.rho, m.beta, 0, 0, true⟩ S t).getD 0))
      (𝓝[>] 0) (𝓝 (m.choiWuHMassZeroT0 S T)) := by
  have hh0 := (hh_pos hρ (-m.vov / (m.sigma / S ^ (1 - m.beta) * (1 - m.beta)))).1
  have h := (Cev.cev_mass_zero_t0 ⟨m.sigma * hh (-m.vov / (m.sigma / S ^ (1 - m.beta) * (1 - m.beta))) m.rho, m.beta, 0, 0, true⟩ hb (mul_pos hσ hh0) hS).2
  have e1 : m.mp.forward S T = S := by rw [MParams.forward_eq_spec]; simp [Spec.forward, mp, hf]
  have hp := rpow_pos_of_pos hS (1 - m.beta)
  have hbc : 0 < 1 - m.beta := by linarith
  convert h using 2
  unfold choiWuHMassZeroT0 vars
  simp only [e1]
  rw [two_mul, rpow_add hS]
  generalize hh _ _ = w at *
  field_simp
  norm_num

/-! ## The `_base_beta` correction of Choi-Wu (H) -/

/-- **C100 is false of the code**: with `_base_beta` different from `beta` the at-the-money value of `term20` is not the limit of the formula used off the
money (which divides by `q` instead of `q²`): a normal SABR model (`beta = 0`, `vov = 0`, forward 1) quoted as a Black-Scholes volatility jumps by
more than `sigma³ T / 25` between the strikes 1 and `1 + 1e-6`. -/
theorem choiWuH_base_beta_jump (m : Sabr) (hb : m.beta = 0) (hv : m.vov = 0) (ho : m.approxOrder = 1) (hσ : 0 < m.sigma) (hf : m.isFwd = true)
    {T : ℝ} (hT : 0 < T) :
    ∃ v0 v1, m.choiWuHVol (some 1) 1 1 T = .ok v0 ∧ m.choiWuHVol (some 1) (1 + 1e-6) 1 T = .ok v1 ∧ m.sigma ^ 3 * T / 25 < v0 - v1 := by
  classical
  have eF : Spec.forward m.isFwd m.intr m.divr 1 T = 1 := by simp [Spec.forward, hf]
  have eF' : m.mp.fwd 1 T = 1 := by rw [fwd_forward, eF]
  have hnc : ¬ npIsclose m.beta 1 := by rw [hb]; exact not_close_zero_one
  have h0 := (m.atm_agree ho hnc (S := 1) one_pos hT).1
  rw [eF] at h0
  obtain ⟨x, hx⟩ : ∃ x : ℝ, x = 1e-6 := ⟨_, rfl⟩
  have hx0 : 0 < x := by rw [hx]; norm_num
  obtain ⟨y, hy⟩ : ∃ y : ℝ, y = log (1 + x) / 2 := ⟨_, rfl⟩
  have hlog : log (1 + x) = 2 * y := by rw [hy]; ring
  have hy0 : 0 < y := by rw [hy]; exact div_pos (log_pos (by linarith)) two_pos
  have hyx : 2 * y ≤ x := by
    rw [← hlog]
    have := log_le_sub_one_of_pos (show 0 < 1 + x by linarith)
    linarith
  have hex : exp (2 * y) = 1 + x := by rw [← hlog, exp_log (by linarith)]
  -- the two relative powers
  have p1 : powrel x 1 = .ok 1 := by
    unfold powrel
    rw [if_neg (by push Not; linarith)]
    simp only [hx0.ne', ne_eq, not_false_eq_true, one_ne_zero, and_true, if_true, and_false, if_false, one_mul]
    rw [exp_log (by linarith)]
    congr 1
    field_simp
    ring
  have p0 : powrel x 0 = .ok (2 * y / x) := by
    unfold powrel
    rw [if_neg (by push Not; linarith)]
    simp [hx0.ne', hlog]
  -- the correction term
  have key : -y - log (2 * y / x) = log (sinh y / y) := by
    have e1 : sinh y / y = exp (-y) * (2 * y / x)⁻¹ := by
      have : x = exp y * exp y - 1 := by rw [← exp_add, ← two_mul, hex]; ring
      have hxe : exp y * exp y - 1 ≠ 0 := by rw [← this]; exact hx0.ne'
      rw [sinh_eq, this, exp_neg]
      have := (exp_pos y).ne'
      field_simp
    rw [e1, log_mul (exp_pos _).ne' (inv_ne_zero (by positivity)), log_exp, log_inv]
    ring
  have key0 : 0 ≤ log (sinh y / y) := by
    apply log_nonneg
    rw [le_div_iff₀ hy0, one_mul]
    exact (self_le_sinh_iff.2 hy0.le)
  have key1 : log (sinh y / y) ≤ y ^ 2 / 2 := by
    have h1 : sinh y ≤ y * cosh y := by
      obtain ⟨c, hc, hce⟩ := exists_hasDerivAt_eq_slope sinh cosh hy0 continuous_sinh.continuousOn fun z _ => hasDerivAt_sinh z
      rw [sinh_zero, sub_zero, sub_zero, eq_div_iff hy0.ne'] at hce
      have h3 : cosh c ≤ cosh y := cosh_le_cosh.2 (by rw [abs_of_pos hc.1, abs_of_pos hy0]; exact hc.2.le)
      nlinarith
    have h2 : sinh y / y ≤ exp (y ^ 2 / 2) := by
      rw [div_le_iff₀ hy0]
      have := cosh_le_exp_half_sq y
      nlinarith
    rw [log_le_iff_le_exp (div_pos (sinh_pos_iff.2 hy0) hy0)]
    exact h2
  refine ⟨_, (1 + T * (log (sinh y / y) * m.sigma ^ 2 / x)) * (m.sigma * (2 * y / x)), h0, ?_, ?_⟩
  · have hk : (1 + 1e-6 : ℝ) / 1 - 1 = x := by rw [hx]; norm_num
    have hk2 : (1 + 1e-6 : ℝ) / 1 = 1 + x := by rw [hx]; norm_num
    have hhz : ∀ r, hh 0 r = 1 := fun r => by unfold hh; norm_num
    have hab : ¬ |x| < 1e-6 := by rw [abs_of_pos hx0, hx]; norm_num
    unfold choiWuHVol vars
    simp only [eF', Option.getD_some, hk2, hb, sub_self, sub_zero, add_sub_cancel_left]
    rw [p1, p0]
    simp only [bind, Except.bind, pure, Except.pure, hv, zero_div, zero_mul, hhz,
      if_neg not_close_zero_one, one_mul, if_neg hab, hlog, ho, div_one, one_rpow, mul_zero, mul_one]
    rw [← key]
    congr 1
    norm_num
    left
    ring_nf
    exact Or.inl trivial
  · have hq1 : 2 * y / x ≤ 1 := by rw [div_le_one hx0]; exact hyx
    have hq0 : 0 < 2 * y / x := by positivity
    have ht : log (sinh y / y) * m.sigma ^ 2 / x ≤ m.sigma ^ 2 * x / 8 := by
      rw [div_le_iff₀ hx0]
      have : log (sinh y / y) ≤ x ^ 2 / 8 := by nlinarith
      have := mul_le_mul_of_nonneg_right this (sq_nonneg m.sigma)
      linarith
    have ht0 : 0 ≤ log (sinh y / y) * m.sigma ^ 2 / x := by positivity
    have h1 : (1 + T * (log (sinh y / y) * m.sigma ^ 2 / x)) * (m.sigma * (2 * y / x)) ≤ (1 + T * (m.sigma ^ 2 * x / 8)) * m.sigma := by
      have a1 : 1 + T * (log (sinh y / y) * m.sigma ^ 2 / x) ≤ 1 + T * (m.sigma ^ 2 * x / 8) := by
        have := mul_le_mul_of_nonneg_left ht hT.le
        linarith
      have a2 : m.sigma * (2 * y / x) ≤ m.sigma := mul_le_of_le_one_right hσ.le hq1
      exact mul_le_mul a1 a2 (by positivity) (by positivity)
    have h2 : Spec.sabrAtm m.sigma m.vov m.rho m.beta 1 T = m.sigma * (1 + T * (m.sigma ^ 2 / 24)) := by
      unfold Spec.sabrAtm
      simp [hb, hv]
    rw [h2]
    have h3 : 0 < m.sigma ^ 3 * T := by positivity
    have h4 : (1 + T * (m.sigma ^ 2 * x / 8)) * m.sigma = m.sigma + m.sigma ^ 3 * T * (x / 8) := by ring
    have h5 : m.sigma ^ 3 * T * (x / 8) < m.sigma ^ 3 * T * (1 / 600) := mul_lt_mul_of_pos_left (by rw [hx]; norm_num) h3
    nlinarith

end Sabr

end PyFENG
