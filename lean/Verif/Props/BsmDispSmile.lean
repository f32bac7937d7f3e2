import Verif.Model.BsmDispSmile
import Verif.Props.BsmDisp
import Verif.Props.Norm
import Mathlib.Analysis.SpecialFunctions.Integrals.Basic
import Mathlib.Analysis.SpecialFunctions.Trigonometric.Series

/-!
# C139: the approximate smiles of the displaced Black–Scholes model
-/

open MeasureTheory Set Filter Topology Real

namespace PyFENG

namespace Spec

/-- Distance between forward and strike in units of the local volatility `σ(βx + (1-β)A)` of the displaced diffusion `dF = σ(βF + (1-β)A) dW`. -/
noncomputable def dispDist (σ β A F K : ℝ) : ℝ := ∫ x in F..K, 1 / (σ * (β * x + (1 - β) * A))

/-- Short-maturity limit of the Bachelier implied volatility of a local volatility model. -/
noncomputable def dispShortNorm (σ β A F K : ℝ) : ℝ := (K - F) / dispDist σ β A F K

/-- Short-maturity limit of the Black–Scholes implied volatility (harmonic mean in log-price). -/
noncomputable def dispShortBsm (σ β A F K : ℝ) : ℝ := log (K / F) / dispDist σ β A F K

end Spec

namespace BsmDisp

/-! ### Elementary bounds -/

lemma sinh_bounds {y : ℝ} (hy : 0 ≤ y) : y + y ^ 3 / 6 ≤ sinh y ∧ sinh y ≤ y + y ^ 3 / 6 + y ^ 5 / 120 * cosh y := by
  have h : HasSum (fun n : ℕ => y ^ (2 * (n + 2) + 1) / ((2 * (n + 2) + 1).factorial : ℝ)) (sinh y - (y + y ^ 3 / 6)) := by
    have h := (hasSum_nat_add_iff' 2).2 (hasSum_sinh y)
    have e : ∑ i ∈ Finset.range 2, y ^ (2 * i + 1) / ((2 * i + 1).factorial : ℝ) = y + y ^ 3 / 6 := by
      rw [Finset.sum_range_succ, Finset.sum_range_one]; norm_num [Nat.factorial]
    rw [e] at h
    exact h
  have h1 : 0 ≤ sinh y - (y + y ^ 3 / 6) := by
    rw [← h.tsum_eq]
    exact tsum_nonneg fun n => by positivity
  have hc := (hasSum_cosh y).mul_left (y ^ 5 / 120)
  have h2 : sinh y - (y + y ^ 3 / 6) ≤ y ^ 5 / 120 * cosh y := by
    refine hasSum_le (fun n => ?_) h hc
    have hf : (120 : ℝ) * ((2 * n).factorial : ℝ) ≤ ((2 * (n + 2) + 1).factorial : ℝ) := by
      have := Nat.factorial_mul_factorial_dvd_factorial_add (2 * n) 5
      have h3 := Nat.le_of_dvd (Nat.factorial_pos _) this
      rw [show 2 * (n + 2) + 1 = 2 * n + 5 by ring]
      have h5 : Nat.factorial 5 = 120 := by decide
      rw [h5, mul_comm] at h3
      exact_mod_cast h3
    have hp : (0:ℝ) < ((2 * n).factorial : ℝ) := by exact_mod_cast Nat.factorial_pos _
    calc y ^ (2 * (n + 2) + 1) / ((2 * (n + 2) + 1).factorial : ℝ) ≤ y ^ (2 * (n + 2) + 1) / (120 * ((2 * n).factorial : ℝ)) := by gcongr
      _ = y ^ 5 / 120 * (y ^ (2 * n) / ((2 * n).factorial : ℝ)) := by
        rw [show 2 * (n + 2) + 1 = 2 * n + 5 by ring, pow_add]; field_simp
  constructor <;> linarith

/-- `2 sinh(x/2)/x` against `1 + x²/24`. -/
noncomputable def shc (x : ℝ) : ℝ := 2 * sinh (x / 2) / x

lemma shc_bounds {x : ℝ} (hx : x ≠ 0) : 1 + x ^ 2 / 24 ≤ shc x ∧ shc x ≤ 1 + x ^ 2 / 24 + x ^ 4 / 1920 * cosh (x / 2) := by
  have key : ∀ {x : ℝ}, 0 < x → 1 + x ^ 2 / 24 ≤ shc x ∧ shc x ≤ 1 + x ^ 2 / 24 + x ^ 4 / 1920 * cosh (x / 2) := by
    intro x hx
    obtain ⟨h1, h2⟩ := sinh_bounds (show 0 ≤ x / 2 by positivity)
    unfold shc
    constructor
    · rw [le_div_iff₀ hx]; nlinarith
    · rw [div_le_iff₀ hx]; nlinarith
  rcases lt_or_gt_of_ne hx with h | h
  · have := key (show 0 < -x by linarith)
    have e : shc (-x) = shc x := by
      unfold shc; rw [neg_div, sinh_neg, mul_neg, neg_div_neg_eq]
    rw [e, neg_div, cosh_neg, Even.neg_pow (by decide : Even 4), Even.neg_pow (by decide : Even 2)] at this
    exact this
  · exact key h

lemma sub_one_eq {k : ℝ} (hk : 0 < k) : k - 1 = √k * (2 * sinh (log k / 2)) := by
  rw [sinh_eq, sqrt_eq_rpow, rpow_def_of_pos hk, show log k * (1 / 2) = log k / 2 by ring]
  have e1 : exp (log k / 2) * exp (log k / 2) = k := by rw [← exp_add, add_halves, exp_log hk]
  have e2 : exp (log k / 2) * exp (-(log k / 2)) = 1 := by rw [← exp_add, add_neg_cancel, exp_zero]
  linear_combination e2 - e1

lemma atm_bounds {s : ℝ} (hs : 0 ≤ s) : s - s ^ 3 / 24 ≤ √(2 * π) * (2 * ncdf (s / 2) - 1) ∧ √(2 * π) * (2 * ncdf (s / 2) - 1) ≤ s - s ^ 3 / 24 + s ^ 5 / 640 := by
  have hq : 0 < √(2 * π) := by positivity
  have hd : ∀ x, HasDerivAt (fun s : ℝ => √(2 * π) * (2 * ncdf (s / 2) - 1)) (exp (-(x / 2) ^ 2 / 2)) x := fun x => by
    have h := ((((hasDerivAt_ncdf (x / 2)).comp x ((hasDerivAt_id' x).div_const 2)).const_mul 2).sub_const 1).const_mul √(2 * π)
    refine h.congr_deriv ?_
    unfold npdf
    field_simp
  have h0 : √(2 * π) * (2 * ncdf (0 / 2) - 1) = 0 := by rw [zero_div, ncdf_zero]; ring
  have mono : ∀ {f f' : ℝ → ℝ}, (∀ x, HasDerivAt f (f' x) x) → (∀ x, 0 ≤ f' x) → f 0 ≤ f s := fun {f f'} hf hf' =>
    monotone_of_deriv_nonneg (fun x => (hf x).differentiableAt) (fun x => by rw [(hf x).deriv]; exact hf' x) hs
  have hp3 : ∀ x : ℝ, HasDerivAt (fun s : ℝ => s - s ^ 3 / 24) (1 - x ^ 2 / 8) x := fun x => by
    refine ((hasDerivAt_id' x).fun_sub ((hasDerivAt_pow 3 x).div_const 24)).congr_deriv ?_
    norm_num; ring
  have hp5 : ∀ x : ℝ, HasDerivAt (fun s : ℝ => s - s ^ 3 / 24 + s ^ 5 / 640) (1 - x ^ 2 / 8 + x ^ 4 / 128) x := fun x => by
    refine ((hp3 x).fun_add ((hasDerivAt_pow 5 x).div_const 640)).congr_deriv ?_
    norm_num; ring
  constructor
  · have := mono (fun x => (hd x).fun_sub (hp3 x)) fun x => by
      have := add_one_le_exp (-(x / 2) ^ 2 / 2)
      nlinarith
    simp only [h0] at this
    have e0 : (0:ℝ) ^ 3 = 0 := by norm_num
    have e1 : (0:ℝ) ^ 5 = 0 := by norm_num
    simp only [e0, e1] at this
    linarith
  · have := mono (fun x => (hp5 x).fun_sub (hd x)) fun x => by
      have h1 := Real.quadratic_le_exp_of_nonneg (show 0 ≤ (x / 2) ^ 2 / 2 by positivity)
      have h2 : exp (-(x / 2) ^ 2 / 2) * exp ((x / 2) ^ 2 / 2) = 1 := by rw [← exp_add]; ring_nf; exact exp_zero
      have h3 := exp_pos (-(x / 2) ^ 2 / 2)
      have h4 : exp (-(x / 2) ^ 2 / 2) * (1 + (x / 2) ^ 2 / 2 + ((x / 2) ^ 2 / 2) ^ 2 / 2) ≤ 1 := (mul_le_mul_of_nonneg_left h1 h3.le).trans h2.le
      set u := (x / 2) ^ 2 / 2 with hu
      have hx : x ^ 2 = 8 * u := by rw [hu]; ring
      have hx4 : x ^ 4 = 64 * u ^ 2 := by rw [show x ^ 4 = (x ^ 2) ^ 2 by ring, hx]; ring
      have hu0 : 0 ≤ u := by rw [hu]; positivity
      rw [hx, hx4]
      have hpos : 0 < 1 + u + u ^ 2 / 2 := by positivity
      have h5 : exp (-(x / 2) ^ 2 / 2) ≤ 1 / (1 + u + u ^ 2 / 2) := by rw [le_div_iff₀ hpos]; exact h4
      have h6 : 1 / (1 + u + u ^ 2 / 2) ≤ 1 - 8 * u / 8 + 64 * u ^ 2 / 128 := by
        rw [div_le_iff₀ hpos]; nlinarith [sq_nonneg (u ^ 2)]
      linarith
    simp only [h0] at this
    have e0 : (0:ℝ) ^ 3 = 0 := by norm_num
    have e1 : (0:ℝ) ^ 5 = 0 := by norm_num
    simp only [e0, e1] at this
    linarith

/-! ### The displaced quantities -/

lemma fwdD_eq (d : DParams) (S T : ℝ) :
    fwdD d S T = d.beta * Spec.forward d.isFwd d.intr d.divr S T + (1 - d.beta) * Spec.forward d.isFwd d.intr d.divr d.pivot T := by
  rw [← fwd_disp, MParams.fwd_eq_forward]; rfl

lemma dispDist_eq {σ β A F K : ℝ} (hσ : 0 < σ) (hβ : β ≠ 0) (hF : 0 < β * F + (1 - β) * A) (hK : 0 < β * K + (1 - β) * A) :
    Spec.dispDist σ β A F K = log ((β * K + (1 - β) * A) / (β * F + (1 - β) * A)) / (σ * β) := by
  have hpos : ∀ x ∈ uIcc F K, 0 < β * x + (1 - β) * A := by
    intro x hx
    rcases le_total F K with h | h
    · rw [uIcc_of_le h] at hx
      rcases le_total 0 β with hb | hb
      · nlinarith [hx.1]
      · nlinarith [hx.2]
    · rw [uIcc_of_ge h] at hx
      rcases le_total 0 β with hb | hb
      · nlinarith [hx.1]
      · nlinarith [hx.2]
  have hd : ∀ x ∈ uIcc F K, HasDerivAt (fun x => log (β * x + (1 - β) * A) / (σ * β)) (1 / (σ * (β * x + (1 - β) * A))) x := fun x hx => by
    have h := ((((hasDerivAt_id' x).const_mul β).add_const ((1 - β) * A)).log (hpos x hx).ne').div_const (σ * β)
    refine h.congr_deriv ?_
    have := (hpos x hx).ne'
    generalize β * x + (1 - β) * A = q at *
    field_simp
  have hi : IntervalIntegrable (fun x => 1 / (σ * (β * x + (1 - β) * A))) volume F K :=
    ContinuousOn.intervalIntegrable (continuousOn_const.div (by fun_prop) fun x hx => (mul_pos hσ (hpos x hx)).ne')
  unfold Spec.dispDist
  rw [intervalIntegral.integral_eq_sub_of_hasDerivAt hd hi, log_div hK.ne' hF.ne', sub_div]

/-- **C139.** Strike dependence of 'norm-approx': up to the maturity factor, the volatility is below the exact short-maturity Bachelier volatility of the displaced model, with a relative error of at most
`x⁴ cosh(x/2)/1920`, `x` the displaced log-moneyness. -/
theorem norm_approx_short (d : DParams) (hσ : 0 < d.sigmaDisp) (hβ : d.beta ≠ 0) {K S T : ℝ} (hT : 0 ≤ T) :
    let F := Spec.forward d.isFwd d.intr d.divr S T
    let A := Spec.forward d.isFwd d.intr d.divr d.pivot T
    let Fd := d.beta * F + (1 - d.beta) * A
    let Kd := d.beta * K + (1 - d.beta) * A
    let x := log (Kd / Fd)
    0 < Fd → 0 < Kd → K ≠ F →
    volNormApprox d K S T * (1 + (d.beta * d.sigmaDisp) ^ 2 * T / 24) ≤ Spec.dispShortNorm d.sigmaDisp d.beta A F K ∧
    Spec.dispShortNorm d.sigmaDisp d.beta A F K ≤ volNormApprox d K S T * (1 + (d.beta * d.sigmaDisp) ^ 2 * T / 24) * (1 + x ^ 4 / 1920 * cosh (x / 2)) := by
  intro F A Fd Kd x hF hK hne
  have hx : x ≠ 0 := by
    show log (Kd / Fd) ≠ 0
    refine log_ne_zero_of_pos_of_ne_one (by positivity) fun h => hne ?_
    rw [div_eq_one_iff_eq hF.ne'] at h
    have : d.beta * (K - F) = 0 := by linear_combination h
    rcases mul_eq_zero.1 this with h | h
    · exact absurd h hβ
    · linarith
  have e1 : fwdD d S T = Fd := fwdD_eq d S T
  have e2 : kkD d K S T = Kd / Fd := by unfold kkD; rw [e1]; rfl
  have hm : 0 < 1 + (d.beta * d.sigmaDisp) ^ 2 * T / 24 := by positivity
  have ev : volNormApprox d K S T * (1 + (d.beta * d.sigmaDisp) ^ 2 * T / 24) = d.sigmaDisp * Fd * √(Kd / Fd) * (1 + x ^ 2 / 24) := by
    unfold volNormApprox getSigma
    simp only
    rw [e1, e2, mul_comm d.sigmaDisp d.beta, div_mul_cancel₀ _ hm.ne']
  have es : Spec.dispShortNorm d.sigmaDisp d.beta A F K = d.sigmaDisp * Fd * √(Kd / Fd) * shc x := by
    unfold Spec.dispShortNorm shc
    rw [dispDist_eq hσ hβ hF hK]
    show (K - F) / (x / (d.sigmaDisp * d.beta)) = _
    have h := sub_one_eq (show 0 < Kd / Fd by positivity)
    have h2 : d.beta * (K - F) = Fd * (Kd / Fd - 1) := by rw [mul_sub Fd, mul_div_cancel₀ _ hF.ne']; ring
    rw [div_div_eq_mul_div, show (K - F) * (d.sigmaDisp * d.beta) = d.sigmaDisp * (d.beta * (K - F)) by ring, h2, h]
    ring
  obtain ⟨b1, b2⟩ := shc_bounds hx
  have hc : 0 < d.sigmaDisp * Fd * √(Kd / Fd) := by
    have := sqrt_pos.2 (show 0 < Kd / Fd by positivity)
    positivity
  rw [ev, es]
  refine ⟨by gcongr, ?_⟩
  rw [mul_assoc _ _ (1 + _)]
  refine mul_le_mul_of_nonneg_left (b2.trans ?_) hc.le
  have : 0 ≤ x ^ 4 / 1920 * cosh (x / 2) := by have := cosh_pos (x / 2); positivity
  nlinarith [sq_nonneg x]

/-- **C139.** Strike dependence of 'bsm-approx': up to the maturity factor, the volatility agrees with the exact short-maturity Black–Scholes volatility of the displaced model to relative order
four in the two log-moneynesses. -/
theorem bsm_approx_short (d : DParams) (hσ : 0 < d.sigmaDisp) (hβ : 0 < d.beta) {K S T : ℝ} (hT : 0 ≤ T) (hK0 : 0 < K) (hS0 : 0 < S) :
    let F := Spec.forward d.isFwd d.intr d.divr S T
    let A := Spec.forward d.isFwd d.intr d.divr d.pivot T
    let Fd := d.beta * F + (1 - d.beta) * A
    let Kd := d.beta * K + (1 - d.beta) * A
    let x := log (K / F)
    let y := log (Kd / Fd)
    let w := d.sigmaDisp * (Fd / F) * √((Kd / Fd) / (K / F))
    let v := volBsmApprox d K S T * (1 + (d.beta * d.sigmaDisp) ^ 2 * T / 24) / (1 + w ^ 2 * T / 24)
    0 < Fd → 0 < Kd → K ≠ F →
    Spec.dispShortBsm d.sigmaDisp d.beta A F K ≤ v * (1 + y ^ 4 / 1920 * cosh (y / 2)) ∧ v ≤ Spec.dispShortBsm d.sigmaDisp d.beta A F K * (1 + x ^ 4 / 1920 * cosh (x / 2)) := by
  intro F A Fd Kd x y w v hF hK hne
  have hF0 : 0 < F := by rw [← show (toM d).forward S T = F from MParams.forward_eq_spec _ _ _, ← MParams.fwd_eq_forward]; exact MParams.fwd_pos _ hS0 T
  have hx : x ≠ 0 := log_ne_zero_of_pos_of_ne_one (by positivity) fun h => hne ((div_eq_one_iff_eq hF0.ne').1 h)
  have hy : y ≠ 0 := by
    show log (Kd / Fd) ≠ 0
    refine log_ne_zero_of_pos_of_ne_one (by positivity) fun h => hne ?_
    rw [div_eq_one_iff_eq hF.ne'] at h
    have : d.beta * (K - F) = 0 := by linear_combination h
    rcases mul_eq_zero.1 this with h | h
    · exact absurd h hβ.ne'
    · linarith
  have e1 : fwdD d S T = Fd := fwdD_eq d S T
  have e2 : kkD d K S T = Kd / Fd := by unfold kkD; rw [e1]; rfl
  have e3 : (toM d).forward S T = F := MParams.forward_eq_spec _ _ _
  have hm : 0 < 1 + (d.beta * d.sigmaDisp) ^ 2 * T / 24 := by positivity
  have hw : 0 < 1 + w ^ 2 * T / 24 := by positivity
  have ev : v = w * ((1 + y ^ 2 / 24) / (1 + x ^ 2 / 24)) := by
    show volBsmApprox d K S T * (1 + (d.beta * d.sigmaDisp) ^ 2 * T / 24) / (1 + w ^ 2 * T / 24) = _
    unfold volBsmApprox getSigma
    simp only
    rw [e1, e2, e3, mul_comm d.sigmaDisp d.beta]
    show w * ((1 + y ^ 2 / 24) / (1 + x ^ 2 / 24) * (1 + w ^ 2 * T / 24) / (1 + (d.beta * d.sigmaDisp) ^ 2 * T / 24)) * _ / _ = _
    generalize 1 + w ^ 2 * T / 24 = q1 at *
    generalize 1 + (d.beta * d.sigmaDisp) ^ 2 * T / 24 = q2 at *
    have : 1 + x ^ 2 / 24 ≠ 0 := by positivity
    generalize 1 + x ^ 2 / 24 = q3 at *
    field_simp
  have hk : 0 < K / F := by positivity
  have hkd : 0 < Kd / Fd := by positivity
  have hsx : 0 < shc x := lt_of_lt_of_le (by positivity) (shc_bounds hx).1
  have es : Spec.dispShortBsm d.sigmaDisp d.beta A F K = w * (shc y / shc x) := by
    unfold Spec.dispShortBsm
    rw [dispDist_eq hσ hβ.ne' hF hK]
    show x / (y / (d.sigmaDisp * d.beta)) = d.sigmaDisp * (Fd / F) * √((Kd / Fd) / (K / F)) * (shc y / shc x)
    have h1 := sub_one_eq hk
    have h2 := sub_one_eq hkd
    have h3 : d.beta * (F * (K / F - 1)) = Fd * (Kd / Fd - 1) := by
      rw [mul_sub Fd, mul_sub F, mul_div_cancel₀ _ hF.ne', mul_div_cancel₀ _ hF0.ne']; ring
    rw [h1, h2] at h3
    have g1 : 2 * sinh (log (K / F) / 2) = x * shc x := by unfold shc; rw [mul_div_cancel₀ _ hx]
    have g2 : 2 * sinh (log (Kd / Fd) / 2) = y * shc y := by unfold shc; rw [mul_div_cancel₀ _ hy]
    rw [g1, g2] at h3
    rw [sqrt_div hkd.le]
    have hq := sqrt_pos.2 hk
    generalize √(K / F) = r1 at *
    generalize √(Kd / Fd) = r2 at *
    generalize shc x = p1 at *
    generalize shc y = p2 at *
    field_simp
    linear_combination h3
  obtain ⟨b1, b2⟩ := shc_bounds hx
  obtain ⟨c1, c2⟩ := shc_bounds hy
  have hw0 : 0 < w := by
    have := sqrt_pos.2 (div_pos hkd hk)
    show 0 < d.sigmaDisp * (Fd / F) * √((Kd / Fd) / (K / F))
    positivity
  have p1 : 0 ≤ x ^ 4 / 1920 * cosh (x / 2) := by have := cosh_pos (x / 2); positivity
  have p2 : 0 ≤ y ^ 4 / 1920 * cosh (y / 2) := by have := cosh_pos (y / 2); positivity
  have q1 : 0 < 1 + x ^ 2 / 24 := by positivity
  have q2 : 0 < 1 + y ^ 2 / 24 := by positivity
  rw [ev, es]
  clear_value w
  constructor
  · rw [mul_assoc]
    refine mul_le_mul_of_nonneg_left ?_ hw0.le
    rw [div_mul_eq_mul_div]
    refine div_le_div₀ (by positivity) (c2.trans ?_) q1 b1
    nlinarith [sq_nonneg y]
  · rw [mul_assoc]
    refine mul_le_mul_of_nonneg_left ?_ hw0.le
    rw [div_mul_eq_mul_div, div_le_div_iff₀ q1 hsx]
    have h1 : shc x ≤ (1 + x ^ 4 / 1920 * cosh (x / 2)) * (1 + x ^ 2 / 24) := b2.trans (by nlinarith [sq_nonneg x])
    calc (1 + y ^ 2 / 24) * shc x ≤ shc y * ((1 + x ^ 4 / 1920 * cosh (x / 2)) * (1 + x ^ 2 / 24)) := mul_le_mul c1 h1 hsx.le (q2.le.trans c1)
      _ = _ := by ring

/-- **C139.** With `β = 1` the 'bsm-approx' smile is flat at the volatility, exactly. -/
theorem bsm_approx_beta_one (d : DParams) (hβ : d.beta = 1) {K S T : ℝ} (hT : 0 ≤ T) (hK : 0 < K) (hS : 0 < S) : volBsmApprox d K S T = d.sigmaDisp := by
  have hF : 0 < Spec.forward d.isFwd d.intr d.divr S T := by rw [← show (toM d).forward S T = Spec.forward d.isFwd d.intr d.divr S T from MParams.forward_eq_spec _ _ _, ← MParams.fwd_eq_forward]; exact MParams.fwd_pos _ hS T
  have e1 : fwdD d S T = Spec.forward d.isFwd d.intr d.divr S T := by rw [fwdD_eq, hβ]; ring
  have e2 : kkD d K S T = K / Spec.forward d.isFwd d.intr d.divr S T := by
    unfold kkD dispStrike; rw [e1, hβ]; ring_nf
  have e3 : (toM d).forward S T = Spec.forward d.isFwd d.intr d.divr S T := MParams.forward_eq_spec _ _ _
  unfold volBsmApprox getSigma
  simp only
  rw [e1, e2, e3, hβ, div_self hF.ne', div_self (div_pos hK hF).ne', sqrt_one, mul_one, mul_one, div_self (by positivity), one_mul, div_self (by positivity), mul_one]

/-- **C139.** With `β = 0` (the Bachelier limit, where `price` itself is not defined) the 'norm-approx' smile is flat at the Bachelier volatility `σ A`. -/
theorem norm_approx_beta_zero (d : DParams) (hβ : d.beta = 0) {K S T : ℝ} (hA : d.pivot ≠ 0) :
    volNormApprox d K S T = d.sigmaDisp * Spec.forward d.isFwd d.intr d.divr d.pivot T := by
  have hF : Spec.forward d.isFwd d.intr d.divr d.pivot T ≠ 0 := by
    unfold Spec.forward
    split_ifs
    · exact hA
    · exact mul_ne_zero hA (exp_ne_zero _)
  have e1 : fwdD d S T = Spec.forward d.isFwd d.intr d.divr d.pivot T := by rw [fwdD_eq, hβ]; ring
  have e3 : (toM d).forward d.pivot T = Spec.forward d.isFwd d.intr d.divr d.pivot T := MParams.forward_eq_spec _ _ _
  have e2 : kkD d K S T = 1 := by
    unfold kkD dispStrike; rw [e1, e3, hβ, zero_mul, zero_add, sub_zero, one_mul, div_self hF]
  unfold volNormApprox getSigma
  simp only
  rw [e1, e2, hβ]
  simp

lemma atm_norm (d : DParams) {S T cp σN : ℝ} (hN : eps ≤ σN * √T) :
    Norm.price ⟨σN, d.intr, d.divr, d.isFwd⟩ (Spec.forward d.isFwd d.intr d.divr S T) S T cp = (toM d).df T * (σN * √T / √(2 * π)) := by
  rw [Norm.price_eq_bach _ (show eps ≤ (MParams.mk σN d.intr d.divr d.isFwd).sigma * √T from hN)]
  have h1 : (MParams.mk σN d.intr d.divr d.isFwd).df T = (toM d).df T := rfl
  have h2 : (MParams.mk σN d.intr d.divr d.isFwd).fwd S T = Spec.forward d.isFwd d.intr d.divr S T := by rw [MParams.fwd_eq_forward, MParams.forward_eq_spec]
  rw [h1, h2]
  unfold bach npdf
  simp
  ring_nf
  tauto

lemma atm_price (d : DParams) {S T cp : ℝ} (hcp : Spec.IsCp cp) (hβ : 0 < d.beta) (hv : eps ≤ d.beta * d.sigmaDisp * √T)
    (hFd : 0 < d.beta * Spec.forward d.isFwd d.intr d.divr S T + (1 - d.beta) * Spec.forward d.isFwd d.intr d.divr d.pivot T) :
    price d (Spec.forward d.isFwd d.intr d.divr S T) S T cp = (toM d).df T * (1 / d.beta *
      ((d.beta * Spec.forward d.isFwd d.intr d.divr S T + (1 - d.beta) * Spec.forward d.isFwd d.intr d.divr d.pivot T) * (2 * ncdf (d.beta * d.sigmaDisp * √T / 2) - 1))) := by
  have e2 : dispStrike d (Spec.forward d.isFwd d.intr d.divr S T) T = d.beta * Spec.forward d.isFwd d.intr d.divr S T + (1 - d.beta) * Spec.forward d.isFwd d.intr d.divr d.pivot T := rfl
  set s := d.beta * d.sigmaDisp * √T with hsdef
  set Fd := d.beta * Spec.forward d.isFwd d.intr d.divr S T + (1 - d.beta) * Spec.forward d.isFwd d.intr d.divr d.pivot T with hFdd
  unfold price
  have hsg : sigmaStd (toM d).sigma T = s := by
    rw [sigmaStd_of_le]
    · unfold toM getSigma; rw [hsdef]; ring
    · unfold toM getSigma; rw [mul_comm d.sigmaDisp]; exact hv
  rw [Bsm.price_eq_black, hsg, fwd_disp, e2]
  show 1 / d.beta * ((toM d).df T * black cp Fd Fd s) = _
  have hb : black cp Fd Fd s = Fd * (2 * ncdf (s / 2) - 1) := by
    unfold black bd1 bd2
    rw [div_self hFd.ne', log_one]
    rcases hcp with rfl | rfl
    · have h1 : ncdf (-(s / 2)) = 1 - ncdf (s / 2) := ncdf_neg _
      ring_nf at h1 ⊢
      rw [h1]; ring
    · have h1 : ncdf (-(s / 2)) = 1 - ncdf (s / 2) := ncdf_neg _
      ring_nf at h1 ⊢
      rw [h1]; ring
  rw [hb]; ring

/-- **C139.** Maturity dependence: at the money the 'norm-approx' volatility is within `σ Fd s⁴/576`, `s = β σ √T`, of the Bachelier volatility that reproduces the exact displaced price, at every maturity. -/
theorem norm_approx_atm (d : DParams) (hβ : 0 < d.beta) {S T cp σN : ℝ} (hcp : Spec.IsCp cp) (hT : 0 < T) (hv : eps ≤ d.beta * d.sigmaDisp * √T) (hN : eps ≤ σN * √T) :
    let F := Spec.forward d.isFwd d.intr d.divr S T
    let Fd := d.beta * F + (1 - d.beta) * Spec.forward d.isFwd d.intr d.divr d.pivot T
    0 < Fd → Norm.price ⟨σN, d.intr, d.divr, d.isFwd⟩ F S T cp = price d F S T cp →
    |volNormApprox d F S T - σN| ≤ d.sigmaDisp * Fd * (d.beta * d.sigmaDisp * √T) ^ 4 / 576 := by
  intro F Fd hFd hp
  have hq := sqrt_pos.2 hT
  have hs := eps_pos.trans_le hv
  set s := d.beta * d.sigmaDisp * √T with hsdef
  have hσ : 0 < d.sigmaDisp := by
    by_contra h
    push Not at h
    have : d.beta * d.sigmaDisp * √T ≤ 0 := mul_nonpos_of_nonpos_of_nonneg (mul_nonpos_of_nonneg_of_nonpos hβ.le h) hq.le
    linarith
  have e1 : fwdD d S T = Fd := fwdD_eq d S T
  have e2 : dispStrike d F T = Fd := rfl
  have hN' := atm_norm d (S := S) (cp := cp) hN
  have hB : price d F S T cp = (toM d).df T * (1 / d.beta * (Fd * (2 * ncdf (s / 2) - 1))) := atm_price d hcp hβ hv hFd
  rw [hN', hB] at hp
  have hp' := mul_left_cancel₀ ((toM d).df_pos T).ne' hp
  have hG : σN * √T = 1 / d.beta * Fd * (√(2 * π) * (2 * ncdf (s / 2) - 1)) := by
    have : √(2 * π) ≠ 0 := by positivity
    clear_value s Fd
    field_simp at hp' ⊢
    linear_combination hp'
  obtain ⟨b1, b2⟩ := atm_bounds hs.le
  have ev : volNormApprox d F S T * √T = 1 / d.beta * Fd * (s / (1 + s ^ 2 / 24)) := by
    unfold volNormApprox kkD getSigma
    simp only
    rw [e1, e2, div_self hFd.ne', sqrt_one, log_one, hsdef, mul_pow (d.beta * d.sigmaDisp), sq_sqrt hT.le]
    have : 1 + (d.beta * d.sigmaDisp) ^ 2 * T / 24 ≠ 0 := by positivity
    rw [mul_comm d.sigmaDisp d.beta]
    field_simp
    norm_num
  have h1 : s - s ^ 3 / 24 ≤ s / (1 + s ^ 2 / 24) := by rw [le_div_iff₀ (by positivity)]; nlinarith [pow_pos hs 5]
  have h2 : s / (1 + s ^ 2 / 24) ≤ s - s ^ 3 / 24 + s ^ 5 / 576 := by rw [div_le_iff₀ (by positivity)]; nlinarith [pow_pos hs 7]
  have h3 : |s / (1 + s ^ 2 / 24) - √(2 * π) * (2 * ncdf (s / 2) - 1)| ≤ s ^ 5 / 576 := by
    have := pow_pos hs 5
    rw [abs_le]; constructor <;> linarith
  have h4 : |volNormApprox d F S T - σN| * √T = 1 / d.beta * Fd * |s / (1 + s ^ 2 / 24) - √(2 * π) * (2 * ncdf (s / 2) - 1)| := by
    rw [← abs_of_pos hq, ← abs_mul, sub_mul, ev, hG, ← mul_sub, abs_mul, abs_of_pos (by positivity : 0 < 1 / d.beta * Fd)]
  refine le_of_mul_le_mul_right ?_ hq
  rw [h4]
  calc _ ≤ 1 / d.beta * Fd * (s ^ 5 / 576) := by gcongr
    _ = _ := by
      rw [show s ^ 5 = s ^ 4 * s by ring]
      nth_rewrite 2 [hsdef]
      field_simp

/-! ### Instances -/

private noncomputable def exD : DParams := ⟨0.2, 0.5, 80, 0.05, 0.01, true⟩

private lemma exD_fwd (S : ℝ) : Spec.forward exD.isFwd exD.intr exD.divr S 1 = S := by simp [Spec.forward, exD]

/-- The hypotheses of the short-maturity theorems are met. -/
example : volNormApprox exD 120 100 1 * (1 + (exD.beta * exD.sigmaDisp) ^ 2 * 1 / 24) ≤ Spec.dispShortNorm 0.2 0.5 80 100 120 := by
  have h := norm_approx_short exD (by norm_num [exD]) (by norm_num [exD]) (K := 120) (S := 100) (T := 1) (by norm_num)
  simp only [exD_fwd, show exD.pivot = 80 from rfl] at h
  exact (h (by norm_num [exD]) (by norm_num [exD]) (by norm_num)).1

/-- The hypotheses of `norm_approx_atm` are met: a Bachelier volatility matching the displaced price exists. -/
example : ∃ σN : ℝ, eps ≤ σN * √1 ∧ Norm.price ⟨σN, exD.intr, exD.divr, exD.isFwd⟩ 100 100 1 1 = price exD 100 100 1 1 ∧ |volNormApprox exD 100 100 1 - σN| ≤ 0.2 * 90 * 0.1 ^ 4 / 576 := by
  have e := exD_fwd 100
  have e' : Spec.forward exD.isFwd exD.intr exD.divr exD.pivot 1 = 80 := exD_fwd 80
  have heps : eps ≤ 1 / 1000 := by unfold eps; norm_num
  have hs : exD.beta * exD.sigmaDisp * √1 = 0.1 := by norm_num [exD]
  have hv : eps ≤ exD.beta * exD.sigmaDisp * √1 := by rw [hs]; linarith
  obtain ⟨b1, -⟩ := atm_bounds (show (0:ℝ) ≤ 0.1 by norm_num)
  have hN : eps ≤ (180 * (√(2 * π) * (2 * ncdf (0.1 / 2) - 1))) * √1 := by rw [sqrt_one, mul_one]; linarith
  have hFd : exD.beta * Spec.forward exD.isFwd exD.intr exD.divr 100 1 + (1 - exD.beta) * Spec.forward exD.isFwd exD.intr exD.divr exD.pivot 1 = 90 := by rw [e, e']; norm_num [exD]
  have hFd0 : 0 < exD.beta * Spec.forward exD.isFwd exD.intr exD.divr 100 1 + (1 - exD.beta) * Spec.forward exD.isFwd exD.intr exD.divr exD.pivot 1 := by rw [hFd]; norm_num
  have h1 := atm_norm exD (S := 100) (cp := 1) hN
  have h2 := atm_price exD (S := 100) (T := 1) (cp := 1) (Or.inl rfl) (by norm_num [exD]) hv hFd0
  have hp : Norm.price ⟨180 * (√(2 * π) * (2 * ncdf (0.1 / 2) - 1)), exD.intr, exD.divr, exD.isFwd⟩ 100 100 1 1 = price exD 100 100 1 1 := by
    rw [hFd, e, hs] at h2
    rw [e] at h1
    rw [h1, h2, sqrt_one]
    have : √(2 * π) ≠ 0 := by positivity
    have hb : exD.beta = 1 / 2 := by norm_num [exD]
    rw [hb]
    field_simp
    ring
  have h := norm_approx_atm exD (by norm_num [exD]) (S := 100) (cp := 1) (Or.inl rfl) one_pos hv hN
  simp only [e, e', hs] at h
  refine ⟨_, hN, hp, ?_⟩
  have h' := h (by norm_num [exD]) hp
  refine h'.trans (le_of_eq ?_)
  norm_num [exD]

end BsmDisp
end PyFENG
