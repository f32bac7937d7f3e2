import Verif.Model.BasketNsvh
import Verif.Props.Basket
import Verif.Props.Nsvh
import Verif.Props.NsvhMom
import Verif.Props.NsvhFit

/-!
# C104: `BsmBasketNsvh1` matches four moments of the basket
-/

set_option linter.unusedSectionVars false

namespace PyFENG

open MeasureTheory ProbabilityTheory Real Set

namespace BasketNsvh

variable {n : ℕ} {o : Ma n}

lemma fit_fields (m : Nsvh) (v s k T w : ℝ) : (m.fitWith v s k T w).isAtmvol = m.isAtmvol ∧ (m.fitWith v s k T w).intr = m.intr ∧ (m.fitWith v s k T w).divr = m.divr ∧
    (m.fitWith v s k T w).isFwd = m.isFwd := ⟨rfl, rfl, rfl, rfl⟩

/-- Strictly inside the Johnson region the fitted correlation is strictly between `-1` and `1`. -/
lemma fit_rho_strict (m : Nsvh) {var skew exkurt T w0 w : ℝ} (he : 0 < exkurt) (h : Nsvh.IsFitMin exkurt w0) (hf : 0 < Nsvh.fBeta1 skew exkurt w0)
    (hw : w ∈ Icc w0 (Nsvh.fitMax exkurt)) (hroot : Nsvh.fBeta1 skew exkurt w = 0) : (m.fitWith var skew exkurt T w).rho ∈ Ioo (-1) 1 := by
  have hlt : w0 < w := by
    rcases hw.1.eq_or_lt with h' | h'
    · rw [← h'] at hroot; linarith
    · exact h'
  have hw1 : 1 < w := (Nsvh.fitMin_gt he h).trans hlt
  have hq := Nsvh.quartic_strictMono exkurt h.1.le (show (0:ℝ) ≤ w by linarith) hlt
  simp only at hq
  rw [h.2] at hq
  unfold Nsvh.fitWith
  simp only
  have hd : 0 < w ^ 2 + 2 * w + 3 := by positivity
  have hx : 0 < 2 * (w ^ 2 - (exkurt + 3 + 3) / (w ^ 2 + 2 * w + 3)) := by
    have : (exkurt + 3 + 3) / (w ^ 2 + 2 * w + 3) < w ^ 2 := by rw [div_lt_iff₀ hd]; nlinarith
    linarith
  generalize 2 * (w ^ 2 - (exkurt + 3 + 3) / (w ^ 2 + 2 * w + 3)) = x at *
  have hm : 0 < x / (2 + √(4 + x)) := by positivity
  generalize x / (2 + √(4 + x)) = mm at *
  have h1 : max ((w + 1) * (w - 1 - mm) / ((w - 1) * (w + 1 + mm))) 0 < 1 := by
    have hden : 0 < (w - 1) * (w + 1 + mm) := mul_pos (by linarith) (by linarith)
    refine max_lt ?_ one_pos
    rw [div_lt_one hden]
    nlinarith [mul_pos (by linarith : 0 < w) hm]
  have h2 : √(max ((w + 1) * (w - 1 - mm) / ((w - 1) * (w + 1 + mm))) 0) < 1 := by
    rw [sqrt_lt' one_pos]; simpa using h1
  have h3 := sqrt_nonneg (max ((w + 1) * (w - 1 - mm) / ((w - 1) * (w + 1 + mm))) 0)
  unfold Nsvh.npSign
  split_ifs <;> constructor <;> linarith

/-- **C104.** Put-call parity of `BsmBasketNsvh1.price`, whatever root the calibration returns. -/
theorem parity (w K : ℝ) (spot : Fin n → ℝ) (T : ℝ) :
    Spec.Parity (price o w K spot T 1) (price o w K spot T (-1)) (Spec.discount o.intr T) (∑ i, Spec.forwards o.isFwd o.intr o.divr spot T i * o.weight i) K := by
  have h := Nsvh.nsvh1_parity (fitted o (o.fwd spot T) T w) K (∑ i, o.fwd spot T i * o.weight i) T
  unfold Spec.Parity price at *
  simp only
  rw [← mul_sub, h, Basket.df_eq, ← Basket.fwd_eq]
  have e1 : (fitted o (o.fwd spot T) T w).mp.df T = 1 := by
    rw [MParams.df_eq_spec]
    simp [Spec.discount, fitted, Nsvh.mp, fit_fields, fresh]
  have e2 : ∀ x, (fitted o (o.fwd spot T) T w).mp.fwd x T = x := by
    intro x
    rw [MParams.fwd_eq_forward, MParams.forward_eq_spec]
    simp [Spec.forward, fitted, Nsvh.mp, fit_fields, fresh]
  rw [e1, e2, one_mul]

/-- **C104.** `BsmBasketNsvh1.price` is the discounted expected payoff of a random variable whose mean, variance and third and fourth central moments are exactly those of the
basket in the multi-asset Black-Scholes model.  `hSU` is the (strict form of the) assertion in `Nsvh1.fit`: the basket's skewness and kurtosis are in the Johnson region;
`w` is the root returned by the solver. -/
theorem moment_matched (ho : o.Valid) {K T cp w w0 : ℝ} {spot : Fin n → ℝ} (hcp : Spec.IsCp cp) (hT : 0 < T)
    (hm : ∑ i, o.weight i * Spec.forwards o.isFwd o.intr o.divr spot T i ≠ 0)
    (hv : 0 < (BasketABC.priceMvsk o (o.fwd spot T) T).2.1) (hk : 0 < (BasketABC.priceMvsk o (o.fwd spot T) T).2.2.2)
    (h0 : Nsvh.IsFitMin (BasketABC.priceMvsk o (o.fwd spot T) T).2.2.2 w0)
    (hSU : 0 < Nsvh.fBeta1 (BasketABC.priceMvsk o (o.fwd spot T) T).2.2.1 (BasketABC.priceMvsk o (o.fwd spot T) T).2.2.2 w0)
    (hw : w ∈ Icc w0 (Nsvh.fitMax (BasketABC.priceMvsk o (o.fwd spot T) T).2.2.2))
    (hroot : Nsvh.fBeta1 (BasketABC.priceMvsk o (o.fwd spot T) T).2.2.1 (BasketABC.priceMvsk o (o.fwd spot T) T).2.2.2 w = 0) :
    ∃ X : ℝ → ℝ, price o w K spot T cp = Spec.discount o.intr T * Spec.gaussE (fun z => Spec.payoff cp K (X z)) ∧
      ∫ z, X z ∂(gaussianReal 0 1) = ∫ z, Spec.basket o.weight (Spec.forwards o.isFwd o.intr o.divr spot T) (T • o.cov) z ∂(Spec.mvn (T • o.cov)) ∧
      ∀ j ∈ ({2, 3, 4} : Set ℕ), centralMoment X j (gaussianReal 0 1)
        = centralMoment (Spec.basket o.weight (Spec.forwards o.isFwd o.intr o.divr spot T) (T • o.cov)) j (Spec.mvn (T • o.cov)) := by
  have hfw : o.fwd spot T = Spec.forwards o.isFwd o.intr o.divr spot T := Basket.fwd_eq ..
  obtain ⟨b1, b2, b3, b4⟩ := Basket.price_mvsk_correct o ho hT.le (o.fwd spot T) (by rw [hfw]; exact hm)
  have hm1 : (BasketABC.priceMvsk o (o.fwd spot T) T).1 = ∑ i, o.fwd spot T i * o.weight i := rfl
  have hm0 : (BasketABC.priceMvsk o (o.fwd spot T) T).1 ≠ 0 := by
    rw [hm1, hfw]; intro h; apply hm; rw [← h]; exact Finset.sum_congr rfl fun i _ => mul_comm _ _
  have hvar : 0 < (BasketABC.priceMvsk o (o.fwd spot T) T).2.1 * (BasketABC.priceMvsk o (o.fwd spot T) T).1 ^ 2 := by positivity
  have hr : (fitted o (o.fwd spot T) T w).rho ∈ Ioo (-1) 1 := fit_rho_strict _ hk h0 hSU hw hroot
  obtain ⟨f1, f2, f3, -⟩ := Nsvh.nsvh1_fit_matches fresh hvar hk hT h0 hw hroot
  have ff : fresh.fitWith ((BasketABC.priceMvsk o (o.fwd spot T) T).2.1 * (BasketABC.priceMvsk o (o.fwd spot T) T).1 ^ 2)
    (BasketABC.priceMvsk o (o.fwd spot T) T).2.2.1 (BasketABC.priceMvsk o (o.fwd spot T) T).2.2.2 T w = fitted o (o.fwd spot T) T w := rfl
  rw [ff] at f1 f2 f3
  have hp := Nsvh.nsvh1_price_correct (fitted o (o.fwd spot T) T w) rfl hcp f2 f3 hr K (∑ i, o.fwd spot T i * o.weight i) hT
  obtain ⟨c2, c3, c4⟩ := Nsvh.nsvh1_priceVsk_correct (fitted o (o.fwd spot T) T w) f2 f3 (∑ i, o.fwd spot T i * o.weight i) hT
  have e0 : ((fitted o (o.fwd spot T) T w).intr, (fitted o (o.fwd spot T) T w).divr) = (0, 0) := rfl
  have e1 : (fitted o (o.fwd spot T) T w).intr = 0 := rfl
  have e2 : ∀ x, Spec.forward (fitted o (o.fwd spot T) T w).isFwd (fitted o (o.fwd spot T) T w).intr (fitted o (o.fwd spot T) T w).divr x T = x := by
    intro x
    simp [Spec.forward, fitted, fit_fields, fresh]
  rw [e2, e1] at hp
  rw [f1] at c2 c3 c4
  simp only at c2 c3 c4
  generalize hX : Spec.johnson (∑ i, o.fwd spot T i * o.weight i) (fitted o (o.fwd spot T) T w).sigma (fitted o (o.fwd spot T) T w).vov (fitted o (o.fwd spot T) T w).rho T = X at *
  rw [← hfw]
  generalize Spec.basket o.weight (o.fwd spot T) (T • o.cov) = Y at *
  generalize Spec.mvn (T • o.cov) = P at *
  have e3 : centralMoment X 2 (gaussianReal 0 1) = centralMoment Y 2 P := by
    rw [c2, ← b2, b1]; field_simp
  have hpos : 0 < centralMoment Y 2 P := by rw [← e3, c2]; exact hvar
  refine ⟨X, ?_, ?_, ?_⟩
  · unfold price
    simp only
    rw [hp, Basket.df_eq]
    simp [Spec.discount]
  · rw [b1, hm1, ← hX]
    exact Nsvh.johnson_mean _ _ _ _ hT.le
  · intro j hj
    rcases hj with rfl | rfl | rfl
    · exact e3
    · rw [e3] at c3
      have := c3.trans b3.symm
      rwa [div_left_inj' (mul_pos hpos (sqrt_pos.2 hpos)).ne'] at this
    · rw [e3] at c4
      have := c4.trans b4.symm
      rwa [sub_left_inj, div_left_inj' (pow_pos hpos 2).ne'] at this

/-- Two independent assets with `e^{σ²} = 2`, weights 2 and -1. -/
noncomputable def exO : Ma 2 := ⟨fun _ => √(log 2), Matrix.of fun i j => if i = j then log 2 else 0, Matrix.of fun i j => if i = j then √(log 2) else 0, ![2, -1], 0, 0, true⟩

lemma exO_mvsk : BasketABC.priceMvsk exO (exO.fwd (fun _ => 1) 1) 1 = (1, 5, 28 / 5 ^ (1.5 : ℝ), 646 / 25) := by
  have hf : exO.fwd (fun _ => 1) 1 = fun _ => 1 := by
    rw [Basket.fwd_eq]; funext i; simp [Spec.forwards, Spec.forward, exO]
  rw [hf]
  have hP : BasketABC.P exO 1 = Matrix.of fun i j => if i = j then 2 else 1 := by
    ext i j
    unfold BasketABC.P exO
    by_cases h : i = j
    · simp [h, exp_log (by norm_num : (0:ℝ) < 2)]
    · simp [h]
  unfold BasketABC.priceMvsk BasketABC.m4 BasketABC.m3
  simp only [Matrix.mul_apply]
  unfold BasketABC.varScaled BasketABC.m2 BasketABC.H BasketABC.N BasketABC.M2 BasketABC.m1 BasketABC.v
  rw [hP]
  simp only [Fin.sum_univ_two]
  simp [exO]
  norm_num

/-- The hypotheses of `moment_matched` are met by that basket: the calibration finds exactly one root. -/
example : exO.Valid ∧ ∃ w0 w, Nsvh.IsFitMin (BasketABC.priceMvsk exO (exO.fwd (fun _ => 1) 1) 1).2.2.2 w0 ∧
    0 < Nsvh.fBeta1 (BasketABC.priceMvsk exO (exO.fwd (fun _ => 1) 1) 1).2.2.1 (BasketABC.priceMvsk exO (exO.fwd (fun _ => 1) 1) 1).2.2.2 w0 ∧
    w ∈ Icc w0 (Nsvh.fitMax (BasketABC.priceMvsk exO (exO.fwd (fun _ => 1) 1) 1).2.2.2) ∧
    Nsvh.fBeta1 (BasketABC.priceMvsk exO (exO.fwd (fun _ => 1) 1) 1).2.2.1 (BasketABC.priceMvsk exO (exO.fwd (fun _ => 1) 1) 1).2.2.2 w = 0 := by
  have hl : 0 ≤ log 2 := log_nonneg (by norm_num)
  refine ⟨⟨fun i => ?_, ?_⟩, ?_⟩
  · simp [exO, sq_sqrt hl]
  · ext i j
    rw [Matrix.mul_apply, Fin.sum_univ_two]
    fin_cases i <;> fin_cases j <;> simp [exO, mul_self_sqrt hl]
  · rw [exO_mvsk]
    simp only
    have hk : (0:ℝ) < 646 / 25 := by norm_num
    obtain ⟨w0, h0, -⟩ := Nsvh.nsvh1_fit_min_unique hk
    have hpos : 0 < Nsvh.fBeta1 (28 / 5 ^ (1.5 : ℝ)) (646 / 25) w0 := by
      have h1 : 1.7 ≤ w0 := by
        by_contra hc
        have := Nsvh.quartic_strictMono (646 / 25) h0.1.le (show (0:ℝ) ≤ 1.7 by norm_num) (not_le.1 hc)
        simp only at this
        rw [h0.2] at this
        norm_num at this
      have h2 : ((28:ℝ) / 5 ^ (1.5 : ℝ)) ^ 2 = 784 / 125 := by
        rw [div_pow, ← rpow_natCast ((5:ℝ) ^ (1.5 : ℝ)) 2, ← rpow_mul (by norm_num)]
        norm_num
      have h3 : 4 + 2 * (w0 * w0 - (646 / 25 + 3 + 3) / (w0 * w0 + 2 * w0 + 3)) = 2 ^ 2 := by
        have hd : 0 < w0 * w0 + 2 * w0 + 3 := by nlinarith
        have : (646 / 25 + 3 + 3) / (w0 * w0 + 2 * w0 + 3) = w0 * w0 := by
          rw [div_eq_iff hd.ne']; linarith [h0.2]
        rw [this]; norm_num
      unfold Nsvh.fBeta1
      simp only
      rw [h2, h3, sqrt_sq (by norm_num)]
      have h4 : (0.7:ℝ) * 3.7 ^ 2 ≤ (w0 + 1 - 2) * (w0 + 1 + 0.5 * 2) ^ 2 :=
        mul_le_mul (by linarith) (pow_le_pow_left₀ (by norm_num) (by linarith) 2) (by norm_num) (by linarith)
      norm_num at h4 ⊢
      linarith
    obtain ⟨w, ⟨hw, hroot⟩, -⟩ := Nsvh.nsvh1_fit_root_unique hk h0 hpos.le
    exact ⟨w0, w, h0, hpos, hw, hroot⟩

end BasketNsvh

end PyFENG
