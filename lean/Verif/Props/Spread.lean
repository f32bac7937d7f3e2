import Verif.Model.MultiAsset
import Verif.Lemmas.MultiLogn
import Verif.Props.Bsm

/-!
# Spread options: Kirk and Bjerksund-Stensland (C57, C90)
-/

namespace PyFENG

open MeasureTheory ProbabilityTheory Matrix Real

/-- Specification: log-covariance matrix over `[0, T]` of two assets with volatilities `v1, v2` and correlation `rho`. -/
def Spec.cov2 (v1 v2 rho T : ℝ) : Matrix (Fin 2) (Fin 2) ℝ := !![v1 ^ 2 * T, rho * v1 * v2 * T; rho * v1 * v2 * T, v2 ^ 2 * T]

/-- Specification: value of the European spread option paying `max(cp (S1 - S2 - K), 0)` in the two-asset Black-Scholes model:
discount factor times the expected payoff. -/
noncomputable def Spec.spreadPrice (F1 F2 v1 v2 rho T df K cp : ℝ) : ℝ :=
  df * ∫ z, Spec.payoff cp K (Spec.gbmVec ![F1, F2] (Spec.cov2 v1 v2 rho T) z 0 - Spec.gbmVec ![F1, F2] (Spec.cov2 v1 v2 rho T) z 1)
    ∂(Spec.mvn (Spec.cov2 v1 v2 rho T))

namespace SpreadOpt

lemma quad_cov2 (v1 v2 rho T : ℝ) (a : Fin 2 → ℝ) : a ⬝ᵥ Spec.cov2 v1 v2 rho T *ᵥ a =
    T * ((a 0 * v1) ^ 2 + 2 * rho * (a 0 * v1) * (a 1 * v2) + (a 1 * v2) ^ 2) := by
  unfold Spec.cov2
  simp [dotProduct, mulVec, Fin.sum_univ_two]
  ring

lemma posSemidef_cov2 {v1 v2 rho T : ℝ} (hr : |rho| ≤ 1) (hT : 0 ≤ T) : (Spec.cov2 v1 v2 rho T).PosSemidef := by
  refine PosSemidef.of_dotProduct_mulVec_nonneg ?_ fun a => ?_
  · ext i j
    fin_cases i <;> fin_cases j <;> simp [Spec.cov2]
  · simp only [star_trivial]
    rw [quad_cov2]
    apply mul_nonneg hT
    have h2 : rho ^ 2 ≤ 1 := by
      have := abs_le.1 hr
      nlinarith [this.1, this.2]
    nlinarith [sq_nonneg (a 0 * v1 + rho * (a 1 * v2)), sq_nonneg (a 1 * v2)]

lemma payoff_sub (cp a b : ℝ) : Spec.payoff cp 0 (a - b) = Spec.payoff cp b a := by unfold Spec.payoff; rw [sub_zero]

lemma payoff_spread (cp K a b : ℝ) : Spec.payoff cp K (a - b) = Spec.payoff cp (b + K) a := by
  unfold Spec.payoff; rw [sub_sub]

lemma priceFormula_black (K F s T cp : ℝ) : Bsm.priceFormula K F s T cp 0 0 true = black cp F K (sigmaStd s T) := by
  have h := Bsm.price_eq_black ⟨s, 0, 0, true⟩ K F T cp
  unfold Bsm.price at h
  simpa [MParams.df, MParams.fwd] using h

lemma mp_fwd (o : Spread) (S T : ℝ) : o.mp.fwd S T = Spec.forward o.isFwd o.intr o.divr S T := by
  rw [MParams.fwd_eq_forward, MParams.forward_eq_spec]; rfl

lemma mp_df (o : Spread) (T : ℝ) : o.mp.df T = Spec.discount o.intr T := by
  rw [MParams.df_eq_spec]; rfl

/-- **C57.** Kirk's call and put satisfy put-call parity for the spread `F1 - F2` at every strike (negative ones included), with no
condition on the inputs. -/
theorem kirk_parity (o : Spread) (K S1 S2 T : ℝ) :
    Spec.Parity (SpreadKirk.price o K S1 S2 T 1) (SpreadKirk.price o K S1 S2 T (-1)) (Spec.discount o.intr T)
      (Spec.forward o.isFwd o.intr o.divr S1 T - Spec.forward o.isFwd o.intr o.divr S2 T) K := by
  unfold Spec.Parity SpreadKirk.price
  simp only [priceFormula_black, mp_fwd, mp_df]
  rw [← mul_sub, black_parity]
  unfold SpreadKirk.fwd1 SpreadKirk.fwd2
  have := min_add_max K 0
  congr 1
  linarith

/-- **C57.** At every strike Kirk's price is the exact value of exchanging two lognormal assets: the long leg lifted by the negative part
of the strike, the short leg by its positive part, with the volatilities diluted accordingly. -/
theorem kirk_eq_exchange (o : Spread) {K S1 S2 T cp : ℝ} (hcp : Spec.IsCp cp) (hr : |o.rho| ≤ 1) (hT : 0 ≤ T)
    (h1 : 0 < Spec.forward o.isFwd o.intr o.divr S1 T + max (-K) 0) (h2 : 0 < Spec.forward o.isFwd o.intr o.divr S2 T + max K 0)
    (hv : eps ≤ √((o.sig1 * Spec.forward o.isFwd o.intr o.divr S1 T / (Spec.forward o.isFwd o.intr o.divr S1 T + max (-K) 0)) ^ 2
      - 2 * o.rho * (o.sig1 * Spec.forward o.isFwd o.intr o.divr S1 T / (Spec.forward o.isFwd o.intr o.divr S1 T + max (-K) 0))
          * (o.sig2 * Spec.forward o.isFwd o.intr o.divr S2 T / (Spec.forward o.isFwd o.intr o.divr S2 T + max K 0))
      + (o.sig2 * Spec.forward o.isFwd o.intr o.divr S2 T / (Spec.forward o.isFwd o.intr o.divr S2 T + max K 0)) ^ 2) * √T) :
    let F1 := Spec.forward o.isFwd o.intr o.divr S1 T
    let F2 := Spec.forward o.isFwd o.intr o.divr S2 T
    SpreadKirk.price o K S1 S2 T cp = Spec.spreadPrice (F1 + max (-K) 0) (F2 + max K 0) (o.sig1 * F1 / (F1 + max (-K) 0))
      (o.sig2 * F2 / (F2 + max K 0)) o.rho T (Spec.discount o.intr T) 0 cp := by
  intro F1 F2
  have hm : ∀ x : ℝ, x - min K 0 = x + max (-K) 0 := fun x => by
    rw [sub_eq_add_neg, ← max_neg_neg, neg_zero]
  unfold SpreadKirk.price Spec.spreadPrice
  simp only [priceFormula_black, mp_fwd, mp_df, payoff_sub]
  rw [MultiLogn.exchange (posSemidef_cov2 hr hT) 0 1 h2]
  unfold SpreadKirk.sigSpd SpreadKirk.fwd1 SpreadKirk.fwd2
  simp only [hm]
  change _ * black cp (F1 + max (-K) 0) (F2 + max K 0) _ = _
  set v1 := o.sig1 * F1 / (F1 + max (-K) 0)
  set v2 := o.sig2 * F2 / (F2 + max K 0)
  have e : v1 * (v1 - 2 * o.rho * v2) + v2 ^ 2 = v1 ^ 2 - 2 * o.rho * v1 * v2 + v2 ^ 2 := by ring
  rw [e, sigmaStd_of_le hv]
  have e2 : Spec.cov2 v1 v2 o.rho T 0 0 - 2 * Spec.cov2 v1 v2 o.rho T 0 1 + Spec.cov2 v1 v2 o.rho T 1 1 =
      (v1 ^ 2 - 2 * o.rho * v1 * v2 + v2 ^ 2) * T := by
    simp [Spec.cov2]; ring
  rw [e2, sqrt_mul' _ hT]
  congr 1
  rw [← gaussE_black hcp h1 h2 (eps_pos.trans_le hv)]
  rfl

/-- **C57/C90.** At zero strike Kirk's price *is* the exact value of the exchange option in the two-asset Black-Scholes model
(Margrabe), for calls and puts, every correlation in `[-1, 1]` and both quoting conventions. -/
theorem kirk_zero_strike_exact (o : Spread) {S1 S2 T cp : ℝ} (hcp : Spec.IsCp cp) (hr : |o.rho| ≤ 1) (hT : 0 ≤ T)
    (h1 : 0 < Spec.forward o.isFwd o.intr o.divr S1 T) (h2 : 0 < Spec.forward o.isFwd o.intr o.divr S2 T)
    (hv : eps ≤ √(o.sig1 ^ 2 - 2 * o.rho * o.sig1 * o.sig2 + o.sig2 ^ 2) * √T) :
    SpreadKirk.price o 0 S1 S2 T cp = Spec.spreadPrice (Spec.forward o.isFwd o.intr o.divr S1 T)
      (Spec.forward o.isFwd o.intr o.divr S2 T) o.sig1 o.sig2 o.rho T (Spec.discount o.intr T) 0 cp := by
  have h := kirk_eq_exchange o (K := 0) (S1 := S1) (S2 := S2) hcp hr hT (by simpa using h1) (by simpa using h2)
    (by simpa [mul_div_cancel_right₀ _ h1.ne', mul_div_cancel_right₀ _ h2.ne'] using hv)
  simpa [mul_div_cancel_right₀ _ h1.ne', mul_div_cancel_right₀ _ h2.ne'] using h

/-- **C57.** Kirk's price lies within the no-arbitrage bounds of the spread: at least the discounted intrinsic value. -/
theorem kirk_ge_intrinsic (o : Spread) {K S1 S2 T cp : ℝ} (hcp : Spec.IsCp cp)
    (h1 : 0 < Spec.forward o.isFwd o.intr o.divr S1 T + max (-K) 0) (h2 : 0 < Spec.forward o.isFwd o.intr o.divr S2 T + max K 0) :
    Spec.discount o.intr T * Spec.payoff cp K (Spec.forward o.isFwd o.intr o.divr S1 T - Spec.forward o.isFwd o.intr o.divr S2 T) ≤
      SpreadKirk.price o K S1 S2 T cp := by
  unfold SpreadKirk.price
  simp only [priceFormula_black, mp_fwd, mp_df]
  refine mul_le_mul_of_nonneg_left ?_ (exp_pos _).le
  have hm : ∀ x : ℝ, x - min K 0 = x + max (-K) 0 := fun x => by
    rw [sub_eq_add_neg, ← max_neg_neg, neg_zero]
  unfold SpreadKirk.fwd1 SpreadKirk.fwd2
  rw [hm]
  have hk := max_zero_sub_max_neg_zero_eq_self K
  have h := intrinsic_lt_black hcp h1 h2 (sigmaStd_pos (SpreadKirk.sigSpd o (Spec.forward o.isFwd o.intr o.divr S1 T)
    (Spec.forward o.isFwd o.intr o.divr S2 T) K) T)
  refine le_trans (le_of_eq ?_) h.le
  unfold Spec.payoff
  congr 2
  linarith

example : ∃ o : Spread, |o.rho| ≤ 1 ∧ eps ≤ √(o.sig1 ^ 2 - 2 * o.rho * o.sig1 * o.sig2 + o.sig2 ^ 2) * √1 := by
  refine ⟨⟨0.3, 0.4, 0, 0.05, 0.02, false⟩, by simp, ?_⟩
  have h := eps_lt
  have e : √((0.3 : ℝ) ^ 2 - 2 * 0 * 0.3 * 0.4 + 0.4 ^ 2) = 0.5 := by
    rw [show (0.3 : ℝ) ^ 2 - 2 * 0 * 0.3 * 0.4 + 0.4 ^ 2 = 0.5 ^ 2 by norm_num]
    exact sqrt_sq (by norm_num)
  rw [e, sqrt_one]
  linarith

/-- **C57.** The Bjerksund-Stensland call and put satisfy put-call parity for the spread, with no condition on the inputs. -/
theorem bjerksund_parity (o : Spread) (K S1 S2 T : ℝ) :
    Spec.Parity (SpreadBjerksund.price o K S1 S2 T 1) (SpreadBjerksund.price o K S1 S2 T (-1)) (Spec.discount o.intr T)
      (Spec.forward o.isFwd o.intr o.divr S1 T - Spec.forward o.isFwd o.intr o.divr S2 T) K := by
  unfold Spec.Parity SpreadBjerksund.price
  simp only [mp_fwd, mp_df, one_mul, neg_one_mul, ncdf_neg]
  ring

lemma log_sign {cp x y : ℝ} (hcp : Spec.IsCp cp) (hx : 0 < x) (hy : 0 < y) : 0 ≤ cp * (x - y) ↔ 0 ≤ cp * (log x - log y) := by
  rcases hcp with rfl | rfl
  · rw [one_mul, one_mul, sub_nonneg, sub_nonneg, log_le_log_iff hy hx]
  · rw [neg_one_mul, neg_one_mul, neg_nonneg, neg_nonneg, sub_nonpos, sub_nonpos, log_le_log_iff hx hy]

/-- `E[S2^b]`. -/
lemma integral_rpow_gbm {S : Matrix (Fin 2) (Fin 2) ℝ} (hS : S.PosSemidef) {F : Fin 2 → ℝ} (hF : 0 < F 1) (b : ℝ) :
    ∫ z, Spec.gbmVec F S z 1 ^ b ∂(Spec.mvn S) = F 1 ^ b * exp ((b ^ 2 - b) * S 1 1 / 2) := by
  have h := MvGauss.integral_exp_mvn hS (Pi.single 1 b)
  have e : ∀ z : Fin 2 → ℝ, Spec.gbmVec F S z 1 ^ b = F 1 ^ b * exp (-b * S 1 1 / 2) * exp ((Pi.single 1 b : Fin 2 → ℝ) ⬝ᵥ z) := by
    intro z
    unfold Spec.gbmVec
    rw [mul_rpow hF.le (exp_pos _).le, ← exp_mul, mul_assoc, ← exp_add, single_dotProduct]
    ring_nf
  simp_rw [e]
  rw [integral_const_mul, h, mul_assoc, ← exp_add]
  congr 2
  simp [single_dotProduct, mulVec_single]
  ring

/-- Specification: the value of exercising the spread option exactly when `S1 ≥ (F2 + K) S2^b / E[S2^b]` with `b = F2/(F2 + K)` (and, for a put,
when the reverse inequality holds): the exercise policy of Bjerksund and Stensland. -/
noncomputable def Spec.bjerksundPolicy (F1 F2 v1 v2 rho T df K cp : ℝ) : ℝ :=
  df * ∫ z, (if 0 ≤ cp * (Spec.gbmVec ![F1, F2] (Spec.cov2 v1 v2 rho T) z 0 -
        (F2 + K) * (Spec.gbmVec ![F1, F2] (Spec.cov2 v1 v2 rho T) z 1 ^ (F2 / (F2 + K)) /
          ∫ y, Spec.gbmVec ![F1, F2] (Spec.cov2 v1 v2 rho T) y 1 ^ (F2 / (F2 + K)) ∂(Spec.mvn (Spec.cov2 v1 v2 rho T)))) then
      cp * (Spec.gbmVec ![F1, F2] (Spec.cov2 v1 v2 rho T) z 0 - Spec.gbmVec ![F1, F2] (Spec.cov2 v1 v2 rho T) z 1 - K) else 0)
    ∂(Spec.mvn (Spec.cov2 v1 v2 rho T))

lemma policy_region {F1 F2 v1 v2 rho T K cp : ℝ} (hcp : Spec.IsCp cp) (hr : |rho| ≤ 1) (hT : 0 ≤ T) (h1 : 0 < F1) (h2 : 0 < F2) (ha : 0 < F2 + K)
    (z : Fin 2 → ℝ) :
    0 ≤ cp * (Spec.gbmVec ![F1, F2] (Spec.cov2 v1 v2 rho T) z 0 -
        (F2 + K) * (Spec.gbmVec ![F1, F2] (Spec.cov2 v1 v2 rho T) z 1 ^ (F2 / (F2 + K)) /
          ∫ y, Spec.gbmVec ![F1, F2] (Spec.cov2 v1 v2 rho T) y 1 ^ (F2 / (F2 + K)) ∂(Spec.mvn (Spec.cov2 v1 v2 rho T)))) ↔
    0 ≤ cp * (![1, -(F2 / (F2 + K))] ⬝ᵥ z + (log (F1 / (F2 + K)) - v1 ^ 2 * T / 2 + (F2 / (F2 + K)) ^ 2 * (v2 ^ 2 * T) / 2)) := by
  rw [integral_rpow_gbm (posSemidef_cov2 hr hT) (by simpa using h2)]
  set b := F2 / (F2 + K) with hb
  have hF2b : 0 < F2 ^ b := rpow_pos_of_pos h2 b
  have e1 : Spec.gbmVec ![F1, F2] (Spec.cov2 v1 v2 rho T) z 1 ^ b / ((![F1, F2] : Fin 2 → ℝ) 1 ^ b * exp ((b ^ 2 - b) * Spec.cov2 v1 v2 rho T 1 1 / 2)) =
      exp (b * z 1 - b ^ 2 * (v2 ^ 2 * T) / 2) := by
    unfold Spec.gbmVec Spec.cov2
    simp only [cons_val_one, cons_val_fin_one, of_apply, cons_val']
    rw [mul_rpow h2.le (exp_pos _).le, ← exp_mul, mul_div_mul_left _ _ hF2b.ne', ← exp_sub]
    ring_nf
  rw [e1]
  have hS1 : 0 < Spec.gbmVec ![F1, F2] (Spec.cov2 v1 v2 rho T) z 0 := MultiLogn.gbmVec_pos _ _ (by simpa using h1)
  rw [log_sign hcp hS1 (mul_pos ha (exp_pos _)), log_mul ha.ne' (exp_pos _).ne', log_exp]
  have e2 : log (Spec.gbmVec ![F1, F2] (Spec.cov2 v1 v2 rho T) z 0) = log F1 + (z 0 - v1 ^ 2 * T / 2) := by
    unfold Spec.gbmVec Spec.cov2
    simp only [cons_val_zero, of_apply, cons_val']
    rw [log_mul h1.ne' (exp_pos _).ne', log_exp]
  rw [e2, log_div h1.ne' ha.ne']
  have e3 : log F1 + (z 0 - v1 ^ 2 * T / 2) - (log (F2 + K) + (b * z 1 - b ^ 2 * (v2 ^ 2 * T) / 2)) =
      ![1, -b] ⬝ᵥ z + (log F1 - log (F2 + K) - v1 ^ 2 * T / 2 + b ^ 2 * (v2 ^ 2 * T) / 2) := by
    simp [dotProduct, Fin.sum_univ_two]
    ring
  rw [e3]

lemma integral_split {Ω : Type*} [MeasurableSpace Ω] {μ : Measure Ω} [IsProbabilityMeasure μ] {X Y : Ω → ℝ} (hX : Integrable X μ) (hY : Integrable Y μ)
    {p : Ω → Prop} [DecidablePred p] (hp : MeasurableSet {ω | p ω}) (cp K : ℝ) :
    ∫ ω, (if p ω then cp * (X ω - Y ω - K) else 0) ∂μ =
      cp * (∫ ω, X ω * (if p ω then 1 else 0) ∂μ - ∫ ω, Y ω * (if p ω then 1 else 0) ∂μ - K * ∫ ω, (if p ω then 1 else 0) ∂μ) := by
  have hi : ∀ {Z : Ω → ℝ}, Integrable Z μ → Integrable (fun ω => Z ω * (if p ω then 1 else 0)) μ := by
    intro Z hZ
    refine (hZ.indicator hp).congr (ae_of_all _ fun ω => ?_)
    by_cases h : p ω <;> simp [h]
  have hone : Integrable (fun ω => if p ω then (1:ℝ) else 0) μ := by
    simpa using hi (integrable_const (1:ℝ))
  rw [← integral_const_mul K, ← integral_sub (hi hX) (hi hY), ← integral_sub (f := fun ω => (X ω * if p ω then 1 else 0) - Y ω * if p ω then 1 else 0) ((hi hX).sub (hi hY)) (hone.const_mul K), ← integral_const_mul]
  congr 1
  ext ω
  by_cases h : p ω <;> simp [h]

/-- **C57.** The Bjerksund-Stensland price is exactly the discounted value of following their exercise policy in the two-asset
Black-Scholes model. -/
theorem bjerksund_eq_policy (o : Spread) {K S1 S2 T cp : ℝ} (hcp : Spec.IsCp cp) (hr : |o.rho| ≤ 1) (hT : 0 ≤ T)
    (h1 : 0 < Spec.forward o.isFwd o.intr o.divr S1 T) (h2 : 0 < Spec.forward o.isFwd o.intr o.divr S2 T)
    (ha : 0 < Spec.forward o.isFwd o.intr o.divr S2 T + K)
    (hv : 0 < T * (o.sig1 ^ 2 - 2 * o.rho * o.sig1 * (Spec.forward o.isFwd o.intr o.divr S2 T / (Spec.forward o.isFwd o.intr o.divr S2 T + K) * o.sig2)
      + (Spec.forward o.isFwd o.intr o.divr S2 T / (Spec.forward o.isFwd o.intr o.divr S2 T + K) * o.sig2) ^ 2)) :
    SpreadBjerksund.price o K S1 S2 T cp = Spec.bjerksundPolicy (Spec.forward o.isFwd o.intr o.divr S1 T)
      (Spec.forward o.isFwd o.intr o.divr S2 T) o.sig1 o.sig2 o.rho T (Spec.discount o.intr T) K cp := by
  unfold SpreadBjerksund.price Spec.bjerksundPolicy SpreadBjerksund.std SpreadBjerksund.bb SpreadBjerksund.aa
  simp only [mp_fwd, mp_df, policy_region hcp hr hT h1 h2 ha]
  set F1 := Spec.forward o.isFwd o.intr o.divr S1 T
  set F2 := Spec.forward o.isFwd o.intr o.divr S2 T
  set b := F2 / (F2 + K)
  have hS := posSemidef_cov2 (v1 := o.sig1) (v2 := o.sig2) hr hT
  set a : Fin 2 → ℝ := ![1, -b] with haa
  set c := log (F1 / (F2 + K)) - o.sig1 ^ 2 * T / 2 + b ^ 2 * (o.sig2 ^ 2 * T) / 2 with hc
  have hq : a ⬝ᵥ Spec.cov2 o.sig1 o.sig2 o.rho T *ᵥ a = T * (o.sig1 ^ 2 - 2 * o.rho * o.sig1 * (b * o.sig2) + (b * o.sig2) ^ 2) := by
    rw [quad_cov2, haa]
    simp only [cons_val_zero, cons_val_one, cons_val_fin_one]
    ring
  have hpos : 0 < a ⬝ᵥ Spec.cov2 o.sig1 o.sig2 o.rho T *ᵥ a := by rw [hq]; exact hv
  have hms : MeasurableSet {z : Fin 2 → ℝ | 0 ≤ cp * (a ⬝ᵥ z + c)} :=
    measurableSet_le measurable_const (((MvGauss.measurable_dot a).add_const c).const_mul cp)
  rw [integral_split (MultiLogn.integrable_gbmVec hS _ 0) (MultiLogn.integrable_gbmVec hS _ 1) hms, MultiLogn.asset_halfspace hS _ a 0 c hcp hpos,
    MultiLogn.asset_halfspace hS _ a 1 c hcp hpos, MultiLogn.halfspace hS a c hcp hpos, hq]
  have es : o.sig1 ^ 2 * T - 2 * b * o.rho * (o.sig1 * o.sig2 * T) + b ^ 2 * (o.sig2 ^ 2 * T) =
      T * (o.sig1 ^ 2 - 2 * o.rho * o.sig1 * (b * o.sig2) + (b * o.sig2) ^ 2) := by ring
  rw [es]
  have ed1 : log (F1 / (F2 + K)) + 0.5 * (o.sig1 ^ 2 * T) - b * (o.rho * (o.sig1 * o.sig2 * T) - 0.5 * b * (o.sig2 ^ 2 * T)) =
      c + ∑ j, a j * Spec.cov2 o.sig1 o.sig2 o.rho T j 0 := by
    rw [hc, haa]
    simp [Spec.cov2, Fin.sum_univ_two]
    ring
  have ed2 : log (F1 / (F2 + K)) - 0.5 * (o.sig1 ^ 2 * T) + o.rho * (o.sig1 * o.sig2 * T) + b * (0.5 * b - 1) * (o.sig2 ^ 2 * T) =
      c + ∑ j, a j * Spec.cov2 o.sig1 o.sig2 o.rho T j 1 := by
    rw [hc, haa]
    simp [Spec.cov2, Fin.sum_univ_two]
    ring
  have ed3 : log (F1 / (F2 + K)) - 0.5 * (o.sig1 ^ 2 * T) + 0.5 * b ^ 2 * (o.sig2 ^ 2 * T) = c := by rw [hc]; ring
  rw [ed1, ed2, ed3]
  simp only [cons_val_zero, cons_val_one, cons_val_fin_one]

lemma policy_le_payoff (cp K a b : ℝ) (p : Prop) [Decidable p] : (if p then cp * (a - b - K) else 0) ≤ Spec.payoff cp K (a - b) := by
  unfold Spec.payoff
  split_ifs
  · exact le_max_left _ _
  · exact le_max_right _ _

lemma integrable_spread {S : Matrix (Fin 2) (Fin 2) ℝ} (hS : S.PosSemidef) (F : Fin 2 → ℝ) (cp K : ℝ) :
    Integrable (fun z => Spec.payoff cp K (Spec.gbmVec F S z 0 - Spec.gbmVec F S z 1)) (Spec.mvn S) := by
  unfold Spec.payoff
  exact ((((MultiLogn.integrable_gbmVec hS F 0).sub (MultiLogn.integrable_gbmVec hS F 1)).sub (integrable_const K)).const_mul cp).sup (integrable_const 0)

lemma policy_le_price {F1 F2 v1 v2 rho T df K cp : ℝ} (hcp : Spec.IsCp cp) (hr : |rho| ≤ 1) (hT : 0 ≤ T) (hdf : 0 ≤ df)
    (h1 : 0 < F1) (h2 : 0 < F2) (ha : 0 < F2 + K) :
    Spec.bjerksundPolicy F1 F2 v1 v2 rho T df K cp ≤ Spec.spreadPrice F1 F2 v1 v2 rho T df K cp := by
  have hS := posSemidef_cov2 (v1 := v1) (v2 := v2) hr hT
  unfold Spec.bjerksundPolicy Spec.spreadPrice
  refine mul_le_mul_of_nonneg_left ?_ hdf
  refine integral_mono ?_ (integrable_spread hS _ cp K) fun z => policy_le_payoff _ _ _ _ _
  simp only [policy_region hcp hr hT h1 h2 ha]
  have hms : MeasurableSet {z : Fin 2 → ℝ | 0 ≤ cp * (![1, -(F2 / (F2 + K))] ⬝ᵥ z + (log (F1 / (F2 + K)) - v1 ^ 2 * T / 2 + (F2 / (F2 + K)) ^ 2 * (v2 ^ 2 * T) / 2))} :=
    measurableSet_le measurable_const (((MvGauss.measurable_dot _).add_const _).const_mul cp)
  have hi := (((MultiLogn.integrable_gbmVec hS ![F1, F2] 0).sub (MultiLogn.integrable_gbmVec hS ![F1, F2] 1)).sub (integrable_const K)).const_mul cp
  refine (hi.indicator hms).congr (ae_of_all _ fun z => ?_)
  simp [Set.indicator_apply]

/-- **C57.** Hence the Bjerksund-Stensland price never exceeds the true value of the spread option. -/
theorem bjerksund_le_true (o : Spread) {K S1 S2 T cp : ℝ} (hcp : Spec.IsCp cp) (hr : |o.rho| ≤ 1) (hT : 0 ≤ T)
    (h1 : 0 < Spec.forward o.isFwd o.intr o.divr S1 T) (h2 : 0 < Spec.forward o.isFwd o.intr o.divr S2 T)
    (ha : 0 < Spec.forward o.isFwd o.intr o.divr S2 T + K)
    (hv : 0 < T * (o.sig1 ^ 2 - 2 * o.rho * o.sig1 * (Spec.forward o.isFwd o.intr o.divr S2 T / (Spec.forward o.isFwd o.intr o.divr S2 T + K) * o.sig2)
      + (Spec.forward o.isFwd o.intr o.divr S2 T / (Spec.forward o.isFwd o.intr o.divr S2 T + K) * o.sig2) ^ 2)) :
    SpreadBjerksund.price o K S1 S2 T cp ≤ Spec.spreadPrice (Spec.forward o.isFwd o.intr o.divr S1 T)
      (Spec.forward o.isFwd o.intr o.divr S2 T) o.sig1 o.sig2 o.rho T (Spec.discount o.intr T) K cp := by
  rw [bjerksund_eq_policy o hcp hr hT h1 h2 ha hv]
  exact policy_le_price hcp hr hT (exp_pos _).le h1 h2 ha

example : (0:ℝ) < 1 * ((0.2:ℝ) ^ 2 - 2 * (-0.5) * 0.2 * (120 / (120 + 10) * 0.3) + (120 / (120 + 10) * 0.3) ^ 2) := by norm_num

/-- **C90.** At zero strike the Bjerksund-Stensland price is the exact exchange option value. -/
theorem bjerksund_zero_strike_exact (o : Spread) {S1 S2 T cp : ℝ} (hcp : Spec.IsCp cp) (hr : |o.rho| ≤ 1) (hT : 0 ≤ T)
    (h1 : 0 < Spec.forward o.isFwd o.intr o.divr S1 T) (h2 : 0 < Spec.forward o.isFwd o.intr o.divr S2 T)
    (hv : 0 < T * (o.sig1 ^ 2 - 2 * o.rho * o.sig1 * o.sig2 + o.sig2 ^ 2)) :
    SpreadBjerksund.price o 0 S1 S2 T cp = Spec.spreadPrice (Spec.forward o.isFwd o.intr o.divr S1 T)
      (Spec.forward o.isFwd o.intr o.divr S2 T) o.sig1 o.sig2 o.rho T (Spec.discount o.intr T) 0 cp := by
  rw [bjerksund_eq_policy o hcp hr hT h1 h2 (by simpa using h2) (by simpa [div_self h2.ne'] using hv)]
  have hS := posSemidef_cov2 (v1 := o.sig1) (v2 := o.sig2) hr hT
  unfold Spec.bjerksundPolicy Spec.spreadPrice
  simp only [add_zero, div_self h2.ne', rpow_one, sub_zero]
  rw [MultiLogn.integral_gbmVec hS]
  congr 2
  ext z
  have e : ∀ x : ℝ, Spec.forward o.isFwd o.intr o.divr S2 T * (x / (![Spec.forward o.isFwd o.intr o.divr S1 T, Spec.forward o.isFwd o.intr o.divr S2 T] : Fin 2 → ℝ) 1) = x := by
    intro x
    simp only [cons_val_one, cons_val_fin_one]
    field_simp
  rw [e]
  unfold Spec.payoff
  rw [sub_zero]
  split_ifs with h
  · rw [max_eq_left h]
  · rw [max_eq_right (by linarith)]

end SpreadOpt

end PyFENG
