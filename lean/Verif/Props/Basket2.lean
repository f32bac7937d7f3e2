import Verif.Props.Basket
import Mathlib.Analysis.Real.Pi.Bounds

/-!
# Moment-matched basket prices: Levy (1992), Ju (2002), Milevsky-Posner (1998); the geometric proxy is not a bound (C57, C58, C94)
-/

set_option linter.unusedSectionVars false
set_option linter.style.haveILetI false

namespace PyFENG

open MeasureTheory ProbabilityTheory Matrix Real

namespace Basket

variable {n : ℕ} (o : Ma n)

lemma m1_eq (fwd : Fin n → ℝ) : BasketABC.m1 o fwd = ∑ i, o.weight i * fwd i :=
  Finset.sum_congr rfl fun i _ => mul_comm (fwd i) (o.weight i)

lemma gaussE_gbm_one (F s : ℝ) : Spec.gaussE (fun z => Spec.gbm F s z) = F := by
  have e : (fun z => Spec.gbm F s z) = fun z => F * exp (s * z + -(s ^ 2 / 2)) := by
    ext z; unfold Spec.gbm; rfl
  rw [e]
  have h := gaussE_exp_lin s (-(s ^ 2 / 2))
  unfold Spec.gaussE at h ⊢
  rw [integral_const_mul, h, add_neg_cancel, exp_zero, mul_one]

lemma gaussE_gbm_sq (F s : ℝ) : Spec.gaussE (fun z => Spec.gbm F s z ^ 2) = F ^ 2 * exp (s ^ 2) := by
  have e : (fun z => Spec.gbm F s z ^ 2) = fun z => F ^ 2 * exp (2 * s * z + -(s ^ 2)) := by
    ext z; unfold Spec.gbm
    rw [mul_pow, ← exp_nat_mul]
    congr 2
    push_cast; ring
  rw [e]
  have h := gaussE_exp_lin (2 * s) (-(s ^ 2))
  unfold Spec.gaussE at h ⊢
  rw [integral_const_mul, h]
  ring_nf

lemma m2_nonneg {o : Ma n} (ho : o.Valid) {T : ℝ} (hT : 0 ≤ T) (fwd : Fin n → ℝ) : 0 ≤ BasketABC.m2 o fwd T := by
  rw [← (basket_raw_moments o ho hT fwd).2.1]
  exact integral_nonneg fun z => sq_nonneg _

lemma exp_std_sq {o : Ma n} (ho : o.Valid) {T : ℝ} (hT : 0 ≤ T) (fwd : Fin n → ℝ) (hm : BasketABC.m1 o fwd ≠ 0)
    (hv : 0 < BasketLevy.std o fwd T) : exp (BasketLevy.std o fwd T ^ 2) = BasketABC.m2 o fwd T / BasketABC.m1 o fwd ^ 2 := by
  have hl : 0 < log (1 + BasketABC.varScaled o fwd T) := sqrt_pos.1 hv
  have e : 1 + BasketABC.varScaled o fwd T = BasketABC.m2 o fwd T / BasketABC.m1 o fwd ^ 2 := by
    unfold BasketABC.varScaled; ring
  have h0 : 0 ≤ 1 + BasketABC.varScaled o fwd T := by rw [e]; exact div_nonneg (m2_nonneg ho hT fwd) (by positivity)
  have h1 : 0 < 1 + BasketABC.varScaled o fwd T := by
    rcases h0.eq_or_lt with h | h
    · rw [← h, log_zero] at hl; exact absurd hl (lt_irrefl _)
    · exact h
  unfold BasketLevy.std
  rw [sq_sqrt hl.le, exp_log h1, e]

/-- **C58.** `BsmBasketLevy1992.price` is the discounted expected payoff of a lognormal variable whose mean and second moment
are exactly those of the basket. -/
theorem levy_eq_expectation (ho : o.Valid) {K T cp : ℝ} {spot : Fin n → ℝ} (hcp : Spec.IsCp cp) (hT : 0 ≤ T) (hK : 0 < K)
    (hF : 0 < ∑ i, o.weight i * Spec.forwards o.isFwd o.intr o.divr spot T i)
    (hv : eps ≤ BasketLevy.std o (o.fwd spot T) T) :
    let F := Spec.forwards o.isFwd o.intr o.divr spot T
    ∃ s, 0 < s ∧
      Spec.gaussE (fun z => Spec.gbm (∑ i, o.weight i * F i) s z) = ∫ z, Spec.basket o.weight F (T • o.cov) z ∂(Spec.mvn (T • o.cov)) ∧
      Spec.gaussE (fun z => Spec.gbm (∑ i, o.weight i * F i) s z ^ 2) =
        ∫ z, Spec.basket o.weight F (T • o.cov) z ^ 2 ∂(Spec.mvn (T • o.cov)) ∧
      BasketLevy.price o K spot T cp = Spec.discount o.intr T * Spec.gaussE fun z => Spec.payoff cp K (Spec.gbm (∑ i, o.weight i * F i) s z) := by
  intro F
  have hfw := fwd_eq o spot T
  obtain ⟨h1, h2, _⟩ := basket_raw_moments o ho hT F
  have hs := eps_pos.trans_le hv
  refine ⟨BasketLevy.std o (o.fwd spot T) T, hs, ?_, ?_, ?_⟩
  · rw [gaussE_gbm_one, h1, m1_eq]
  · rw [gaussE_gbm_sq, h2]
    have hm : BasketABC.m1 o (o.fwd spot T) ≠ 0 := by rw [hfw, m1_eq]; exact hF.ne'
    rw [exp_std_sq ho hT _ hm hs, hfw, ← m1_eq o F]
    change BasketABC.m1 o F ^ 2 * (BasketABC.m2 o F T / BasketABC.m1 o F ^ 2) = _
    rw [hfw] at hm
    have hm' : BasketABC.m1 o F ≠ 0 := hm
    field_simp
  · unfold BasketLevy.price
    rw [SpreadOpt.priceFormula_black, sigmaStd_of_le (by rw [sqrt_one, mul_one]; exact hv), sqrt_one, mul_one, df_eq,
      gaussE_black hcp hF hK hs, hfw, m1_eq]

/-- **C94.** Put-call parity of `BsmBasketLevy1992`. -/
theorem levy_parity (K T : ℝ) (spot : Fin n → ℝ) :
    Spec.Parity (BasketLevy.price o K spot T 1) (BasketLevy.price o K spot T (-1)) (Spec.discount o.intr T)
      (∑ i, o.weight i * Spec.forwards o.isFwd o.intr o.divr spot T i) K := by
  unfold Spec.Parity BasketLevy.price
  rw [SpreadOpt.priceFormula_black, SpreadOpt.priceFormula_black, df_eq, fwd_eq, ← mul_sub, black_parity, m1_eq]

/-- **C94.** Put-call parity of `BsmBasketJu2002`: the correction is the same for calls and puts. -/
theorem ju_parity (K T : ℝ) (spot : Fin n → ℝ) :
    Spec.Parity (BasketJu.price o K spot T 1) (BasketJu.price o K spot T (-1)) (Spec.discount o.intr T)
      (∑ i, o.weight i * Spec.forwards o.isFwd o.intr o.divr spot T i) K := by
  have h := levy_parity o K T spot
  unfold Spec.Parity BasketJu.price at *
  linarith

/-! ### One-factor markets: the approximations are exact -/

/-- A Gaussian vector with constant covariance matrix is one Gaussian variable repeated. -/
lemma integral_const_mvn {c : ℝ} (hc : 0 ≤ c) {f : (Fin n → ℝ) → ℝ} (hf : Measurable f) :
    ∫ z, f z ∂(Spec.mvn (Matrix.of fun _ _ : Fin n => c)) = Spec.gaussE fun x => f fun _ => √c * x := by
  have e : (Matrix.of fun _ _ : Fin n => c) = (Matrix.of fun (_ : Fin n) (_ : Fin 1) => √c) * (Matrix.of fun (_ : Fin n) (_ : Fin 1) => √c)ᵀ := by
    ext i j
    simp [Matrix.mul_apply, mul_self_sqrt hc]
  rw [e, MvGauss.integral_mvn_factor _ _ hf.aestronglyMeasurable]
  unfold Spec.gaussE Spec.iid
  have hp : (Measure.pi fun _ : Fin 1 => gaussianReal 0 1).map (fun x => x 0) = gaussianReal 0 1 :=
    (measurePreserving_eval (fun _ : Fin 1 => gaussianReal 0 1) 0).map_eq
  have h := integral_map (μ := Measure.pi fun _ : Fin 1 => gaussianReal 0 1) (φ := fun x => x 0) (f := fun x => f fun _ => √c * x)
    (measurable_pi_apply 0).aemeasurable (hf.comp (by fun_prop)).aestronglyMeasurable
  rw [hp] at h
  rw [h]
  congr 1
  ext x
  congr 1
  ext i
  simp [Matrix.mulVec, dotProduct]

/-- With a constant covariance matrix the basket is one lognormal asset. -/
lemma basketPrice_const {w F : Fin n → ℝ} {c df K cp : ℝ} (hc : 0 ≤ c) :
    Spec.basketPrice w F (Matrix.of fun _ _ => c) df K cp = df * Spec.gaussE fun x => Spec.payoff cp K (Spec.gbm (∑ i, w i * F i) (√c) x) := by
  unfold Spec.basketPrice
  rw [integral_const_mvn hc (f := fun z => Spec.payoff cp K (Spec.basket w F (Matrix.of fun _ _ => c) z))
    ((MultiLogn.continuous_payoff cp K).measurable.comp (measurable_basket _ _ _))]
  congr 2
  ext x
  congr 1
  unfold Spec.basket Spec.gbmVec Spec.gbm
  simp only [of_apply]
  rw [sq_sqrt hc, Finset.sum_mul]
  exact Finset.sum_congr rfl fun i _ => by ring

lemma smul_const (c T : ℝ) : T • (Matrix.of fun _ _ : Fin n => c) = Matrix.of fun _ _ : Fin n => c * T := by
  ext i j; simp [mul_comm]

lemma std_const {c T : ℝ} (hcov : o.cov = Matrix.of fun _ _ => c) (fwd : Fin n → ℝ) (hm : BasketABC.m1 o fwd ≠ 0) :
    BasketLevy.std o fwd T = √(c * T) := by
  have h2 : BasketABC.m2 o fwd T = BasketABC.m1 o fwd ^ 2 * exp (c * T) := by
    unfold BasketABC.m2 BasketABC.M2 BasketABC.P BasketABC.m1
    rw [hcov, sq, Finset.sum_mul_sum, Finset.sum_mul]
    exact Finset.sum_congr rfl fun i _ => by rw [Finset.sum_mul]; rfl
  unfold BasketLevy.std BasketABC.varScaled
  rw [h2, mul_div_cancel_left₀ _ (by positivity), add_sub_cancel, log_exp]

/-- **C94.** When all assets are driven by one factor with the same volatility (in particular for a basket of one asset)
`BsmBasketLevy1992` is exact. -/
theorem levy_exact_one_factor {c K T cp : ℝ} {spot : Fin n → ℝ} (hcov : o.cov = Matrix.of fun _ _ => c) (hcp : Spec.IsCp cp) (hK : 0 < K)
    (hF : 0 < ∑ i, o.weight i * Spec.forwards o.isFwd o.intr o.divr spot T i) (hv : eps ≤ √(c * T)) :
    BasketLevy.price o K spot T cp =
      Spec.basketPrice o.weight (Spec.forwards o.isFwd o.intr o.divr spot T) (T • o.cov) (Spec.discount o.intr T) K cp := by
  have hs := eps_pos.trans_le hv
  have hc : 0 < c * T := sqrt_pos.1 hs
  rw [hcov, smul_const, basketPrice_const hc.le, gaussE_black hcp hF hK hs]
  unfold BasketLevy.price
  have hm : BasketABC.m1 o (o.fwd spot T) ≠ 0 := by rw [fwd_eq, m1_eq]; exact hF.ne'
  rw [SpreadOpt.priceFormula_black, std_const o hcov _ hm, sigmaStd_of_le (by rw [sqrt_one, mul_one]; exact hv), sqrt_one, mul_one, df_eq,
    fwd_eq, m1_eq]

lemma ju_sums_const {c T : ℝ} (hcov : o.cov = Matrix.of fun _ _ => c) (fwd : Fin n → ℝ) (hpos : ∀ i, 0 ≤ fwd i * o.weight i) :
    BasketJu.sums o fwd T =
      let m := BasketABC.m1 o fwd
      let d := c * T
      { m1 := m, u21 := d * m ^ 2, u22 := d ^ 2 * m ^ 2, u23 := d ^ 3 * m ^ 2, a12a2 := 2 * d ^ 2 * m ^ 3, a13a3 := 6 * d ^ 3 * m ^ 4,
        a12a22 := 10 * d ^ 3 * m ^ 4, a1a2a3 := 6 * d ^ 3 * m ^ 3, a23 := 8 * d ^ 3 * m ^ 3 } := by
  have hm : ∑ i, fwd i * o.weight i = BasketABC.m1 o fwd := rfl
  have hv : ∀ (x : Fin n → ℝ) (d : ℝ) (i : Fin n), (x ᵥ* (Matrix.of fun _ _ : Fin n => d)) i = (∑ j, x j) * d := fun x d i => by
    simp [Matrix.vecMul, dotProduct, Finset.sum_mul]
  unfold BasketJu.sums
  have hcc : ∀ i j, o.cov i j = c := fun i j => by rw [hcov]; rfl
  have hv' : ∀ (x : Fin n → ℝ) (d : ℝ) (i : Fin n), (x ᵥ* (fun _ _ => d : Matrix (Fin n) (Fin n) ℝ)) i = (∑ j, x j) * d := hv
  simp only [hcc]
  simp only [hv, hv', hm]
  set m := BasketABC.m1 o fwd with hmdef
  have hmul : ∀ a : ℝ, ∑ i, a * (fwd i * o.weight i) = a * m := fun a => by rw [← Finset.mul_sum, hm]
  have hmul' : ∀ a : ℝ, ∑ i, (fwd i * o.weight i) * a = m * a := fun a => by rw [← Finset.sum_mul, hm]
  have ht : ∑ i, ∑ j, ∑ k, (√(fwd i * o.weight i) * (c * T) * √(fwd j * o.weight j)) * (√(fwd j * o.weight j) * (c * T) * √(fwd k * o.weight k)) *
      (√(fwd k * o.weight k) * (c * T) * √(fwd i * o.weight i)) = (c * T) ^ 3 * m ^ 3 := by
    have e : ∀ i j k, (√(fwd i * o.weight i) * (c * T) * √(fwd j * o.weight j)) * (√(fwd j * o.weight j) * (c * T) * √(fwd k * o.weight k)) *
        (√(fwd k * o.weight k) * (c * T) * √(fwd i * o.weight i)) =
        (c * T) ^ 3 * ((fwd i * o.weight i) * ((fwd j * o.weight j) * (fwd k * o.weight k))) := fun i j k => by
      have h1 := mul_self_sqrt (hpos i)
      have h2 := mul_self_sqrt (hpos j)
      have h3 := mul_self_sqrt (hpos k)
      nth_rw 3 [← h1]
      nth_rw 3 [← h2]
      nth_rw 3 [← h3]
      ring
    simp only [e, ← Finset.mul_sum, hm, hmul']
    ring
  have hmul2 : ∀ a b : ℝ, ∑ i, a * (b * (fwd i * o.weight i)) = a * (b * m) := fun a b => by rw [← Finset.mul_sum, hmul]
  rw [ht]
  simp only [hmul, hmul', hmul2]
  congr 1 <;> ring

/-- **C94.** When all assets are driven by one factor with the same volatility and the basket is long, the Ju correction vanishes
and `BsmBasketJu2002` is exact. -/
theorem ju_exact_one_factor {c K T cp : ℝ} {spot : Fin n → ℝ} (hcov : o.cov = Matrix.of fun _ _ => c) (hcp : Spec.IsCp cp) (hK : 0 < K)
    (hpos : ∀ i, 0 ≤ Spec.forwards o.isFwd o.intr o.divr spot T i * o.weight i)
    (hF : 0 < ∑ i, o.weight i * Spec.forwards o.isFwd o.intr o.divr spot T i) (hv : eps ≤ √(c * T)) :
    BasketJu.price o K spot T cp =
      Spec.basketPrice o.weight (Spec.forwards o.isFwd o.intr o.divr spot T) (T • o.cov) (Spec.discount o.intr T) K cp := by
  rw [← levy_exact_one_factor o hcov hcp hK hF hv]
  have hm : BasketABC.m1 o (Spec.forwards o.isFwd o.intr o.divr spot T) ≠ 0 := by rw [m1_eq]; exact hF.ne'
  have hj : BasketJu.jd (BasketJu.sums o (Spec.forwards o.isFwd o.intr o.divr spot T) T) = (0, 0, 0) := by
    rw [ju_sums_const o hcov _ hpos]
    unfold BasketJu.jd BasketJu.a3 BasketJu.a2 BasketJu.a1
    simp only
    generalize BasketABC.m1 o (Spec.forwards o.isFwd o.intr o.divr spot T) = m at *
    generalize c * T = d
    refine Prod.ext ?_ (Prod.ext ?_ ?_) <;> · simp only; field_simp; ring
  unfold BasketJu.price BasketJu.correction
  rw [fwd_eq, hj]
  simp

/-! ### Milevsky and Posner -/

/-- The one-asset inverse gamma model with the same scaled variance. -/
noncomputable def proxy (vs : ℝ) : InvGam := ⟨⟨√(log (1 + vs)), 0, 0, false⟩⟩

lemma proxy_sq {vs : ℝ} (h : 0 < vs) : (proxy vs).mp.sigma ^ 2 * 1 = log (1 + vs) := by
  change √(log (1 + vs)) ^ 2 * 1 = _
  rw [mul_one, sq_sqrt (log_nonneg (by linarith))]

lemma proxy_ab {vs : ℝ} (h : 0 < vs) (M : ℝ) : (proxy vs).alphaBeta M 1 = (1 / vs + 2, (1 / vs + 2 - 1) * M) := by
  unfold InvGam.alphaBeta
  simp only
  rw [proxy_sq h, exp_log (by linarith), MParams.forward_eq_spec]
  unfold Spec.forward proxy
  simp

lemma milevsky_eq {K T cp : ℝ} {spot : Fin n → ℝ} (h : 0 < BasketABC.varScaled o (o.fwd spot T) T) :
    BasketMilevsky.price o K spot T cp =
      Spec.discount o.intr T * (proxy (BasketABC.varScaled o (o.fwd spot T) T)).price K (BasketABC.m1 o (o.fwd spot T)) 1 cp := by
  unfold BasketMilevsky.price InvGam.price InvGam.priceFormula BasketMilevsky.beta BasketMilevsky.alpha
  simp only
  rw [proxy_ab h, df_eq]
  simp [proxy]

/-- **C58.** `BsmBasketMilevsky1998.price` is the discounted expected payoff under an inverse gamma law whose mean and second moment
are exactly those of the basket. -/
theorem milevsky_eq_expectation (ho : o.Valid) {K T cp : ℝ} {spot : Fin n → ℝ} (hcp : Spec.IsCp cp) (hT : 0 ≤ T) (hK : 0 < K)
    (hF : 0 < ∑ i, o.weight i * Spec.forwards o.isFwd o.intr o.divr spot T i)
    (hv : 0 < BasketABC.varScaled o (o.fwd spot T) T) :
    let F := Spec.forwards o.isFwd o.intr o.divr spot T
    ∃ α β, IsProbabilityMeasure (Spec.invGammaMeasure α β) ∧
      ∫ s, s ∂(Spec.invGammaMeasure α β) = ∫ z, Spec.basket o.weight F (T • o.cov) z ∂(Spec.mvn (T • o.cov)) ∧
      ∫ s, s ^ 2 ∂(Spec.invGammaMeasure α β) = ∫ z, Spec.basket o.weight F (T • o.cov) z ^ 2 ∂(Spec.mvn (T • o.cov)) ∧
      BasketMilevsky.price o K spot T cp = Spec.discount o.intr T * ∫ s, Spec.payoff cp K s ∂(Spec.invGammaMeasure α β) := by
  intro F
  obtain ⟨h1, h2, _⟩ := basket_raw_moments o ho hT F
  have hfw : o.fwd spot T = F := fwd_eq o spot T
  rw [milevsky_eq o hv]
  rw [hfw] at hv ⊢
  set vs := BasketABC.varScaled o F T with hvs
  have hM : 0 < BasketABC.m1 o F := by rw [m1_eq]; exact hF
  have hs : (proxy vs).mp.sigma ≠ 0 := (sqrt_pos.2 (log_pos (by linarith))).ne'
  obtain ⟨hp, hm1, hm2⟩ := InvGam.invgam_moments (proxy vs) hs hM one_pos
  have hfwd : Spec.forward (proxy vs).mp.isFwd (proxy vs).mp.intr (proxy vs).mp.divr (BasketABC.m1 o F) 1 = BasketABC.m1 o F := by
    unfold Spec.forward proxy; simp
  refine ⟨_, _, hp, ?_, ?_, ?_⟩
  · rw [hm1, hfwd, h1]
  · rw [hm2, hfwd, h2, proxy_sq hv, exp_log (by linarith), hvs]
    unfold BasketABC.varScaled
    have := hM.ne'
    field_simp
    ring
  · rw [InvGam.invgam_price_eq_expectation (proxy vs) hcp hs hK hM one_pos rfl]
    have : Spec.discount (proxy vs).mp.intr 1 = 1 := by unfold Spec.discount proxy; simp
    rw [this, one_mul]

/-- **C94.** Put-call parity of `BsmBasketMilevsky1998`. -/
theorem milevsky_parity {K T : ℝ} {spot : Fin n → ℝ} (hv : 0 < BasketABC.varScaled o (o.fwd spot T) T)
    (hF : 0 < ∑ i, o.weight i * Spec.forwards o.isFwd o.intr o.divr spot T i) :
    Spec.Parity (BasketMilevsky.price o K spot T 1) (BasketMilevsky.price o K spot T (-1)) (Spec.discount o.intr T)
      (∑ i, o.weight i * Spec.forwards o.isFwd o.intr o.divr spot T i) K := by
  have hb : 0 < ((proxy (BasketABC.varScaled o (o.fwd spot T) T)).alphaBeta (BasketABC.m1 o (o.fwd spot T)) 1).2 := by
    rw [proxy_ab hv]
    have h1 : 0 < 1 / BasketABC.varScaled o (o.fwd spot T) T := one_div_pos.2 hv
    have : 0 < BasketABC.m1 o (o.fwd spot T) := by rw [fwd_eq, m1_eq]; exact hF
    exact mul_pos (by linarith) this
  have h := InvGam.invgam_parity_actual (proxy (BasketABC.varScaled o (o.fwd spot T) T)) (K := K) (S := BasketABC.m1 o (o.fwd spot T)) (T := 1) hb.ne'
  unfold Spec.Parity at *
  rw [milevsky_eq o hv, milevsky_eq o hv, ← mul_sub, h, fwd_eq, m1_eq]
  unfold proxy Spec.discount Spec.forward
  simp

/-! ### The geometric proxy is not a lower bound -/

lemma ncdf_slope {x : ℝ} (hx : 0 < x) : ∃ c, -x < c ∧ c < x ∧ ncdf x - ncdf (-x) = 2 * x * npdf c := by
  obtain ⟨c, hc, h⟩ := exists_hasDerivAt_eq_slope ncdf npdf (show -x < x by linarith) continuous_ncdf.continuousOn
    fun y _ => hasDerivAt_ncdf y
  refine ⟨c, hc.1, hc.2, ?_⟩
  rw [h]
  field_simp
  ring

lemma sqrt_two_pi_bounds : 2 < √(2 * π) ∧ √(2 * π) < 3 := by
  have h3 := pi_gt_three
  have h4 := pi_lt_four
  constructor
  · rw [lt_sqrt (by norm_num)]; linarith
  · rw [sqrt_lt' (by norm_num)]; linarith

lemma atm_call {F s : ℝ} (hF : 0 < F) : black 1 F F s = F * (ncdf (s / 2) - ncdf (-(s / 2))) := by
  unfold black bd1 bd2
  rw [div_self hF.ne', log_one]
  ring_nf

/-- At-the-money call: at most `F s / 2`. -/
lemma atm_le {F s : ℝ} (hF : 0 < F) (hs : 0 < s) : black 1 F F s ≤ F * (s / 2) := by
  rw [atm_call hF]
  obtain ⟨c, _, _, h⟩ := ncdf_slope (half_pos hs)
  rw [h]
  have hn : npdf c ≤ 1 / 2 := by
    unfold npdf
    obtain ⟨h2, _⟩ := sqrt_two_pi_bounds
    have : exp (-c ^ 2 / 2) ≤ 1 := by rw [exp_le_one_iff]; nlinarith [sq_nonneg c]
    rw [div_le_iff₀ (by linarith)]
    linarith
  have := mul_le_mul_of_nonneg_left hn hs.le
  refine mul_le_mul_of_nonneg_left ?_ hF.le
  linarith

/-- At-the-money call with standard deviation at least one: more than a quarter of the forward. -/
lemma atm_ge {F s : ℝ} (hF : 0 < F) (hs : 1 ≤ s) : F * (1 / 4) ≤ black 1 F F s := by
  rw [atm_call hF]
  refine mul_le_mul_of_nonneg_left ?_ hF.le
  obtain ⟨c, h1, h2, h⟩ := ncdf_slope (x := 1 / 2) (by norm_num)
  have hm1 : ncdf (1 / 2) ≤ ncdf (s / 2) := monotone_ncdf (by linarith)
  have hm2 : ncdf (-(s / 2)) ≤ ncdf (-(1 / 2)) := monotone_ncdf (by linarith)
  have hn : 1 / 4 ≤ npdf c := by
    unfold npdf
    obtain ⟨h3, h4⟩ := sqrt_two_pi_bounds
    rw [le_div_iff₀ (by linarith)]
    have := add_one_le_exp (-c ^ 2 / 2)
    nlinarith
  linarith

lemma asset_call {ι : Type*} [Fintype ι] [DecidableEq ι] {S : Matrix ι ι ℝ} (hS : S.PosSemidef) {F : ι → ℝ} (i : ι) (hF : 0 < F i) (hs : 0 < S i i) {cp K : ℝ}
    (hcp : Spec.IsCp cp) (hK : 0 < K) :
    ∫ z, Spec.payoff cp K (Spec.gbmVec F S z i) ∂(Spec.mvn S) = black cp (F i) K (√(S i i)) := by
  have h := MvGauss.integral_dot_mvn hS (Pi.single i 1) (f := fun y => Spec.payoff cp K (F i * exp (y - S i i / 2)))
    ((MultiLogn.continuous_payoff cp K).measurable.comp (by fun_prop))
  rw [MultiLogn.quad_single] at h
  simp only [single_one_dotProduct] at h
  rw [← gaussE_black hcp hF hK (sqrt_pos.2 hs)]
  unfold Spec.gbm
  rw [sq_sqrt hs.le]
  exact h

/-- The counterexample: a small volatile asset and a large quiet one, equally weighted, uncorrelated. -/
noncomputable def geoEx : Ma 2 where
  sigma := ![2, 1 / 10]
  cov := !![4, 0; 0, 1 / 100]
  chol := !![2, 0; 0, 1 / 10]
  weight := ![1 / 2, 1 / 2]
  intr := 0
  divr := 0
  isFwd := false

lemma geoEx_valid : geoEx.Valid := by
  constructor
  · intro i; fin_cases i <;> norm_num [geoEx]
  · ext i j; fin_cases i <;> fin_cases j <;> norm_num [geoEx, Matrix.mul_apply, Fin.sum_univ_two]

/-- **C57.** The documentation calls `BsmBasketGeoApprox` a lower bound of the basket price.  It is not one: there is a basket with
positive weights and a valid covariance whose at-the-money call is worth less than a quarter of the returned value. -/
theorem geo_not_lower_bound : ∃ (o : Ma 2) (K T : ℝ) (spot : Fin 2 → ℝ), o.Valid ∧ (∀ i, 0 < o.weight i) ∧ (∀ i, 0 < spot i) ∧ 0 < K ∧ 0 < T ∧
    4 * Spec.basketPrice o.weight (Spec.forwards o.isFwd o.intr o.divr spot T) (T • o.cov) (Spec.discount o.intr T) K 1 <
      GeoApprox.price o K spot T 1 := by
  refine ⟨geoEx, 101 / 2, 1, ![1, 100], geoEx_valid, ?_, ?_, by norm_num, by norm_num, ?_⟩
  · intro i; fin_cases i <;> norm_num [geoEx]
  · intro i; fin_cases i <;> norm_num
  have hF : Spec.forwards geoEx.isFwd geoEx.intr geoEx.divr ![1, 100] 1 = ![1, 100] := by
    ext i; unfold Spec.forwards Spec.forward geoEx; simp
  have hd : Spec.discount geoEx.intr 1 = 1 := by unfold Spec.discount geoEx; simp
  have hS : (geoEx.cov).PosSemidef := geoEx_valid.posSemidef
  have hgeo : 101 / 2 * (1 / 4) ≤ GeoApprox.price geoEx (101 / 2) ![1, 100] 1 1 := by
    unfold GeoApprox.price
    rw [SpreadOpt.priceFormula_black, df_eq, hd, fwd_eq, hF, one_mul]
    have e1 : ![(1:ℝ), 100] ⬝ᵥ geoEx.weight = 101 / 2 := by norm_num [geoEx, dotProduct, Fin.sum_univ_two]
    have e2 : geoEx.weight ⬝ᵥ geoEx.cov *ᵥ geoEx.weight = 401 / 400 := by
      norm_num [geoEx, dotProduct, Matrix.mulVec, Fin.sum_univ_two]
    have h1 : 1 ≤ √(401 / 400 : ℝ) := by rw [one_le_sqrt]; norm_num
    rw [e1, e2]
    refine atm_ge (by norm_num) ?_
    refine h1.trans ?_
    unfold sigmaStd
    rw [sqrt_one, mul_one]
    exact le_max_left _ _
  have htrue : Spec.basketPrice geoEx.weight ![1, 100] ((1 : ℝ) • geoEx.cov) 1 (101 / 2) 1 ≤ 3 := by
    rw [one_smul]
    unfold Spec.basketPrice
    rw [one_mul]
    have hi := fun i => MultiLogn.integrable_gbmVec hS ![1, 100] i
    have hpay : ∀ (i : Fin 2) (K : ℝ), Integrable (fun z => Spec.payoff 1 K (Spec.gbmVec ![1, 100] geoEx.cov z i)) (Spec.mvn geoEx.cov) := fun i K => by
      unfold Spec.payoff
      exact (((hi i).sub (integrable_const K)).const_mul 1).pos_part
    have hb : ∀ z, Spec.payoff 1 (101 / 2) (Spec.basket geoEx.weight ![1, 100] geoEx.cov z) ≤
        1 / 2 * Spec.payoff 1 1 (Spec.gbmVec ![1, 100] geoEx.cov z 0) + 1 / 2 * Spec.payoff 1 100 (Spec.gbmVec ![1, 100] geoEx.cov z 1) := by
      intro z
      unfold Spec.payoff Spec.basket
      rw [Fin.sum_univ_two]
      have e0 : geoEx.weight 0 = 1 / 2 := rfl
      have e1 : geoEx.weight 1 = 1 / 2 := rfl
      rw [e0, e1]
      refine max_le ?_ (by positivity)
      have h1 := le_max_left (1 * (Spec.gbmVec ![1, 100] geoEx.cov z 0 - 1)) 0
      have h2 := le_max_left (1 * (Spec.gbmVec ![1, 100] geoEx.cov z 1 - 100)) 0
      linarith
    have hB : Integrable (fun z => Spec.payoff 1 (101 / 2) (Spec.basket geoEx.weight ![1, 100] geoEx.cov z)) (Spec.mvn geoEx.cov) := by
      unfold Spec.payoff Spec.basket
      exact (((integrable_finsetSum _ fun i _ => (hi i).const_mul _).sub (integrable_const _)).const_mul 1).pos_part
    refine (integral_mono hB (((hpay 0 1).const_mul _).add ((hpay 1 100).const_mul _)) hb).trans ?_
    have hadd : ∫ z, (1 / 2 * Spec.payoff 1 1 (Spec.gbmVec ![1, 100] geoEx.cov z 0) + 1 / 2 * Spec.payoff 1 100 (Spec.gbmVec ![1, 100] geoEx.cov z 1)) ∂(Spec.mvn geoEx.cov)
        = 1 / 2 * black 1 1 1 (√(geoEx.cov 0 0)) + 1 / 2 * black 1 100 100 (√(geoEx.cov 1 1)) := by
      rw [integral_add ((hpay 0 1).const_mul _) ((hpay 1 100).const_mul _), integral_const_mul, integral_const_mul,
        asset_call hS 0 (by norm_num) (by norm_num [geoEx]) (Or.inl rfl) one_pos, asset_call hS 1 (by norm_num) (by norm_num [geoEx]) (Or.inl rfl) (by norm_num)]
      rfl
    change ∫ z, (1 / 2 * Spec.payoff 1 1 (Spec.gbmVec ![1, 100] geoEx.cov z 0) + 1 / 2 * Spec.payoff 1 100 (Spec.gbmVec ![1, 100] geoEx.cov z 1)) ∂(Spec.mvn geoEx.cov) ≤ 3
    rw [hadd]
    have e0 : √(geoEx.cov 0 0) = 2 := by
      rw [show geoEx.cov 0 0 = 2 ^ 2 by norm_num [geoEx], sqrt_sq (by norm_num)]
    have e1 : √(geoEx.cov 1 1) = 1 / 10 := by
      rw [show geoEx.cov 1 1 = (1 / 10) ^ 2 by norm_num [geoEx], sqrt_sq (by norm_num)]
    rw [e0, e1]
    have h1 := atm_le (F := 1) (s := 2) one_pos (by norm_num)
    have h2 := atm_le (F := 100) (s := 1 / 10) (by norm_num) (by norm_num)
    linarith
  rw [hF, hd]
  linarith

/-- The hypotheses of the C57/C58/C94 theorems are met by a concrete basket. -/
example : geoEx.Valid ∧ 0 < ∑ i, geoEx.weight i * Spec.forwards geoEx.isFwd geoEx.intr geoEx.divr ![1, 100] 1 i ∧
    eps ≤ √(geoEx.weight ⬝ᵥ geoEx.cov *ᵥ geoEx.weight) * √1 := by
  refine ⟨geoEx_valid, ?_, ?_⟩
  · norm_num [Fin.sum_univ_two, Spec.forwards, Spec.forward, geoEx]
  · have e2 : geoEx.weight ⬝ᵥ geoEx.cov *ᵥ geoEx.weight = 401 / 400 := by
      norm_num [geoEx, dotProduct, Matrix.mulVec, Fin.sum_univ_two]
    have h1 : 1 ≤ √(401 / 400 : ℝ) := by rw [one_le_sqrt]; norm_num
    rw [e2, sqrt_one, mul_one]
    have := eps_lt
    linarith

end Basket

end PyFENG
