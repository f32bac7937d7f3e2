import Verif.Model.SvMc
import Verif.Props.Bsm
import Mathlib.MeasureTheory.Integral.Pi
import Verif.Props.SvMc

/-!
# C37, C77, C78: conditional Monte-Carlo and mixture pricing
-/

open MeasureTheory ProbabilityTheory

namespace PyFENG.CondMc

variable {ι : Type*} [Fintype ι]

/-- Forward of the unit-spot base model. -/
lemma forward_mul (b : Bool) (r q S T f : ℝ) : Spec.forward b r q (S * f) T = Spec.forward b r q S T * f := by
  unfold Spec.forward; split <;> ring

lemma forward_scale (b : Bool) (r q S T : ℝ) : Spec.forward b r q S T = S * Spec.forward b r q 1 T := by
  unfold Spec.forward; split <;> ring

/-- **C37** (parity, conditional Monte-Carlo).  On any set of simulated conditional forwards and volatilities the call and
put prices differ by the discounted difference between the *simulated* mean forward and the strike; the reported
`result['spot error']` is exactly the relative defect of the forward. -/
theorem price_parity_simulated (m : CondMc) (f σ : ι → ℝ) {K S T : ℝ} (hS : S ≠ 0) (hc : m.correctFwd = false) [Nonempty ι] :
    Spec.Parity (m.price f σ K S T 1).1 (m.price f σ K S T (-1)).1 (Spec.discount m.intr T)
      (Spec.forward m.isFwd m.intr m.divr S T * (1 + (m.price f σ K S T 1).2)) K := by
  have hn : (Fintype.card ι : ℝ) ≠ 0 := by simp
  unfold Spec.Parity
  simp only [price, hc, Bool.false_eq_true, if_false]
  rw [← mul_sub, ← sub_div, ← Finset.sum_sub_distrib]
  have : ∀ i, Bsm.price (m.base (σ i)) (K / S) (f i) T 1 - Bsm.price (m.base (σ i)) (K / S) (f i) T (-1)
      = Spec.discount m.intr T * (Spec.forward m.isFwd m.intr m.divr 1 T * f i - K / S) := by
    intro i
    have := bsm_put_call_parity (m.base (σ i)) (K / S) (f i) T
    unfold Spec.Parity at this
    rw [this]
    simp only [base]
    rw [forward_scale _ _ _ (f i)]
    ring
  simp only [this]
  rw [← Finset.mul_sum, Finset.sum_sub_distrib, ← Finset.mul_sum, forward_scale _ _ _ S]
  simp
  field_simp

/-- **C37** (exact parity).  With `correct_fwd` the parity is exact with the true forward, for every set of paths. -/
theorem price_parity_corrected (m : CondMc) (f σ : ι → ℝ) {K S T : ℝ} (hS : S ≠ 0) (hc : m.correctFwd = true)
    (hf : ∑ i, f i ≠ 0) :
    Spec.Parity (m.price f σ K S T 1).1 (m.price f σ K S T (-1)).1 (Spec.discount m.intr T)
      (Spec.forward m.isFwd m.intr m.divr S T) K := by
  have hne : Nonempty ι := by
    by_contra h
    rw [not_nonempty_iff] at h
    simp at hf
  have hn : (Fintype.card ι : ℝ) ≠ 0 := by simp
  set c := (∑ i, f i) / (Fintype.card ι : ℝ) with hcd
  have hc0 : c ≠ 0 := div_ne_zero hf hn
  have h := price_parity_simulated { m with correctFwd := false } (fun i => f i / c) σ (K := K) (T := T) hS rfl
  unfold Spec.Parity at h ⊢
  have hmean : (∑ i, f i / c) / (Fintype.card ι : ℝ) = 1 := by
    rw [← Finset.sum_div, div_div, mul_comm, ← div_div, ← hcd, div_self hc0]
  have e1 : ∀ cp, (m.price f σ K S T cp).1 = (price { m with correctFwd := false } (fun i => f i / c) σ K S T cp).1 := by
    intro cp
    simp [price, hc, base, vol, hcd]
  have e2 : (price { m with correctFwd := false } (fun i => f i / c) σ K S T 1).2 = 0 := by
    simp only [price]
    rw [hmean]; ring
  rw [e1, e1, h, e2]
  ring

/-- **C37** (bounds).  With positive simulated forwards the prices respect the no-arbitrage bounds of the simulated forward:
strictly above the discounted intrinsic value (Jensen), strictly below the discounted forward (call) or strike (put). -/
theorem price_bounds (m : CondMc) (f σ : ι → ℝ) {K S T cp : ℝ} (hcp : Spec.IsCp cp) (hK : 0 < K) (hS : 0 < S)
    (hf : ∀ i, 0 < f i) [Nonempty ι] :
    let F := Spec.forward m.isFwd m.intr m.divr S T * (if m.correctFwd then 1 else (∑ i, f i) / Fintype.card ι)
    max (Spec.discount m.intr T * (cp * (F - K))) 0 < (m.price f σ K S T cp).1 ∧
      (m.price f σ K S T cp).1 < Spec.discount m.intr T * (if cp = 1 then F else K) := by
  intro F
  have hnn : (0 : ℝ) < Fintype.card ι := by exact_mod_cast Fintype.card_pos
  have hsum : 0 < ∑ i, f i := Finset.sum_pos (fun i _ => hf i) Finset.univ_nonempty
  set c := (∑ i, f i) / (Fintype.card ι : ℝ) with hcd
  have hc0 : 0 < c := div_pos hsum hnn
  set g : ι → ℝ := fun i => if m.correctFwd then f i / c else f i with hg
  have hgpos : ∀ i, 0 < g i := fun i => by simp only [hg]; split; exacts [div_pos (hf i) hc0, hf i]
  have hgmean : (∑ i, g i) / Fintype.card ι = if m.correctFwd then 1 else c := by
    simp only [hg]
    split
    · rw [← Finset.sum_div, div_div, mul_comm, ← div_div, ← hcd, div_self hc0.ne']
    · rfl
  have hp : (m.price f σ K S T cp).1 = S * ((∑ i, Bsm.price (m.base (σ i)) (K / S) (g i) T cp) / Fintype.card ι) := rfl
  have hb := fun i => bsm_price_bounds (m.base (σ i)) (T := T) hcp (div_pos hK hS) (hgpos i)
  have hbase : ∀ i, Spec.forward (m.base (σ i)).isFwd (m.base (σ i)).intr (m.base (σ i)).divr (g i) T
      = Spec.forward m.isFwd m.intr m.divr 1 T * g i := fun i => by
    simp only [base]; rw [forward_scale]; ring
  have hF : F = S * (Spec.forward m.isFwd m.intr m.divr 1 T * ((∑ i, g i) / Fintype.card ι)) := by
    simp only [F]; rw [hgmean, forward_scale]; ring
  set D := Spec.discount m.intr T with hD
  have hDi : ∀ i, Spec.discount (m.base (σ i)).intr T = D := fun i => rfl
  set F1 := Spec.forward m.isFwd m.intr m.divr 1 T with hF1
  simp only [hbase, hDi] at hb
  rw [hp]
  have hsumle : ∀ (u : ι → ℝ), (∀ i, u i < Bsm.price (m.base (σ i)) (K / S) (g i) T cp) →
      S * ((∑ i, u i) / Fintype.card ι) < S * ((∑ i, Bsm.price (m.base (σ i)) (K / S) (g i) T cp) / Fintype.card ι) := by
    intro u hu
    have := Finset.sum_lt_sum_of_nonempty (Finset.univ_nonempty (α := ι)) fun i _ => hu i
    exact mul_lt_mul_of_pos_left (div_lt_div_of_pos_right this hnn) hS
  have hsumge : ∀ (u : ι → ℝ), (∀ i, Bsm.price (m.base (σ i)) (K / S) (g i) T cp < u i) →
      S * ((∑ i, Bsm.price (m.base (σ i)) (K / S) (g i) T cp) / Fintype.card ι) < S * ((∑ i, u i) / Fintype.card ι) := by
    intro u hu
    have := Finset.sum_lt_sum_of_nonempty (Finset.univ_nonempty (α := ι)) fun i _ => hu i
    exact mul_lt_mul_of_pos_left (div_lt_div_of_pos_right this hnn) hS
  refine ⟨max_lt ?_ ?_, ?_⟩
  · refine lt_of_eq_of_lt ?_ (hsumle (fun i => D * (cp * (F1 * g i - K / S))) fun i => lt_of_le_of_lt (le_max_left _ _) (hb i).1)
    rw [← Finset.mul_sum, ← Finset.mul_sum, Finset.sum_sub_distrib, ← Finset.mul_sum, hF]
    simp
    field_simp
  · refine lt_of_eq_of_lt ?_ (hsumle (fun _ => 0) fun i => lt_of_le_of_lt (le_max_right _ _) (hb i).1)
    simp
  · refine lt_of_lt_of_eq (hsumge _ fun i => (hb i).2) ?_
    rw [← Finset.mul_sum]
    split
    · rw [← Finset.mul_sum, hF]
      field_simp
    · simp
      field_simp

/-- The volatility at time zero: the parameter `sigma`, or its square root for models whose state is the variance. -/
noncomputable def Spec.initialVol (isVariance : Bool) (sigma : ℝ) : ℝ := if isVariance then √sigma else sigma

lemma vol_eq (m : CondMc) : m.vol = Spec.initialVol m.varProcess m.sigma := rfl

/-- **C37** (conditional expectation).  When every conditional volatility is above the machine-precision floor, the price is
the average over the paths of the discounted expected payoff of the conditionally lognormal price. -/
theorem price_eq_average (m : CondMc) (f σ : ι → ℝ) {K S T cp : ℝ} (hcp : Spec.IsCp cp) (hK : 0 < K) (hS : 0 < S)
    (hf : ∀ i, 0 < f i) (hc : m.correctFwd = false) (hv : ∀ i, eps ≤ Spec.initialVol m.varProcess m.sigma * σ i * √T) :
    (m.price f σ K S T cp).1 = (∑ i, Spec.discount m.intr T *
      Spec.gaussE fun z => Spec.payoff cp K (Spec.gbm (Spec.forward m.isFwd m.intr m.divr S T * f i) (Spec.initialVol m.varProcess m.sigma * σ i * √T) z))
        / Fintype.card ι := by
  simp only [price, hc, Bool.false_eq_true, if_false]
  rw [← mul_div_assoc, Finset.mul_sum]
  congr 1
  refine Finset.sum_congr rfl fun i _ => ?_
  rw [bsm_price_eq_expectation (m.base (σ i)) hcp (div_pos hK hS) (hf i) (hv i)]
  simp only [base, vol_eq]
  rw [← mul_assoc, mul_comm S, mul_assoc]
  congr 1
  unfold Spec.gaussE
  rw [← integral_const_mul]
  congr 1
  ext z
  unfold Spec.payoff Spec.gbm
  rw [forward_scale _ _ _ S, forward_scale _ _ _ (f i), mul_max_of_nonneg _ _ hS.le, mul_zero]
  congr 1
  field_simp

example : ∃ (m : CondMc) (f σ : Bool → ℝ), (∀ i, 0 < f i) ∧ (∀ i, eps ≤ Spec.initialVol m.varProcess m.sigma * σ i * √1) ∧ m.correctFwd = false :=
  ⟨⟨1, false, 0, 0, false, false⟩, fun b => if b then 0.9 else 1.1, fun _ => 1, fun i => by cases i <;> norm_num,
    fun i => by simp [Spec.initialVol]; unfold eps; norm_num, rfl⟩

/-- **C37** (unbiasedness).  If the simulated pairs (conditional forward, conditional volatility) all have the law `ν`, the
expected Monte-Carlo price is the discounted expected payoff under the mixture: draw the pair from `ν`, then a lognormal price
with that forward and volatility.  No assumption on the dependence between paths. -/
theorem price_unbiased {Ω : Type*} [MeasurableSpace Ω] (P : Measure Ω) [Nonempty ι] (m : CondMc)
    (f σ : ι → Ω → ℝ) (ν : Measure (ℝ × ℝ))
    (hmeas : ∀ i, AEMeasurable (fun ω => (f i ω, σ i ω)) P) (hlaw : ∀ i, P.map (fun ω => (f i ω, σ i ω)) = ν)
    {K S T cp : ℝ} (hcp : Spec.IsCp cp) (hK : 0 < K) (hS : 0 < S) (hf : ∀ i ω, 0 < f i ω) (hc : m.correctFwd = false)
    (hv : ∀ i ω, eps ≤ Spec.initialVol m.varProcess m.sigma * σ i ω * √T)
    (hI : Integrable (fun p : ℝ × ℝ => Spec.gaussE fun z => Spec.payoff cp K
      (Spec.gbm (Spec.forward m.isFwd m.intr m.divr S T * p.1) (Spec.initialVol m.varProcess m.sigma * p.2 * √T) z)) ν) :
    ∫ ω, (m.price (fun i => f i ω) (fun i => σ i ω) K S T cp).1 ∂P
      = Spec.discount m.intr T * ∫ p, (Spec.gaussE fun z => Spec.payoff cp K
          (Spec.gbm (Spec.forward m.isFwd m.intr m.divr S T * p.1) (Spec.initialVol m.varProcess m.sigma * p.2 * √T) z)) ∂ν := by
  have hn : (Fintype.card ι : ℝ) ≠ 0 := by simp
  have e := fun ω => price_eq_average m (fun i => f i ω) (fun i => σ i ω) hcp hK hS (fun i => hf i ω) hc (fun i => hv i ω)
  simp only [e]
  rw [integral_div]
  set G : ℝ × ℝ → ℝ := fun p => Spec.gaussE fun z => Spec.payoff cp K
      (Spec.gbm (Spec.forward m.isFwd m.intr m.divr S T * p.1) (Spec.initialVol m.varProcess m.sigma * p.2 * √T) z) with hG
  have hi : ∀ i, Integrable (fun ω => G (f i ω, σ i ω)) P := fun i => by
    have := hlaw i ▸ hI
    exact this.comp_aemeasurable (hmeas i)
  have hint : ∀ i, ∫ ω, G (f i ω, σ i ω) ∂P = ∫ p, G p ∂ν := fun i => by
    rw [← hlaw i, integral_map (hmeas i)]
    rw [hlaw i]
    exact hI.1
  have h1 := integral_finsetSum (μ := P) Finset.univ fun i (_ : i ∈ Finset.univ) =>
    (hi i).const_mul (Spec.discount m.intr T)
  refine (congrArg (· / (Fintype.card ι : ℝ)) h1).trans ?_
  simp only [integral_const_mul, hint]
  simp

/-- The hypotheses of `price_unbiased` are met: two paths, random forward 0.9 or 1.1. -/
example : ∃ (P : Measure Bool) (ν : Measure (ℝ × ℝ)) (f σ : Bool → Bool → ℝ),
    (∀ i, AEMeasurable (fun ω => (f i ω, σ i ω)) P) ∧ (∀ i, P.map (fun ω => (f i ω, σ i ω)) = ν) ∧ (∀ i ω, 0 < f i ω) ∧
    Integrable (fun p : ℝ × ℝ => Spec.gaussE fun z => Spec.payoff 1 1 (Spec.gbm (1 * p.1) (1 * p.2 * √1) z)) ν := by
  refine ⟨(1 / 2 : NNReal) • (Measure.dirac true + Measure.dirac false),
    (1 / 2 : NNReal) • (Measure.dirac (1.1, 1) + Measure.dirac (0.9, 1)),
    fun i ω => if i = ω then 1.1 else 0.9, fun _ _ => 1, fun i => ?_, fun i => ?_, fun i ω => ?_, ?_⟩
  · exact (measurable_of_finite _).aemeasurable
  · rw [Measure.map_smul, Measure.map_add _ _ (measurable_of_finite _), Measure.map_dirac' (measurable_of_finite _),
      Measure.map_dirac' (measurable_of_finite _)]
    cases i <;> simp [add_comm]
  · dsimp only; split <;> norm_num
  · refine Integrable.smul_measure_nnreal ?_
    exact (integrable_dirac (by finiteness)).add_measure (integrable_dirac (by finiteness))

/-- **C37** (mixtures).  With `correct_fwd` the parity of `SvMixtureABC.price` holds with the strike multiplied by the total
weight, so it misses exact parity by at most `1.001e-5 * df * K` (the tolerance of the `isclose` assertion). -/
theorem mixture_parity (m : CondMc) (f σ w : ι → ℝ) {K S T : ℝ} (hS : S ≠ 0) (hK : 0 ≤ K) (hc : m.correctFwd = true)
    (hf : ∑ i, f i * w i ≠ 0) {c p ec ep : ℝ} (h1 : m.priceMixture f σ w K S T 1 = .ok (c, ec))
    (h2 : m.priceMixture f σ w K S T (-1) = .ok (p, ep)) :
    c - p = Spec.discount m.intr T * (Spec.forward m.isFwd m.intr m.divr S T - K * ∑ i, w i) ∧
      |c - p - Spec.discount m.intr T * (Spec.forward m.isFwd m.intr m.divr S T - K)|
        ≤ Spec.discount m.intr T * K * (1e-8 + 1e-5) := by
  unfold priceMixture at h1 h2
  simp only at h1 h2
  split at h1
  swap
  · cases h1
  rename_i hw
  rw [if_pos hw] at h2
  simp only [Except.ok.injEq, Prod.mk.injEq, hc, if_true] at h1 h2
  obtain ⟨h1, -⟩ := h1
  obtain ⟨h2, -⟩ := h2
  have key : c - p = Spec.discount m.intr T * (Spec.forward m.isFwd m.intr m.divr S T - K * ∑ i, w i) := by
    rw [← h1, ← h2, ← mul_sub, ← Finset.sum_sub_distrib]
    have : ∀ i, Bsm.price (m.base (σ i)) (K / S) (f i / ∑ j, f j * w j) T 1 * w i
        - Bsm.price (m.base (σ i)) (K / S) (f i / ∑ j, f j * w j) T (-1) * w i
        = Spec.discount m.intr T * (Spec.forward m.isFwd m.intr m.divr 1 T / (∑ j, f j * w j) * (f i * w i) - K / S * w i) := by
      intro i
      have := bsm_put_call_parity (m.base (σ i)) (K / S) (f i / ∑ j, f j * w j) T
      unfold Spec.Parity at this
      rw [← sub_mul, this]
      simp only [base]
      rw [forward_scale _ _ _ (f i / _)]
      ring
    simp only [this]
    rw [← Finset.mul_sum, Finset.sum_sub_distrib, ← Finset.mul_sum, ← Finset.mul_sum, forward_scale _ _ _ S]
    field_simp
  refine ⟨key, ?_⟩
  have e : c - p - Spec.discount m.intr T * (Spec.forward m.isFwd m.intr m.divr S T - K)
      = -(Spec.discount m.intr T * K * ((∑ i, w i) - 1)) := by rw [key]; ring
  have hD : 0 ≤ Spec.discount m.intr T := (Real.exp_pos _).le
  rw [e, abs_neg, abs_mul, abs_of_nonneg (mul_nonneg hD hK)]
  exact mul_le_mul_of_nonneg_left hw (mul_nonneg hD hK)

/-- **C37** (mixtures, no correction): the parity defect is the reported spot error. -/
theorem mixture_parity_simulated (m : CondMc) (f σ w : ι → ℝ) {K S T : ℝ} (hS : S ≠ 0) (hc : m.correctFwd = false)
    {c p ec ep : ℝ} (h1 : m.priceMixture f σ w K S T 1 = .ok (c, ec)) (h2 : m.priceMixture f σ w K S T (-1) = .ok (p, ep)) :
    c - p = Spec.discount m.intr T * (Spec.forward m.isFwd m.intr m.divr S T * (1 + ec) - K * ∑ i, w i) := by
  unfold priceMixture at h1 h2
  simp only at h1 h2
  split at h1
  swap
  · cases h1
  rename_i hw
  rw [if_pos hw] at h2
  simp only [Except.ok.injEq, Prod.mk.injEq, hc, Bool.false_eq_true, if_false] at h1 h2
  obtain ⟨h1, he⟩ := h1
  obtain ⟨h2, -⟩ := h2
  rw [← h1, ← h2, ← he, ← mul_sub, ← Finset.sum_sub_distrib]
  have : ∀ i, Bsm.price (m.base (σ i)) (K / S) (f i) T 1 * w i - Bsm.price (m.base (σ i)) (K / S) (f i) T (-1) * w i
      = Spec.discount m.intr T * (Spec.forward m.isFwd m.intr m.divr 1 T * (f i * w i) - K / S * w i) := by
    intro i
    have := bsm_put_call_parity (m.base (σ i)) (K / S) (f i) T
    unfold Spec.Parity at this
    rw [← sub_mul, this]
    simp only [base]
    rw [forward_scale _ _ _ (f i)]
    ring
  simp only [this]
  rw [← Finset.mul_sum, Finset.sum_sub_distrib, ← Finset.mul_sum, ← Finset.mul_sum, forward_scale _ _ _ S]
  field_simp
  ring

/-- Non-vacuity: weights that sum to one pass the assertion. -/
example (m : CondMc) (f σ : Bool → ℝ) (K S T cp : ℝ) : ∃ r, m.priceMixture f σ (fun _ => 1 / 2) K S T cp = .ok r := by
  unfold priceMixture
  simp only [Fintype.sum_bool]
  rw [if_pos (by norm_num)]
  exact ⟨_, rfl⟩

/-- **C37** (weights).  Weights whose sum misses one by more than the `isclose` tolerance raise AssertionError. -/
theorem mixture_rejects (m : CondMc) (f σ w : ι → ℝ) (K S T cp : ℝ) :
    m.priceMixture f σ w K S T cp = .error .assertionError ↔ 1e-8 + 1e-5 < |(∑ i, w i) - 1| := by
  unfold priceMixture
  simp only
  split
  · rename_i h; simp [h]
  · rename_i h; simpa using h

/-- **C37** (variance options): call minus put is the discounted difference between the fair variance-swap strike and the
strike, on any simulated variances; both prices are non-negative. -/
theorem varOpt_parity (m : CondMc) (var : ι → ℝ) (K T : ℝ) [Nonempty ι] :
    Spec.Parity (m.priceVarOpt var K T 1) (m.priceVarOpt var K T (-1)) (Spec.discount m.intr T) (strikeVarSwap var) K ∧
      0 ≤ m.priceVarOpt var K T 1 ∧ 0 ≤ m.priceVarOpt var K T (-1) := by
  have hn : (Fintype.card ι : ℝ) ≠ 0 := by simp
  have hpos : ∀ cp, 0 ≤ m.priceVarOpt var K T cp := fun cp => by
    unfold priceVarOpt
    exact mul_nonneg (div_nonneg (Finset.sum_nonneg fun i _ => le_max_right _ _) (by positivity)) (Real.exp_pos _).le
  refine ⟨?_, hpos _, hpos _⟩
  unfold Spec.Parity priceVarOpt strikeVarSwap Spec.discount
  have h1 : SignType.sign (1 : ℝ) = 1 := sign_one
  have h2 : SignType.sign (-1 : ℝ) = -1 := by simp
  rw [h1, h2, ← sub_mul, ← sub_div, ← Finset.sum_sub_distrib]
  have : ∀ i, max (((1 : SignType) : ℝ) * (var i - K)) 0 - max (((-1 : SignType) : ℝ) * (var i - K)) 0 = var i - K := by
    intro i
    simp only [SignType.coe_one, SignType.coe_neg, one_mul, neg_mul, neg_sub]
    rcases le_total (var i) K with h | h
    · rw [max_eq_right (by linarith), max_eq_left (by linarith)]; ring
    · rw [max_eq_left (by linarith), max_eq_right (by linarith)]; ring
  simp only [this]
  rw [Finset.sum_sub_distrib]
  simp only [Finset.sum_const, Finset.card_univ, nsmul_eq_mul]
  rw [neg_mul]
  field_simp

/-! ### C77: `price_paths` -/

/-- Expected value of `price_paths` at observation `k`: given the conditional spots and volatilities of the steps, and
independent standard normal draws, the mean carries an extra factor `exp(σ²dt/2)` per step. -/
theorem pathValue_mean (tobs : List ℝ) (cond : ℕ → ℝ × ℝ) (k : ℕ) (hd : ∀ i < k, 0 ≤ McState.diff0 tobs i) :
    ∫ x : Fin k → ℝ, pathValue tobs cond (fun i => if h : i < k then x ⟨i, h⟩ else 0) k
        ∂(Measure.pi fun _ => gaussianReal 0 1)
      = ∏ i ∈ Finset.range k, (cond i).1 * Real.exp ((cond i).2 ^ 2 * McState.diff0 tobs i / 2) := by
  have h1 : (fun x : Fin k → ℝ => pathValue tobs cond (fun i => if h : i < k then x ⟨i, h⟩ else 0) k)
      = fun x => ∏ i : Fin k, (fun (i : Fin k) (y : ℝ) => (cond i).1 * Real.exp ((cond i).2 * √(McState.diff0 tobs i) * y)) i (x i) := by
    ext x
    unfold pathValue
    rw [Finset.prod_range]
    refine Finset.prod_congr rfl fun i _ => ?_
    simp
  have h2 := integral_fintype_prod_eq_prod (𝕜 := ℝ) (μ := fun _ : Fin k => gaussianReal 0 1)
    (fun (i : Fin k) (y : ℝ) => (cond i).1 * Real.exp ((cond i).2 * √(McState.diff0 tobs i) * y))
  rw [h1, h2, Finset.prod_range]
  refine Finset.prod_congr rfl fun i _ => ?_
  rw [integral_const_mul]
  congr 1
  have := gaussE_exp_lin ((cond i).2 * √(McState.diff0 tobs i)) 0
  simp only [Spec.gaussE, add_zero] at this
  rw [this, mul_pow, Real.sq_sqrt (hd i i.2)]

/-- **C77 is false of the code**: the simulated price paths are not a martingale.  With unit conditional spot and positive
volatility the mean simulated price at every observation after time zero is strictly above the initial price 1 (the drift
`-σ²dt/2` is missing). -/
theorem pathValue_not_martingale (tobs : List ℝ) (cond : ℕ → ℝ × ℝ) (k : ℕ) (hk : 0 < k)
    (hd : ∀ i < k, 0 < McState.diff0 tobs i) (h1 : ∀ i < k, (cond i).1 = 1) (h2 : ∀ i < k, 0 < (cond i).2) :
    1 < ∫ x : Fin k → ℝ, pathValue tobs cond (fun i => if h : i < k then x ⟨i, h⟩ else 0) k
        ∂(Measure.pi fun _ => gaussianReal 0 1) := by
  rw [pathValue_mean tobs cond k fun i hi => (hd i hi).le]
  have : ∀ i ∈ Finset.range k, 1 < (cond i).1 * Real.exp ((cond i).2 ^ 2 * McState.diff0 tobs i / 2) := by
    intro i hi
    have hi := Finset.mem_range.1 hi
    rw [h1 i hi, one_mul]
    refine Real.one_lt_exp_iff.2 ?_
    have := hd i hi
    have := h2 i hi
    positivity
  have h3 := Finset.prod_lt_prod_of_nonempty (f := fun _ => (1 : ℝ)) (fun _ _ => one_pos) this ⟨0, Finset.mem_range.2 hk⟩
  simpa using h3

example : ∃ (tobs : List ℝ) (cond : ℕ → ℝ × ℝ), (∀ i < 2, 0 < McState.diff0 tobs i) ∧ (∀ i < 2, (cond i).1 = 1) ∧
    ∀ i < 2, 0 < (cond i).2 := by
  refine ⟨[1, 2], fun _ => (1, 0.2), ?_, by simp, by norm_num⟩
  intro i hi
  have : i = 0 ∨ i = 1 := by omega
  rcases this with rfl | rfl <;> norm_num [McState.diff0]

end PyFENG.CondMc

namespace PyFENG.CondMc

variable {ι : Type*}

/-! ### C78: the `result` dictionary -/

/-- The value an object's owner expects to read: the spot error of that object's own last pricing. -/
noncomputable def Spec.ownError [DecidableEq ι] (o : ι) (ops : List (MixOp ι)) : Option ℝ :=
  (ops.reverse.findSome? fun
    | .price o' sm => if o' = o then some sm else none
    | .read _ => none).map (· - 1)

/-- **C78 holds for the Monte-Carlo classes**: their dictionary belongs to the instance. -/
theorem cond_result_own [DecidableEq ι] (o : ι) (ops : List (MixOp ι)) :
    (ops.foldl condStep fun _ => none) o = Spec.ownError o ops := by
  induction ops using List.reverseRecOn with
  | nil => rfl
  | append_singleton ops x ih =>
    rw [List.foldl_append]
    unfold Spec.ownError at ih ⊢
    rw [List.reverse_append]
    cases x with
    | price o' sm =>
      simp only [List.foldl_cons, List.foldl_nil, condStep, List.reverse_cons, List.reverse_nil, List.nil_append,
        List.singleton_append, List.findSome?_cons]
      by_cases h : o' = o
      · subst h; simp
      · rw [Function.update_of_ne (Ne.symm h), ih]; simp [h]
    | read _ => simpa [condStep] using ih

/-- **C78 is false for the mixture classes**: the dictionary is shared by all instances.  For every value `e` and every two
distinct objects there is a history in which the first object has been priced with a perfect forward, yet its
`result['spot error']` reads `e`, the error of the other object. -/
theorem mixture_result_shared [DecidableEq ι] (a b : ι) (hab : a ≠ b) (e : ℝ) :
    let ops : List (MixOp ι) := [.price a 1, .price b (1 + e)]
    Spec.ownError a ops = some 0 ∧ (mixStep (mixRun none ops) (.read a)).2 = some (some e) := by
  refine ⟨?_, ?_⟩
  · simp [Spec.ownError, Ne.symm hab]
  · simp [mixStep, mixRun]

/-- **C78** for a single mixture object (or histories that price only one object): the reading is its own error. -/
theorem mixture_result_single_partial [DecidableEq ι] (o : ι) (ops : List (MixOp ι))
    (h : ∀ x ∈ ops, ∀ o' sm, x = .price o' sm → o' = o) : mixRun none ops = Spec.ownError o ops := by
  induction ops using List.reverseRecOn with
  | nil => rfl
  | append_singleton ops x ih =>
    have ih' := ih fun y hy => h y (List.mem_append_left _ hy)
    unfold mixRun Spec.ownError at *
    rw [List.foldl_append, List.reverse_append]
    cases x with
    | price o' sm =>
      have : o' = o := h _ (by simp) o' sm rfl
      subst this
      simp [mixStep]
    | read _ => simpa [mixStep] using ih'

end PyFENG.CondMc
