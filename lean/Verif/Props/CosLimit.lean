import Verif.Props.Cos
import Mathlib.Analysis.PSeries

/-!
# C54, C73: convergence, truncation error and parity of the COS pricers
-/

namespace PyFENG

open Real MeasureTheory ProbabilityTheory Set Filter Topology

namespace Cos

lemma fold_eq (a b x : ℝ) : Spec.fold a b x = a + foldAbs (b - a) (x - a) := rfl

lemma fold_of_mem {a b x : ℝ} (hab : a < b) (hx : x ∈ Icc a b) : Spec.fold a b x = x := by
  rw [fold_eq, foldAbs_of_mem (sub_pos.2 hab) (by linarith [hx.1]) (by linarith [hx.2])]; ring

lemma fold_mem {a b : ℝ} (hab : a < b) (x : ℝ) : Spec.fold a b x ∈ Icc a b := by
  rw [fold_eq]
  exact ⟨by linarith [foldAbs_nonneg (b - a) (x - a)], by linarith [foldAbs_le (sub_pos.2 hab) (x - a)]⟩

lemma fold_cont (a b : ℝ) : Continuous (Spec.fold a b) := by
  have : Spec.fold a b = fun x => a + foldAbs (b - a) (x - a) := rfl
  rw [this]
  have := foldAbs_continuous (b - a)
  fun_prop

/-- The payoff coefficients are the cosine coefficients of the shifted payoff. -/
lemma payoffCoef_eq_cosCoef {a b kk cp : ℝ} (hab : a < b) (hk : 0 < kk) (hcp : Spec.IsCp cp) (k : ℕ) :
    payoffCoef kk a b cp k = cosCoef (fun t => Spec.payoff cp kk (exp (a + t))) (b - a) k := by
  rw [payoffCoef_integral hab hk hcp]
  unfold cosCoef
  congr 1
  have := intervalIntegral.integral_comp_add_left (a := 0) (b := b - a)
    (fun x => Spec.payoff cp kk (exp x) * cos (freq a b k * (x - a))) a
  simp only [add_zero, add_sub_cancel, add_sub_cancel_left] at this
  rw [← this]
  rfl

lemma sin_freq {a b : ℝ} (hab : a < b) (k : ℕ) : sin (freq a b k * (b - a)) = 0 := by
  unfold freq
  rw [div_mul_cancel₀ _ (by linarith)]
  exact Real.sin_nat_mul_pi k

/-- Quadratic decay of the payoff coefficients. -/
lemma payoffCoef_bound {a b kk cp : ℝ} (hab : a < b) (hk : 0 < kk) (hcp : Spec.IsCp cp) {k : ℕ} (hk0 : k ≠ 0) :
    |payoffCoef kk a b cp k| ≤ 2 / (b - a) * ((2 * exp b + kk * ((b - a) / π)) * ((b - a) / π) ^ 2) * (1 / (k : ℝ) ^ 2) := by
  set u := freq a b k with hu
  set w := b - a with hw
  have hwp : 0 < w := sub_pos.2 hab
  have hkp : (1 : ℝ) ≤ k := by exact_mod_cast Nat.one_le_iff_ne_zero.2 hk0
  have huv : u = k * π / w := rfl
  have hup : 0 < u := by rw [huv]; positivity
  have hinv : 1 / u ≤ w / π := by
    rw [huv, one_div_div]
    exact div_le_div_of_nonneg_left hwp.le pi_pos (by nlinarith [pi_pos])
  have hsq : 1 / u ^ 2 = (w / π) ^ 2 * (1 / (k : ℝ) ^ 2) := by
    rw [huv]; field_simp
  -- the core estimate
  have hcore : ∀ (z : ℝ) (s1 s2 : ℝ), |s1| ≤ 1 → z ≤ b → s2 ≤ b → (exp z = kk ∨ sin (u * (z - a)) = 0) →
      |(s1 * exp s2 - cos (u * (z - a)) * exp z) / (1 + u ^ 2)
        + sin (u * (z - a)) * (kk / u - u * exp z / (1 + u ^ 2))| ≤ (2 * exp b + kk * (w / π)) * (1 / u ^ 2) := by
    intro z s1 s2 hs1 hz hs2 hor
    have h1 : |(s1 * exp s2 - cos (u * (z - a)) * exp z) / (1 + u ^ 2)| ≤ 2 * exp b * (1 / u ^ 2) := by
      rw [abs_div, abs_of_pos (show (0 : ℝ) < 1 + u ^ 2 by positivity)]
      have hn : |s1 * exp s2 - cos (u * (z - a)) * exp z| ≤ 2 * exp b := by
        have e1 : |s1 * exp s2| ≤ exp b := by
          rw [abs_mul, abs_of_pos (exp_pos _)]
          calc _ ≤ 1 * exp s2 := by gcongr
            _ ≤ exp b := by rw [one_mul]; gcongr
        have e2 : |cos (u * (z - a)) * exp z| ≤ exp b := by
          rw [abs_mul, abs_of_pos (exp_pos _)]
          calc _ ≤ 1 * exp z := by gcongr; exact abs_cos_le_one _
            _ ≤ exp b := by rw [one_mul]; gcongr
        have := abs_sub (s1 * exp s2) (cos (u * (z - a)) * exp z)
        linarith
      rw [mul_one_div]
      exact div_le_div₀ (by positivity) hn (by positivity) (by linarith)
    have h2 : |sin (u * (z - a)) * (kk / u - u * exp z / (1 + u ^ 2))| ≤ kk * (w / π) * (1 / u ^ 2) := by
      rcases hor with he | h0
      · rw [he, show kk / u - u * kk / (1 + u ^ 2) = kk * (1 / u) * (1 / (1 + u ^ 2)) by field_simp; ring, abs_mul,
          abs_of_pos (show 0 < kk * (1 / u) * (1 / (1 + u ^ 2)) by positivity)]
        calc _ ≤ 1 * (kk * (1 / u) * (1 / (1 + u ^ 2))) := by gcongr; exact abs_sin_le_one _
          _ ≤ kk * (w / π) * (1 / u ^ 2) := by
            rw [one_mul]
            gcongr
            linarith
      · rw [h0, zero_mul, abs_zero]; positivity
    calc _ ≤ _ := abs_add_le _ _
      _ ≤ 2 * exp b * (1 / u ^ 2) + kk * (w / π) * (1 / u ^ 2) := add_le_add h1 h2
      _ = _ := by ring
  have hzor : ∀ z, z = clip (log kk) a b → z ≤ b ∧ (exp z = kk ∨ sin (u * (z - a)) = 0) := by
    rintro z rfl
    rcases clip_cases (kk := kk) hab with ⟨_, hc⟩ | ⟨_, h2, hc⟩ | ⟨_, hc⟩
    · rw [hc]; exact ⟨hab.le, Or.inr (by simp)⟩
    · rw [hc]; exact ⟨h2, Or.inl (exp_log hk)⟩
    · rw [hc]; exact ⟨le_rfl, Or.inr (by rw [hu]; exact sin_freq hab k)⟩
  obtain ⟨hzb, hz⟩ := hzor _ rfl
  rw [show 2 / w * ((2 * exp b + kk * (w / π)) * (w / π) ^ 2) * (1 / (k : ℝ) ^ 2)
    = 2 / w * ((2 * exp b + kk * (w / π)) * (1 / u ^ 2)) by rw [hsq]; ring]
  have hsb : sin (u * (b - a)) = 0 := by rw [hu]; exact sin_freq hab k
  unfold payoffCoef
  rcases hcp with rfl | rfl
  · rw [if_pos (by norm_num)]
    unfold callCoef
    simp only [← hu, ← hw]
    rw [abs_mul, abs_of_pos (show 0 < 2 / w by positivity)]
    refine mul_le_mul_of_nonneg_left ?_ (by positivity)
    have h := hcore (clip (log kk) a b) (cos (u * (b - a))) b (abs_cos_le_one _) hzb le_rfl hz
    refine le_of_eq_of_le (congrArg abs ?_) h
    unfold chi psi
    simp only [hk0, if_false, hsb]
    field_simp
    ring
  · rw [if_neg (by norm_num)]
    unfold putCoef
    simp only [← hu, ← hw]
    rw [abs_mul, abs_of_pos (show 0 < 2 / w by positivity)]
    refine mul_le_mul_of_nonneg_left ?_ (by positivity)
    have h := hcore (clip (log kk) a b) 1 a (by simp) hzb hab.le hz
    refine le_of_eq_of_le (congrArg abs ?_) h
    unfold chi psi
    simp only [hk0, if_false, sub_self, mul_zero, cos_zero, sin_zero]
    field_simp
    ring

lemma payoffCoef_summable {a b kk cp : ℝ} (hab : a < b) (hk : 0 < kk) (hcp : Spec.IsCp cp) :
    Summable fun k => |payoffCoef kk a b cp k| := by
  rw [← summable_nat_add_iff 1]
  have h1 : Summable fun k : ℕ => 1 / ((k + 1 : ℕ) : ℝ) ^ 2 :=
    (summable_nat_add_iff (f := fun k : ℕ => 1 / (k : ℝ) ^ 2) 1).2 (Real.summable_one_div_nat_pow.2 (by norm_num))
  exact Summable.of_nonneg_of_le (fun _ => abs_nonneg _) (fun k => payoffCoef_bound hab hk hcp (Nat.succ_ne_zero k))
    (h1.mul_left _)

/-- Pointwise convergence of the cosine partial sums of the payoff to the folded payoff. -/
lemma partial_hasSum {a b kk cp : ℝ} (hab : a < b) (hk : 0 < kk) (hcp : Spec.IsCp cp) (x : ℝ) :
    HasSum (fun k : ℕ => (if k = 0 then 1 / 2 else 1) * payoffCoef kk a b cp k * cos (freq a b k * (x - a)))
      (Spec.payoff cp kk (exp (Spec.fold a b x))) := by
  have hs : Summable (cosCoef (fun t => Spec.payoff cp kk (exp (a + t))) (b - a)) := by
    refine Summable.of_abs ((payoffCoef_summable hab hk hcp).congr fun k => ?_)
    rw [payoffCoef_eq_cosCoef hab hk hcp]
  have := hasSum_cosSeries (v := fun t => Spec.payoff cp kk (exp (a + t)))
    ((payoff_cont cp kk).comp (by fun_prop : Continuous fun t => a + t)) (sub_pos.2 hab) hs (x - a)
  have hfun : (fun k : ℕ => (if k = 0 then 1 / 2 else 1) * payoffCoef kk a b cp k * cos (freq a b k * (x - a)))
      = fun k : ℕ => (if k = 0 then 1 / 2 else 1) * cosCoef (fun t => Spec.payoff cp kk (exp (a + t))) (b - a) k
        * cos (k * π / (b - a) * (x - a)) := by
    funext k
    rw [payoffCoef_eq_cosCoef hab hk hcp]
    rfl
  rw [hfun]
  exact this

lemma payoff_scale {F K cp : ℝ} (hF : 0 < F) (y : ℝ) : Spec.payoff cp K (F * y) = F * Spec.payoff cp (K / F) y := by
  unfold Spec.payoff
  rw [show cp * (F * y - K) = F * (cp * (y - K / F)) by field_simp]
  nth_rewrite 1 [show (0 : ℝ) = F * 0 by ring]
  exact (mul_max_of_nonneg _ _ hF.le).symm

/-- **C73**, convergence in the number of terms: for a fixed interval the Fang-Oosterlee COS price converges to the
discounted expected payoff of the law *folded into the interval by reflection*. -/
theorem priceFO_tendsto {cf : ℝ → ℂ} {μ : Measure ℝ} [IsProbabilityMeasure μ] (hcf : IsCf cf μ) {a b : ℝ} (hab : a < b)
    (mp : MParams) {K S T cp : ℝ} (hS : 0 < S) (hK : 0 < K) (hcp : Spec.IsCp cp) :
    Tendsto (fun n => priceFO cf a b n mp K S T cp) atTop (𝓝 (Spec.lawPrice (μ.map (Spec.fold a b))
      (Spec.discount mp.intr T) (Spec.forward mp.isFwd mp.intr mp.divr S T) K cp)) := by
  have hF : 0 < mp.fwd S T := mp.fwd_pos hS T
  rw [← mp.df_eq_spec, ← mp.forward_eq_spec, ← mp.fwd_eq_forward]
  unfold Spec.lawPrice
  rw [integral_map (fold_cont a b).aemeasurable (by
    exact (Continuous.aestronglyMeasurable (by unfold Spec.payoff; fun_prop)))]
  simp only [payoff_scale hF, integral_const_mul]
  rw [← mul_assoc]
  have hkk : 0 < K / mp.fwd S T := div_pos hK hF
  have heq : ∀ n, priceFO cf a b n mp K S T cp = mp.df T * mp.fwd S T * ∫ x, (∑ k ∈ Finset.range n,
      (if k = 0 then 1 / 2 else 1) * payoffCoef (K / mp.fwd S T) a b cp k * cos (freq a b k * (x - a))) ∂μ := by
    intro n
    unfold priceFO
    simp only
    congr 1
    rw [integral_finsetSum]
    · refine Finset.sum_congr rfl fun k _ => ?_
      rw [densityCoef_eq hcf, ← integral_const_mul]
      refine integral_congr_ae (Eventually.of_forall fun x => ?_)
      simp only
      ring
    · intro k _
      refine Integrable.const_mul ?_ _
      exact Integrable.mono' (integrable_const (1 : ℝ)) (by fun_prop) (Eventually.of_forall fun x => by
        rw [Real.norm_eq_abs]; exact Real.abs_cos_le_one _)
  simp only [heq]
  refine Tendsto.const_mul _ ?_
  refine tendsto_integral_of_dominated_convergence
    (fun _ => ∑' k, |payoffCoef (K / mp.fwd S T) a b cp k|) (fun n => ?_) (integrable_const _) (fun n => ?_) ?_
  · exact Continuous.aestronglyMeasurable (by fun_prop)
  · refine Eventually.of_forall fun x => ?_
    rw [Real.norm_eq_abs]
    refine (Finset.abs_sum_le_sum_abs _ _).trans ?_
    refine le_trans (Finset.sum_le_sum (g := fun k => |payoffCoef (K / mp.fwd S T) a b cp k|) fun k _ => ?_)
      ((payoffCoef_summable hab hkk hcp).sum_le_tsum _ (fun _ _ => abs_nonneg _))
    rw [abs_mul, abs_mul]
    have h1 : |(if k = 0 then (1 / 2 : ℝ) else 1)| ≤ 1 := by split <;> norm_num
    have h2 := abs_cos_le_one (freq a b k * (x - a))
    calc _ ≤ 1 * |payoffCoef (K / mp.fwd S T) a b cp k| * 1 := by gcongr
      _ = _ := by ring
  · exact Eventually.of_forall fun x => (partial_hasSum hab hkk hcp x).tendsto_sum_nat

/-- **C73**, no truncation error inside: if the law is concentrated on `[a, b]`, the COS prices converge to the exact
discounted expected payoff, for calls and puts. -/
theorem priceFO_tendsto_exact {cf : ℝ → ℂ} {μ : Measure ℝ} [IsProbabilityMeasure μ] (hcf : IsCf cf μ) {a b : ℝ} (hab : a < b)
    (hsupp : ∀ᵐ x ∂μ, x ∈ Icc a b) (mp : MParams) {K S T cp : ℝ} (hS : 0 < S) (hK : 0 < K) (hcp : Spec.IsCp cp) :
    Tendsto (fun n => priceFO cf a b n mp K S T cp) atTop (𝓝 (Spec.lawPrice μ
      (Spec.discount mp.intr T) (Spec.forward mp.isFwd mp.intr mp.divr S T) K cp)) := by
  have := priceFO_tendsto hcf hab mp (T := T) hS hK hcp
  have hmap : μ.map (Spec.fold a b) = μ := by
    rw [Measure.map_congr (g := id) (by filter_upwards [hsupp] with x hx using fold_of_mem hab hx), Measure.map_id]
  rwa [hmap] at this

lemma put_fold_error {μ : Measure ℝ} [IsProbabilityMeasure μ] {a b : ℝ} (hab : a < b) {df F K : ℝ} (hdf : 0 ≤ df)
    (hF : 0 < F) (hK : 0 < K) :
    |Spec.lawPrice (μ.map (Spec.fold a b)) df F K (-1) - Spec.lawPrice μ df F K (-1)| ≤ df * K * μ.real (Icc a b)ᶜ := by
  have hb : ∀ y, 0 ≤ Spec.payoff (-1) K (F * exp y) ∧ Spec.payoff (-1) K (F * exp y) ≤ K := by
    intro y
    unfold Spec.payoff
    refine ⟨le_max_right _ _, max_le ?_ hK.le⟩
    have := mul_pos hF (exp_pos y)
    linarith
  have hc : Continuous fun y => Spec.payoff (-1) K (F * exp y) := by unfold Spec.payoff; fun_prop
  have hint : ∀ g : ℝ → ℝ, Continuous g → Integrable (fun x => Spec.payoff (-1) K (F * exp (g x))) μ := by
    intro g hg
    refine Integrable.mono' (integrable_const K) (hc.comp hg).aestronglyMeasurable (Eventually.of_forall fun x => ?_)
    rw [Real.norm_eq_abs, abs_of_nonneg (hb _).1]
    exact (hb _).2
  unfold Spec.lawPrice
  rw [integral_map (fold_cont a b).aemeasurable hc.aestronglyMeasurable, ← mul_sub,
    ← integral_sub (hint _ (fold_cont a b)) (hint (fun x => x) continuous_id), abs_mul, abs_of_nonneg hdf, mul_assoc]
  refine mul_le_mul_of_nonneg_left ?_ hdf
  refine (abs_integral_le_integral_abs).trans ?_
  have hle : ∀ x, |Spec.payoff (-1) K (F * exp (Spec.fold a b x)) - Spec.payoff (-1) K (F * exp x)|
      ≤ (Icc a b)ᶜ.indicator (fun _ => K) x := by
    intro x
    by_cases hx : x ∈ Icc a b
    · rw [indicator_of_notMem (by simpa using hx), fold_of_mem hab hx]
      simp
    · rw [indicator_of_mem (by simpa using hx), abs_le]
      have h1 := hb (Spec.fold a b x)
      have h2 := hb x
      constructor <;> linarith [h1.1, h1.2, h2.1, h2.2]
  refine (integral_mono_of_nonneg (Eventually.of_forall fun _ => abs_nonneg _)
    ((integrable_const K).indicator measurableSet_Icc.compl) (Eventually.of_forall hle)).trans ?_
  rw [integral_indicator measurableSet_Icc.compl, integral_const, smul_eq_mul, Measure.real, Measure.restrict_apply_univ, mul_comm]
  rfl

/-- **C73**, truncation error of puts: the limit of the COS put price is within `df * K * P(log(S_T/F) ∉ [a,b])` of the
exact price. -/
theorem put_truncation_error {cf : ℝ → ℂ} {μ : Measure ℝ} [IsProbabilityMeasure μ] (hcf : IsCf cf μ) {a b : ℝ} (hab : a < b)
    (mp : MParams) {K S T : ℝ} (hS : 0 < S) (hK : 0 < K) :
    ∃ P, Tendsto (fun n => priceFO cf a b n mp K S T (-1)) atTop (𝓝 P) ∧
      |P - Spec.lawPrice μ (Spec.discount mp.intr T) (Spec.forward mp.isFwd mp.intr mp.divr S T) K (-1)|
        ≤ Spec.discount mp.intr T * K * μ.real (Icc a b)ᶜ := by
  refine ⟨_, priceFO_tendsto hcf hab mp hS hK (Or.inr rfl), put_fold_error hab ?_ ?_ hK⟩
  · rw [← mp.df_eq_spec]; exact (mp.df_pos T).le
  · rw [← mp.forward_eq_spec, ← mp.fwd_eq_forward]; exact mp.fwd_pos hS T

lemma lawPrice_parity {μ : Measure ℝ} (hμ : Spec.IsMartingaleLaw μ) (df : ℝ) {F K : ℝ} (hF : 0 < F) (hK : 0 < K) :
    Spec.Parity (Spec.lawPrice μ df F K 1) (Spec.lawPrice μ df F K (-1)) df F K := by
  have := hμ.prob
  unfold Spec.Parity Spec.lawPrice
  have hput : Integrable (fun x => Spec.payoff (-1) K (F * exp x)) μ := by
    refine Integrable.mono' (integrable_const K) (by unfold Spec.payoff; fun_prop) (Eventually.of_forall fun x => ?_)
    unfold Spec.payoff
    rw [Real.norm_eq_abs, abs_of_nonneg (le_max_right _ _)]
    refine max_le ?_ hK.le
    have := mul_pos hF (exp_pos x)
    linarith
  have hcall : ∀ x, Spec.payoff 1 K (F * exp x) = Spec.payoff (-1) K (F * exp x) + (F * exp x - K) := by
    intro x
    unfold Spec.payoff
    rcases le_total (F * exp x) K with h | h
    · rw [max_eq_right (by linarith), max_eq_left (by linarith)]; ring
    · rw [max_eq_left (by linarith), max_eq_right (by linarith)]; ring
  simp only [hcall]
  have hlin : Integrable (fun x => F * exp x - K) μ := (hμ.integrable.const_mul F).sub (integrable_const K)
  rw [integral_add hput hlin,
    integral_sub (hμ.integrable.const_mul F) (integrable_const K), integral_const_mul, hμ.mean_one]
  simp
  ring

/-- **C54** (Le Floc'h COS).  Call minus put is exactly `df * (F - K)`, for every characteristic function, interval and
number of terms. -/
theorem lefloch_parity (cf : ℝ → ℂ) (a b : ℝ) (n : ℕ) (mp : MParams) (K S T : ℝ) :
    Spec.Parity (priceLefloch cf a b n mp K S T 1) (priceLefloch cf a b n mp K S T (-1)) (mp.df T) (mp.fwd S T) K := by
  unfold Spec.Parity priceLefloch
  simp only [gt_iff_lt, zero_lt_one, if_true, show ¬ (0 : ℝ) < -1 by norm_num, if_false]
  ring

/-- **C54** (Fang-Oosterlee COS).  Parity holds up to the COS error of the forward itself: call minus put is
`df * (F * m_n - K)` where `m_n` is the `n`-term COS approximation of `E[S_T/F]`; `m_n` does not depend on the strike. -/
theorem priceFO_parity_defect {cf : ℝ → ℂ} (h0 : cf 0 = 1) {a b : ℝ} (hab : a < b) {n : ℕ} (hn : 0 < n) (mp : MParams)
    {K S T : ℝ} (hS : 0 < S) :
    Spec.Parity (priceFO cf a b n mp K S T 1) (priceFO cf a b n mp K S T (-1)) (mp.df T)
      (mp.fwd S T * ∑ k ∈ Finset.range n, 2 / (b - a) * (∫ x in a..b, exp x * cos (k * π / (b - a) * (x - a)))
        * densityCoef cf a b k) K := by
  have hF : 0 < mp.fwd S T := mp.fwd_pos hS T
  have hF' : mp.fwd S T ≠ 0 := hF.ne'
  unfold Spec.Parity priceFO
  simp only
  rw [← mul_sub, ← Finset.sum_sub_distrib]
  have hdiff : ∀ k ∈ Finset.range n, payoffCoef (K / mp.fwd S T) a b 1 k * densityCoef cf a b k
      - payoffCoef (K / mp.fwd S T) a b (-1) k * densityCoef cf a b k
      = 2 / (b - a) * (∫ x in a..b, exp x * cos (k * π / (b - a) * (x - a))) * densityCoef cf a b k
        - (if k = 0 then K / mp.fwd S T else 0) := by
    intro k _
    have hchi : ∀ z, chi (freq a b k) a z b + chi (freq a b k) a a z
        = ∫ x in a..b, exp x * cos (k * π / (b - a) * (x - a)) := by
      intro z
      rw [chi_integral, chi_integral, add_comm, intervalIntegral.integral_add_adjacent_intervals]
      · rfl
      · exact (by fun_prop : Continuous _).intervalIntegrable _ _
      · exact (by fun_prop : Continuous _).intervalIntegrable _ _
    have hpsi : ∀ z, psi k (freq a b k) a z b + psi k (freq a b k) a a z = if k = 0 then b - a else 0 := by
      intro z
      unfold psi
      by_cases hk : k = 0
      · simp [hk]
      · simp only [hk, if_false]
        rw [sin_freq hab]
        simp
        ring
    have hd0 : k = 0 → densityCoef cf a b k = 1 / 2 := by
      rintro rfl
      unfold densityCoef
      simp only [freq, Nat.cast_zero, zero_mul, zero_div, h0, if_true]
      norm_num
    rw [← sub_mul]
    unfold payoffCoef
    rw [if_pos (by norm_num), if_neg (by norm_num)]
    unfold callCoef putCoef
    simp only
    set z := clip (log (K / mp.fwd S T)) a b
    rw [← hchi z]
    have hp := hpsi z
    have hw : b - a ≠ 0 := by linarith
    by_cases hk : k = 0
    · rw [if_pos hk] at hp ⊢
      rw [hd0 hk, show psi k (freq a b k) a z b = b - a - psi k (freq a b k) a a z by linarith]
      field_simp
      ring
    · rw [if_neg hk] at hp ⊢
      rw [show psi k (freq a b k) a z b = - psi k (freq a b k) a a z by linarith]
      ring
  rw [Finset.sum_congr rfl hdiff, Finset.sum_sub_distrib, Finset.sum_ite_eq' (Finset.range n) 0 (fun _ => K / mp.fwd S T)]
  simp only [Finset.mem_range, hn, if_true]
  rw [mul_assoc, mul_sub (mp.fwd S T), mul_div_cancel₀ _ hF']

/-- **C73** (Le Floc'h).  For every strike with `log(K/F)` not above the interval, the limit of the Le Floc'h COS price is
within `df * K * P(log(S_T/F) ∉ [a,b])` of the exact price, for calls as well as puts. -/
theorem lefloch_truncation_error {cf : ℝ → ℂ} {μ : Measure ℝ} (hμ : Spec.IsMartingaleLaw μ) (hcf : IsCf cf μ) {a b : ℝ}
    (hab : a < b) (mp : MParams) {K S T cp : ℝ} (hS : 0 < S) (hK : 0 < K) (hcp : Spec.IsCp cp)
    (hKb : log (K / Spec.forward mp.isFwd mp.intr mp.divr S T) ≤ b) :
    ∃ P, Tendsto (fun n => priceLefloch cf a b n mp K S T cp) atTop (𝓝 P) ∧
      |P - Spec.lawPrice μ (Spec.discount mp.intr T) (Spec.forward mp.isFwd mp.intr mp.divr S T) K cp|
        ≤ Spec.discount mp.intr T * K * μ.real (Icc a b)ᶜ := by
  have := hμ.prob
  have hF : 0 < mp.fwd S T := mp.fwd_pos hS T
  have hFs : mp.fwd S T = Spec.forward mp.isFwd mp.intr mp.divr S T := by rw [mp.fwd_eq_forward, mp.forward_eq_spec]
  have hdfs := mp.df_eq_spec T
  rw [← hFs] at hKb ⊢
  rw [← hdfs]
  have hdf := mp.df_pos T
  -- the put
  have hput : ∃ P, Tendsto (fun n => priceLefloch cf a b n mp K S T (-1)) atTop (𝓝 P) ∧
      |P - Spec.lawPrice μ (mp.df T) (mp.fwd S T) K (-1)| ≤ mp.df T * K * μ.real (Icc a b)ᶜ := by
    by_cases hza : log (K / mp.fwd S T) < a
    · refine ⟨0, ?_, ?_⟩
      · have : (fun n => priceLefloch cf a b n mp K S T (-1)) = fun _ => 0 := by
          funext n
          unfold priceLefloch
          simp only [hza, if_true, gt_iff_lt, show ¬ (0 : ℝ) < -1 by norm_num, if_false]
        rw [this]
        exact tendsto_const_nhds
      · have hb : ∀ x, Spec.payoff (-1) K (mp.fwd S T * exp x) ≤ (Icc a b)ᶜ.indicator (fun _ => K) x := by
          intro x
          by_cases hx : x ∈ Icc a b
          · rw [indicator_of_notMem (by simpa using hx), payoff_scale hF,
              payoff_put_of_le (div_pos hK hF) (hza.le.trans hx.1), mul_zero]
          · rw [indicator_of_mem (by simpa using hx)]
            unfold Spec.payoff
            have := mul_pos hF (exp_pos x)
            exact max_le (by linarith) hK.le
        have hnn : ∀ x, 0 ≤ Spec.payoff (-1) K (mp.fwd S T * exp x) := fun x => le_max_right _ _
        unfold Spec.lawPrice
        rw [zero_sub, abs_neg, abs_of_nonneg (mul_nonneg hdf.le (integral_nonneg hnn)), mul_assoc]
        refine mul_le_mul_of_nonneg_left ?_ hdf.le
        refine (integral_mono_of_nonneg (Eventually.of_forall hnn)
          ((integrable_const K).indicator measurableSet_Icc.compl) (Eventually.of_forall hb)).trans ?_
        rw [integral_indicator measurableSet_Icc.compl, integral_const, smul_eq_mul, Measure.real,
          Measure.restrict_apply_univ, mul_comm]
        rfl
    · have heq : (fun n => priceLefloch cf a b n mp K S T (-1)) = fun n => priceFO cf a b n mp K S T (-1) := by
        funext n
        unfold priceLefloch priceFO payoffCoef
        simp only [hza, if_false, gt_iff_lt, not_lt.2 hKb, show ¬ (0 : ℝ) < -1 by norm_num]
      rw [heq]
      have := put_truncation_error hcf hab mp (T := T) hS hK
      rw [← hFs, ← hdfs] at this
      exact this
  obtain ⟨P, hP1, hP2⟩ := hput
  rcases hcp with rfl | rfl
  · refine ⟨P + mp.df T * (mp.fwd S T - K), ?_, ?_⟩
    · have : (fun n => priceLefloch cf a b n mp K S T 1)
          = fun n => priceLefloch cf a b n mp K S T (-1) + mp.df T * (mp.fwd S T - K) := by
        funext n
        have := lefloch_parity cf a b n mp K S T
        unfold Spec.Parity at this
        linarith
      rw [this]
      exact hP1.add_const _
    · have hpar := lawPrice_parity hμ (mp.df T) hF hK
      unfold Spec.Parity at hpar
      rw [show P + mp.df T * (mp.fwd S T - K) - Spec.lawPrice μ (mp.df T) (mp.fwd S T) K 1
        = P - Spec.lawPrice μ (mp.df T) (mp.fwd S T) K (-1) by linarith]
      exact hP2
  · exact ⟨P, hP1, hP2⟩

/-- **C73** (Le Floc'h, strikes above the interval).  When `log(K/F)` is above an interval containing 0, the price is the
discounted intrinsic value (put) or zero (call); the error is at most the discounted mean of `S_T` beyond the interval. -/
theorem lefloch_high_strike {cf : ℝ → ℂ} {μ : Measure ℝ} (hμ : Spec.IsMartingaleLaw μ) {a b : ℝ} (hab : a < b) (hb : 0 ≤ b)
    (n : ℕ) (mp : MParams) {K S T cp : ℝ} (hS : 0 < S) (hK : 0 < K) (hcp : Spec.IsCp cp)
    (hKb : b < log (K / Spec.forward mp.isFwd mp.intr mp.divr S T)) :
    priceLefloch cf a b n mp K S T cp
        = Spec.discount mp.intr T * Spec.payoff cp K (Spec.forward mp.isFwd mp.intr mp.divr S T) ∧
      |priceLefloch cf a b n mp K S T cp
          - Spec.lawPrice μ (Spec.discount mp.intr T) (Spec.forward mp.isFwd mp.intr mp.divr S T) K cp|
        ≤ Spec.discount mp.intr T * (Spec.forward mp.isFwd mp.intr mp.divr S T * ∫ x in Ioi b, exp x ∂μ) := by
  have := hμ.prob
  have hF : 0 < mp.fwd S T := mp.fwd_pos hS T
  have hFs : mp.fwd S T = Spec.forward mp.isFwd mp.intr mp.divr S T := by rw [mp.fwd_eq_forward, mp.forward_eq_spec]
  have hdfs := mp.df_eq_spec T
  rw [← hFs] at hKb ⊢
  rw [← hdfs]
  have hdf := mp.df_pos T
  have hKF : mp.fwd S T < K := by
    have : 0 < log (K / mp.fwd S T) := hb.trans_lt hKb
    rw [log_pos_iff (div_pos hK hF).le, lt_div_iff₀ hF] at this
    linarith
  have hput : priceLefloch cf a b n mp K S T (-1) = mp.df T * (K - mp.fwd S T) := by
    unfold priceLefloch
    simp only [gt_iff_lt, show ¬ (0 : ℝ) < -1 by norm_num, if_false, not_lt.2 (hab.le.trans hKb.le), hKb, if_true]
    rw [max_eq_left (by linarith)]
  have hcall : priceLefloch cf a b n mp K S T 1 = 0 := by
    have := lefloch_parity cf a b n mp K S T
    unfold Spec.Parity at this
    rw [hput] at this
    linarith
  have hlaw : Spec.lawPrice μ (mp.df T) (mp.fwd S T) K 1 ≤ mp.df T * (mp.fwd S T * ∫ x in Ioi b, exp x ∂μ) := by
    unfold Spec.lawPrice
    refine mul_le_mul_of_nonneg_left ?_ hdf.le
    rw [← integral_indicator measurableSet_Ioi, ← integral_const_mul]
    refine integral_mono_of_nonneg (Eventually.of_forall fun x => le_max_right _ _)
      ((hμ.integrable.indicator measurableSet_Ioi).const_mul _) (Eventually.of_forall fun x => ?_)
    by_cases hx : b < x
    · simp only [indicator_of_mem (show x ∈ Ioi b from hx)]
      unfold Spec.payoff
      have := mul_pos hF (exp_pos x)
      exact max_le (by linarith) this.le
    · simp only [indicator_of_notMem (show x ∉ Ioi b from hx), mul_zero]
      unfold Spec.payoff
      refine max_le ?_ le_rfl
      have h1 : exp x ≤ K / mp.fwd S T := by
        rw [← exp_log (div_pos hK hF)]
        exact exp_le_exp.2 ((not_lt.1 hx).trans hKb.le)
      rw [le_div_iff₀ hF] at h1
      linarith
  have hnn : 0 ≤ Spec.lawPrice μ (mp.df T) (mp.fwd S T) K 1 :=
    mul_nonneg hdf.le (integral_nonneg fun x => le_max_right _ _)
  rcases hcp with rfl | rfl
  · rw [hcall]
    refine ⟨?_, ?_⟩
    · unfold Spec.payoff
      rw [max_eq_right (by linarith), mul_zero]
    · rw [zero_sub, abs_neg, abs_of_nonneg hnn]
      exact hlaw
  · rw [hput]
    refine ⟨?_, ?_⟩
    · unfold Spec.payoff
      rw [max_eq_left (by linarith)]
      ring
    · have hpar := lawPrice_parity hμ (mp.df T) hF hK
      unfold Spec.Parity at hpar
      rw [show mp.df T * (K - mp.fwd S T) - Spec.lawPrice μ (mp.df T) (mp.fwd S T) K (-1)
        = -Spec.lawPrice μ (mp.df T) (mp.fwd S T) K 1 by linarith, abs_neg, abs_of_nonneg hnn]
      exact hlaw

end Cos
end PyFENG
