import Verif.Props.CosLimit
import Mathlib.Probability.Moments.Tilted

/-!
# C73, C74, C75: truncation ranges of the COS pricers (BSM, VG/NIG, Junike, Heston)
-/

namespace PyFENG

open Real MeasureTheory ProbabilityTheory Set Filter Topology

namespace Cos

/-! ### Cumulant-based range -/

lemma chernoff_gauss {L : ℝ} (hL : 0 ≤ L) : (gaussianReal 0 1).real {z | L < z ∨ z < -L} ≤ 2 * exp (-(L ^ 2 / 2)) := by
  have hint : ∀ t : ℝ, Integrable (fun z => exp (t * id z)) (gaussianReal 0 1) := fun t => integrable_exp_mul_gaussianReal t
  have h1 := measure_ge_le_exp_mul_mgf (X := id) (μ := gaussianReal 0 1) L hL (hint L)
  have h2 := measure_le_le_exp_mul_mgf (X := id) (μ := gaussianReal 0 1) (-L) (neg_nonpos.2 hL) (hint (-L))
  rw [mgf_id_gaussianReal] at h1 h2
  simp only [NNReal.coe_one, zero_mul, zero_add, one_mul, id_eq] at h1 h2
  rw [← exp_add] at h1 h2
  have e1 : -L * L + L ^ 2 / 2 = -(L ^ 2 / 2) := by ring
  have e2 : - -L * -L + (-L) ^ 2 / 2 = -(L ^ 2 / 2) := by ring
  rw [e1] at h1
  rw [e2] at h2
  have hsub : {z : ℝ | L < z ∨ z < -L} ⊆ {z | L ≤ z} ∪ {z | z ≤ -L} := by
    rintro z (h | h)
    · exact Or.inl (le_of_lt h)
    · exact Or.inr (le_of_lt h)
  calc _ ≤ (gaussianReal 0 1).real ({z | L ≤ z} ∪ {z | z ≤ -L}) := measureReal_mono hsub
    _ ≤ _ := measureReal_union_le _ _
    _ ≤ _ := by linarith

/-- The law of `log(S_T/F)` in the Black-Scholes model. -/
noncomputable def bsmLaw (m : MParams) (T : ℝ) : Measure ℝ :=
  (gaussianReal 0 1).map fun z => m.sigma * √T * z - m.sigma ^ 2 * T / 2

lemma bsmLaw_isCf (m : MParams) {T : ℝ} (hT : 0 ≤ T) : IsCf (fun u => Bsm.logpCf m u T) (bsmLaw m T) := by
  intro u
  beta_reduce
  rw [bsm_logp_cf_correct m u hT, bsmLaw, integral_map (by fun_prop) (by fun_prop)]

lemma bsmLaw_lawPrice (m : MParams) {K S T cp : ℝ} (hcp : Spec.IsCp cp) (hK : 0 < K) (hS : 0 < S) (hT : 0 ≤ T)
    (hv : eps ≤ m.sigma * √T) :
    Spec.lawPrice (bsmLaw m T) (Spec.discount m.intr T) (Spec.forward m.isFwd m.intr m.divr S T) K cp
      = Bsm.price m K S T cp := by
  rw [bsm_price_eq_expectation m hcp hK hS hv]
  unfold Spec.lawPrice Spec.gaussE bsmLaw
  congr 1
  rw [integral_map (by fun_prop) (by unfold Spec.payoff; fun_prop)]
  refine integral_congr_ae (Eventually.of_forall fun z => ?_)
  simp only [Spec.gbm]
  rw [mul_pow, Real.sq_sqrt hT]

instance (m : MParams) (T : ℝ) : IsProbabilityMeasure (bsmLaw m T) :=
  Measure.isProbabilityMeasure_map (by fun_prop)

/-- **C73** (`BsmCos`).  With the cumulant-based range, the limit of the COS put price differs from the analytic
`Bsm.price` by at most `2 exp(-L²/2) df K` (about `1e-31 df K` for the default `L = 12`). -/
theorem bsmCos_put_error (m : MParams) {K S T L : ℝ} (hK : 0 < K) (hS : 0 < S) (hT : 0 ≤ T) (hv : eps ≤ m.sigma * √T)
    (hL : 0 < L) :
    ∃ P, Tendsto (fun n => priceFO (fun u => Bsm.logpCf m u T) (truncRange L (bsmCum4 m T)).1 (truncRange L (bsmCum4 m T)).2
        n m K S T (-1)) atTop (𝓝 P) ∧
      |P - Bsm.price m K S T (-1)| ≤ Spec.discount m.intr T * K * (2 * exp (-(L ^ 2 / 2))) := by
  have hs : 0 < m.sigma * √T := eps_pos.trans_le hv
  have hhalf : √(|m.sigma ^ 2 * T| + √|(0 : ℝ)|) = m.sigma * √T := by
    rw [abs_zero, Real.sqrt_zero, add_zero, abs_of_nonneg (by positivity), ← Real.sqrt_sq hs.le, mul_pow, Real.sq_sqrt hT]
  have ha : (truncRange L (bsmCum4 m T)).1 = -(m.sigma ^ 2 * T / 2) - L * (m.sigma * √T) := by
    simp only [truncRange, bsmCum4, hhalf]; ring
  have hb : (truncRange L (bsmCum4 m T)).2 = -(m.sigma ^ 2 * T / 2) + L * (m.sigma * √T) := by
    simp only [truncRange, bsmCum4, hhalf]; ring
  rw [ha, hb]
  have hLs : 0 < L * (m.sigma * √T) := mul_pos hL hs
  obtain ⟨P, h1, h2⟩ := put_truncation_error (bsmLaw_isCf m hT) (a := -(m.sigma ^ 2 * T / 2) - L * (m.sigma * √T))
    (b := -(m.sigma ^ 2 * T / 2) + L * (m.sigma * √T)) (by linarith) m (T := T) hS hK
  refine ⟨P, h1, ?_⟩
  rw [bsmLaw_lawPrice m (Or.inr rfl) hK hS hT hv] at h2
  refine h2.trans (mul_le_mul_of_nonneg_left ?_ ?_)
  · refine le_trans ?_ (chernoff_gauss hL.le)
    unfold bsmLaw
    rw [map_measureReal_apply (by fun_prop) measurableSet_Icc.compl]
    refine measureReal_mono fun z hz => ?_
    simp only [mem_preimage, mem_compl_iff, mem_Icc, not_and_or, not_le] at hz
    rcases hz with h | h
    · right
      have : m.sigma * √T * z < m.sigma * √T * (-L) := by nlinarith
      exact lt_of_mul_lt_mul_left this hs.le
    · left
      have : m.sigma * √T * L < m.sigma * √T * z := by nlinarith
      exact lt_of_mul_lt_mul_left this hs.le
  · rw [← m.df_eq_spec]
    exact mul_nonneg (m.df_pos T).le hK.le

/-- **C74.**  Any law whose first two cumulants are the ones used by the range has at most `1/L²` of its mass outside
`_truncation_range`. -/
theorem truncRange_chebyshev {μ : Measure ℝ} [IsProbabilityMeasure μ] (h0 : (0 : ℝ) ∈ interior (integrableExpSet id μ))
    {c : ℝ × ℝ × ℝ × ℝ} (hc : Spec.IsCum4 μ c) (hc2 : 0 < c.2.1) {L : ℝ} (hL : 0 < L) :
    μ.real (Icc (truncRange L c).1 (truncRange L c).2)ᶜ ≤ 1 / L ^ 2 := by
  obtain ⟨e1, e2, -, -⟩ := hc
  have hmean : μ[id] = c.1 := by
    rw [← e1, iteratedDeriv_one, deriv_cgf_zero h0]; simp
  have hvar : variance id μ = c.2.1 := by
    rw [← e2, ← variance_tilted_mul h0]; simp
  have hmem : MemLp id 2 μ := memLp_of_mem_interior_integrableExpSet h0 2
  set half := L * √(|c.2.1| + √|c.2.2.2|) with hh
  have hs : √c.2.1 ≤ √(|c.2.1| + √|c.2.2.2|) := by
    refine Real.sqrt_le_sqrt ?_
    have := le_abs_self c.2.1
    have := Real.sqrt_nonneg |c.2.2.2|
    linarith
  have hspos : 0 < √c.2.1 := Real.sqrt_pos.2 hc2
  have hhalf : 0 < half := mul_pos hL (hspos.trans_le hs)
  have hch := meas_ge_le_variance_div_sq hmem hhalf
  have hsub : (Icc (truncRange L c).1 (truncRange L c).2)ᶜ ⊆ {x | half ≤ |id x - μ[id]|} := by
    intro x hx
    simp only [truncRange, mem_compl_iff, mem_Icc, not_and_or, not_le] at hx
    show half ≤ |x - μ[id]|
    rw [hmean]
    rcases hx with h | h
    · rw [abs_sub_comm]; exact le_trans (by linarith) (le_abs_self _)
    · exact le_trans (by linarith) (le_abs_self _)
  rw [Measure.real]
  refine ENNReal.toReal_le_of_le_ofReal (by positivity) ((measure_mono hsub).trans (hch.trans (ENNReal.ofReal_le_ofReal ?_)))
  rw [hvar, div_le_div_iff₀ (by positivity) (by positivity), one_mul]
  have : L ^ 2 * c.2.1 ≤ half ^ 2 := by
    rw [hh, mul_pow]
    refine mul_le_mul_of_nonneg_left ?_ (by positivity)
    calc c.2.1 = √c.2.1 ^ 2 := (Real.sq_sqrt hc2.le).symm
      _ ≤ _ := by gcongr
  linarith

/-- The closed-form cumulants of `VarGammaCos` are those of `VarGammaABC`, hence (C34) the cumulants of the model. -/
theorem vgCum4_eq {a : SubArgs} {m : SubParams} (h : VarGamma.init a = .ok m) (T : ℝ) :
    vgCum4 m T = VarGamma.logpCum4 m T := by
  obtain ⟨hp, rfl⟩ := VarGamma.init_ok h
  unfold vgCum4 VarGamma.logpCum4
  simp only [neg_neg]
  refine Prod.ext rfl (Prod.ext ?_ (Prod.ext ?_ ?_)) <;> simp only <;> ring

/-! ### Junike -/

lemma foldl_min_mem (e : ℝ) (l : List ℝ) : l.foldl min e ∈ e :: l := by
  induction l generalizing e with
  | nil => simp
  | cons x l ih =>
    have := ih (min e x)
    simp only [List.foldl_cons, List.mem_cons] at this ⊢
    rcases this with h | h
    · rw [h]
      rcases min_choice e x with h2 | h2 <;> rw [h2] <;> simp
    · exact Or.inr (Or.inr h)

/-- A tail-bound grid reports true MGF values: positive `s`, and wherever the flag is set `E[exp(σ s X)]` is finite and equal
to the reported value (`sgn = -1`: MGF at `s`; `sgn = 1`: MGF at `-s`). -/
def GridOk (μ : Measure ℝ) (sgn : ℝ) (grid : List (ℝ × Bool × ℝ)) : Prop :=
  ∀ p ∈ grid, 0 < p.1 ∧ (p.2.1 = true → Integrable (fun x => exp (-sgn * p.1 * x)) μ ∧ p.2.2 = ∫ x, exp (-sgn * p.1 * x) ∂μ)

lemma tailBound_ge {μ : Measure ℝ} [IsProbabilityMeasure μ] {sgn : ℝ} {grid : List (ℝ × Bool × ℝ)} (hg : GridOk μ sgn grid)
    (x : ℝ) {A : Set ℝ} (hA : ∀ s : ℝ, 0 < s → Integrable (fun y => exp (-sgn * s * y)) μ →
      μ.real A ≤ exp (sgn * s * x) * ∫ y, exp (-sgn * s * y) ∂μ) : μ.real A ≤ tailBound grid sgn x := by
  unfold tailBound
  split
  · exact measureReal_le_one
  · rename_i e l hl
    have hmem := foldl_min_mem e l
    rw [← hl] at hmem
    obtain ⟨p, hp, he⟩ := List.mem_map.1 hmem
    rw [List.mem_filter] at hp
    obtain ⟨hs, hok⟩ := hg p hp.1
    obtain ⟨hint, hM⟩ := hok hp.2
    rw [← he]
    have hpos : 0 < p.2.2 := by
      rw [hM]
      exact integral_exp_pos hint
    rw [exp_add, exp_log hpos, mul_comm, hM]
    exact hA p.1 hs hint

/-- **C75.**  When the Junike search stops by meeting its tolerance, the interval `[c1 - w, c1 + w]` misses at most
`eps_junike` of the probability mass. -/
theorem junike_guarantee {μ : Measure ℝ} [IsProbabilityMeasure μ] {gridPos gridNeg : List (ℝ × Bool × ℝ)}
    (hp : GridOk μ (-1) gridPos) (hn : GridOk μ 1 gridNeg) (cum : ℝ × ℝ × ℝ × ℝ) (eps w : ℝ)
    (h : junikeHalfWidth gridPos gridNeg cum eps = (w, true)) : μ.real (Icc (cum.1 - w) (cum.1 + w))ᶜ ≤ eps := by
  unfold junikeHalfWidth at h
  generalize √(|cum.2.1| + √|cum.2.2.2|) = scale at h
  have key : ∀ fuel L w0, junikeLoop gridPos gridNeg cum.1 scale eps fuel L w0 = (w, true) →
      max 0 (tailBound gridPos (-1) (cum.1 + w) + tailBound gridNeg 1 (cum.1 - w)) ≤ eps := by
    intro fuel
    induction fuel with
    | zero => intro L w0 h; simp [junikeLoop] at h
    | succ fuel ih =>
      intro L w0 h
      rw [junikeLoop] at h
      split at h
      · rename_i hc
        have : L * scale = w := congrArg Prod.fst h
        rwa [this] at hc
      · exact ih _ _ h
  have hk := key _ _ _ h
  have hu : μ.real {x | cum.1 + w ≤ x} ≤ tailBound gridPos (-1) (cum.1 + w) := by
    refine tailBound_ge hp _ fun s hs hint => ?_
    have := measure_ge_le_exp_mul_mgf (X := id) (μ := μ) (t := s) (cum.1 + w) hs.le (by simpa using hint)
    simpa [mgf] using this
  have hl : μ.real {x | x ≤ cum.1 - w} ≤ tailBound gridNeg 1 (cum.1 - w) := by
    refine tailBound_ge hn _ fun s hs hint => ?_
    have := measure_le_le_exp_mul_mgf (X := id) (μ := μ) (t := -s) (cum.1 - w) (by linarith) (by simpa using hint)
    simpa [mgf] using this
  have hsub : (Icc (cum.1 - w) (cum.1 + w))ᶜ ⊆ {x | cum.1 + w ≤ x} ∪ {x | x ≤ cum.1 - w} := by
    intro x hx
    simp only [mem_compl_iff, mem_Icc, not_and_or, not_le] at hx
    rcases hx with h | h
    · exact Or.inr h.le
    · exact Or.inl h.le
  calc _ ≤ μ.real ({x | cum.1 + w ≤ x} ∪ {x | x ≤ cum.1 - w}) := measureReal_mono hsub
    _ ≤ _ := measureReal_union_le _ _
    _ ≤ _ := add_le_add hu hl
    _ ≤ _ := le_max_right _ _
    _ ≤ eps := hk

/-- **C75.**  The half-width returned by the Junike search is always between 12 and 30 times the cumulant scale, whether or
not the tolerance was met. -/
theorem junike_range (gridPos gridNeg : List (ℝ × Bool × ℝ)) (cum : ℝ × ℝ × ℝ × ℝ) (eps : ℝ) :
    12 * √(|cum.2.1| + √|cum.2.2.2|) ≤ (junikeHalfWidth gridPos gridNeg cum eps).1 ∧
      (junikeHalfWidth gridPos gridNeg cum eps).1 ≤ 30 * √(|cum.2.1| + √|cum.2.2.2|) := by
  unfold junikeHalfWidth
  have hs := Real.sqrt_nonneg (|cum.2.1| + √|cum.2.2.2|)
  generalize √(|cum.2.1| + √|cum.2.2.2|) = scale at hs ⊢
  have key : ∀ fuel (L w0 : ℝ), 12 ≤ L → L ≤ 30 → (fuel = 0 → 12 * scale ≤ w0 ∧ w0 ≤ 30 * scale) →
      12 * scale ≤ (junikeLoop gridPos gridNeg cum.1 scale eps fuel L w0).1 ∧
      (junikeLoop gridPos gridNeg cum.1 scale eps fuel L w0).1 ≤ 30 * scale := by
    intro fuel
    induction fuel with
    | zero => intro L w0 _ _ h; exact h rfl
    | succ fuel ih =>
      intro L w0 h1 h2 _
      have hw : 12 * scale ≤ L * scale ∧ L * scale ≤ 30 * scale :=
        ⟨mul_le_mul_of_nonneg_right h1 hs, mul_le_mul_of_nonneg_right h2 hs⟩
      rw [junikeLoop]
      split
      · exact hw
      · exact ih _ _ (le_min (by linarith) (by norm_num)) (min_le_right _ _) (fun _ => hw)
  exact key 15 12 0 le_rfl (by norm_num) (by norm_num)

/-! ### Heston -/

/-- **C73** (Heston truncation multiplier): a given `L` is used as is; the default is at least 10 and grows like `3T + 2`. -/
theorem hestonL_spec (L : Option ℝ) (T : ℝ) :
    (∀ l, L = some l → hestonL L T = l) ∧ (L = none → 10 ≤ hestonL L T ∧ 3 * T + 2 ≤ hestonL L T ∧
      (hestonL L T = 10 ∨ hestonL L T = 3 * T + 2)) := by
  refine ⟨fun l h => by rw [h]; rfl, fun h => ?_⟩
  rw [h]
  simp only [hestonL, Option.getD_none]
  exact ⟨le_max_left _ _, le_max_right _ _, max_choice _ _⟩

/-- `HestonCos.price` (default mode) is the Fang-Oosterlee formula on a per-strike interval. -/
theorem hestonPriceFO_eq (cf : ℝ → ℂ) (c1 half : ℝ) (n : ℕ) (mp : MParams) (K S T cp : ℝ) :
    hestonPriceFO cf c1 half n mp K S T cp =
      priceFO cf (hestonRange c1 half K (mp.fwd S T)).1 (hestonRange c1 half K (mp.fwd S T)).2 n mp K S T cp := by
  have hw : (hestonRange c1 half K (mp.fwd S T)).2 - (hestonRange c1 half K (mp.fwd S T)).1 = 2 * half := by
    unfold hestonRange; simp only; ring
  unfold hestonPriceFO priceFO payoffCoef callCoef putCoef densityCoef freq
  simp only [hw]

/-- **C73 fails for the default `HestonCos` mode at strikes far from the forward.**  The per-strike interval is centred at
`log(F/K) + c1` although the density used is that of `log(S_T/F)`, centred at `c1`.  Whatever the model's law, for every
sufficiently small strike the call price is above `df * F`, the no-arbitrage upper bound, once the number of terms is
large enough. -/
theorem hestonCos_call_above_bound {cf : ℝ → ℂ} {μ : Measure ℝ} [IsProbabilityMeasure μ] (hcf : IsCf cf μ) {c1 half : ℝ}
    (hhalf : 0 < half) (mp : MParams) {S T : ℝ} (hS : 0 < S) :
    ∃ K0 > 0, ∀ K, 0 < K → K < K0 → ∀ᶠ n in atTop, mp.df T * mp.fwd S T < hestonPriceFO cf c1 half n mp K S T 1 := by
  have hF : 0 < mp.fwd S T := mp.fwd_pos hS T
  have hdf := mp.df_pos T
  have hdfs := mp.df_eq_spec T
  have hFs : mp.fwd S T = Spec.forward mp.isFwd mp.intr mp.divr S T := by rw [mp.fwd_eq_forward, mp.forward_eq_spec]
  set F := mp.fwd S T with hFd
  set E := exp (c1 - half) with hE
  have hEp : 0 < E := exp_pos _
  refine ⟨min F (F * E / 2), lt_min hF (by positivity), fun K hK hK0 => ?_⟩
  have hKF : K < F := hK0.trans_le (min_le_left _ _)
  have hKE : K < F * E / 2 := hK0.trans_le (min_le_right _ _)
  set a := (hestonRange c1 half K F).1 with ha
  set b := (hestonRange c1 half K F).2 with hb
  have hab : a < b := by
    rw [ha, hb]; unfold hestonRange; simp only; linarith
  have hlim := priceFO_tendsto hcf hab mp (T := T) hS hK (Or.inl rfl : Spec.IsCp 1)
  rw [← hdfs, ← hFs] at hlim
  have hea : F * exp a = F * (F / K) * E := by
    rw [ha, hE]
    unfold hestonRange
    simp only
    rw [show log (F / K) + c1 - half = log (F / K) + (c1 - half) by ring, exp_add, exp_log (div_pos hF hK)]
    ring
  have hbound : mp.df T * F < Spec.lawPrice (μ.map (Spec.fold a b)) (mp.df T) F K 1 := by
    unfold Spec.lawPrice
    refine mul_lt_mul_of_pos_left ?_ hdf
    have hc : Continuous fun y => Spec.payoff 1 K (F * exp y) := by unfold Spec.payoff; fun_prop
    rw [integral_map (fold_cont a b).aemeasurable hc.aestronglyMeasurable]
    have hlow : ∀ x, F * exp a - K ≤ Spec.payoff 1 K (F * exp (Spec.fold a b x)) := by
      intro x
      unfold Spec.payoff
      refine le_trans ?_ (le_max_left _ _)
      have := (fold_mem hab x).1
      have := mul_le_mul_of_nonneg_left (exp_le_exp.2 this) hF.le
      linarith
    have hint : Integrable (fun x => Spec.payoff 1 K (F * exp (Spec.fold a b x))) μ := by
      refine Integrable.mono' (integrable_const (F * exp b)) (hc.comp (fold_cont a b)).aestronglyMeasurable
        (Eventually.of_forall fun x => ?_)
      unfold Spec.payoff
      rw [Real.norm_eq_abs, abs_of_nonneg (le_max_right _ _)]
      have h2 := (fold_mem hab x).2
      have := mul_le_mul_of_nonneg_left (exp_le_exp.2 h2) hF.le
      exact max_le (by linarith) (by positivity)
    have hge := integral_mono (integrable_const (F * exp a - K)) hint hlow
    simp only [integral_const, smul_eq_mul, probReal_univ, one_mul] at hge
    refine lt_of_lt_of_le ?_ hge
    rw [hea]
    -- F (F/K) E > 2 F > F + K
    have h1 : 2 * F < F * (F / K) * E := by
      rw [show F * (F / K) * E = F * (F * E / K) by ring, mul_comm 2 F]
      refine mul_lt_mul_of_pos_left ?_ hF
      rw [lt_div_iff₀ hK]
      linarith
    linarith
  have := hlim.eventually (lt_mem_nhds hbound)
  filter_upwards [this] with n hn
  rw [hestonPriceFO_eq]
  exact hn

/-- For strikes near the forward the per-strike interval is harmless: the put error is bounded by the mass outside it. -/
theorem hestonCos_put_error {cf : ℝ → ℂ} {μ : Measure ℝ} [IsProbabilityMeasure μ] (hcf : IsCf cf μ) {c1 half : ℝ}
    (hhalf : 0 < half) (mp : MParams) {K S T : ℝ} (hS : 0 < S) (hK : 0 < K) :
    ∃ P, Tendsto (fun n => hestonPriceFO cf c1 half n mp K S T (-1)) atTop (𝓝 P) ∧
      |P - Spec.lawPrice μ (Spec.discount mp.intr T) (Spec.forward mp.isFwd mp.intr mp.divr S T) K (-1)|
        ≤ Spec.discount mp.intr T * K * μ.real {x | half < |x - (c1 + log (mp.fwd S T / K))|} := by
  have hab : (hestonRange c1 half K (mp.fwd S T)).1 < (hestonRange c1 half K (mp.fwd S T)).2 := by
    unfold hestonRange; simp only; linarith
  obtain ⟨P, h1, h2⟩ := put_truncation_error hcf hab mp (T := T) hS hK
  refine ⟨P, ?_, ?_⟩
  · simp only [hestonPriceFO_eq]; exact h1
  · convert h2 using 3
    ext x
    simp only [Set.mem_ofPred_eq, mem_compl_iff, mem_Icc, not_and_or, not_le, hestonRange, lt_abs]
    constructor
    · rintro (h | h)
      · right; linarith
      · left; linarith
    · rintro (h | h)
      · right; linarith
      · left; linarith

end Cos
end PyFENG
