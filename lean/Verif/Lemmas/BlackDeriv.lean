import Verif.Lemmas.Black
import Mathlib.Analysis.SpecialFunctions.Log.Deriv
import Mathlib.Analysis.Calculus.Deriv.MeanValue
import Mathlib.Analysis.Convex.Deriv
import Mathlib.Topology.Order.IntermediateValue

/-! # Helper lemmas: derivatives, bounds, limits of the Black formula -/

open MeasureTheory ProbabilityTheory Set Filter Topology Real

namespace PyFENG

lemma hasDerivAt_bd1 {F K s : ℝ → ℝ} {F' K' s' t : ℝ} (hF : HasDerivAt F F' t)
    (hK : HasDerivAt K K' t) (hs : HasDerivAt s s' t) (pF : 0 < F t) (pK : 0 < K t) (ps : 0 < s t) :
    HasDerivAt (fun t => bd1 (F t) (K t) (s t))
      ((F' / F t - K' / K t) / s t - log (F t / K t) * s' / s t ^ 2 + s' / 2) t := by
  unfold bd1
  have h1 := (hF.div hK pK.ne').log (by simp only [Pi.div_apply]; positivity)
  refine ((h1.div hs ps.ne').add (hs.div_const 2)).congr_deriv ?_
  simp only [Pi.div_apply]
  field_simp

lemma hasDerivAt_bd2 {F K s : ℝ → ℝ} {F' K' s' t : ℝ} (hF : HasDerivAt F F' t)
    (hK : HasDerivAt K K' t) (hs : HasDerivAt s s' t) (pF : 0 < F t) (pK : 0 < K t) (ps : 0 < s t) :
    HasDerivAt (fun t => bd2 (F t) (K t) (s t))
      ((F' / F t - K' / K t) / s t - log (F t / K t) * s' / s t ^ 2 - s' / 2) t := by
  have h := (hasDerivAt_bd1 hF hK hs pF pK ps).sub hs
  have e : (fun t => bd2 (F t) (K t) (s t)) = fun t => bd1 (F t) (K t) (s t) - s t := by
    ext t; linarith [bd1_sub (F t) (K t) (s t)]
  rw [e]
  refine h.congr_deriv ?_
  ring

/-- Total derivative of the Black formula along a curve. -/
lemma hasDerivAt_black {cp : ℝ} (hcp : Spec.IsCp cp) {F K s : ℝ → ℝ} {F' K' s' t : ℝ}
    (hF : HasDerivAt F F' t) (hK : HasDerivAt K K' t) (hs : HasDerivAt s s' t)
    (pF : 0 < F t) (pK : 0 < K t) (ps : 0 < s t) :
    HasDerivAt (fun t => black cp (F t) (K t) (s t))
      (cp * ncdf (cp * bd1 (F t) (K t) (s t)) * F' - cp * ncdf (cp * bd2 (F t) (K t) (s t)) * K'
        + F t * npdf (bd1 (F t) (K t) (s t)) * s') t := by
  have h1 := hasDerivAt_bd1 hF hK hs pF pK ps
  have h2 := hasDerivAt_bd2 hF hK hs pF pK ps
  have n1 := (hasDerivAt_ncdf (cp * bd1 (F t) (K t) (s t))).comp t (h1.const_mul cp)
  have n2 := (hasDerivAt_ncdf (cp * bd2 (F t) (K t) (s t))).comp t (h2.const_mul cp)
  have := ((hF.mul n1).sub (hK.mul n2)).const_mul cp
  unfold black
  refine this.congr_deriv ?_
  rw [npdf_cp hcp, npdf_cp hcp]
  simp only [Function.comp_apply]
  have hr := npdf_ratio pF pK ps.ne'
  have hc := isCp_sq hcp
  set D := (F' / F t - K' / K t) / s t - log (F t / K t) * s' / s t ^ 2
  set n1 := npdf (bd1 (F t) (K t) (s t))
  set n2 := npdf (bd2 (F t) (K t) (s t))
  linear_combination (F t * n1 * (D + s' / 2) - K t * n2 * (D - s' / 2)) * hc + (D - s' / 2) * hr

/-- The Black price is strictly positive. -/
lemma black_pos {cp F K s : ℝ} (hcp : Spec.IsCp cp) (hF : 0 < F) (hK : 0 < K) (hs : 0 < s) :
    0 < black cp F K s := by
  rw [← gaussE_black hcp hF hK hs]
  unfold Spec.gaussE
  have hcont : Continuous fun z => Spec.payoff cp K (Spec.gbm F s z) := by
    unfold Spec.payoff Spec.gbm; fun_prop
  have hnn : (0 : ℝ → ℝ) ≤ fun z => Spec.payoff cp K (Spec.gbm F s z) := fun z => le_max_right _ _
  rw [integral_pos_iff_support_of_nonneg hnn (integrable_payoff (integrable_gbm F s) _ _)]
  have hopen : IsOpen (Function.support fun z => Spec.payoff cp K (Spec.gbm F s z)) :=
    hcont.isOpen_support
  have hne : (Function.support fun z => Spec.payoff cp K (Spec.gbm F s z)).Nonempty := by
    refine ⟨(log (K / F) + s ^ 2 / 2 + cp) / s, ?_⟩
    have hval : Spec.gbm F s ((log (K / F) + s ^ 2 / 2 + cp) / s) = K * exp cp := by
      unfold Spec.gbm
      rw [mul_div_cancel₀ _ hs.ne', show log (K / F) + s ^ 2 / 2 + cp - s ^ 2 / 2
        = log (K / F) + cp by ring, exp_add, exp_log (by positivity)]
      field_simp
    simp only [Function.mem_support, Spec.payoff, hval]
    apply ne_of_gt
    apply lt_max_of_lt_left
    rcases hcp with rfl | rfl
    · have : 1 < exp 1 := by simp
      nlinarith
    · have : exp (-1) < 1 := by simp
      nlinarith
  have hac := gaussianReal_absolutelyContinuous' 0 (v := 1) one_ne_zero
  exact pos_iff_ne_zero.2 fun h => (hopen.measure_pos volume hne).ne' (hac h)

lemma black_call_lt {F K s : ℝ} (hF : 0 < F) (hK : 0 < K) : black 1 F K s < F := by
  unfold black
  have h1 := ncdf_lt_one (1 * bd1 F K s)
  have h2 := ncdf_pos (1 * bd2 F K s)
  nlinarith [mul_pos hK h2]

lemma black_put_lt {F K s : ℝ} (hF : 0 < F) (hK : 0 < K) : black (-1) F K s < K := by
  unfold black
  have h1 := ncdf_lt_one (-1 * bd2 F K s)
  have h2 := ncdf_pos (-1 * bd1 F K s)
  nlinarith [mul_pos hF h2]

lemma intrinsic_lt_black {cp F K s : ℝ} (hcp : Spec.IsCp cp) (hF : 0 < F) (hK : 0 < K) (hs : 0 < s) :
    max (cp * (F - K)) 0 < black cp F K s := by
  refine max_lt ?_ (black_pos hcp hF hK hs)
  have hp := black_parity F K s
  have h1 := black_pos (Or.inl rfl) hF hK hs
  have h2 := black_pos (Or.inr rfl) hF hK hs
  rcases hcp with rfl | rfl <;> linarith

lemma strictMonoOn_black {cp F K : ℝ} (hcp : Spec.IsCp cp) (hF : 0 < F) (hK : 0 < K) :
    StrictMonoOn (black cp F K) (Ioi 0) := by
  have hd : ∀ s ∈ Ioi (0:ℝ), HasDerivAt (black cp F K) (F * npdf (bd1 F K s)) s := fun s hs => by
    have := hasDerivAt_black hcp (hasDerivAt_const s F) (hasDerivAt_const s K) (hasDerivAt_id s)
      hF hK hs
    simpa using this
  refine strictMonoOn_of_deriv_pos (convex_Ioi 0)
    (fun s hs => (hd s hs).continuousAt.continuousWithinAt) fun s hs => ?_
  rw [interior_Ioi] at hs
  rw [(hd s hs).deriv]
  have := npdf_pos (bd1 F K s)
  positivity

lemma continuousOn_black {cp F K : ℝ} (hcp : Spec.IsCp cp) (hF : 0 < F) (hK : 0 < K) :
    ContinuousOn (black cp F K) (Ioi 0) := fun s hs => by
  have := hasDerivAt_black hcp (hasDerivAt_const s F) (hasDerivAt_const s K) (hasDerivAt_id s)
      hF hK hs
  exact this.continuousAt.continuousWithinAt

lemma tendsto_bd1_atTop (F K : ℝ) : Tendsto (bd1 F K) atTop atTop := by
  unfold bd1
  have h1 : Tendsto (fun s : ℝ => log (F / K) / s) atTop (𝓝 0) := tendsto_const_nhds.div_atTop tendsto_id
  exact h1.add_atTop (tendsto_id.atTop_div_const (by norm_num))

lemma tendsto_bd2_atTop (F K : ℝ) : Tendsto (bd2 F K) atTop atBot := by
  have h1 : Tendsto (fun s : ℝ => log (F / K) / s) atTop (𝓝 0) := tendsto_const_nhds.div_atTop tendsto_id
  have h2 : Tendsto (fun s : ℝ => -(s / 2)) atTop atBot :=
    tendsto_neg_atTop_atBot.comp (tendsto_id.atTop_div_const (by norm_num))
  have := h1.add_atBot h2
  refine this.congr fun s => ?_
  unfold bd2; ring

/-- cap: undiscounted call → F, put → K as the volatility grows. -/
lemma tendsto_black_atTop {cp : ℝ} (hcp : Spec.IsCp cp) (F K : ℝ) :
    Tendsto (black cp F K) atTop (𝓝 (if cp = 1 then F else K)) := by
  have hcall : Tendsto (black 1 F K) atTop (𝓝 F) := by
    have h1 : Tendsto (fun s => ncdf (1 * bd1 F K s)) atTop (𝓝 1) := by
      simpa [Function.comp_def] using tendsto_ncdf_atTop.comp (tendsto_bd1_atTop F K)
    have h2 : Tendsto (fun s => ncdf (1 * bd2 F K s)) atTop (𝓝 0) := by
      simpa [Function.comp_def] using tendsto_ncdf_atBot.comp (tendsto_bd2_atTop F K)
    have := ((h1.const_mul F).sub (h2.const_mul K)).const_mul 1
    simp only [mul_one, mul_zero, sub_zero, one_mul] at this
    exact this.congr fun s => by simp [black]
  rcases hcp with rfl | rfl
  · simpa using hcall
  · have h3 : black (-1) F K = fun s => black 1 F K s - (F - K) := by
      ext s; linarith [black_parity F K s]
    rw [h3, if_neg (by norm_num)]
    have := hcall.sub_const (F - K)
    simpa using this

/-- uniqueness and existence of the inverse in `s` above a floor -/
lemma black_exists_unique {cp F K a p : ℝ} (hcp : Spec.IsCp cp) (hF : 0 < F) (hK : 0 < K)
    (ha : 0 < a) (h1 : black cp F K a ≤ p) (h2 : p < if cp = 1 then F else K) :
    ∃! s, a ≤ s ∧ black cp F K s = p := by
  have ht := tendsto_black_atTop hcp F K
  obtain ⟨b, hb⟩ := ((ht.eventually (lt_mem_nhds h2)).and (eventually_ge_atTop a)).exists
  have hc : ContinuousOn (black cp F K) (Icc a b) :=
    (continuousOn_black hcp hF hK).mono fun x hx => lt_of_lt_of_le ha hx.1
  obtain ⟨s, hs, hsp⟩ := intermediate_value_Icc hb.2 hc ⟨h1, hb.1.le⟩
  refine ⟨s, ⟨hs.1, hsp⟩, fun y hy => ?_⟩
  exact (strictMonoOn_black hcp hF hK).injOn (lt_of_lt_of_le ha hy.1) (lt_of_lt_of_le ha hs.1)
    (hy.2.trans hsp.symm)

lemma bd_strike_lt {F K1 K2 s : ℝ} (hF : 0 < F) (hK : 0 < K1) (h : K1 < K2) (hs : 0 < s) :
    bd2 F K2 s < bd2 F K1 s := by
  unfold bd2
  have : log (F / K2) < log (F / K1) := log_lt_log (by have := hK.trans h; positivity)
    (div_lt_div_of_pos_left hF hK h)
  have := div_lt_div_of_pos_right this hs
  linarith

lemma hasDerivAt_black_strike {cp F K s : ℝ} (hcp : Spec.IsCp cp) (hF : 0 < F) (hK : 0 < K)
    (hs : 0 < s) :
    HasDerivAt (fun K => black cp F K s) (-cp * ncdf (cp * bd2 F K s)) K := by
  have := hasDerivAt_black hcp (hasDerivAt_const K F) (hasDerivAt_id K) (hasDerivAt_const K s)
      hF hK hs
  refine this.congr_deriv ?_
  simp

lemma strictConvexOn_black {cp F s : ℝ} (hcp : Spec.IsCp cp) (hF : 0 < F) (hs : 0 < s) :
    StrictConvexOn ℝ (Ioi 0) (fun K => black cp F K s) := by
  refine StrictMonoOn.strictConvexOn_of_deriv (convex_Ioi 0)
    (fun K hK => (hasDerivAt_black_strike hcp hF hK hs).continuousAt.continuousWithinAt) ?_
  rw [interior_Ioi]
  intro K1 h1 K2 h2 h12
  rw [(hasDerivAt_black_strike hcp hF h1 hs).deriv, (hasDerivAt_black_strike hcp hF h2 hs).deriv]
  have hd := bd_strike_lt hF h1 h12 hs
  rcases hcp with rfl | rfl
  · have := strictMono_ncdf hd
    simp only [one_mul]; linarith
  · have : ncdf (-1 * bd2 F K1 s) < ncdf (-1 * bd2 F K2 s) := strictMono_ncdf (by linarith)
    linarith

lemma black_call_strictAntiOn {F s : ℝ} (hF : 0 < F) (hs : 0 < s) :
    StrictAntiOn (fun K => black 1 F K s) (Ioi 0) := by
  refine strictAntiOn_of_deriv_neg (convex_Ioi 0)
    (fun K hK => (hasDerivAt_black_strike (Or.inl rfl) hF hK hs).continuousAt.continuousWithinAt)
    fun K hK => ?_
  rw [interior_Ioi] at hK
  rw [(hasDerivAt_black_strike (Or.inl rfl) hF hK hs).deriv]
  have := ncdf_pos (1 * bd2 F K s)
  linarith

lemma black_put_strictMonoOn {F s : ℝ} (hF : 0 < F) (hs : 0 < s) :
    StrictMonoOn (fun K => black (-1) F K s) (Ioi 0) := by
  refine strictMonoOn_of_deriv_pos (convex_Ioi 0)
    (fun K hK => (hasDerivAt_black_strike (Or.inr rfl) hF hK hs).continuousAt.continuousWithinAt)
    fun K hK => ?_
  rw [interior_Ioi] at hK
  rw [(hasDerivAt_black_strike (Or.inr rfl) hF hK hs).deriv]
  have := ncdf_pos (-1 * bd2 F K s)
  linarith

end PyFENG
