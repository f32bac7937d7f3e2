import Verif.Model.MassZero
import Verif.Lemmas.Mills
import Verif.Lemmas.Newton

/-!
# C132: implied volatility from the mass at zero (`MassZeroABC`)
-/

namespace PyFENG

open Real Filter Topology Asymptotics

namespace MassZero

/-- Second-order expansion of the normal distribution function. -/
lemma ncdf_taylor (q : ℝ) : (fun x => ncdf x - ncdf q - npdf q * (x - q) + q / 2 * npdf q * (x - q) ^ 2) =o[𝓝 q] fun x => (x - q) ^ 2 := by
  have h1 : (fun x => npdf x - npdf q - (x - q) * (-q * npdf q)) =o[𝓝 q] fun x => x - q := hasDerivAt_iff_isLittleO.1 (hasDerivAt_npdf q)
  refine isLittleO_iff.2 fun ε hε => ?_
  have h2 := isLittleO_iff.1 h1 hε
  obtain ⟨r, hr, hb⟩ := Metric.eventually_nhds_iff_ball.1 h2
  filter_upwards [Metric.ball_mem_nhds q hr] with x hx
  have hd : ∀ y, HasDerivAt (fun x => ncdf x - ncdf q - npdf q * (x - q) + q / 2 * npdf q * (x - q) ^ 2) (npdf y - npdf q - (y - q) * (-q * npdf q)) y := fun y => by
    have := (((hasDerivAt_ncdf y).sub_const (ncdf q)).sub (((hasDerivAt_id' y).sub_const q).const_mul (npdf q))).add ((((hasDerivAt_id' y).sub_const q).fun_pow 2).const_mul (q / 2 * npdf q))
    refine this.congr_deriv ?_
    norm_num
    ring
  have h3 := (convex_uIcc q x).norm_image_sub_le_of_norm_hasDerivWithin_le (f := fun x => ncdf x - ncdf q - npdf q * (x - q) + q / 2 * npdf q * (x - q) ^ 2)
    (fun y _ => (hd y).hasDerivWithinAt) (C := ε * |x - q|) (fun y hy => ?_) Set.left_mem_uIcc Set.right_mem_uIcc
  · simp only [sub_self, mul_zero, zero_pow (two_ne_zero), add_zero, sub_zero] at h3
    refine h3.trans (le_of_eq ?_)
    rw [norm_eq_abs, norm_eq_abs, abs_pow]
    ring
  · have hyq : |y - q| ≤ |x - q| := by
      rcases Set.mem_uIcc.1 hy with ⟨a, b⟩ | ⟨a, b⟩
      · rw [abs_of_nonneg (by linarith), abs_of_nonneg (by linarith)]; linarith
      · rw [abs_of_nonpos (by linarith), abs_of_nonpos (by linarith)]; linarith
    have hyb : y ∈ Metric.ball q r := by
      rw [Metric.mem_ball, dist_eq] at hx ⊢
      exact lt_of_le_of_lt hyq hx
    refine (hb y hyb).trans ?_
    rw [norm_eq_abs]
    exact mul_le_mul_of_nonneg_left hyq hε.le

/-- `vol √T / √(2 log(F/K))` as a function of `δ = 1/√(2 log(F/K))`. -/
noncomputable def bb (q δ : ℝ) : ℝ := q + (1 + q ^ 2 / 2) * δ + q / 2 * δ ^ 2
noncomputable def ss (q δ : ℝ) : ℝ := 1 + δ * bb q δ
noncomputable def gg (q δ : ℝ) : ℝ := bb q δ * (2 + δ * bb q δ) / (2 * ss q δ)
noncomputable def ee (q δ : ℝ) : ℝ := 2 * ss q δ * δ / (ss q δ ^ 2 + 1)
/-- The Black put divided by the strike. -/
noncomputable def hh (q δ : ℝ) : ℝ := ncdf (gg q δ) - npdf (gg q δ) * mR (1 / ee q δ)

lemma tendsto_bb (q : ℝ) : Tendsto (bb q) (𝓝[>] 0) (𝓝 q) := by
  have : Continuous (bb q) := by unfold bb; fun_prop
  have h := this.tendsto 0
  simp only [bb] at h
  norm_num at h
  exact h.mono_left nhdsWithin_le_nhds

lemma tendsto_id0 : Tendsto (fun δ : ℝ => δ) (𝓝[>] 0) (𝓝 0) := tendsto_id.mono_left nhdsWithin_le_nhds

lemma tendsto_ss (q : ℝ) : Tendsto (ss q) (𝓝[>] 0) (𝓝 1) := by
  have h := (tendsto_const_nhds (x := (1:ℝ))).add (tendsto_id0.mul (tendsto_bb q))
  rw [zero_mul, add_zero] at h
  exact h

lemma gg_expand (q : ℝ) {δ : ℝ} (hs : ss q δ ≠ 0) :
    gg q δ = q + δ - q / 2 * δ ^ 2 + δ ^ 3 * ((q ^ 2 + (1 + q ^ 2 / 2) ^ 2 - 2 * (1 + q ^ 2 / 2) + (2 * q * (1 + q ^ 2 / 2) - q) * δ + 3 / 4 * q ^ 2 * δ ^ 2) / (2 * ss q δ)) := by
  unfold gg
  field_simp
  unfold ss bb
  ring

lemma ee_expand (q δ : ℝ) : ee q δ = δ - δ ^ 3 * (bb q δ ^ 2 / (ss q δ ^ 2 + 1)) := by
  unfold ee
  have : ss q δ ^ 2 + 1 ≠ 0 := by positivity
  field_simp
  unfold ss
  ring

lemma hh_limit (q : ℝ) : Tendsto (fun δ => (hh q δ - ncdf q) / δ ^ 2) (𝓝[>] 0) (𝓝 0) := by
  have hid := tendsto_id0
  have hb := tendsto_bb q
  have hs := tendsto_ss q
  -- the two remainders
  obtain ⟨ρ, hρ⟩ : ∃ ρ : ℝ → ℝ, ρ = fun δ => (q ^ 2 + (1 + q ^ 2 / 2) ^ 2 - 2 * (1 + q ^ 2 / 2) + (2 * q * (1 + q ^ 2 / 2) - q) * δ + 3 / 4 * q ^ 2 * δ ^ 2) / (2 * ss q δ) := ⟨_, rfl⟩
  obtain ⟨w, hw⟩ : ∃ w : ℝ → ℝ, w = fun δ => bb q δ ^ 2 / (ss q δ ^ 2 + 1) := ⟨_, rfl⟩
  have hρt : ∃ c, Tendsto ρ (𝓝[>] 0) (𝓝 c) := by
    rw [hρ]
    exact ⟨_, Tendsto.div (((tendsto_const_nhds).add (tendsto_const_nhds.mul hid)).add (tendsto_const_nhds.mul (hid.pow 2))) (tendsto_const_nhds.mul hs) (by norm_num)⟩
  have hwt : ∃ c, Tendsto w (𝓝[>] 0) (𝓝 c) := by
    rw [hw]
    exact ⟨_, (hb.pow 2).div ((hs.pow 2).add_const 1) (by norm_num)⟩
  obtain ⟨cρ, hρt⟩ := hρt
  obtain ⟨cw, hwt⟩ := hwt
  have hpos : ∀ᶠ δ in 𝓝[>] (0:ℝ), 0 < δ := eventually_mem_nhdsWithin
  have hsp : ∀ᶠ δ in 𝓝[>] (0:ℝ), 0 < ss q δ := hs.eventually (lt_mem_nhds one_pos)
  have hg : (fun δ => gg q δ) =ᶠ[𝓝[>] 0] fun δ => q + δ - q / 2 * δ ^ 2 + δ ^ 3 * ρ δ := by
    filter_upwards [hsp] with δ h
    rw [gg_expand q h.ne', hρ]
  have hgq : Tendsto (fun δ => gg q δ) (𝓝[>] 0) (𝓝 q) := by
    refine Tendsto.congr' hg.symm ?_
    have := ((tendsto_const_nhds (x := q)).add hid).sub ((hid.pow 2).const_mul (q / 2)) |>.add ((hid.pow 3).mul hρt)
    simpa using this
  have hx : Tendsto (fun δ => (gg q δ - q) / δ) (𝓝[>] 0) (𝓝 1) := by
    have h1 : (fun δ => 1 - q / 2 * δ + δ ^ 2 * ρ δ) =ᶠ[𝓝[>] 0] fun δ => (gg q δ - q) / δ := by
      filter_upwards [hg, hpos] with δ h hδ
      rw [h]
      field_simp
      ring
    refine Tendsto.congr' h1 ?_
    have := ((tendsto_const_nhds (x := (1:ℝ))).sub (hid.const_mul (q / 2))).add ((hid.pow 2).mul hρt)
    simpa using this
  -- Taylor remainders at `gg`
  have hu : Tendsto (fun δ => (ncdf (gg q δ) - ncdf q - npdf q * (gg q δ - q) + q / 2 * npdf q * (gg q δ - q) ^ 2) / δ ^ 2) (𝓝[>] 0) (𝓝 0) := by
    have h1 := (ncdf_taylor q).comp_tendsto hgq
    have h2 : ((fun x => (x - q) ^ 2) ∘ fun δ => gg q δ) =O[𝓝[>] 0] fun δ => δ ^ 2 := by
      have : (fun δ => gg q δ - q) =O[𝓝[>] 0] fun δ => δ := by
        refine isBigO_of_div_tendsto_nhds ?_ 1 hx
        filter_upwards [hpos] with δ hδ h0
        exact absurd h0 hδ.ne'
      exact this.pow 2
    exact (h1.trans_isBigO h2).tendsto_div_nhds_zero
  have hv : Tendsto (fun δ => (npdf (gg q δ) - npdf q - (gg q δ - q) * (-q * npdf q)) / δ) (𝓝[>] 0) (𝓝 0) := by
    have h1 := (hasDerivAt_iff_isLittleO.1 (hasDerivAt_npdf q)).comp_tendsto hgq
    have : (fun δ => gg q δ - q) =O[𝓝[>] 0] fun δ => δ := by
      refine isBigO_of_div_tendsto_nhds ?_ 1 hx
      filter_upwards [hpos] with δ hδ h0
      exact absurd h0 hδ.ne'
    exact (h1.trans_isBigO this).tendsto_div_nhds_zero
  have hy : Tendsto (fun δ => ee q δ / δ) (𝓝[>] 0) (𝓝 1) := by
    have h1 : (fun δ => 1 - δ ^ 2 * w δ) =ᶠ[𝓝[>] 0] fun δ => ee q δ / δ := by
      filter_upwards [hpos] with δ hδ
      rw [ee_expand, hw]
      field_simp
    refine Tendsto.congr' h1 ?_
    have := (tendsto_const_nhds (x := (1:ℝ))).sub ((hid.pow 2).mul hwt)
    simpa using this
  -- the Mills ratio
  have hR : Tendsto (fun δ => (ee q δ - mR (1 / ee q δ)) / δ ^ 2) (𝓝[>] 0) (𝓝 0) := by
    have hup : Tendsto (fun δ => (ee q δ / δ) ^ 3 * δ) (𝓝[>] 0) (𝓝 0) := by simpa using (hy.pow 3).mul hid
    refine tendsto_of_tendsto_of_tendsto_of_le_of_le' tendsto_const_nhds hup ?_ ?_
    · filter_upwards [hpos, hsp] with δ hδ h
      have he : 0 < ee q δ := by unfold ee; positivity
      have h1 := mR_deriv_neg (1 / ee q δ)
      have : mR (1 / ee q δ) < ee q δ := by
        rw [div_mul_eq_mul_div, one_mul, sub_neg, div_lt_one he] at h1
        exact h1
      exact div_nonneg (by linarith) (by positivity)
    · filter_upwards [hpos, hsp] with δ hδ h
      have he : 0 < ee q δ := by unfold ee; positivity
      have h1 := mR_gordon (1 / ee q δ)
      have h2 : ee q δ - ee q δ ^ 3 ≤ 1 / ee q δ / (1 + (1 / ee q δ) ^ 2) := by
        generalize ee q δ = e at he
        rw [le_div_iff₀ (by positivity)]
        have : (e - e ^ 3) * (1 + (1 / e) ^ 2) = 1 / e - e ^ 3 := by field_simp; ring
        rw [this]
        have := pow_pos he 3
        linarith
      have h3 : (ee q δ / δ) ^ 3 * δ = ee q δ ^ 3 / δ ^ 2 := by field_simp
      rw [h3]
      exact div_le_div_of_nonneg_right (by linarith) (by positivity)
  have hn : Tendsto (fun δ => npdf (gg q δ)) (𝓝[>] 0) (𝓝 (npdf q)) := (hasDerivAt_npdf q).continuousAt.tendsto.comp hgq
  have hd : Tendsto (fun δ => δ * (ρ δ + w δ)) (𝓝[>] 0) (𝓝 0) := by simpa using hid.mul (hρt.add hwt)
  have hlim := ((hu.add (((tendsto_const_nhds (x := -q / 2)).add hd |>.sub ((hx.pow 2).const_mul (q / 2)) |>.add ((hx.mul hy).const_mul q)).const_mul (npdf q))).sub (hv.mul hy)).add (hn.mul hR)
  have hz : (0 + npdf q * (-q / 2 + 0 - q / 2 * 1 ^ 2 + q * (1 * 1)) - 0 * 1 + npdf q * 0 : ℝ) = 0 := by ring
  rw [hz] at hlim
  refine Tendsto.congr' ?_ hlim
  filter_upwards [hpos, hg] with δ hδ hgδ
  have e1 : δ * (ρ δ + w δ) = ((gg q δ - q) / δ - 1) / δ + q / 2 - (ee q δ / δ - 1) / δ := by
    rw [hgδ, ee_expand, hw]
    field_simp
    ring
  rw [e1]
  unfold hh
  generalize mR (1 / ee q δ) = R
  generalize ncdf (gg q δ) = N
  generalize npdf (gg q δ) = n
  generalize gg q δ = g
  generalize ee q δ = e
  field_simp
  ring

lemma npdf_even (x : ℝ) : npdf (-x) = npdf x := by unfold npdf; ring_nf

/-- `1/√(2 log(F/K))`, the small parameter of the expansion. -/
noncomputable def Spec.smallStrike (F K : ℝ) : ℝ := 1 / √(2 * log (F / K))

lemma tendsto_log_ratio {F : ℝ} (hF : 0 < F) : Tendsto (fun K => log (F / K)) (𝓝[>] 0) atTop := by
  have h : Tendsto (fun K : ℝ => F * K⁻¹) (𝓝[>] 0) atTop := tendsto_inv_nhdsGT_zero.const_mul_atTop hF
  exact tendsto_log_atTop.comp h

lemma tendsto_small {F : ℝ} (hF : 0 < F) : Tendsto (fun K => Spec.smallStrike F K) (𝓝[>] 0) (𝓝[>] 0) := by
  have h1 : Tendsto (fun K => √(2 * log (F / K))) (𝓝[>] 0) atTop := tendsto_sqrt_atTop.comp ((tendsto_log_ratio hF).const_mul_atTop two_pos)
  have := tendsto_inv_atTop_nhdsGT_zero.comp h1
  refine this.congr fun K => ?_
  simp [Spec.smallStrike]

/-- The total volatility in terms of the small parameter. -/
lemma vol_eq (m : MParams) {mass S T K : ℝ} (hT : 0 < T) (hK : 0 < K) (hKF : K < m.forward S T) :
    vol m mass K S T * √T = ss (Bsm.nppf mass) (Spec.smallStrike (m.forward S T) K) / Spec.smallStrike (m.forward S T) K := by
  have hl : 0 < log (m.forward S T / K) := log_pos ((one_lt_div hK).2 hKF)
  have e : |log (K / m.forward S T)| = log (m.forward S T / K) := by
    rw [← inv_div, log_inv, abs_neg, abs_of_pos hl]
  have ht : 0 < √(2 * log (m.forward S T / K)) := sqrt_pos.2 (by linarith)
  have hsT : √T ≠ 0 := (sqrt_pos.2 hT).ne'
  unfold vol Spec.smallStrike ss bb
  simp only [e]
  generalize √(2 * log (m.forward S T / K)) = t at ht
  generalize Bsm.nppf mass = q
  norm_num
  field_simp
  ring

/-- The Black put in terms of the small parameter. -/
lemma black_eq {F K : ℝ} (hK : 0 < K) (hKF : K < F) (q : ℝ) (hs : 0 < ss q (Spec.smallStrike F K)) :
    black (-1) F K (ss q (Spec.smallStrike F K) / Spec.smallStrike F K) / K = hh q (Spec.smallStrike F K) := by
  have hF : 0 < F := hK.trans hKF
  have hl : 0 < log (F / K) := log_pos ((one_lt_div hK).2 hKF)
  have ht : 0 < √(2 * log (F / K)) := sqrt_pos.2 (by linarith)
  have hδ : 0 < Spec.smallStrike F K := by unfold Spec.smallStrike; positivity
  have hlog : log (F / K) = 1 / (2 * Spec.smallStrike F K ^ 2) := by
    unfold Spec.smallStrike
    rw [div_pow, sq_sqrt (by linarith)]
    field_simp
  have hsne : ss q (Spec.smallStrike F K) / Spec.smallStrike F K ≠ 0 := (div_pos hs hδ).ne'
  have hr := npdf_ratio hF hK hsne
  have e1 : bd1 F K (ss q (Spec.smallStrike F K) / Spec.smallStrike F K) = 1 / ee q (Spec.smallStrike F K) := by
    unfold bd1 ee
    rw [hlog]
    have : ss q (Spec.smallStrike F K) ^ 2 + 1 ≠ 0 := by positivity
    generalize ss q (Spec.smallStrike F K) = s at *
    field_simp
    ring
  have e2 : bd2 F K (ss q (Spec.smallStrike F K) / Spec.smallStrike F K) = -gg q (Spec.smallStrike F K) := by
    unfold bd2 gg
    rw [hlog]
    have hb : bb q (Spec.smallStrike F K) = (ss q (Spec.smallStrike F K) - 1) / Spec.smallStrike F K := by
      unfold ss
      field_simp
      ring
    rw [hb]
    generalize ss q (Spec.smallStrike F K) = s at *
    field_simp
    ring
  unfold black hh
  rw [e1, e2] at hr ⊢
  rw [npdf_even] at hr
  have hm := mR_mul (1 / ee q (Spec.smallStrike F K))
  have e3 : F * ncdf (-(1 / ee q (Spec.smallStrike F K))) = K * (npdf (gg q (Spec.smallStrike F K)) * mR (1 / ee q (Spec.smallStrike F K))) := by
    rw [← hm]
    calc _ = mR (1 / ee q (Spec.smallStrike F K)) * (F * npdf (1 / ee q (Spec.smallStrike F K))) := by ring
      _ = _ := by rw [hr]; ring
  have e4 : (-1 : ℝ) * (1 / ee q (Spec.smallStrike F K)) = -(1 / ee q (Spec.smallStrike F K)) := by ring
  have e5 : (-1 : ℝ) * -gg q (Spec.smallStrike F K) = gg q (Spec.smallStrike F K) := by ring
  rw [e4, e5, e3]
  field_simp
  ring

/-- **C132.** As the strike goes to zero, the put priced with the volatility of `vol_from_mass_zero` has, per unit of strike and of discount factor, the value `mass + o(1/log(F/K))`: the volatility is the one of a law with
probability `mass` at zero, up to the last term of the expansion. -/
theorem vol_from_mass_zero_correct (m : MParams) {mass S T : ℝ} (h0 : 0 < mass) (h1 : mass < 1) (hS : 0 < S) (hT : 0 < T) :
    Tendsto (fun K => log (m.forward S T / K) * (Bsm.price { m with sigma := vol m mass K S T } K S T (-1) / (m.df T * K) - mass)) (𝓝[>] 0) (𝓝 0) := by
  have hF : 0 < m.forward S T := m.fwd_eq_forward S T ▸ m.fwd_pos hS T
  have hq := ncdf_nppf h0 h1
  have hlim := ((hh_limit (Bsm.nppf mass)).comp (tendsto_small hF)).const_mul (1 / 2)
  rw [mul_zero] at hlim
  refine Tendsto.congr' ?_ hlim
  have hid := tendsto_small hF
  have hsp := hid.eventually ((tendsto_ss (Bsm.nppf mass)).eventually (lt_mem_nhds one_pos))
  have hbig : Tendsto (fun K => ss (Bsm.nppf mass) (Spec.smallStrike (m.forward S T) K) / Spec.smallStrike (m.forward S T) K) (𝓝[>] 0) atTop := by
    have := ((tendsto_ss (Bsm.nppf mass)).comp hid).pos_mul_atTop one_pos (tendsto_inv_nhdsGT_zero.comp hid)
    exact this
  filter_upwards [eventually_mem_nhdsWithin, nhdsWithin_le_nhds (gt_mem_nhds hF), hsp, hbig.eventually_ge_atTop eps] with K hK hKF hs he
  have hK : 0 < K := hK
  have hl : 0 < log (m.forward S T / K) := log_pos ((one_lt_div hK).2 hKF)
  have hlog : log (m.forward S T / K) = 1 / (2 * Spec.smallStrike (m.forward S T) K ^ 2) := by
    unfold Spec.smallStrike
    rw [div_pow, sq_sqrt (by linarith)]
    field_simp
  rw [Bsm.price_eq_black]
  have e1 : ({ m with sigma := vol m mass K S T } : MParams).df T = m.df T := rfl
  have e2 : ({ m with sigma := vol m mass K S T } : MParams).fwd S T = m.forward S T := m.fwd_eq_forward S T
  rw [e1, e2]
  simp only
  have hv := vol_eq m (mass := mass) hT hK hKF
  rw [sigmaStd_of_le (by rw [hv]; exact he), hv, mul_div_mul_left _ _ (m.df_pos T).ne', black_eq hK hKF _ hs]
  simp only [Function.comp]
  rw [hq]
  have hδ : Spec.smallStrike (m.forward S T) K ≠ 0 := one_div_ne_zero (sqrt_pos.2 (by linarith)).ne'
  rw [hlog]
  field_simp

/-- **C132.** Without rates `price_from_mass_zero` is the Black–Scholes price with the volatility of `vol_from_mass_zero`. -/
theorem price_from_mass_zero_no_rates (m : MParams) (hr : m.intr = 0) (hd : m.divr = 0) (mass K S T cp : ℝ) :
    price m mass K S T cp = Bsm.price { m with sigma := vol m mass K S T } K S T cp := by
  unfold price Bsm.price Bsm.priceFormula
  simp only [hr, hd]
  simp

/-- **C132.** The put of `price_from_mass_zero` per unit of strike tends to `mass`, not to the discounted `mass`, whatever the interest rate: the result is not discounted. -/
theorem price_from_mass_zero_limit (m : MParams) {mass S T : ℝ} (h0 : 0 < mass) (h1 : mass < 1) (hS : 0 < S) (hT : 0 < T) :
    Tendsto (fun K => price m mass K S T (-1) / K) (𝓝[>] 0) (𝓝 mass) := by
  have hF : 0 < m.forward S T := m.fwd_eq_forward S T ▸ m.fwd_pos hS T
  have hq := ncdf_nppf h0 h1
  obtain ⟨q, hqd⟩ : ∃ q, q = Bsm.nppf mass := ⟨_, rfl⟩
  rw [← hqd] at hq
  have hid := tendsto_small hF
  have hsp := hid.eventually ((tendsto_ss q).eventually (lt_mem_nhds one_pos))
  obtain ⟨sd, hsd⟩ : ∃ sd : ℝ → ℝ, sd = fun K => ss q (Spec.smallStrike (m.forward S T) K) / Spec.smallStrike (m.forward S T) K := ⟨_, rfl⟩
  have hbig : Tendsto sd (𝓝[>] 0) atTop := by
    rw [hsd]
    exact ((tendsto_ss q).comp hid).pos_mul_atTop one_pos (tendsto_inv_nhdsGT_zero.comp hid)
  have hgg : Tendsto (fun K => gg q (Spec.smallStrike (m.forward S T) K)) (𝓝[>] 0) (𝓝 q) := by
    have h2 : Tendsto (gg q) (𝓝[>] 0) (𝓝 (q * (2 + 0 * q) / (2 * 1))) := ((tendsto_bb q).mul (tendsto_const_nhds.add (tendsto_id0.mul (tendsto_bb q)))).div ((tendsto_ss q).const_mul 2) (by norm_num)
    have h3 : q * (2 + 0 * q) / (2 * 1) = q := by ring
    rw [h3] at h2
    exact h2.comp hid
  have hd2 : Tendsto (fun K => bd2 S K (sd K)) (𝓝[>] 0) (𝓝 (-q)) := by
    have h2 : Tendsto (fun K => -gg q (Spec.smallStrike (m.forward S T) K) + log (S / m.forward S T) / sd K) (𝓝[>] 0) (𝓝 (-q + 0)) :=
      hgg.neg.add (Tendsto.div_atTop tendsto_const_nhds hbig)
    rw [add_zero] at h2
    refine Tendsto.congr' ?_ h2
    filter_upwards [eventually_mem_nhdsWithin, nhdsWithin_le_nhds (gt_mem_nhds hF), hsp] with K hK hKF hs
    have hK : 0 < K := hK
    have hl : 0 < log (m.forward S T / K) := log_pos ((one_lt_div hK).2 hKF)
    have hlog : log (m.forward S T / K) = 1 / (2 * Spec.smallStrike (m.forward S T) K ^ 2) := by
      unfold Spec.smallStrike
      rw [div_pow, sq_sqrt (by linarith)]
      field_simp
    have hδ : Spec.smallStrike (m.forward S T) K ≠ 0 := one_div_ne_zero (sqrt_pos.2 (by linarith)).ne'
    have hsum : log (S / K) = log (m.forward S T / K) + log (S / m.forward S T) := by
      rw [← log_mul (by positivity) (by positivity)]
      congr 1
      field_simp
    have hb : bb q (Spec.smallStrike (m.forward S T) K) = (ss q (Spec.smallStrike (m.forward S T) K) - 1) / Spec.smallStrike (m.forward S T) K := by
      unfold ss
      field_simp
      ring
    unfold bd2 gg
    rw [hsum, hlog, hb, hsd]
    simp only
    generalize ss q (Spec.smallStrike (m.forward S T) K) = s at *
    generalize log (S / m.forward S T) = c
    field_simp
    ring
  have hd1 : Tendsto (fun K => bd1 S K (sd K)) (𝓝[>] 0) atTop := by
    refine (hd2.add_atTop hbig).congr fun K => ?_
    have := bd1_sub S K (sd K)
    linarith
  have hN : Tendsto (fun K => ncdf (-bd2 S K (sd K))) (𝓝[>] 0) (𝓝 mass) := by
    have h2 := ((hasDerivAt_ncdf (- -q)).continuousAt.tendsto).comp hd2.neg
    rw [neg_neg, hq] at h2
    exact h2
  have hR : Tendsto (fun K => npdf (bd2 S K (sd K)) * mR (bd1 S K (sd K))) (𝓝[>] 0) (𝓝 0) := by
    have h2 : Tendsto (fun K => mR (bd1 S K (sd K))) (𝓝[>] 0) (𝓝 0) := by
      refine tendsto_of_tendsto_of_tendsto_of_le_of_le' tendsto_const_nhds (tendsto_inv_atTop_zero.comp hd1) (Eventually.of_forall fun K => (mR_pos _).le) ?_
      filter_upwards [hd1.eventually_gt_atTop 0] with K hK
      have h3 := mR_deriv_neg (bd1 S K (sd K))
      simp only [Function.comp]
      rw [← one_div, le_div_iff₀ hK]
      linarith
    have h3 := (((hasDerivAt_npdf (-q)).continuousAt.tendsto).comp hd2).mul h2
    rw [mul_zero] at h3
    exact h3
  have hlim := hN.sub hR
  rw [sub_zero] at hlim
  refine Tendsto.congr' ?_ hlim
  filter_upwards [eventually_mem_nhdsWithin, nhdsWithin_le_nhds (gt_mem_nhds hF), hsp, hbig.eventually_ge_atTop eps, hbig.eventually_gt_atTop 0] with K hK hKF hs he hsd0
  have hK : 0 < K := hK
  have hv := vol_eq m (mass := mass) hT hK hKF
  rw [← hqd] at hv
  have hv' : vol m mass K S T * √T = sd K := by rw [hv, hsd]
  unfold price
  rw [Bsm.price_eq_black, sigmaStd_of_le (by rw [hv']; exact he), hv']
  have e1 : (⟨vol m mass K S T, 0, 0, false⟩ : MParams).df T = 1 := by unfold MParams.df; simp
  have e2 : (⟨vol m mass K S T, 0, 0, false⟩ : MParams).fwd S T = S := by unfold MParams.fwd MParams.divf MParams.df; simp
  rw [e1, e2, one_mul]
  unfold black
  have hr := npdf_ratio hS hK hsd0.ne'
  have hm := mR_mul (bd1 S K (sd K))
  have e3 : S * ncdf (-bd1 S K (sd K)) = K * (npdf (bd2 S K (sd K)) * mR (bd1 S K (sd K))) := by
    rw [← hm]
    calc _ = mR (bd1 S K (sd K)) * (S * npdf (bd1 S K (sd K))) := by ring
      _ = _ := by rw [hr]; ring
  have e4 : ∀ x : ℝ, (-1 : ℝ) * x = -x := fun x => by ring
  rw [e4 (bd1 _ _ _), e4 (bd2 _ _ _), e3]
  field_simp
  ring

/-- **C132.** So with a positive interest rate the price is not that of a model with this mass at zero: per unit of discounted strike the limit exceeds `mass`. -/
theorem price_from_mass_zero_undiscounted (m : MParams) {mass S T : ℝ} (h0 : 0 < mass) (h1 : mass < 1) (hS : 0 < S) (hT : 0 < T) (hr : 0 < m.intr) :
    ∃ l, mass < l ∧ Tendsto (fun K => price m mass K S T (-1) / (m.df T * K)) (𝓝[>] 0) (𝓝 l) := by
  have h := (price_from_mass_zero_limit m h0 h1 hS hT).const_mul (1 / m.df T)
  have hd := m.df_pos T
  refine ⟨1 / m.df T * mass, ?_, h.congr fun K => ?_⟩
  · have : m.df T < 1 := by
      unfold MParams.df
      rw [exp_lt_one_iff]
      have := mul_pos hT hr
      linarith
    rw [one_div, lt_inv_mul_iff₀ hd]
    nlinarith
  · rw [one_div, div_eq_mul_inv, div_eq_mul_inv, mul_inv]
    ring

/-- The hypotheses are met: a mass of one half. -/
example : (0:ℝ) < 1 / 2 ∧ (1 / 2 : ℝ) < 1 := by norm_num

end MassZero

end PyFENG
