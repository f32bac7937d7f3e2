import Verif.Lemmas.BlackMore

/-! # Helper lemmas: the Mills ratio `R(x) = N(-x)/n(x)` -/

open MeasureTheory ProbabilityTheory Set Filter Topology Real

namespace PyFENG

/-- `R(x) = N(-x)/n(x)` (helper; `MathFuncs.mills_ratio` is modelled by `millsRatio`). -/
noncomputable def mR (x : ℝ) : ℝ := ncdf (-x) / npdf x

lemma mR_pos (x : ℝ) : 0 < mR x := div_pos (ncdf_pos _) (npdf_pos _)

lemma mR_mul (x : ℝ) : mR x * npdf x = ncdf (-x) := div_mul_cancel₀ _ (npdf_pos x).ne'

lemma hasDerivAt_mR (x : ℝ) : HasDerivAt mR (x * mR x - 1) x := by
  have h1 : HasDerivAt (fun x => ncdf (-x)) (-npdf x) x := by
    have := (hasDerivAt_ncdf (-x)).comp x (hasDerivAt_neg x)
    refine this.congr_deriv ?_
    rw [npdf_neg]; ring
  have hp := (npdf_pos x).ne'
  refine (h1.div (hasDerivAt_npdf x) hp).congr_deriv ?_
  unfold mR
  field_simp
  ring

lemma tendsto_mul_npdf_atTop : Tendsto (fun x => x * npdf x) atTop (𝓝 0) := by
  have h := tendsto_pow_mul_exp_neg_atTop_nhds_zero 1
  have hb : Tendsto (fun x : ℝ => x ^ 1 * exp (-x) * (exp (1 / 2) / √(2 * π))) atTop (𝓝 0) := by
    simpa using h.mul_const (exp (1 / 2) / √(2 * π))
  refine tendsto_of_tendsto_of_tendsto_of_le_of_le' tendsto_const_nhds hb ?_ ?_
  · filter_upwards [eventually_ge_atTop 0] with x hx
    exact mul_nonneg hx (npdf_pos x).le
  · filter_upwards [eventually_ge_atTop 0] with x hx
    unfold npdf
    rw [pow_one, mul_assoc, mul_div_assoc' (exp (-x)), ← exp_add]
    gcongr
    nlinarith [sq_nonneg (x - 1)]

lemma integrable_sq_mul_npdf : Integrable fun z => z ^ 2 * npdf z := by
  have h := integrable_rpow_mul_exp_neg_mul_sq (b := 1 / 2) (by norm_num) (s := 2) (by norm_num)
  have h2 := h.div_const (√(2 * π))
  refine h2.congr (ae_of_all _ fun z => ?_)
  simp only [npdf, rpow_two]
  ring_nf

lemma integral_Ioi_sq_mul_npdf (x : ℝ) :
    ∫ z in Ioi x, z ^ 2 * npdf z = ncdf (-x) + x * npdf x := by
  have hd : ∀ z ∈ Ici x, HasDerivAt (fun z => -(z * npdf z)) (z ^ 2 * npdf z - npdf z) z := by
    intro z _
    refine ((hasDerivAt_id z).mul (hasDerivAt_npdf z)).neg.congr_deriv ?_
    simp; ring
  have h := integral_Ioi_of_hasDerivAt_of_tendsto' hd
    (integrable_sq_mul_npdf.sub integrable_npdf).integrableOn
    (by simpa using tendsto_mul_npdf_atTop.neg)
  rw [integral_sub integrable_sq_mul_npdf.integrableOn integrable_npdf.integrableOn,
    integral_Ioi_npdf, ← ncdf_neg] at h
  linarith

/-- log-convexity of the Mills ratio: `R² + xR - 1 > 0` (Birnbaum's bound). -/
lemma mR_birnbaum (x : ℝ) : 0 < mR x ^ 2 + x * mR x - 1 := by
  set N := ncdf (-x) with hN
  set n := npdf x with hn
  have pN : 0 < N := ncdf_pos _
  have pn : 0 < n := npdf_pos _
  -- the variance of the truncated normal is positive
  set c := n / N with hc
  have hint : IntegrableOn (fun z => (z - c) ^ 2 * npdf z) (Ioi x) := by
    have := ((integrable_sq_mul_npdf.sub (integrable_mul_npdf.const_mul (2 * c))).add
      (integrable_npdf.const_mul (c ^ 2))).integrableOn (s := Ioi x)
    refine this.congr_fun (fun z _ => ?_) measurableSet_Ioi
    simp only [Pi.add_apply, Pi.sub_apply]; ring
  have hval : ∫ z in Ioi x, (z - c) ^ 2 * npdf z = N + x * n - 2 * c * n + c ^ 2 * N := by
    have e : ∀ z, (z - c) ^ 2 * npdf z = z ^ 2 * npdf z - 2 * c * (z * npdf z) + c ^ 2 * npdf z := by
      intro z; ring
    simp_rw [e]
    rw [integral_add, integral_sub, integral_const_mul, integral_const_mul,
      integral_Ioi_sq_mul_npdf, integral_Ioi_mul_npdf, integral_Ioi_npdf, ← ncdf_neg]
    · exact integrable_sq_mul_npdf.integrableOn
    · exact (integrable_mul_npdf.const_mul _).integrableOn
    · exact (integrable_sq_mul_npdf.sub (integrable_mul_npdf.const_mul _)).integrableOn
    · exact (integrable_npdf.const_mul _).integrableOn
  have hpos : 0 < ∫ z in Ioi x, (z - c) ^ 2 * npdf z := by
    rw [setIntegral_pos_iff_support_of_nonneg_ae]
    · have hsub : Ioi (max x c) ⊆ (Function.support fun z => (z - c) ^ 2 * npdf z) ∩ Ioi x := by
        intro z hz
        have h1 : x < z := lt_of_le_of_lt (le_max_left _ _) hz
        have h2 : c < z := lt_of_le_of_lt (le_max_right _ _) hz
        refine ⟨?_, h1⟩
        simp only [Function.mem_support]
        have := npdf_pos z
        have : 0 < z - c := by linarith
        positivity
      exact lt_of_lt_of_le (by simp) (measure_mono hsub)
    · exact ae_of_all _ fun z => mul_nonneg (sq_nonneg _) (npdf_pos z).le
    · exact hint
  rw [hval] at hpos
  have e1 : N + x * n - 2 * c * n + c ^ 2 * N = (N ^ 2 + x * n * N - n ^ 2) / N := by
    rw [hc]; field_simp; ring
  rw [e1] at hpos
  have h2 : 0 < N ^ 2 + x * n * N - n ^ 2 := by
    by_contra h
    exact absurd hpos (not_lt.2 (div_nonpos_of_nonpos_of_nonneg (not_lt.1 h) pN.le))
  have e2 : mR x ^ 2 + x * mR x - 1 = (N ^ 2 + x * n * N - n ^ 2) / n ^ 2 := by
    unfold mR; rw [← hN, ← hn]; field_simp
  rw [e2]; positivity

/-- `R(x) > x/(1+x²)` (Gordon) -/
lemma mR_gordon (x : ℝ) : x / (1 + x ^ 2) < mR x := by
  by_contra h
  have h := not_lt.1 h
  have hb := mR_birnbaum x
  have hR := mR_pos x
  have hx : 0 < x := by
    by_contra hx
    have : x / (1 + x ^ 2) ≤ 0 := div_nonpos_of_nonpos_of_nonneg (not_lt.1 hx) (by positivity)
    linarith
  rw [le_div_iff₀ (by positivity)] at h
  have h1 : (mR x * (1 + x ^ 2)) ^ 2 ≤ x ^ 2 := by
    have := mul_pos hR (show 0 < 1 + x ^ 2 by positivity)
    nlinarith
  have h2 : x * (mR x * (1 + x ^ 2)) * (1 + x ^ 2) ≤ x ^ 2 * (1 + x ^ 2) := by
    nlinarith [mul_le_mul_of_nonneg_left h (show 0 ≤ x * (1 + x ^ 2) by positivity)]
  have h3 : 0 < (mR x ^ 2 + x * mR x - 1) * (1 + x ^ 2) ^ 2 := by positivity
  nlinarith

/-- `R` is strictly decreasing -/
lemma mR_deriv_neg (x : ℝ) : x * mR x - 1 < 0 := by
  -- ∫_{z > x} (z - x) n(z) dz = n(x) - x N(-x) > 0
  rcases le_or_gt x 0 with hx | hx
  · nlinarith [mR_pos x]
  · -- n(x) = ∫_{z>x} z n(z) > x N(-x)
    have h1 : x * ncdf (-x) < npdf x := by
      have hval : ∫ z in Ioi x, (z - x) * npdf z = npdf x - x * ncdf (-x) := by
        simp_rw [sub_mul]
        rw [integral_sub integrable_mul_npdf.integrableOn (integrable_npdf.const_mul x).integrableOn,
          integral_const_mul, integral_Ioi_mul_npdf, integral_Ioi_npdf, ← ncdf_neg]
      have hpos : 0 < ∫ z in Ioi x, (z - x) * npdf z := by
        rw [setIntegral_pos_iff_support_of_nonneg_ae]
        · have hsub : Ioi x ⊆ (Function.support fun z => (z - x) * npdf z) ∩ Ioi x := by
            intro z hz
            refine ⟨?_, hz⟩
            simp only [Function.mem_support]
            have := npdf_pos z
            have : 0 < z - x := sub_pos.2 hz
            positivity
          exact lt_of_lt_of_le (by simp) (measure_mono hsub)
        · filter_upwards [ae_restrict_mem measurableSet_Ioi] with z hz
          exact mul_nonneg (sub_pos.2 hz).le (npdf_pos z).le
        · have := (integrable_mul_npdf.sub (integrable_npdf.const_mul x)).integrableOn (s := Ioi x)
          refine this.congr_fun (fun z _ => ?_) measurableSet_Ioi
          simp only [Pi.sub_apply]; ring
      linarith
    unfold mR
    rw [mul_div_assoc', sub_neg, div_lt_one (npdf_pos x)]
    exact h1

lemma strictAnti_mR : StrictAnti mR := by
  refine strictAnti_of_deriv_neg fun x => ?_
  rw [(hasDerivAt_mR x).deriv]
  exact mR_deriv_neg x

/-- `R(x) - R(y) < 1/x - 1/y` for `0 < x < y`. -/
lemma mR_sub_lt {x y : ℝ} (hx : 0 < x) (hxy : x < y) : mR x - mR y < 1 / x - 1 / y := by
  have hd : ∀ t ∈ Ioi (0:ℝ), HasDerivAt (fun t => t⁻¹ - mR t) (-(t ^ 2)⁻¹ - (t * mR t - 1)) t :=
    fun t ht => (hasDerivAt_inv (ne_of_gt ht)).sub (hasDerivAt_mR t)
  have hanti : StrictAntiOn (fun t => t⁻¹ - mR t) (Ioi (0:ℝ)) := by
    refine strictAntiOn_of_deriv_neg (convex_Ioi 0)
      (fun t ht => (hd t ht).continuousAt.continuousWithinAt) fun t ht => ?_
    rw [interior_Ioi] at ht
    rw [(hd t ht).deriv]
    have ht' : 0 < t := ht
    have hg := mR_gordon t
    have h1 : t * (t / (1 + t ^ 2)) < t * mR t := mul_lt_mul_of_pos_left hg ht'
    have h2 : 1 - (t ^ 2)⁻¹ - t * (t / (1 + t ^ 2)) = -(1 / (t ^ 2 * (1 + t ^ 2))) := by
      field_simp; ring
    have h3 : 0 < 1 / (t ^ 2 * (1 + t ^ 2)) := by positivity
    linarith
  have := hanti hx (hx.trans hxy) hxy
  simp only [one_div] at this ⊢
  linarith

/-- `R(x)R(-x)` is increasing in `|x|`. -/
lemma mR_mul_neg_mono {x y : ℝ} (h : |x| ≤ |y|) : mR x * mR (-x) ≤ mR y * mR (-y) := by
  have hneg : ∀ x, HasDerivAt (fun x => mR (-x)) (x * mR (-x) + 1) x := fun x => by
    have := (hasDerivAt_mR (-x)).comp x (hasDerivAt_neg x)
    refine this.congr_deriv ?_
    ring
  have hd : ∀ x, HasDerivAt (fun x => mR x * mR (-x))
      ((x * mR x - 1) * mR (-x) + mR x * (x * mR (-x) + 1)) x := fun x =>
    (hasDerivAt_mR x).mul (hneg x)
  -- hazard rate minus x is decreasing
  have hh : ∀ x, HasDerivAt (fun x => (mR x)⁻¹ - x) (-(x * mR x - 1) / mR x ^ 2 - 1) x := fun x =>
    ((hasDerivAt_mR x).inv (mR_pos x).ne').sub (hasDerivAt_id x)
  have hanti : StrictAnti fun x => (mR x)⁻¹ - x := by
    refine strictAnti_of_deriv_neg fun x => ?_
    rw [(hh x).deriv]
    have hb := mR_birnbaum x
    have hR := mR_pos x
    have : -(x * mR x - 1) / mR x ^ 2 - 1 = -((mR x ^ 2 + x * mR x - 1) / mR x ^ 2) := by
      field_simp; ring
    rw [this]
    have : 0 < (mR x ^ 2 + x * mR x - 1) / mR x ^ 2 := by positivity
    linarith
  have hmono : MonotoneOn (fun x => mR x * mR (-x)) (Ici 0) := by
    refine monotoneOn_of_deriv_nonneg (convex_Ici 0)
      (fun x _ => (hd x).continuousAt.continuousWithinAt)
      (fun x _ => (hd x).differentiableAt.differentiableWithinAt) fun x hx => ?_
    rw [interior_Ici] at hx
    rw [(hd x).deriv]
    have h1 := hanti (show -x < x by have : (0:ℝ) < x := hx; linarith)
    simp only [sub_neg_eq_add] at h1
    have p1 := mR_pos x
    have p2 := mR_pos (-x)
    have h2 : (x * mR x - 1) * mR (-x) + mR x * (x * mR (-x) + 1)
        = mR x * mR (-x) * (((mR (-x))⁻¹ + x) - ((mR x)⁻¹ - x)) := by
      field_simp; ring
    rw [h2]
    have : 0 < ((mR (-x))⁻¹ + x) - ((mR x)⁻¹ - x) := by linarith
    positivity
  have habs : ∀ x, mR |x| * mR (-|x|) = mR x * mR (-x) := fun x => by
    rcases abs_choice x with h | h <;> rw [h]
    rw [neg_neg]; ring
  rw [← habs x, ← habs y]
  exact hmono (abs_nonneg x) (abs_nonneg y) h

end PyFENG
