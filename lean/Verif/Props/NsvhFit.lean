import Verif.Props.NsvhMom

/-!
# C62: calibration of `Nsvh1` to variance, skewness and excess kurtosis
-/

namespace PyFENG

open MeasureTheory ProbabilityTheory Real Set

namespace Nsvh

/-- `term1²` in `f_beta1`. -/
noncomputable def tsq (exkurt w : ℝ) : ℝ := 4 + 2 * (w * w - (exkurt + 3 + 3) / (w * w + 2 * w + 3))

lemma den_pos (w : ℝ) : 0 < w * w + 2 * w + 3 := by nlinarith [sq_nonneg (w + 1)]

lemma fBeta1_eq (skew exkurt w : ℝ) : fBeta1 skew exkurt w = (w + 1 - √(tsq exkurt w)) * (w + 1 + √(tsq exkurt w) / 2) ^ 2 - skew ^ 2 := by
  unfold fBeta1 tsq
  rw [show (0.5:ℝ) = 1 / 2 by norm_num]
  ring

lemma quartic_strictMono (e : ℝ) : StrictMonoOn (fun w : ℝ => w ^ 4 + 2 * w ^ 3 + 3 * w ^ 2 + 0 * w + (-3 - (e + 3))) (Ici 0) := by
  intro a ha b hb hab
  have ha' : (0:ℝ) ≤ a := ha
  have h2 : a ^ 2 < b ^ 2 := pow_lt_pow_left₀ hab ha' (by norm_num)
  have h3 : a ^ 3 < b ^ 3 := pow_lt_pow_left₀ hab ha' (by norm_num)
  have h4 : a ^ 4 < b ^ 4 := pow_lt_pow_left₀ hab ha' (by norm_num)
  simp only
  linarith

/-- **C62.** The quartic whose positive root starts the bracket has exactly one positive root whenever the excess kurtosis is positive, and it exceeds one:
the assertion `len(roots) == 1` cannot fail in exact arithmetic. -/
theorem nsvh1_fit_min_unique {exkurt : ℝ} (he : 0 < exkurt) : ∃! w, IsFitMin exkurt w := by
  have hc : ContinuousOn (fun w : ℝ => w ^ 4 + 2 * w ^ 3 + 3 * w ^ 2 + 0 * w + (-3 - (exkurt + 3))) (Icc 0 (3 + exkurt)) := by fun_prop
  have h0 : (0:ℝ) ∈ Icc ((0:ℝ) ^ 4 + 2 * 0 ^ 3 + 3 * 0 ^ 2 + 0 * 0 + (-3 - (exkurt + 3))) ((3 + exkurt) ^ 4 + 2 * (3 + exkurt) ^ 3 + 3 * (3 + exkurt) ^ 2 + 0 * (3 + exkurt) + (-3 - (exkurt + 3))) := by
    constructor
    · norm_num; linarith
    · have : 1 ≤ 3 + exkurt := by linarith
      have h2 : 3 + exkurt ≤ (3 + exkurt) ^ 2 := by nlinarith
      have h3 : 0 ≤ (3 + exkurt) ^ 3 := by positivity
      have h4 : 0 ≤ (3 + exkurt) ^ 4 := by positivity
      linarith
  obtain ⟨w, hw, h⟩ := intermediate_value_Icc (by linarith : (0:ℝ) ≤ 3 + exkurt) hc h0
  have hw0 : 0 < w := by
    rcases hw.1.eq_or_lt with h' | h'
    · rw [← h'] at h; norm_num at h; linarith
    · exact h'
  refine ⟨w, ⟨hw0, h⟩, ?_⟩
  intro y hy
  exact (quartic_strictMono exkurt).injOn hy.1.le hw0.le (hy.2.trans h.symm)

lemma fitMin_gt {exkurt w : ℝ} (he : 0 < exkurt) (h : IsFitMin exkurt w) : 1 < w := by
  by_contra hw
  have := (quartic_strictMono exkurt).monotoneOn h.1.le (show (1:ℝ) ∈ Ici 0 by norm_num) (not_lt.1 hw)
  rw [h.2] at this
  linarith

lemma fitMax_gt {exkurt : ℝ} (he : 0 < exkurt) : 1 < fitMax exkurt ∧ (fitMax exkurt ^ 2 + 1) ^ 2 = 2 * (exkurt + 2) := by
  unfold fitMax
  have h2 : 2 < √(2 * (exkurt + 3 - 1)) := by
    rw [lt_sqrt (by norm_num)]; linarith
  constructor
  · rw [lt_sqrt (by norm_num)]; linarith
  · rw [sq_sqrt (by linarith), show -1 + √(2 * (exkurt + 3 - 1)) + 1 = √(2 * (exkurt + 3 - 1)) by ring, sq_sqrt (by linarith)]
    ring

lemma tsq_ge {exkurt w0 w : ℝ} (h : IsFitMin exkurt w0) (hw : w0 ≤ w) : 4 ≤ tsq exkurt w := by
  have h1 := (quartic_strictMono exkurt).monotoneOn h.1.le (h.1.le.trans hw) hw
  rw [h.2] at h1
  unfold tsq
  have := den_pos w
  have : (exkurt + 3 + 3) / (w * w + 2 * w + 3) ≤ w * w := by
    rw [div_le_iff₀ this]; nlinarith
  linarith

lemma tsq_le {exkurt w : ℝ} (he : 0 < exkurt) (h0 : 0 ≤ w) (hw : w ≤ fitMax exkurt) : tsq exkurt w ≤ (w + 1) ^ 2 := by
  have h1 := (fitMax_gt he).2
  have h2 : w ^ 2 ≤ fitMax exkurt ^ 2 := pow_le_pow_left₀ h0 hw 2
  have h3 : (w ^ 2 + 1) ^ 2 ≤ 2 * (exkurt + 2) := by
    rw [← h1]; exact pow_le_pow_left₀ (by positivity) (by linarith) 2
  unfold tsq
  have hd := den_pos w
  have : (w * w - 2 * w + 3) / 2 ≤ (exkurt + 3 + 3) / (w * w + 2 * w + 3) := by
    rw [le_div_iff₀ hd]; nlinarith
  nlinarith

lemma tsq_max {exkurt : ℝ} (he : 0 < exkurt) : tsq exkurt (fitMax exkurt) = (fitMax exkurt + 1) ^ 2 := by
  have h1 := (fitMax_gt he).2
  unfold tsq
  have hd := den_pos (fitMax exkurt)
  have : (exkurt + 3 + 3) / (fitMax exkurt * fitMax exkurt + 2 * fitMax exkurt + 3) = (fitMax exkurt * fitMax exkurt - 2 * fitMax exkurt + 3) / 2 := by
    rw [div_eq_div_iff hd.ne' (by norm_num)]; nlinarith
  rw [this]; ring

lemma fitMin_le_max {exkurt w0 : ℝ} (he : 0 < exkurt) (h : IsFitMin exkurt w0) : w0 ≤ fitMax exkurt := by
  obtain ⟨h1, h2⟩ := fitMax_gt he
  by_contra hlt
  have := (quartic_strictMono exkurt) (show (0:ℝ) ≤ fitMax exkurt by linarith) h.1.le (not_le.1 hlt)
  simp only at this
  rw [h.2] at this
  generalize fitMax exkurt = a at *
  nlinarith [mul_pos (sub_pos.2 h1) (sub_pos.2 h1)]

lemma fBeta1_max {skew exkurt : ℝ} (he : 0 < exkurt) : fBeta1 skew exkurt (fitMax exkurt) = -skew ^ 2 := by
  rw [fBeta1_eq, tsq_max he, sqrt_sq (by have := (fitMax_gt he).1; linarith)]
  ring

lemma continuous_fBeta1 (skew exkurt : ℝ) : Continuous (fBeta1 skew exkurt) := by
  have : fBeta1 skew exkurt = fun w => (w + 1 - √(tsq exkurt w)) * (w + 1 + √(tsq exkurt w) / 2) ^ 2 - skew ^ 2 := funext (fBeta1_eq skew exkurt)
  rw [this]
  have h : Continuous (tsq exkurt) := by
    unfold tsq
    refine continuous_const.add (continuous_const.mul ((continuous_id.mul continuous_id).sub (Continuous.div continuous_const (by fun_prop) fun w => (den_pos w).ne')))
  fun_prop

lemma hasDerivAt_fBeta1 {skew exkurt w : ℝ} (h : 4 ≤ tsq exkurt w) :
    HasDerivAt (fBeta1 skew exkurt) (3 / 2 * (w + 1 + √(tsq exkurt w) / 2) * (2 - √(tsq exkurt w) - (exkurt + 6) * (2 * w + 2) / (w * w + 2 * w + 3) ^ 2)) w := by
  have hd := den_pos w
  have e : fBeta1 skew exkurt = fun w => (w + 1 - √(tsq exkurt w)) * (w + 1 + √(tsq exkurt w) / 2) ^ 2 - skew ^ 2 := funext (fBeta1_eq skew exkurt)
  have hden : HasDerivAt (fun w : ℝ => w * w + 2 * w + 3) (2 * w + 2) w :=
    (((hasDerivAt_id' w).mul (hasDerivAt_id' w)).add ((hasDerivAt_id' w).const_mul 2)).add_const 3 |>.congr_deriv (by ring)
  have ht : HasDerivAt (tsq exkurt) (2 * (2 * w + (exkurt + 6) * (2 * w + 2) / (w * w + 2 * w + 3) ^ 2)) w := by
    have h1 : HasDerivAt (fun w : ℝ => (exkurt + 3 + 3) / (w * w + 2 * w + 3)) (-((exkurt + 3 + 3) * (2 * w + 2)) / (w * w + 2 * w + 3) ^ 2) w :=
      ((hasDerivAt_const w (exkurt + 3 + 3)).fun_div hden hd.ne').congr_deriv (by ring)
    have h2 : HasDerivAt (fun w : ℝ => w * w) (2 * w) w := ((hasDerivAt_id' w).fun_mul (hasDerivAt_id' w)).congr_deriv (by ring)
    refine (((h2.sub h1).const_mul 2).const_add 4).congr_deriv ?_
    ring
  have hs := ht.sqrt (by linarith)
  rw [e]
  have h1 : HasDerivAt (fun w => w + 1 - √(tsq exkurt w)) _ w := ((hasDerivAt_id' w).add_const 1).sub hs
  have h2 : HasDerivAt (fun w => w + 1 + √(tsq exkurt w) / 2) _ w := ((hasDerivAt_id' w).add_const 1).add (hs.div_const 2)
  refine ((h1.fun_mul (h2.fun_pow 2)).sub_const _).congr_deriv ?_
  have hpos : 0 < √(tsq exkurt w) := sqrt_pos.2 (by linarith)
  have hsq : √(tsq exkurt w) ^ 2 = tsq exkurt w := sq_sqrt (by linarith)
  generalize √(tsq exkurt w) = θ at *
  generalize (exkurt + 6) * (2 * w + 2) / (w * w + 2 * w + 3) ^ 2 = Q at *
  field_simp
  ring

/-- The searched function is strictly decreasing on the bracket. -/
lemma fBeta1_strictAnti {skew exkurt w0 : ℝ} (he : 0 < exkurt) (h : IsFitMin exkurt w0) : StrictAntiOn (fBeta1 skew exkurt) (Ici w0) := by
  refine strictAntiOn_of_deriv_neg (convex_Ici w0) (continuous_fBeta1 skew exkurt).continuousOn fun w hw => ?_
  rw [interior_Ici] at hw
  have hw' : w0 < w := hw
  have h4 := tsq_ge h hw'.le
  rw [(hasDerivAt_fBeta1 h4).deriv]
  have h0 := h.1
  have h2 : 2 ≤ √(tsq exkurt w) := by rw [le_sqrt (by norm_num) (by linarith)]; linarith
  have hw0 : 0 < w := by linarith
  have hp : 0 < (exkurt + 6) * (2 * w + 2) / (w * w + 2 * w + 3) ^ 2 := by have := den_pos w; positivity
  refine mul_neg_of_pos_of_neg (by positivity) (by linarith)

/-- **C62.** Whenever the assertion `f_beta1(ww_min) >= 0` in `Nsvh1.fit` passes, the bracketed root searched by `brentq` exists and is unique. -/
theorem nsvh1_fit_root_unique {skew exkurt w0 : ℝ} (he : 0 < exkurt) (h : IsFitMin exkurt w0) (hf : 0 ≤ fBeta1 skew exkurt w0) :
    ∃! w, w ∈ Icc w0 (fitMax exkurt) ∧ fBeta1 skew exkurt w = 0 := by
  have hle := fitMin_le_max he h
  have h0 : (0:ℝ) ∈ Icc (fBeta1 skew exkurt (fitMax exkurt)) (fBeta1 skew exkurt w0) := by
    rw [fBeta1_max he]; exact ⟨by have := sq_nonneg skew; linarith, hf⟩
  obtain ⟨w, hw, e⟩ := intermediate_value_Icc' hle (continuous_fBeta1 skew exkurt).continuousOn h0
  refine ⟨w, ⟨hw, e⟩, ?_⟩
  rintro y ⟨hy, ey⟩
  exact (fBeta1_strictAnti he h).injOn hy.1 hw.1 (ey.trans e.symm)

/-- The algebra behind the moment match, in the variables `w` and `m = term1 - 2`. -/
lemma fit_alg {w m r : ℝ} (hw : 1 < w) (hm : 0 ≤ m) (hr : r = (w + 1) * (w - 1 - m) / ((w - 1) * (w + 1 + m))) :
    w + 1 + r * (w - 1) = 2 * w * (w + 1) / (w + 1 + m) ∧
    3 * (w + 1) ^ 2 + r * ((w - 1) * (w + 3)) = 2 * w * (w + 1) / (w + 1 + m) * (2 * w + 4 + m) ∧
    (w - 1) / 2 * ((w + 1) ^ 3 * (w ^ 2 + 3) + r * (2 * (3 * (w + 1) ^ 2) * (w * (w * (w + 1) + 3) - 1)
        + r * ((w - 1) * (w * (w * (w * (w + 4) + 10) + 12) - 3)))) / (2 * w * (w + 1) / (w + 1 + m)) ^ 2
      = (w ^ 2 + 2 * w + 3) * (w ^ 2 - m ^ 2 / 2 - 2 * m) - 6 := by
  obtain ⟨y, hy⟩ : ∃ y, y = w - 1 := ⟨_, rfl⟩
  obtain ⟨q, hq⟩ : ∃ q, q = w + 1 + m := ⟨_, rfl⟩
  obtain ⟨a, ha⟩ : ∃ a, a = w + 1 := ⟨_, rfl⟩
  have y0 : y ≠ 0 := by rw [hy]; linarith
  have q0 : q ≠ 0 := by rw [hq]; linarith
  have a0 : a ≠ 0 := by rw [ha]; linarith
  have w0 : w ≠ 0 := by linarith
  have hr' : r = a * (y - m) / (y * q) := by rw [hr, hy, hq, ha]
  rw [← hy, ← hq, ← ha, hr']
  refine ⟨?_, ?_, ?_⟩
  · field_simp; rw [hq, hy]; ring
  · field_simp; rw [ha, hq, hy]; ring
  · field_simp; rw [ha, hq, hy]; ring

/-- **C62.** `Nsvh1.fit((var, skew, exkurt), T)` matches the three moments exactly: whichever root `w` of `f_beta1` in the bracket the solver returns,
`price_vsk(T)` of the calibrated model is `(var, skew, exkurt)`. -/
theorem nsvh1_fit_matches (m : Nsvh) {var skew exkurt T w0 w : ℝ} (hvar : 0 < var) (he : 0 < exkurt) (hT : 0 < T) (h : IsFitMin exkurt w0)
    (hw : w ∈ Icc w0 (fitMax exkurt)) (hroot : fBeta1 skew exkurt w = 0) :
    (m.fitWith var skew exkurt T w).priceVsk1 T = (var, skew, exkurt) ∧ 0 < (m.fitWith var skew exkurt T w).sigma ∧
      0 < (m.fitWith var skew exkurt T w).vov ∧ (m.fitWith var skew exkurt T w).rho ∈ Icc (-1) 1 := by
  have hw1 : 1 < w := (fitMin_gt he h).trans_le hw.1
  have h4 := tsq_ge h hw.1
  have hle := tsq_le he (by linarith) hw.2
  have hd := den_pos w
  rw [fBeta1_eq] at hroot
  have hθ2 : 2 ≤ √(tsq exkurt w) := by rw [le_sqrt (by norm_num) (by linarith)]; linarith
  have hθ1 : √(tsq exkurt w) ≤ w + 1 := by rw [sqrt_le_left (by linarith)]; exact hle
  have hsq : √(tsq exkurt w) ^ 2 = tsq exkurt w := sq_sqrt (by linarith)
  have ex : 2 * (w ^ 2 - (exkurt + 3 + 3) / (w ^ 2 + 2 * w + 3)) = tsq exkurt w - 4 := by unfold tsq; ring_nf
  have emm : (tsq exkurt w - 4) / (2 + √(tsq exkurt w)) = √(tsq exkurt w) - 2 := by
    rw [div_eq_iff (by linarith)]; linear_combination -hsq
  have hβ : exkurt + 6 = (w ^ 2 + 2 * w + 3) * (w ^ 2 - (tsq exkurt w - 4) / 2) := by
    unfold tsq
    have : w * w + 2 * w + 3 = w ^ 2 + 2 * w + 3 := by ring
    have hd' : w ^ 2 + 2 * w + 3 ≠ 0 := by rw [← this]; exact hd.ne'
    rw [this]
    generalize w ^ 2 + 2 * w + 3 = D at hd'
    field_simp
    ring
  unfold fitWith
  simp only [ex, show 4 + (tsq exkurt w - 4) = tsq exkurt w by ring, emm]
  obtain ⟨θ, hθ⟩ : ∃ θ, θ = √(tsq exkurt w) := ⟨_, rfl⟩
  rw [← hθ] at hroot hθ2 hθ1 hsq ⊢
  rw [← hsq] at hβ
  obtain ⟨mm, hmm⟩ : ∃ mm, mm = θ - 2 := ⟨_, rfl⟩
  rw [← hmm]
  have hm0 : 0 ≤ mm := by linarith
  have hm1 : mm ≤ w - 1 := by linarith
  obtain ⟨r, hr⟩ : ∃ r, r = (w + 1) * (w - 1 - mm) / ((w - 1) * (w + 1 + mm)) := ⟨_, rfl⟩
  rw [← hr]
  have hr0 : 0 ≤ r := by
    rw [hr]
    have h1 : 0 ≤ w - 1 - mm := by linarith
    have h2 : 0 < w - 1 := by linarith
    have h3 : 0 < w + 1 + mm := by linarith
    positivity
  have hr1 : r ≤ 1 := by
    have h2 : 0 < w - 1 := by linarith
    have h3 : 0 < w + 1 + mm := by linarith
    rw [hr, div_le_one (by positivity)]
    nlinarith
  have hroot' : (w - 1 - mm) * (w + 2 + mm / 2) ^ 2 = skew ^ 2 := by
    have : θ = mm + 2 := by linarith
    rw [this] at hroot
    linear_combination hroot
  have hr2 : (npSign skew * √(max r 0)) ^ 2 = r := by
    rw [mul_pow, max_eq_left hr0, sq_sqrt hr0]
    unfold npSign
    split_ifs with h1 h2
    · ring
    · ring
    · have hs0 : skew = 0 := by linarith
      have h5 : w - 1 - mm = 0 := by
        rw [hs0] at hroot'
        rcases mul_eq_zero.1 (hroot'.trans (by norm_num)) with h6 | h6
        · exact h6
        · exfalso
          have : w + 2 + mm / 2 = 0 := by simpa using h6
          linarith
      rw [hr, h5]; simp
  obtain ⟨a1, a2, a3⟩ := fit_alg hw1 hm0 hr
  have hlog : 0 < log w := log_pos hw1
  have hvov : 0 < √(log w / T) := sqrt_pos.2 (by positivity)
  have hM : 0 < 2 * w * (w + 1) / (w + 1 + mm) := by
    have h3 : 0 < w + 1 + mm := by linarith
    positivity
  have hy : 0 < w - 1 := by linarith
  rw [hr2, a1]
  have hsig : 0 < √(2 * var / ((w - 1) * (2 * w * (w + 1) / (w + 1 + mm)))) := sqrt_pos.2 (by positivity)
  refine ⟨?_, mul_pos hsig hvov, hvov, ?_⟩
  · unfold priceVsk1
    simp only
    have e1 : (√(log w / T) * √T) ^ 2 = log w := by
      rw [mul_pow, sq_sqrt (by positivity), sq_sqrt hT.le]; field_simp
    rw [e1, exp_log (by linarith), add_sub_cancel, hr2, a1, a2, a3]
    obtain ⟨M, hMM⟩ : ∃ M, M = 2 * w * (w + 1) / (w + 1 + mm) := ⟨_, rfl⟩
    rw [← hMM] at hM hsig ⊢
    refine Prod.ext ?_ (Prod.ext ?_ ?_)
    · simp only
      rw [mul_div_assoc, div_self hvov.ne', mul_one, sq_sqrt (by positivity)]
      field_simp
    · simp only
      have hS : √(max r 0) * √((w - 1) * w / 2) * (M * (2 * w + 4 + mm)) / √(M ^ 3) = |skew| := by
        have h3 : 0 < √(M ^ 3) := sqrt_pos.2 (by positivity)
        have h4 : 0 ≤ 2 * w + 4 + mm := by linarith
        refine (sq_eq_sq₀ (by positivity) (abs_nonneg _)).1 ?_
        rw [sq_abs, ← hroot', div_pow, mul_pow, mul_pow, max_eq_left hr0, sq_sqrt hr0, sq_sqrt (by positivity), sq_sqrt (by positivity)]
        have hq : w + 1 + mm ≠ 0 := by linarith
        have hr3 : r * (w - 1) = (w + 1) * (w - 1 - mm) / (w + 1 + mm) := by rw [hr]; field_simp
        rw [show r * ((w - 1) * w / 2) = r * (w - 1) * w / 2 by ring, hr3, hMM]
        have hw2 : w + 1 ≠ 0 := by linarith
        have hw3 : w ≠ 0 := by linarith
        generalize w - 1 - mm = u
        obtain ⟨q, hqq⟩ : ∃ q, q = w + 1 + mm := ⟨_, rfl⟩
        obtain ⟨a, haa⟩ : ∃ a, a = w + 1 := ⟨_, rfl⟩
        rw [← hqq] at hq ⊢
        rw [← haa] at hw2 ⊢
        field_simp
        ring
      rw [show npSign skew * √(max r 0) * √((w - 1) * w / 2) * (M * (2 * w + 4 + mm)) / √(M ^ 3)
        = npSign skew * (√(max r 0) * √((w - 1) * w / 2) * (M * (2 * w + 4 + mm)) / √(M ^ 3)) by ring, hS]
      unfold npSign
      split_ifs with h1 h2
      · rw [abs_of_pos h1]; ring
      · rw [abs_of_neg h2]; ring
      · have : skew = 0 := by linarith
        rw [this]; simp
    · simp only
      rw [← sub_eq_zero]
      have : θ = mm + 2 := by linarith
      rw [this] at hβ
      linear_combination -hβ
  · have hs1 : √(max r 0) ≤ 1 := by rw [max_eq_left hr0]; exact sqrt_le_one.2 hr1
    have hs0 : 0 ≤ √(max r 0) := sqrt_nonneg _
    unfold npSign
    split_ifs <;> constructor <;> linarith

set_option maxHeartbeats 1000000 in
/-- **C62.** Round trip: fitting the moments of an `Nsvh1` model recovers its parameters.  The assertion on the skewness passes, the root searched is unique and equal to
`e^{ν²T}`, and the fitted `σ`, `ν`, `ρ` are those of the model. -/
theorem nsvh1_fit_roundtrip (m : Nsvh) (hs : 0 < m.sigma) (hv : 0 < m.vov) (hr : m.rho ∈ Icc (-1) 1) {T w0 w : ℝ} (hT : 0 < T) {v s k : ℝ}
    (hvsk : m.priceVsk1 T = (v, s, k)) (h : IsFitMin k w0) :
    0 < k ∧ 0 ≤ fBeta1 s k w0 ∧ (w ∈ Icc w0 (fitMax k) → fBeta1 s k w = 0 →
      (m.fitWith v s k T w).sigma = m.sigma ∧ (m.fitWith v s k T w).vov = m.vov ∧ (m.fitWith v s k T w).rho = m.rho) := by
  have e1 : (m.vov * √T) ^ 2 = m.vov ^ 2 * T := by rw [mul_pow, sq_sqrt hT.le]
  obtain ⟨z, hz⟩ : ∃ z, z = exp (m.vov ^ 2 * T) := ⟨_, rfl⟩
  have hz1 : 1 < z := by rw [hz]; exact one_lt_exp_iff.2 (by positivity)
  unfold priceVsk1 at hvsk
  simp only [e1, ← hz, add_sub_cancel] at hvsk
  obtain ⟨r, hrr⟩ : ∃ r, r = m.rho ^ 2 := ⟨_, rfl⟩
  rw [← hrr] at hvsk
  have hr0 : 0 ≤ r := by rw [hrr]; positivity
  have hr1 : r ≤ 1 := by rw [hrr]; nlinarith [hr.1, hr.2]
  have hy : 0 < z - 1 := by linarith
  obtain ⟨M, hM⟩ : ∃ M, M = z + 1 + r * (z - 1) := ⟨_, rfl⟩
  have hMp : 0 < M := by rw [hM]; have := mul_nonneg hr0 hy.le; linarith
  obtain ⟨mm, hmm⟩ : ∃ mm, mm = (z ^ 2 - 1) * (1 - r) / M := ⟨_, rfl⟩
  have hz2 : 0 < z ^ 2 - 1 := by nlinarith
  have hm0 : 0 ≤ mm := by rw [hmm]; have : 0 ≤ 1 - r := by linarith
                          positivity
  have hmM : mm * M = (z ^ 2 - 1) * (1 - r) := by rw [hmm]; field_simp
  have hm1 : mm ≤ z - 1 := by
    rw [hmm, div_le_iff₀ hMp, hM]
    nlinarith [mul_nonneg hr0 hy.le, mul_nonneg (mul_nonneg hr0 hy.le) hy.le, mul_nonneg hr0 hz2.le]
  have hr' : r = (z + 1) * (z - 1 - mm) / ((z - 1) * (z + 1 + mm)) := by
    have h3 : 0 < z + 1 + mm := by linarith
    rw [eq_div_iff (by positivity)]
    rw [hM] at hmM
    linear_combination hmM
  obtain ⟨a1, a2, a3⟩ := fit_alg hz1 hm0 hr'
  obtain ⟨hv', hs', hk'⟩ : (z - 1) / 2 * (z + 1 + r * (z - 1)) * (m.sigma / m.vov) ^ 2 = v ∧ _ = s ∧ _ = k :=
    ⟨congrArg Prod.fst hvsk, congrArg (fun p => p.2.1) hvsk, congrArg (fun p => p.2.2) hvsk⟩
  simp only at hs' hk'
  have hk0 : 0 < k := by
    rw [← hk', ← hM]
    have h1 : 0 < z * (z * (z + 1) + 3) - 1 := by nlinarith
    have h2 : 0 < z * (z * (z * (z + 4) + 10) + 12) - 3 := by
      have : 0 < z * (z * (z + 4) + 10) := by positivity
      nlinarith
    positivity
  rw [a1, a3] at hk'
  rw [a1, a2] at hs'
  rw [← hM] at a1
  rw [← a1] at hs'
  have hden : z * z + 2 * z + 3 = z ^ 2 + 2 * z + 3 := by ring
  have hdp : 0 < z ^ 2 + 2 * z + 3 := by positivity
  have ht : tsq k z = (mm + 2) ^ 2 := by
    unfold tsq
    rw [hden, show k + 3 + 3 = (z ^ 2 + 2 * z + 3) * (z ^ 2 - mm ^ 2 / 2 - 2 * mm) by rw [← hk']; ring, mul_div_cancel_left₀ _ hdp.ne']
    ring
  have hst : √(tsq k z) = mm + 2 := by rw [ht, sqrt_sq (by linarith)]
  have hS : √r * √((z - 1) * z / 2) * (M * (2 * z + 4 + mm)) / √(M ^ 3) = √((z - 1 - mm) * (z + 2 + mm / 2) ^ 2) := by
    have h3 : 0 < √(M ^ 3) := sqrt_pos.2 (by positivity)
    have h4 : 0 ≤ 2 * z + 4 + mm := by linarith
    have h5 : 0 ≤ z - 1 - mm := by linarith
    refine (sq_eq_sq₀ (by positivity) (sqrt_nonneg _)).1 ?_
    rw [sq_sqrt (by positivity), div_pow, mul_pow, mul_pow, sq_sqrt hr0, sq_sqrt (by positivity), sq_sqrt (by positivity)]
    have hq : z + 1 + mm ≠ 0 := by linarith
    have hr3 : r * (z - 1) = (z + 1) * (z - 1 - mm) / (z + 1 + mm) := by rw [hr']; field_simp
    rw [show r * ((z - 1) * z / 2) = r * (z - 1) * z / 2 by ring, hr3, a1]
    have hw2 : z + 1 ≠ 0 := by linarith
    have hw3 : z ≠ 0 := by linarith
    generalize z - 1 - mm = u
    obtain ⟨q, hqq⟩ : ∃ q, q = z + 1 + mm := ⟨_, rfl⟩
    obtain ⟨a, haa⟩ : ∃ a, a = z + 1 := ⟨_, rfl⟩
    rw [← hqq] at hq ⊢
    rw [← haa] at hw2 ⊢
    field_simp
    ring
  have habs : |s| = √((z - 1 - mm) * (z + 2 + mm / 2) ^ 2) := by
    have h4 : 0 ≤ 2 * z + 4 + mm := by linarith
    rw [← hS, ← hs', abs_div, abs_mul, abs_mul, abs_of_nonneg (sqrt_nonneg (M ^ 3)), abs_of_nonneg (sqrt_nonneg ((z - 1) * z / 2)),
      abs_of_nonneg (show 0 ≤ M * (2 * z + 4 + mm) by positivity), hrr, sqrt_sq_eq_abs]
  have hs2 : s ^ 2 = (z - 1 - mm) * (z + 2 + mm / 2) ^ 2 := by
    rw [← sq_abs, habs, sq_sqrt (by have : 0 ≤ z - 1 - mm := by linarith
                                    positivity)]
  have hroot : fBeta1 s k z = 0 := by
    rw [fBeta1_eq, hst, hs2]; ring
  have hzmin : w0 ≤ z := by
    by_contra hlt
    have h1 := (quartic_strictMono k) (show (0:ℝ) ≤ z by linarith) h.1.le (not_le.1 hlt)
    simp only at h1
    rw [h.2, ← hk'] at h1
    have h6 := mul_nonneg hm0 hdp.le
    have h7 := mul_nonneg (mul_nonneg hm0 hm0) hdp.le
    linarith
  have hzmax : z ≤ fitMax k := by
    obtain ⟨f1, f2⟩ := fitMax_gt hk0
    by_contra hlt
    have h2 : fitMax k ^ 2 < z ^ 2 := pow_lt_pow_left₀ (not_le.1 hlt) (by linarith) (by norm_num)
    have h3 : 2 * (k + 2) < (z ^ 2 + 1) ^ 2 := by
      rw [← f2]; exact pow_lt_pow_left₀ (by linarith) (by positivity) (by norm_num)
    rw [← hk'] at h3
    have h5 : (mm + 2) ^ 2 ≤ (z + 1) ^ 2 := pow_le_pow_left₀ (by linarith) (by linarith) 2
    have h6 := mul_le_mul_of_nonneg_left h5 hdp.le
    linarith
  refine ⟨hk0, ?_, ?_⟩
  · rw [← hroot]
    exact (fBeta1_strictAnti hk0 h).antitoneOn (show w0 ∈ Ici w0 from le_refl w0) hzmin hzmin
  · intro hw hwr
    have hwz : w = z := (fBeta1_strictAnti hk0 h).injOn hw.1 hzmin (hwr.trans hroot.symm)
    subst hwz
    have ex : 2 * (w ^ 2 - (k + 3 + 3) / (w ^ 2 + 2 * w + 3)) = tsq k w - 4 := by unfold tsq; ring_nf
    have hvv : √(log w / T) = m.vov := by
      rw [hz, log_exp, mul_div_assoc, div_self hT.ne', mul_one, sqrt_sq hv.le]
    have hrho : npSign s * √(max r 0) = m.rho := by
      rw [max_eq_left hr0, hrr, sqrt_sq_eq_abs]
      have hfac : 0 < √((w - 1) * w / 2) * (M * (2 * w + 4 + mm)) / √(M ^ 3) := by
        have h3 : 0 < √(M ^ 3) := sqrt_pos.2 (by positivity)
        have h4 : 0 < 2 * w + 4 + mm := by linarith
        have h6 : 0 < √((w - 1) * w / 2) := sqrt_pos.2 (by positivity)
        positivity
      have hs3 : s = m.rho * (√((w - 1) * w / 2) * (M * (2 * w + 4 + mm)) / √(M ^ 3)) := by rw [← hs']; ring
      unfold npSign
      split_ifs with h1 h2
      · rw [hs3] at h1
        rw [abs_of_pos ((pos_iff_pos_of_mul_pos h1).2 hfac), one_mul]
      · rw [hs3] at h2
        have : m.rho < 0 := by
          by_contra h7
          have := mul_nonneg (not_lt.1 h7) hfac.le
          linarith
        rw [abs_of_neg this]; ring
      · have h8 : s = 0 := by linarith
        rw [hs3] at h8
        rcases mul_eq_zero.1 h8 with h9 | h9
        · rw [h9]; simp
        · exact absurd h9 hfac.ne'
    have emm : (tsq k w - 4) / (2 + √(4 + (tsq k w - 4))) = mm := by
      rw [show 4 + (tsq k w - 4) = tsq k w by ring, hst, ht, div_eq_iff (by linarith)]; ring
    unfold fitWith
    simp only [ex, emm, ← hr', hrho, hvv]
    refine ⟨?_, trivial, trivial⟩
    rw [← hrr, ← hM, ← hv', ← hM]
    have : 2 * ((w - 1) / 2 * M * (m.sigma / m.vov) ^ 2) / ((w - 1) * M) = (m.sigma / m.vov) ^ 2 := by
      field_simp
    rw [this, sqrt_sq (by positivity)]
    field_simp

end Nsvh
end PyFENG
