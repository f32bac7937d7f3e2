import Verif.Props.BsmImpvol

/-! # Helper lemmas: concavity of the log price in the volatility, and the Newton map -/

open MeasureTheory ProbabilityTheory Set Filter Topology Real

namespace PyFENG

/-- price-to-vega ratio of the standardised call (helper) -/
noncomputable def pvr (k s : ℝ) : ℝ := mR (-bd1 1 k s) - mR (-bd2 1 k s)

lemma pvr_pos {k s : ℝ} (hs : 0 < s) : 0 < pvr k s := by
  unfold pvr
  have := strictAnti_mR (show -bd1 1 k s < -bd2 1 k s by linarith [bd1_sub 1 k s])
  linarith

lemma pvr_mul {k s : ℝ} (hk : 0 < k) (hs : 0 < s) :
    npdf (bd1 1 k s) * pvr k s = black 1 1 k s := mR_black hk hs

lemma hasDerivAt_pvr {k s : ℝ} (hk : 0 < k) (hs : 0 < s) :
    HasDerivAt (pvr k) (1 - bd1 1 k s * bd2 1 k s * pvr k s / s) s := by
  have h1 := hasDerivAt_bd1 (hasDerivAt_const s (1:ℝ)) (hasDerivAt_const s k) (hasDerivAt_id s)
    one_pos hk hs
  have h2 := hasDerivAt_bd2 (hasDerivAt_const s (1:ℝ)) (hasDerivAt_const s k) (hasDerivAt_id s)
    one_pos hk hs
  have h := ((hasDerivAt_mR (-bd1 1 k s)).comp s h1.neg).sub
    ((hasDerivAt_mR (-bd2 1 k s)).comp s h2.neg)
  refine h.congr_deriv ?_
  have e1 : (0 / 1 - 0 / k) / id s - log (1 / k) * 1 / id s ^ 2 + 1 / 2 = -(bd2 1 k s) / s := by
    unfold bd2; simp only [id]; field_simp; ring
  have e2 : (0 / 1 - 0 / k) / id s - log (1 / k) * 1 / id s ^ 2 - 1 / 2 = -(bd1 1 k s) / s := by
    unfold bd1; simp only [id]; field_simp; ring
  rw [e1, e2]
  have hsub := bd1_sub 1 k s
  have hb : bd2 1 k s = bd1 1 k s - s := by linarith
  unfold pvr
  field_simp
  rw [hb]
  ring

lemma bd2_neg {k s : ℝ} (hk : 1 ≤ k) (hs : 0 < s) : bd2 1 k s < 0 := by
  unfold bd2
  have h1 : log (1 / k) ≤ 0 := by
    rw [one_div, log_inv]; have := log_nonneg hk; linarith
  have h2 : log (1 / k) / s ≤ 0 := div_nonpos_of_nonpos_of_nonneg h1 hs.le
  linarith

lemma pvr_deriv_pos {k s : ℝ} (hk : 1 ≤ k) (hs : 0 < s) :
    0 < 1 - bd1 1 k s * bd2 1 k s * pvr k s / s := by
  have hp := pvr_pos (k := k) hs
  have h2 := bd2_neg hk hs
  have hsub := bd1_sub 1 k s
  rcases le_or_gt 0 (bd1 1 k s) with h1 | h1
  · have : bd1 1 k s * bd2 1 k s * pvr k s / s ≤ 0 := by
      apply div_nonpos_of_nonpos_of_nonneg _ hs.le
      exact mul_nonpos_of_nonpos_of_nonneg (mul_nonpos_of_nonneg_of_nonpos h1 h2.le) hp.le
    linarith
  · have h3 := mR_sub_lt (x := -bd1 1 k s) (y := -bd2 1 k s) (by linarith) (by linarith)
    change pvr k s < _ at h3
    have h4 : 0 < bd1 1 k s * bd2 1 k s := mul_pos_of_neg_of_neg h1 h2
    have h5 : 1 / -bd1 1 k s - 1 / -bd2 1 k s = s / (bd1 1 k s * bd2 1 k s) := by
      have n1 := h1.ne; have n2 := h2.ne
      field_simp
      linarith
    rw [h5, lt_div_iff₀ h4] at h3
    have : bd1 1 k s * bd2 1 k s * pvr k s / s < 1 := by rw [div_lt_one hs]; linarith
    linarith

/-- The price-to-vega ratio increases with the volatility: the log price is concave. -/
lemma strictMonoOn_pvr {k : ℝ} (hk : 1 ≤ k) : StrictMonoOn (pvr k) (Ioi 0) := by
  have hk0 : 0 < k := by linarith
  refine strictMonoOn_of_deriv_pos (convex_Ioi 0)
    (fun s hs => (hasDerivAt_pvr hk0 hs).continuousAt.continuousWithinAt) fun s hs => ?_
  rw [interior_Ioi] at hs
  rw [(hasDerivAt_pvr hk0 hs).deriv]
  exact pvr_deriv_pos hk hs

lemma hasDerivAt_log_black {k s : ℝ} (hk : 0 < k) (hs : 0 < s) :
    HasDerivAt (fun s => log (black 1 1 k s)) (1 / pvr k s) s := by
  have h := hasDerivAt_black (Or.inl rfl) (hasDerivAt_const s (1:ℝ)) (hasDerivAt_const s k)
    (hasDerivAt_id s) one_pos hk hs
  have hb := black_pos (Or.inl rfl) one_pos hk hs (cp := 1)
  refine (h.log hb.ne').congr_deriv ?_
  simp only [id, mul_zero, sub_zero, zero_add, one_mul, mul_one]
  rw [← pvr_mul hk hs]
  have := (npdf_pos (bd1 1 k s)).ne'
  have := (pvr_pos (k := k) hs).ne'
  field_simp

/-- Newton map in log-price space for target `p` (helper). -/
noncomputable def nmap (k p s : ℝ) : ℝ := s - (log (black 1 1 k s) - log p) * pvr k s

/-- Started below the root, the Newton map moves up and does not overshoot. -/
lemma nmap_bounds {k s r : ℝ} (hk : 1 ≤ k) (hs : 0 < s) (hsr : s ≤ r) :
    s ≤ nmap k (black 1 1 k r) s ∧ nmap k (black 1 1 k r) s ≤ r ∧
      (s < r → s < nmap k (black 1 1 k r) s) := by
  have hk0 : 0 < k := by linarith
  have hr : 0 < r := hs.trans_le hsr
  rcases eq_or_lt_of_le hsr with rfl | hlt
  · simp [nmap]
  have hb := black_pos (Or.inl rfl) one_pos hk0 hs (cp := 1)
  have hp := pvr_pos (k := k) hs
  have hmono := strictMonoOn_black (Or.inl rfl) one_pos hk0 (cp := 1) hs hr hlt
  have hlog : log (black 1 1 k s) < log (black 1 1 k r) := log_lt_log hb hmono
  have hgt : s < nmap k (black 1 1 k r) s := by
    unfold nmap; nlinarith [mul_pos (sub_pos.2 hlog) hp]
  refine ⟨hgt.le, ?_, fun _ => hgt⟩
  obtain ⟨ξ, hξ, he⟩ := exists_hasDerivAt_eq_slope (fun s => log (black 1 1 k s)) (fun s => 1 / pvr k s) hlt
    (fun x hx => (hasDerivAt_log_black hk0 (hs.trans_le hx.1)).continuousAt.continuousWithinAt)
    (fun x hx => hasDerivAt_log_black hk0 (hs.trans hx.1))
  have hξ0 : 0 < ξ := hs.trans hξ.1
  have hpp := strictMonoOn_pvr hk hs hξ0 hξ.1
  have hpξ := pvr_pos (k := k) hξ0
  rw [div_eq_div_iff hpξ.ne' (by linarith)] at he
  unfold nmap
  have h2 : (log (black 1 1 k r) - log (black 1 1 k s)) * pvr k s ≤ r - s := by
    have : (log (black 1 1 k r) - log (black 1 1 k s)) * pvr k s
        ≤ (log (black 1 1 k r) - log (black 1 1 k s)) * pvr k ξ :=
      mul_le_mul_of_nonneg_left hpp.le (by linarith)
    linarith
  linarith

lemma nmap_iter_bounds {k s r : ℝ} (hk : 1 ≤ k) (hs : 0 < s) (hsr : s ≤ r) (n : ℕ) :
    s ≤ (nmap k (black 1 1 k r))^[n] s ∧ (nmap k (black 1 1 k r))^[n] s ≤ r := by
  induction n with
  | zero => simp [hsr]
  | succ n ih =>
    rw [Function.iterate_succ_apply']
    have := nmap_bounds hk (hs.trans_le ih.1) ih.2
    exact ⟨ih.1.trans this.1, this.2.1⟩

lemma nmap_tendsto {k s r : ℝ} (hk : 1 ≤ k) (hs : 0 < s) (hsr : s ≤ r) :
    Tendsto (fun n => (nmap k (black 1 1 k r))^[n] s) atTop (𝓝 r) := by
  have hk0 : 0 < k := by linarith
  set f := nmap k (black 1 1 k r) with hf
  have hmono : Monotone fun n => f^[n] s := monotone_nat_of_le_succ fun n => by
    rw [Function.iterate_succ_apply']
    have h := nmap_iter_bounds hk hs hsr n
    exact (nmap_bounds hk (hs.trans_le h.1) h.2).1
  have hbdd : BddAbove (range fun n => f^[n] s) :=
    ⟨r, by rintro _ ⟨n, rfl⟩; exact (nmap_iter_bounds hk hs hsr n).2⟩
  have ht := tendsto_atTop_ciSup hmono hbdd
  set L := ⨆ n, f^[n] s with hL
  have hsL : s ≤ L := by
    have := hmono.ge_of_tendsto ht 0
    simpa using this
  have hLr : L ≤ r := le_of_tendsto' ht fun n => (nmap_iter_bounds hk hs hsr n).2
  have hL0 : 0 < L := hs.trans_le hsL
  have hcont : ContinuousAt f L := by
    have h1 := (hasDerivAt_log_black hk0 hL0).continuousAt
    have h2 := (hasDerivAt_pvr hk0 hL0).continuousAt
    exact continuousAt_id.sub ((h1.sub continuousAt_const).mul h2)
  have hfix : f L = L := by
    have h1 : Tendsto (fun n => f (f^[n] s)) atTop (𝓝 (f L)) := hcont.tendsto.comp ht
    have h2 : Tendsto (fun n => f^[n + 1] s) atTop (𝓝 L) := (tendsto_add_atTop_iff_nat 1).2 ht
    simp only [Function.iterate_succ_apply'] at h2
    exact tendsto_nhds_unique h1 h2
  rcases eq_or_lt_of_le hLr with h | h
  · rwa [h] at ht
  · exact absurd hfix (ne_of_gt ((nmap_bounds hk hL0 hLr).2.2 h))

/-- The quantile bound of Choi-Huh-Su: `N(d1) ≥ p(k+p)/(2p+k-1)`. -/
lemma chs_bound {k r : ℝ} (hk : 1 ≤ k) (hr : 0 < r) :
    let p := black 1 1 k r
    0 < p * (k + p) / (2 * p + (k - 1)) ∧ p * (k + p) / (2 * p + (k - 1)) ≤ ncdf (bd1 1 k r) := by
  intro p
  have hk0 : 0 < k := by linarith
  have hp : 0 < p := black_pos (Or.inl rfl) one_pos hk0 hr
  have hden : 0 < 2 * p + (k - 1) := by linarith
  refine ⟨by positivity, ?_⟩
  rw [div_le_iff₀ hden]
  set a := ncdf (bd1 1 k r) with ha
  set b := ncdf (bd2 1 k r) with hb
  have hpe : p = a - k * b := by
    simp only [p, black, one_mul]; ring
  -- R(d1)R(-d1) ≤ R(d2)R(-d2)
  have hd : |bd1 1 k r| ≤ |bd2 1 k r| := by
    rw [← sq_le_sq]
    have : bd2 1 k r ^ 2 - bd1 1 k r ^ 2 = 2 * log k := by
      unfold bd1 bd2; rw [one_div, log_inv]; field_simp; ring
    have := log_nonneg hk
    linarith
  have hR := mR_mul_neg_mono hd
  have hn := npdf_ratio one_pos hk0 hr.ne'
  rw [one_mul] at hn
  have m1 := mR_mul (bd1 1 k r)
  have m2 := mR_mul (-bd1 1 k r)
  have m3 := mR_mul (bd2 1 k r)
  have m4 := mR_mul (-bd2 1 k r)
  rw [npdf_neg, neg_neg] at m2 m4
  rw [ncdf_neg] at m1 m3
  have h1 : a * (1 - a) = npdf (bd1 1 k r) ^ 2 * (mR (bd1 1 k r) * mR (-bd1 1 k r)) := by
    rw [ha, ← m1, ← m2]; ring
  have h2 : b * (1 - b) * k ^ 2 = npdf (bd1 1 k r) ^ 2 * (mR (bd2 1 k r) * mR (-bd2 1 k r)) := by
    rw [hb, ← m3, ← m4, hn]; ring
  have h3 : a * (1 - a) ≤ b * (1 - b) * k ^ 2 := by
    rw [h1, h2]; exact mul_le_mul_of_nonneg_left hR (sq_nonneg _)
  rw [hpe]
  nlinarith

lemma ncdf_surj {q : ℝ} (h0 : 0 < q) (h1 : q < 1) : ∃ x, ncdf x = q := by
  have ha := (tendsto_ncdf_atBot.eventually (gt_mem_nhds h0)).exists
  have hb := (tendsto_ncdf_atTop.eventually (lt_mem_nhds h1)).exists
  obtain ⟨a, ha⟩ := ha
  obtain ⟨b, hb⟩ := hb
  have := mem_range_of_exists_le_of_exists_ge continuous_ncdf ⟨a, ha.le⟩ ⟨b, hb.le⟩
  exact this

lemma ncdf_nppf {q : ℝ} (h0 : 0 < q) (h1 : q < 1) : ncdf (Bsm.nppf q) = q :=
  Function.invFun_eq (ncdf_surj h0 h1)

lemma d1sigma_eq {d1 logk : ℝ} (hk : 0 ≤ logk) :
    Bsm.d1sigma d1 logk = √(d1 ^ 2 + 2 * logk) + d1 := by
  have hq : √(d1 ^ 2 + 2 * logk) ^ 2 = d1 ^ 2 + 2 * logk := sq_sqrt (by positivity)
  have hq0 := sqrt_nonneg (d1 ^ 2 + 2 * logk)
  unfold Bsm.d1sigma
  simp only
  split
  · rename_i hd
    rw [abs_of_neg hd, div_eq_iff (by linarith)]
    nlinarith
  · rename_i hd
    rw [abs_of_nonneg (not_lt.1 hd)]

lemma d1sigma_mono {a b logk : ℝ} (hk : 0 ≤ logk) (h : a ≤ b) :
    Bsm.d1sigma a logk ≤ Bsm.d1sigma b logk := by
  rw [d1sigma_eq hk, d1sigma_eq hk]
  have hqa : √(a ^ 2 + 2 * logk) ^ 2 = a ^ 2 + 2 * logk := sq_sqrt (by positivity)
  have hqb : √(b ^ 2 + 2 * logk) ^ 2 = b ^ 2 + 2 * logk := sq_sqrt (by positivity)
  have ha : |a| ≤ √(a ^ 2 + 2 * logk) := by
    rw [← sqrt_sq_eq_abs]; exact sqrt_le_sqrt (by linarith)
  have hb : |b| ≤ √(b ^ 2 + 2 * logk) := by
    rw [← sqrt_sq_eq_abs]; exact sqrt_le_sqrt (by linarith)
  have ha' := abs_le.1 ha
  have hb' := abs_le.1 hb
  by_contra hc
  push Not at hc
  -- (√a - √b) > b - a ≥ 0
  have h1 : b - a < √(a ^ 2 + 2 * logk) - √(b ^ 2 + 2 * logk) := by linarith
  have h2 : 0 ≤ √(a ^ 2 + 2 * logk) + √(b ^ 2 + 2 * logk) + (a + b) := by linarith
  have h3 : (√(a ^ 2 + 2 * logk) - √(b ^ 2 + 2 * logk)) * (√(a ^ 2 + 2 * logk) + √(b ^ 2 + 2 * logk))
      = a ^ 2 - b ^ 2 := by nlinarith
  have h4 : 0 ≤ √(a ^ 2 + 2 * logk) + √(b ^ 2 + 2 * logk) := by positivity
  rcases eq_or_lt_of_le h4 with h5 | h5
  · have e1 := sqrt_nonneg (a ^ 2 + 2 * logk)
    have e2 := sqrt_nonneg (b ^ 2 + 2 * logk)
    linarith
  · nlinarith [mul_lt_mul_of_pos_right h1 h5]

lemma d1sigma_bd1 {k r : ℝ} (hk : 1 ≤ k) (hr : 0 < r) : Bsm.d1sigma (bd1 1 k r) (log k) = r := by
  have hl := log_nonneg hk
  rw [d1sigma_eq hl]
  have : bd1 1 k r ^ 2 + 2 * log k = bd2 1 k r ^ 2 := by
    unfold bd1 bd2; rw [one_div, log_inv]; field_simp; ring
  rw [this, sqrt_sq_eq_abs, abs_of_neg (bd2_neg hk hr)]
  linarith [bd1_sub 1 k r]

lemma stdSmall_mono {k s t : ℝ} (hk : 1 ≤ k) (hs : 0 < s) (hst : s ≤ t)
    (h : ¬ Bsm.stdSmall s (log k) 1) : ¬ Bsm.stdSmall t (log k) 1 := by
  intro ht
  apply h
  refine ⟨hs, ?_, one_pos⟩
  refine lt_of_le_of_lt ?_ ht.2.1
  rw [stdD0_eq, stdD0_eq]
  have hl : 0 ≤ -log (1 / k) := by rw [one_div, log_inv, neg_neg]; exact log_nonneg hk
  have h1 : -(log (1 / k) / t) ≤ -(log (1 / k) / s) := by
    rw [← neg_div, ← neg_div]
    exact div_le_div_of_nonneg_left hl hs hst
  exact div_le_div₀ (hs.le.trans hst) hst (by positivity) (max_le_max le_rfl h1)

/-- The initial guess is a positive lower bound of the implied standard deviation, whenever it is outside
the small-volatility branch. -/
lemma ivGuess_bounds {k r : ℝ} (hk : 1 ≤ k) (hr : 0 < r)
    (hb : ¬ Bsm.stdSmall (Bsm.ivGuess k (black 1 1 k r)) (log k) 1) :
    0 < Bsm.ivGuess k (black 1 1 k r) ∧ Bsm.ivGuess k (black 1 1 k r) ≤ r := by
  set p := black 1 1 k r with hp
  have hk0 : 0 < k := by linarith
  have pp : 0 < p := black_pos (Or.inl rfl) one_pos hk0 hr
  have hcase : ¬ (log k = 0 ∧ p < 1e-4) := by
    rintro ⟨h1, h2⟩
    apply hb
    have e : Bsm.ivGuess k p = √(2 * π) * p * (1 + π * p ^ 2 / 12) := by
      unfold Bsm.ivGuess; rw [if_pos ⟨h1, h2⟩]
    have hpi := pi_le_four
    have hpi0 := pi_pos
    have hsq : √(2 * π) < 3 := by rw [sqrt_lt' (by norm_num)]; linarith
    have hsq0 : 0 < √(2 * π) := by positivity
    have h3 : π * p ^ 2 / 12 ≤ 1 := by nlinarith
    have h4 : 0 < Bsm.ivGuess k p := by rw [e]; positivity
    refine ⟨h4, ?_, one_pos⟩
    rw [h1]
    have h5 : Bsm.ivGuess k p < 1e-3 := by
      rw [e]
      have h6 : √(2 * π) * p ≤ 3 * 1e-4 := by nlinarith
      have h7 : (0:ℝ) ≤ π * p ^ 2 / 12 := by positivity
      nlinarith
    simp only [Bsm.stdD0]
    norm_num
    norm_num at h5
    exact h5
  have e : Bsm.ivGuess k p = Bsm.d1sigma (Bsm.nppf (p * (k + p) / (2 * p + (k - 1)))) (log k) := by
    unfold Bsm.ivGuess; rw [if_neg hcase]
  obtain ⟨q0, q1⟩ := chs_bound hk hr
  simp only [← hp] at q0 q1
  set q := p * (k + p) / (2 * p + (k - 1)) with hq
  have hlt : q < 1 := q1.trans_lt (ncdf_lt_one _)
  have hn := ncdf_nppf q0 hlt
  have hle : Bsm.nppf q ≤ bd1 1 k r := by
    rw [← strictMono_ncdf.le_iff_le, hn]; exact q1
  have hl := log_nonneg hk
  constructor
  · rw [e, d1sigma_eq hl]
    rcases eq_or_lt_of_le hl with h0 | h0
    · -- at the money the quantile is above one half
      have hk1 : k = 1 := by
        have := log_eq_zero.1 h0.symm
        rcases this with h | h | h <;> linarith
      have hq2 : 1 / 2 < q := by
        rw [hq, hk1, lt_div_iff₀ (by linarith)]; nlinarith
      have : 0 < Bsm.nppf q := by
        rw [← strictMono_ncdf.lt_iff_lt, hn, ncdf_zero]; exact hq2
      positivity
    · have : |Bsm.nppf q| < √(Bsm.nppf q ^ 2 + 2 * log k) := by
        rw [← sqrt_sq_eq_abs]; exact sqrt_lt_sqrt (sq_nonneg _) (by linarith)
      have := (abs_lt.1 this).1
      linarith
  · rw [e, ← d1sigma_bd1 hk hr]
    exact d1sigma_mono hl hle

end PyFENG
