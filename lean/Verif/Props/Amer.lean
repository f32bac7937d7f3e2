import Verif.Model.Amer
import Verif.Props.Bsm

/-!
# C65: American put approximation
-/

namespace PyFENG

open Real Set Filter Topology

namespace Amer

/-- **C65 (disagreement).** `AmerLi2010QdPlus` cannot be constructed: its initialiser forwards its arguments to `object.__init__`. -/
theorem construct_fails (args : List Val) (kw : List (String × Val)) : init args kw = .error .typeError := by
  unfold init objectInit
  rcases args with _ | ⟨s, rest⟩
  · simp only
    rcases h : kw.find? (fun p => p.1 == "sigma") with _ | s
    · rw [h]
    · rw [h]; simp
  · simp

/-! ### Roots of the characteristic equation -/

variable (m : MParams)

lemma q_quadratic {d : ℝ} (n c : ℝ) (h : 0 ≤ n ^ 2 + 4 * c) (hd : d = -0.5 * (n + √(n ^ 2 + 4 * c))) : d ^ 2 + n * d - c = 0 := by
  have hs := sq_sqrt h
  generalize √(n ^ 2 + 4 * c) = q at *
  rw [hd]
  norm_num
  linear_combination (1 / 4) * hs

lemma q_neg {d : ℝ} (n c : ℝ) (hc : 0 < c) (hd : d = -0.5 * (n + √(n ^ 2 + 4 * c))) : d < 0 := by
  have h : |n| < √(n ^ 2 + 4 * c) := by
    rw [← sqrt_sq_eq_abs]; exact sqrt_lt_sqrt (sq_nonneg n) (by linarith)
  have := neg_abs_le n
  rw [hd]; norm_num; linarith

lemma mm_pos (hr : 0 < m.intr) (hs : m.sigma ≠ 0) : 0 < mm m := by unfold mm; positivity

lemma hh_pos (hr : 0 < m.intr) {T : ℝ} (hT : 0 < T) : 0 < hh m T := by
  unfold hh MParams.df
  have : exp (-m.intr * T) < 1 := exp_lt_one_iff.2 (by nlinarith)
  linarith

/-- **C65.** `q_inf` is the negative root of the stationary Black-Scholes equation: `S ↦ S^q` solves `½σ²S²V'' + (r-q)SV' - rV = 0`. -/
theorem qInf_root (hr : 0 < m.intr) (hs : m.sigma ≠ 0) : qInf m < 0 ∧
    m.sigma ^ 2 / 2 * (qInf m * (qInf m - 1)) + (m.intr - m.divr) * qInf m - m.intr = 0 := by
  have hm := mm_pos m hr hs
  have h1 := q_quadratic (nnM1 m) (mm m) (by positivity) (rfl : qInf m = _)
  refine ⟨q_neg (nnM1 m) (mm m) hm rfl, ?_⟩
  unfold nnM1 mm at h1
  generalize qInf m = q at *
  field_simp at h1
  linear_combination h1 / 2

/-- **C65.** `s_inf` is the exercise boundary of the perpetual American put: it lies strictly between `0` and the strike, and the perpetual value `(K-B)(S/B)^q` pastes smoothly on `K-S` there. -/
theorem sInf_perpetual (hr : 0 < m.intr) (hs : m.sigma ≠ 0) {K : ℝ} (hK : 0 < K) :
    0 < sInf m K ∧ sInf m K < K ∧
    HasDerivAt (fun S => (K - sInf m K) * (S / sInf m K) ^ qInf m) (-1) (sInf m K) ∧ (K - sInf m K) * (sInf m K / sInf m K) ^ qInf m = K - sInf m K := by
  have hq := (qInf_root m hr hs).1
  have hden : 1 < 1 - 1 / qInf m := by have : 1 / qInf m < 0 := one_div_neg.2 hq; linarith
  have h0 : 0 < sInf m K := by unfold sInf; exact div_pos hK (by linarith)
  have h1 : sInf m K < K := by unfold sInf; rw [div_lt_iff₀ (by linarith)]; nlinarith
  refine ⟨h0, h1, ?_, by rw [div_self h0.ne', one_rpow, mul_one]⟩
  have hB : K = sInf m K * (1 - 1 / qInf m) := by unfold sInf; rw [div_mul_cancel₀]; linarith
  have hd : HasDerivAt (fun S : ℝ => S / sInf m K) (1 / sInf m K) (sInf m K) := (hasDerivAt_id' _).div_const _
  have h2 := (hd.rpow_const (p := qInf m) (Or.inl (by rw [div_self h0.ne']; norm_num))).const_mul (K - sInf m K)
  refine h2.congr_deriv ?_
  rw [div_self h0.ne', one_rpow]
  have hq0 : qInf m ≠ 0 := hq.ne
  generalize sInf m K = s at *
  rw [hB]
  field_simp
  ring

/-- **C65.** The stationary boundary is below the boundary at expiry `s0 = K min(1, r/q)`. -/
theorem sInf_le_s0 (hr : 0 < m.intr) (hs : m.sigma ≠ 0) {K : ℝ} (hK : 0 < K) (hd : eps ≤ m.divr ∨ eps ≤ m.intr) : sInf m K ≤ s0 m K := by
  obtain ⟨hq, hq2⟩ := qInf_root m hr hs
  have h1 := (sInf_perpetual m hr hs hK).2.1
  have hden : 1 < 1 - 1 / qInf m := by have : 1 / qInf m < 0 := one_div_neg.2 hq; linarith
  unfold s0
  rw [mul_min_of_nonneg _ _ hK.le, mul_one]
  refine le_min h1.le ?_
  by_cases hde : eps ≤ m.divr
  · have hdiv : 0 < m.divr := eps_pos.trans_le hde
    rw [max_eq_left hde]
    unfold sInf
    rw [div_le_iff₀ (by linarith), mul_assoc]
    refine le_mul_of_one_le_right hK.le ?_
    have e : m.intr / m.divr * (1 - 1 / qInf m) - 1 = (m.sigma ^ 2 / 2 * (qInf m * (qInf m - 1))) / (m.divr * (-qInf m)) := by
      have : m.sigma ^ 2 / 2 * (qInf m * (qInf m - 1)) = m.intr - (m.intr - m.divr) * qInf m := by linarith
      have hq0 : qInf m ≠ 0 := hq.ne
      rw [this]
      field_simp
      ring
    have : 0 ≤ (m.sigma ^ 2 / 2 * (qInf m * (qInf m - 1))) / (m.divr * (-qInf m)) := by
      refine div_nonneg (mul_nonneg (by positivity) ?_) (mul_nonneg hdiv.le (by linarith))
      nlinarith
    linarith
  · push Not at hde
    rw [max_eq_right hde.le]
    have h2 : 1 ≤ m.intr / eps := by rw [le_div_iff₀ eps_pos, one_mul]; exact hd.resolve_left (not_le.2 hde)
    exact h1.le.trans (le_mul_of_one_le_right hK.le h2)

/-- **C65.** The initial guess of the exercise boundary lies between the perpetual boundary and the boundary at expiry as long as `(r-q)√T <= 2σ`. -/
theorem ig_between (hr : 0 < m.intr) (hs : 0 < m.sigma) {K T cp : ℝ} (hK : 0 < K) (hT : 0 ≤ T) (hd : eps ≤ m.divr ∨ eps ≤ m.intr) (hg : (m.intr - m.divr) * √T ≤ 2 * m.sigma) :
    sInf m K ≤ exerBddIg m K T cp ∧ exerBddIg m K T cp ≤ s0 m K ∧ exerBddIg m K 0 cp = s0 m K := by
  have h1 := (sInf_perpetual m hr hs.ne' hK).2.1
  have h2 := sInf_le_s0 m hr hs.ne' hK hd
  have hth : 0 ≤ K / (sInf m K - K) * ((m.intr - m.divr) * T - 2 * m.sigma * √T) := by
    refine mul_nonneg_of_nonpos_of_nonpos (div_nonpos_of_nonneg_of_nonpos hK.le (by linarith)) ?_
    have e : (m.intr - m.divr) * T - 2 * m.sigma * √T = √T * ((m.intr - m.divr) * √T - 2 * m.sigma) := by
      nth_rw 1 [← mul_self_sqrt hT]; ring
    rw [e]
    exact mul_nonpos_of_nonneg_of_nonpos (sqrt_nonneg _) (by linarith)
  unfold exerBddIg
  simp only
  refine ⟨?_, ?_, ?_⟩
  · have := mul_nonneg (sub_nonneg.2 h2) (exp_pos (-(K / (sInf m K - K) * ((m.intr - m.divr) * T - 2 * m.sigma * √T)))).le
    linarith
  · have hle : exp (-(K / (sInf m K - K) * ((m.intr - m.divr) * T - 2 * m.sigma * √T))) ≤ 1 := exp_le_one_iff.2 (by linarith)
    have := mul_le_mul_of_nonneg_left hle (sub_nonneg.2 h2)
    linarith
  · simp

/-- For a larger carry the initial guess is above the boundary at expiry (hence not a boundary at all when it exceeds the strike). -/
theorem ig_above (hr : 0 < m.intr) (hs : 0 < m.sigma) {K T cp : ℝ} (hK : 0 < K) (hT : 0 < T) (hlt : sInf m K < s0 m K) (hg : 2 * m.sigma < (m.intr - m.divr) * √T) :
    s0 m K < exerBddIg m K T cp := by
  have h1 := (sInf_perpetual m hr hs.ne' hK).2.1
  have hth : K / (sInf m K - K) * ((m.intr - m.divr) * T - 2 * m.sigma * √T) < 0 := by
    refine mul_neg_of_neg_of_pos (div_neg_of_pos_of_neg hK (by linarith)) ?_
    have e : (m.intr - m.divr) * T - 2 * m.sigma * √T = √T * ((m.intr - m.divr) * √T - 2 * m.sigma) := by
      nth_rw 1 [← mul_self_sqrt hT.le]; ring
    rw [e]
    exact mul_pos (sqrt_pos.2 hT) (by linarith)
  unfold exerBddIg
  simp only
  have hle : 1 < exp (-(K / (sInf m K - K) * ((m.intr - m.divr) * T - 2 * m.sigma * √T))) := one_lt_exp_iff.2 (by linarith)
  have := mul_lt_mul_of_pos_left hle (sub_pos.2 hlt)
  linarith

lemma qqdSqrt_eq {T : ℝ} : qqdSqrt m T = √(nnM1 m ^ 2 + 4 * (mm m / hh m T)) := by unfold qqdSqrt; rw [mul_div_assoc]

/-- **C65.** `qqd` is the negative root of the quadratic of the QD+ approximation, `q² + (N-1) q - M/h = 0`, and `qqd_prime` is its derivative with respect to `h = 1 - exp(-rT)`. -/
theorem qqd_root (hr : 0 < m.intr) (hs : m.sigma ≠ 0) {T : ℝ} (hT : 0 < T) : qqd m T < 0 ∧ qqd m T ^ 2 + nnM1 m * qqd m T - mm m / hh m T = 0 ∧
    HasDerivAt (fun h => -0.5 * (nnM1 m + √(nnM1 m ^ 2 + 4 * mm m / h))) (qqdPrime m T) (hh m T) := by
  have hm := mm_pos m hr hs
  have hh := hh_pos m hr hT
  have e : qqd m T = -0.5 * (nnM1 m + √(nnM1 m ^ 2 + 4 * (mm m / Amer.hh m T))) := by unfold qqd; rw [qqdSqrt_eq]
  refine ⟨q_neg _ _ (by positivity) e, q_quadratic _ _ (by positivity) e, ?_⟩
  have hrad : nnM1 m ^ 2 + 4 * mm m / Amer.hh m T ≠ 0 := by positivity
  have h1 : HasDerivAt (fun h : ℝ => nnM1 m ^ 2 + 4 * mm m / h) (-(4 * mm m) / Amer.hh m T ^ 2) (Amer.hh m T) := by
    have := ((hasDerivAt_inv hh.ne').const_mul (4 * mm m)).const_add (nnM1 m ^ 2)
    refine (this.congr_deriv ?_).congr_of_eventuallyEq (Eventually.of_forall fun y => by simp only [div_eq_mul_inv])
    field_simp
  have h2 := ((h1.sqrt hrad).const_add (nnM1 m)).const_mul (-0.5)
  refine h2.congr_deriv ?_
  have hq : 0 < qqdSqrt m T := by unfold qqdSqrt; exact sqrt_pos.2 (by positivity)
  have e3 : √(nnM1 m ^ 2 + 4 * mm m / Amer.hh m T) = qqdSqrt m T := rfl
  rw [e3]
  unfold qqdPrime
  field_simp
  norm_num

/-! ### Value matching and smooth pasting -/

/-- **C65.** Only puts are priced; below the boundary the price is the intrinsic value. -/
theorem exercise_region (B K S T cp : ℝ) : (S ≤ B → cp < 0 → price m B K S T cp = .ok (K - S)) ∧ (0 ≤ cp → price m B K S T cp = .error "AssertionError") := by
  constructor
  · intro h hcp
    unfold price
    rw [if_pos hcp, if_pos h]
  · intro hcp
    unfold price
    rw [if_neg (not_lt.2 hcp)]

/-- **C65.** Value matching: whatever the boundary, the continuation value at the boundary is the intrinsic value. -/
theorem value_matching {B : ℝ} (hB : 0 < B) (K T cp : ℝ) : continuation m B K B T cp = K - B := by
  unfold continuation
  simp only
  rw [div_self hB.ne', log_one]
  simp

lemma hasDerivAt_continuation {B K : ℝ} (hB : 0 < B) (hK : 0 < K) (T : ℝ) :
    HasDerivAt (fun S => continuation m B K S T (-1)) (Bsm.delta m K B T (-1) + (K - B - Bsm.price m K B T (-1)) * (qqd m T + c0 m B K T (-1)) / B) B := by
  have hd := bsm_delta_correct m (cp := -1) (T := T) (Or.inr rfl) hK hB
  have hl : HasDerivAt (fun S : ℝ => log (S / B)) (1 / B) B := by
    have h1 : HasDerivAt (fun S : ℝ => S / B) (1 / B) B := (hasDerivAt_id' _).div_const _
    have h2 := h1.log (by rw [div_self hB.ne']; norm_num)
    refine h2.congr_deriv ?_
    rw [div_self hB.ne', div_one]
  unfold continuation
  simp only
  generalize K - B - Bsm.price m K B T (-1) = E
  generalize c0 m B K T (-1) = c
  generalize bCoef m T = b
  generalize qqd m T = q
  have hden : HasDerivAt (fun S : ℝ => 1 - log (S / B) * (c + b * log (S / B))) (-(1 / B * c)) B := by
    have h1 := (hl.fun_mul ((hl.const_mul b).const_add c)).const_sub 1
    refine h1.congr_deriv ?_
    rw [div_self hB.ne', log_one]
    ring
  have hex := (hl.const_mul q).exp
  have hne : (1 - log (B / B) * (c + b * log (B / B))) ≠ 0 := by rw [div_self hB.ne', log_one]; norm_num
  have h2 := hd.add ((((hasDerivAt_const B E).fun_div hden hne)).fun_mul hex)
  refine h2.congr_deriv ?_
  rw [div_self hB.ne', log_one]
  norm_num
  field_simp
  ring

lemma zeroFunc_eq (B K T : ℝ) : zeroFunc m B K T (-1) = (1 - m.divf T * ncdf (-Bsm.d1 m K B T)) * B + (qqd m T + c0 m B K T (-1)) * (K - B - Bsm.price m K B T (-1)) := by
  unfold zeroFunc qqd c0 Bsm.d1
  simp only
  ring

/-- **C65.** Smooth pasting: a positive boundary is a zero of `zero_func` exactly if the slope of the continuation value there is `-1`, the slope of the intrinsic value (spot prices, i.e. `is_fwd` not set). -/
theorem smooth_pasting (hf : m.isFwd = false) {B K : ℝ} (hB : 0 < B) (hK : 0 < K) (T : ℝ) :
    zeroFunc m B K T (-1) = 0 ↔ HasDerivAt (fun S => continuation m B K S T (-1)) (-1) B := by
  have h := hasDerivAt_continuation m hB hK T
  have e : Bsm.delta m K B T (-1) = -(m.divf T * ncdf (-Bsm.d1 m K B T)) := by
    unfold Bsm.delta
    rw [if_neg (by simp [hf])]
    ring_nf
  rw [zeroFunc_eq]
  constructor
  · intro h0
    refine h.congr_deriv ?_
    rw [e]
    field_simp
    linear_combination h0
  · intro h1
    have := h.unique h1
    rw [e] at this
    field_simp at this
    linear_combination this

/-- **C65 (disagreement).** With `is_fwd=True` the delta used by `zero_func` misses the discount factor: at the boundary it returns, the slope of the price is not `-1` whenever the interest rate is positive. -/
theorem smooth_pasting_fails_is_fwd (hf : m.isFwd = true) (hr : 0 < m.intr) {B K T : ℝ} (hB : 0 < B) (hK : 0 < K) (hT : 0 < T) (h0 : zeroFunc m B K T (-1) = 0) :
    ¬ HasDerivAt (fun S => continuation m B K S T (-1)) (-1) B := by
  intro h1
  have h := (hasDerivAt_continuation m hB hK T).unique h1
  have e : Bsm.delta m K B T (-1) = -(m.df T * ncdf (-Bsm.d1 m K B T)) := by
    unfold Bsm.delta
    rw [if_pos hf]
    ring_nf
  have hdf : m.divf T = 1 := by unfold MParams.divf; rw [if_pos hf]
  rw [zeroFunc_eq, hdf, one_mul] at h0
  rw [e] at h
  field_simp at h
  have h3 : (1 - m.df T) * (ncdf (-Bsm.d1 m K B T) * B) = 0 := by linear_combination h - h0
  have h4 := hh_pos m hr hT
  unfold hh at h4
  have h5 := ncdf_pos (-Bsm.d1 m K B T)
  have : 0 < (1 - m.df T) * (ncdf (-Bsm.d1 m K B T) * B) := by positivity
  linarith

/-! ### Comparison with the European put -/

lemma bCoef_neg (hr : 0 < m.intr) (hs : m.sigma ≠ 0) {T : ℝ} (hT : 0 < T) : bCoef m T < 0 := by
  have hm := mm_pos m hr hs
  have hh := hh_pos m hr hT
  have hq : 0 < qqdSqrt m T := by unfold qqdSqrt; exact sqrt_pos.2 (by positivity)
  have hd := m.df_pos T
  have : 0 < qqdPrime m T := by unfold qqdPrime; positivity
  unfold bCoef
  have : 0 < m.df T * mm m * qqdPrime m T / (2 * qqdSqrt m T) := by positivity
  have e : -m.df T * mm m * qqdPrime m T / (2 * qqdSqrt m T) = -(m.df T * mm m * qqdPrime m T / (2 * qqdSqrt m T)) := by ring
  rw [e]; linarith

/-- **C65 (partial).** The price is above the European price, at every spot above the boundary, if at the boundary the intrinsic value exceeds the European price and the denominator cannot vanish
(`c0 <= 0` or `c0² < -4b`; the code does not check this). -/
theorem ge_european_partial (hr : 0 < m.intr) (hs : m.sigma ≠ 0) {B K S T : ℝ} (hB : 0 < B) (hBS : B < S) (hT : 0 < T) (hE : Bsm.price m K B T (-1) < K - B)
    (hc : c0 m B K T (-1) ≤ 0 ∨ c0 m B K T (-1) ^ 2 < -4 * bCoef m T) : ∃ p, price m B K S T (-1) = .ok p ∧ Bsm.price m K S T (-1) < p := by
  unfold price
  rw [if_pos (by norm_num), if_neg (not_le.2 hBS), if_pos hBS]
  refine ⟨_, rfl, ?_⟩
  unfold continuation
  simp only
  have hl : 0 < log (S / B) := log_pos ((one_lt_div hB).2 hBS)
  have hb := bCoef_neg m hr hs hT
  have hden : 0 < 1 - log (S / B) * (c0 m B K T (-1) + bCoef m T * log (S / B)) := by
    generalize log (S / B) = l at *
    generalize c0 m B K T (-1) = c at *
    generalize bCoef m T = b at *
    rcases hc with h | h
    · nlinarith [mul_nonneg hl.le (neg_nonneg.2 h), mul_pos (mul_pos hl hl) (neg_pos.2 hb)]
    · have h1 : 0 < 4 * -b * (1 - l * (c + b * l)) := by nlinarith [sq_nonneg (2 * b * l + c)]
      exact (pos_iff_pos_of_mul_pos h1).1 (by linarith)
  have := mul_pos (div_pos (sub_pos.2 hE) hden) (exp_pos (qqd m T * log (S / B)))
  linarith

/-- At and above the strike the price is then at least the intrinsic value as well. -/
theorem ge_intrinsic_partial (hr : 0 < m.intr) (hs : m.sigma ≠ 0) {B K S T : ℝ} (hB : 0 < B) (hK : 0 < K) (hT : 0 < T) (hE : Bsm.price m K B T (-1) < K - B) (hS : S ≤ B ∨ (K ≤ S ∧ B < S))
    (hc : c0 m B K T (-1) ≤ 0 ∨ c0 m B K T (-1) ^ 2 < -4 * bCoef m T) : ∃ p, price m B K S T (-1) = .ok p ∧ max (K - S) 0 ≤ p := by
  rcases hS with h | ⟨h, h2⟩
  · refine ⟨K - S, (exercise_region m B K S T (-1)).1 h (by norm_num), max_le le_rfl ?_⟩
    have hp := (bsm_price_bounds m (T := T) (cp := -1) (Or.inr rfl) hK hB).1
    have := (le_max_right (Spec.discount m.intr T * (-1 * (Spec.forward m.isFwd m.intr m.divr B T - K))) 0).trans_lt hp
    linarith
  · obtain ⟨p, hp, hlt⟩ := ge_european_partial m hr hs hB h2 hT hE hc
    refine ⟨p, hp, ?_⟩
    have hp := (bsm_price_bounds m (T := T) (cp := -1) (Or.inr rfl) hK (hB.trans h2)).1
    have := (le_max_right (Spec.discount m.intr T * (-1 * (Spec.forward m.isFwd m.intr m.divr S T - K))) 0).trans_lt hp
    exact max_le (by linarith) (by linarith)

/-- The hypotheses of the last two theorems hold for every small enough boundary. -/
theorem hypotheses_hold (hr : 0 < m.intr) (hs : m.sigma ≠ 0) {K T : ℝ} (hK : 0 < K) (hT : 0 < T) :
    ∀ᶠ B in 𝓝[>] (0 : ℝ), Bsm.price m K B T (-1) < K - B ∧ c0 m B K T (-1) < 0 := by
  have hmem : ∀ᶠ B in 𝓝[>] (0 : ℝ), 0 < B := eventually_mem_nhdsWithin
  have hid : Tendsto (fun B : ℝ => B) (𝓝[>] (0 : ℝ)) (𝓝 0) := tendsto_nhdsWithin_of_tendsto_nhds tendsto_id
  obtain ⟨FF, hFF⟩ : ∃ x, x = m.fwd 1 T := ⟨_, rfl⟩
  have hfw : ∀ B, m.fwd B T = B * FF := fun B => by rw [hFF]; unfold MParams.fwd; split_ifs <;> ring
  have hF : Tendsto (fun B : ℝ => m.fwd B T) (𝓝[>] (0 : ℝ)) (𝓝 0) := by
    simp only [hfw]; simpa using hid.mul_const FF
  have hp : Tendsto (fun B : ℝ => Bsm.price m K B T (-1)) (𝓝[>] (0 : ℝ)) (𝓝 (m.df T * K)) := by
    refine tendsto_of_tendsto_of_tendsto_of_le_of_le' (g := fun B => m.df T * (K - m.fwd B T)) (h := fun _ => m.df T * K) ?_ tendsto_const_nhds ?_ ?_
    · simpa using (hF.const_sub K).const_mul (m.df T)
    · filter_upwards [hmem] with B hB
      have h := (bsm_price_bounds m (T := T) (cp := -1) (Or.inr rfl) hK hB).1
      rw [← m.df_eq_spec, ← m.forward_eq_spec, ← m.fwd_eq_forward] at h
      refine le_trans ?_ ((le_max_left _ _).trans h.le)
      exact le_of_eq (by ring)
    · filter_upwards [hmem] with B hB
      have h := (bsm_price_bounds m (T := T) (cp := -1) (Or.inr rfl) hK hB).2
      rw [← m.df_eq_spec, if_neg (by norm_num)] at h
      exact h.le
  have hn : Tendsto (fun B : ℝ => B * npdf (Bsm.d1 m K B T)) (𝓝[>] (0 : ℝ)) (𝓝 0) := by
    refine squeeze_zero' (g := fun B => B * npdf 0) ?_ ?_ (by simpa using hid.mul_const (npdf 0))
    · filter_upwards [hmem] with B hB
      exact mul_nonneg hB.le (npdf_pos _).le
    · filter_upwards [hmem] with B hB
      refine mul_le_mul_of_nonneg_left ?_ hB.le
      unfold npdf
      refine div_le_div_of_nonneg_right (exp_le_exp.2 ?_) (sqrt_nonneg _)
      linarith [sq_nonneg (Bsm.d1 m K B T)]
  have hc : Tendsto (fun B : ℝ => B * ncdf (-1 * Bsm.d1 m K B T)) (𝓝[>] (0 : ℝ)) (𝓝 0) := by
    refine squeeze_zero' (g := fun B => B) ?_ ?_ hid
    · filter_upwards [hmem] with B hB
      exact mul_nonneg hB.le (ncdf_pos _).le
    · filter_upwards [hmem] with B hB
      exact mul_le_of_le_one_right hB.le (ncdf_lt_one _).le
  have ht : Tendsto (fun B : ℝ => Bsm.theta m K B T (-1)) (𝓝[>] (0 : ℝ)) (𝓝 (m.intr * (m.df T * K))) := by
    have h1 : Tendsto (fun B : ℝ => (if m.isFwd then 0 else (m.intr - m.divr) * B * Bsm.delta m K B T (-1))) (𝓝[>] (0 : ℝ)) (𝓝 0) := by
      split_ifs with h
      · exact tendsto_const_nhds
      · unfold Bsm.delta
        rw [if_neg h]
        have := (hc.const_mul (-((m.intr - m.divr) * m.divf T)))
        rw [mul_zero] at this
        refine this.congr fun B => by ring
    have h2 : Tendsto (fun B : ℝ => m.sigma / (2 * T) * Bsm.vega m K B T (-1)) (𝓝[>] (0 : ℝ)) (𝓝 0) := by
      unfold Bsm.vega
      simp only [hfw]
      have := (hn.const_mul (m.sigma / (2 * T) * m.df T * FF * √T))
      rw [mul_zero] at this
      refine this.congr fun B => by ring
    have := ((hp.const_mul m.intr).sub h1).sub h2
    rw [sub_zero, sub_zero] at this
    exact this
  have hh0 := hh_pos m hr hT
  have hE : Tendsto (fun B : ℝ => K - B - Bsm.price m K B T (-1)) (𝓝[>] (0 : ℝ)) (𝓝 (K * hh m T)) := by
    have := (hid.const_sub K).sub hp
    rw [sub_zero] at this
    rwa [show K - m.df T * K = K * hh m T by unfold hh; ring] at this
  have hm := mm_pos m hr hs
  have hq : 0 < qqdSqrt m T := by unfold qqdSqrt; exact sqrt_pos.2 (by positivity)
  have hqp : 0 < qqdPrime m T := by unfold qqdPrime; positivity
  have hdf := m.df_pos T
  have hc0 : Tendsto (fun B : ℝ => c0 m B K T (-1)) (𝓝[>] (0 : ℝ)) (𝓝 (mm m / qqdSqrt m T * -(m.df T * qqdPrime m T / qqdSqrt m T))) := by
    unfold c0
    simp only
    have := (((((ht.div_const m.intr).div hE (by positivity)).const_sub (m.df T / hh m T)).sub_const (m.df T * qqdPrime m T / qqdSqrt m T)).const_mul (mm m / qqdSqrt m T))
    have e : mm m / qqdSqrt m T * (m.df T / hh m T - m.intr * (m.df T * K) / m.intr / (K * hh m T) - m.df T * qqdPrime m T / qqdSqrt m T) = mm m / qqdSqrt m T * -(m.df T * qqdPrime m T / qqdSqrt m T) := by
      have : m.intr * (m.df T * K) / m.intr / (K * hh m T) = m.df T / hh m T := by field_simp
      rw [this]; ring
    rw [e] at this
    exact this
  have hneg : mm m / qqdSqrt m T * -(m.df T * qqdPrime m T / qqdSqrt m T) < 0 := by
    have : 0 < mm m / qqdSqrt m T * (m.df T * qqdPrime m T / qqdSqrt m T) := by positivity
    linarith
  filter_upwards [hE.eventually (lt_mem_nhds (by positivity : 0 < K * hh m T)), hc0.eventually (gt_mem_nhds hneg)] with B h1 h2
  exact ⟨by linarith, h2⟩

/-- A concrete model: `sigma=1, intr=1, divr=1`; the guess is between the two boundaries, and the approximation dominates the European put for some boundary. -/
example : (sInf ⟨1, 1, 1, false⟩ 2 ≤ exerBddIg ⟨1, 1, 1, false⟩ 2 1 (-1)) ∧
    ∃ B > 0, ∀ S, B < S → ∃ p, price ⟨1, 1, 1, false⟩ B 2 S 1 (-1) = .ok p ∧ Bsm.price ⟨1, 1, 1, false⟩ 2 S 1 (-1) < p := by
  constructor
  · exact (ig_between ⟨1, 1, 1, false⟩ one_pos one_pos (by norm_num) (by norm_num) (Or.inl (show eps ≤ 1 by linarith [eps_lt])) (by norm_num)).1
  · obtain ⟨B, ⟨h1, h2⟩, hB⟩ := ((hypotheses_hold ⟨1, 1, 1, false⟩ (K := 2) (T := 1) one_pos one_ne_zero (by norm_num) one_pos).and eventually_mem_nhdsWithin).exists
    exact ⟨B, hB, fun S hS => ge_european_partial ⟨1, 1, 1, false⟩ one_pos one_ne_zero hB hS one_pos h1 (Or.inl h2.le)⟩

/-- Specification: what the holder of an exercised put earns per unit of time, interest on the strike minus the dividends of the stock. -/
noncomputable def _root_.PyFENG.Spec.exerciseCarry (r q K s : ℝ) : ℝ := r * K - q * s

open MeasureTheory ProbabilityTheory in
/-- Expected carry below a level, as a put plus a digital. -/
lemma gaussE_carry (r q K : ℝ) {F B s : ℝ} (hF : 0 < F) (hB : 0 < B) (hs : 0 < s) :
    Spec.gaussE (fun z => if Spec.gbm F s z ≤ B then Spec.exerciseCarry r q K (Spec.gbm F s z) else 0)
      = r * K * ncdf (-bd2 F B s) - q * F * ncdf (-bd1 F B s) := by
  have h1 := gaussE_black (cp := -1) (Or.inr rfl) hF hB hs
  have h2 := gaussP_exercise (cp := -1) (Or.inr rfl) hF hB hs
  have hset : {z | 0 ≤ -1 * (Spec.gbm F s z - B)} = {z | Spec.gbm F s z ≤ B} := by
    ext z; simp only [mem_ofPred_eq]; constructor <;> intro h <;> linarith
  rw [hset] at h2
  have hm : MeasurableSet {z | Spec.gbm F s z ≤ B} := measurableSet_le (by unfold Spec.gbm; fun_prop) measurable_const
  have e : (fun z => if Spec.gbm F s z ≤ B then Spec.exerciseCarry r q K (Spec.gbm F s z) else 0)
      = fun z => q * Spec.payoff (-1) B (Spec.gbm F s z) + {z | Spec.gbm F s z ≤ B}.indicator (fun _ => r * K - q * B) z := by
    funext z
    unfold Spec.payoff Spec.exerciseCarry
    by_cases h : Spec.gbm F s z ≤ B
    · rw [if_pos h, indicator_of_mem (by exact h), max_eq_left (by linarith)]; ring
    · rw [if_neg h, indicator_of_notMem (by exact h), max_eq_right (by push Not at h; linarith)]; ring
  unfold Spec.gaussE at h1 ⊢
  unfold Spec.gaussP at h2
  rw [e, integral_add ((integrable_payoff (integrable_gbm F s) _ _).const_mul q) ((integrable_const _).indicator hm), integral_const_mul, h1,
    integral_indicator hm, setIntegral_const, h2]
  unfold black
  simp only [smul_eq_mul, neg_one_mul]
  ring

/-- **C65.** `integrand` on an object quoted by spot: at the remaining time `u` it is the discounted expectation, at the date `texp - u`, of the carry
`r K - q S` on the event that the lognormal stock price is below the boundary `bdd(u)`: the integrand of the early-exercise premium. -/
theorem integrand_premium (hf : m.isFwd = false) {B K S T u : ℝ} (hB : 0 < B) (hS : 0 < S) (hu : u ≤ T) (hv : eps ≤ m.sigma * √(T - u)) :
    integrandAt m B K S T u = some (Spec.discount m.intr (T - u) * Spec.gaussE (fun z =>
      if Spec.gbm (Spec.forward false m.intr m.divr S (T - u)) (m.sigma * √(T - u)) z ≤ B
      then Spec.exerciseCarry m.intr m.divr K (Spec.gbm (Spec.forward false m.intr m.divr S (T - u)) (m.sigma * √(T - u)) z) else 0)) := by
  have hF := m.fwd_pos hS (T - u)
  have e1 : Spec.forward false m.intr m.divr S (T - u) = m.fwd S (T - u) := by rw [m.fwd_eq_forward, m.forward_eq_spec, hf]
  have e2 : m.df (T - u) * m.fwd S (T - u) = S * m.divf (T - u) := by
    have := (m.df_pos (T - u)).ne'
    unfold MParams.fwd; rw [hf]; simp only [Bool.false_eq_true, if_false]; field_simp
  rw [e1, gaussE_carry _ _ _ hF hB (eps_pos.trans_le hv), ← m.df_eq_spec]
  unfold integrandAt bd1 bd2
  simp only
  rw [if_pos hu, sigmaStd_of_le hv]
  have e3 : (0.5 : ℝ) * (m.sigma * √(T - u)) = m.sigma * √(T - u) / 2 := by norm_num; ring
  rw [e3, mul_sub]
  congr 2
  · ring
  · rw [show ∀ a b c : ℝ, m.df (T - u) * (a * b * c) = a * (m.df (T - u) * b) * c by intros; ring, e2]; ring

/-- **C65.** As long as the boundary stays below `K min(1, r/q)`, exercising earns more than it costs: the integrand is not negative. -/
theorem integrand_nonneg (hf : m.isFwd = false) (hr : 0 ≤ m.intr) (hq : 0 ≤ m.divr) {B K S T u : ℝ} (hK : 0 ≤ K) (hB : 0 < B) (hS : 0 < S) (hu : u ≤ T) (hv : eps ≤ m.sigma * √(T - u))
    (hb : m.divr * B ≤ m.intr * K) : ∃ p, integrandAt m B K S T u = some p ∧ 0 ≤ p := by
  refine ⟨_, integrand_premium m hf hB hS hu hv, mul_nonneg (exp_pos _).le (MeasureTheory.integral_nonneg fun z => ?_)⟩
  simp only
  split_ifs with h
  · show (0:ℝ) ≤ _ - _
    have := mul_le_mul_of_nonneg_left h hq
    linarith
  · exact le_rfl

/-- **C65 (disagreement).** With `is_fwd=True` the dividend leg of `integrand` is not discounted: it exceeds the premium integrand by `q F (1 - D) N(-d1)`. -/
theorem integrand_is_fwd (hf : m.isFwd = true) {B K S T u : ℝ} (hB : 0 < B) (hS : 0 < S) (hu : u ≤ T) (hv : eps ≤ m.sigma * √(T - u)) :
    ∃ p, integrandAt m B K S T u = some p ∧
    p = Spec.discount m.intr (T - u) * Spec.gaussE (fun z => if Spec.gbm S (m.sigma * √(T - u)) z ≤ B then Spec.exerciseCarry m.intr m.divr K (Spec.gbm S (m.sigma * √(T - u)) z) else 0)
      - m.divr * S * (1 - Spec.discount m.intr (T - u)) * ncdf (-(log (S / B) / (m.sigma * √(T - u)) + m.sigma * √(T - u) / 2)) := by
  refine ⟨_, by unfold integrandAt; simp only; rw [if_pos hu], ?_⟩
  rw [gaussE_carry _ _ _ hS hB (eps_pos.trans_le hv), ← m.df_eq_spec, sigmaStd_of_le hv]
  have e1 : m.fwd S (T - u) = S := by unfold MParams.fwd; rw [hf]; rfl
  have e2 : m.divf (T - u) = 1 := by unfold MParams.divf; rw [hf]; rfl
  have e3 : (0.5 : ℝ) * (m.sigma * √(T - u)) = m.sigma * √(T - u) / 2 := by norm_num; ring
  rw [e1, e2, e3]
  unfold bd1 bd2
  ring

/-- **C65.** What the assertion of `integrand` accepts: arrays with at least one date not after expiry.  The entries after expiry are then `nan`; the call fails exactly when
every entry is after expiry. -/
theorem integrand_domain (bdd : ℝ → ℝ) (K S T : ℝ) (us : List ℝ) :
    (integrand m bdd K S T us = .error "AssertionError" ↔ ∀ u ∈ us, T < u) ∧
    ∀ l, integrand m bdd K S T us = .ok l → l.length = us.length ∧ ∀ i (h : i < us.length), (l[i]? = some none ↔ T < us[i]) := by
  unfold integrand
  constructor
  · split_ifs with h
    · simp only [reduceCtorEq, false_iff]; push Not; exact h
    · simp only [true_iff]; push Not at h; exact h
  · intro l hl
    split_ifs at hl with h
    have hl := (Except.ok.inj hl).symm
    subst hl
    refine ⟨List.length_map _, fun i hi => ?_⟩
    rw [List.getElem?_map, List.getElem?_eq_getElem hi]
    unfold integrandAt
    simp only [Option.map_some, Option.some.injEq]
    split_ifs with h2
    · simp [h2]
    · simpa using h2

/-- The hypotheses of `integrand_nonneg` hold for an ordinary put. -/
example : ∃ p, integrandAt ⟨0.2, 0.05, 0.02, false⟩ 80 100 100 1 0 = some p ∧ 0 ≤ p := by
  refine integrand_nonneg _ rfl (by norm_num) (by norm_num) (by norm_num) (by norm_num) (by norm_num) (by norm_num) ?_ (by norm_num)
  rw [sub_zero, sqrt_one]; unfold eps; norm_num

end Amer

end PyFENG
