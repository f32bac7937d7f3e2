import Verif.Props.Asian
import Mathlib.Analysis.Calculus.Deriv.MeanValue

/-!
# C63: the truncated series of `BsmAsianJsu.price_mvsk` for `σ²T < 0.01`
-/

namespace PyFENG

open MeasureTheory ProbabilityTheory Real Set Filter Topology

namespace Asian

/-! ### Elementary facts -/

lemma pos_of_deriv {f f' : ℝ → ℝ} (hf : ∀ x, HasDerivAt f (f' x) x) (h0 : f 0 = 0) (h : ∀ x, x ≠ 0 → 0 < f' x * x) {x : ℝ} (hx : x ≠ 0) : 0 < f x := by
  have hc : Continuous f := continuous_iff_continuousAt.2 fun x => (hf x).continuousAt
  rcases lt_or_gt_of_ne hx with hx | hx
  · have : StrictAntiOn f (Iic 0) := strictAntiOn_of_deriv_neg (convex_Iic 0) hc.continuousOn fun y hy => by
      rw [interior_Iic] at hy
      rw [(hf y).deriv]
      have := h y (ne_of_lt hy)
      by_contra hn
      have hy' : y < 0 := hy
      nlinarith
    have := this (show x ∈ Iic 0 from hx.le) (show (0:ℝ) ∈ Iic 0 from mem_Iic.2 le_rfl) hx
    linarith
  · have : StrictMonoOn f (Ici 0) := strictMonoOn_of_deriv_pos (convex_Ici 0) hc.continuousOn fun y hy => by
      rw [interior_Ici] at hy
      rw [(hf y).deriv]
      have := h y (ne_of_gt hy)
      have hy' : 0 < y := hy
      by_contra hn
      nlinarith
    have := this (show (0:ℝ) ∈ Ici 0 from mem_Ici.2 le_rfl) (show x ∈ Ici 0 from hx.le) hx
    linarith

lemma sign_of_deriv {f f' : ℝ → ℝ} (hf : ∀ x, HasDerivAt f (f' x) x) (h0 : f 0 = 0) (h : ∀ x, x ≠ 0 → 0 < f' x) {x : ℝ} (hx : x ≠ 0) : 0 < f x * x := by
  have hc : Continuous f := continuous_iff_continuousAt.2 fun x => (hf x).continuousAt
  rcases lt_or_gt_of_ne hx with hx | hx
  · have : StrictMonoOn f (Iic 0) := strictMonoOn_of_deriv_pos (convex_Iic 0) hc.continuousOn fun y hy => by
      rw [interior_Iic] at hy
      rw [(hf y).deriv]
      exact h y (ne_of_lt hy)
    have := this (show x ∈ Iic 0 from hx.le) (show (0:ℝ) ∈ Iic 0 from mem_Iic.2 le_rfl) hx
    nlinarith
  · have : StrictMonoOn f (Ici 0) := strictMonoOn_of_deriv_pos (convex_Ici 0) hc.continuousOn fun y hy => by
      rw [interior_Ici] at hy
      rw [(hf y).deriv]
      exact h y (ne_of_gt hy)
    have := this (show (0:ℝ) ∈ Ici 0 from mem_Ici.2 le_rfl) (show x ∈ Ici 0 from hx.le) hx
    nlinarith

/-- The remainder of the exponential series after four terms. -/
noncomputable def expTail (x : ℝ) : ℝ := exp x - (1 + x + x ^ 2 / 2 + x ^ 3 / 6)

lemma expTail_pos {x : ℝ} (hx : x ≠ 0) : 0 < expTail x := by
  refine pos_of_deriv (f := expTail) (f' := fun x => exp x - (1 + x + x ^ 2 / 2)) (fun x => ?_) (by simp [expTail]) (fun x hx => ?_) hx
  · exact ((hasDerivAt_exp x).sub ((((hasDerivAt_const x (1:ℝ)).add (hasDerivAt_id x)).add (((hasDerivAt_id x).pow 2).div_const 2)).add (((hasDerivAt_id x).pow 3).div_const 6))).congr_deriv (by simp; ring)
  · refine sign_of_deriv (f := fun x => exp x - (1 + x + x ^ 2 / 2)) (f' := fun x => exp x - (1 + x)) (fun x => ?_) (by simp) (fun x hx => ?_) hx
    · exact ((hasDerivAt_exp x).sub (((hasDerivAt_const x (1:ℝ)).add (hasDerivAt_id x)).add (((hasDerivAt_id x).pow 2).div_const 2))).congr_deriv (by simp)
    · have := add_one_lt_exp hx; linarith

lemma nonneg_of_deriv {f f' : ℝ → ℝ} (hf : ∀ x, HasDerivAt f (f' x) x) (h0 : f 0 = 0) (h : ∀ x, 0 ≤ x → 0 ≤ f' x) {x : ℝ} (hx : 0 ≤ x) : 0 ≤ f x := by
  have hc : Continuous f := continuous_iff_continuousAt.2 fun x => (hf x).continuousAt
  have : MonotoneOn f (Ici 0) := monotoneOn_of_deriv_nonneg (convex_Ici 0) hc.continuousOn (fun y _ => (hf y).differentiableAt.differentiableWithinAt) fun y hy => by
    rw [interior_Ici] at hy
    rw [(hf y).deriv]
    exact h y (le_of_lt hy)
  have := this (show (0:ℝ) ∈ Ici 0 from mem_Ici.2 le_rfl) (show x ∈ Ici 0 from hx) hx
  linarith

lemma expTail_le {x : ℝ} (hx : 0 ≤ x) : expTail x ≤ x ^ 4 * exp x / 24 := by
  have d : ∀ (n : ℕ) (c : ℝ) (x : ℝ), HasDerivAt (fun x => x ^ (n + 1) * exp x / c) (((n:ℝ) + 1) * x ^ n * exp x / c + x ^ (n + 1) * exp x / c) x := fun n c x =>
    ((((hasDerivAt_id x).pow (n + 1)).mul (hasDerivAt_exp x)).div_const c).congr_deriv (by simp; ring)
  have h1 : ∀ x : ℝ, 0 ≤ x → 0 ≤ x ^ 1 * exp x / 1 - (exp x - 1) := fun x hx =>
    nonneg_of_deriv (f := fun x => x ^ 1 * exp x / 1 - (exp x - 1)) (fun x => (d 0 1 x).sub ((hasDerivAt_exp x).sub_const 1)) (by simp)
      (fun x hx => by have := exp_pos x; simp; positivity) hx
  have h2 : ∀ x : ℝ, 0 ≤ x → 0 ≤ x ^ 2 * exp x / 2 - (exp x - (1 + x)) := fun x hx =>
    nonneg_of_deriv (f := fun x => x ^ 2 * exp x / 2 - (exp x - (1 + x))) (fun x => (d 1 2 x).sub ((hasDerivAt_exp x).sub ((hasDerivAt_id x).const_add 1))) (by simp)
      (fun x hx => by
        have := h1 x hx
        have : 0 ≤ x ^ 2 * exp x := by positivity
        norm_num at *; linarith) hx
  have h3 : ∀ x : ℝ, 0 ≤ x → 0 ≤ x ^ 3 * exp x / 6 - (exp x - (1 + x + x ^ 2 / 2)) := fun x hx =>
    nonneg_of_deriv (f := fun x => x ^ 3 * exp x / 6 - (exp x - (1 + x + x ^ 2 / 2)))
      (fun x => (d 2 6 x).sub ((hasDerivAt_exp x).sub (((hasDerivAt_id x).const_add 1).add (((hasDerivAt_id x).pow 2).div_const 2)))) (by simp)
      (fun x hx => by
        have := h2 x hx
        have : 0 ≤ x ^ 3 * exp x := by positivity
        norm_num at *; linarith) hx
  have h4 : 0 ≤ x ^ 4 * exp x / 24 - (exp x - (1 + x + x ^ 2 / 2 + x ^ 3 / 6)) :=
    nonneg_of_deriv (f := fun x => x ^ 4 * exp x / 24 - (exp x - (1 + x + x ^ 2 / 2 + x ^ 3 / 6)))
      (fun x => (d 3 24 x).sub ((hasDerivAt_exp x).sub ((((hasDerivAt_id x).const_add 1).add (((hasDerivAt_id x).pow 2).div_const 2)).add (((hasDerivAt_id x).pow 3).div_const 6)))) (by simp)
      (fun x hx => by
        have := h3 x hx
        have : 0 ≤ x ^ 4 * exp x := by positivity
        norm_num at *; linarith) hx
  unfold expTail; linarith

/-- `r(x) = exprel x - 1 - x/2 - x²/6`. -/
noncomputable def exprelTail (x : ℝ) : ℝ := exprel x - (1 + x / 2 + x ^ 2 / 6)

lemma mul_exprelTail (x : ℝ) : x * exprelTail x = expTail x := by
  unfold exprelTail expTail
  have := mul_exprel x
  linear_combination this

lemma exprelTail_bounds {x : ℝ} (hx : 0 ≤ x) : 0 ≤ exprelTail x ∧ exprelTail x ≤ x ^ 3 * exp x / 24 := by
  rcases hx.eq_or_lt with rfl | hx
  · simp [exprelTail, exprel]
  · have h1 := expTail_pos hx.ne'
    have h2 := expTail_le hx.le
    rw [← mul_exprelTail] at h1 h2
    refine ⟨(pos_of_mul_pos_right h1 hx.le).le, ?_⟩
    refine le_of_mul_le_mul_left (h2.trans_eq ?_) hx
    ring

/-! ### The error of the variance -/

variable {Ω : Type*} [MeasurableSpace Ω] {P : Measure Ω} {B : NNReal → Ω → ℝ}

/-- The exact error of the small-variance branch. -/
lemma small_error (hB : Spec.IsBM P B) (m : MParams) (hs : m.sigma ≠ 0) {T : ℝ} (hT : 0 < T) (hv : m.sigma ^ 2 * T < 0.01)
    (h1 : 2 * (m.intr - m.divr) ≠ -m.sigma ^ 2) (h2 : m.intr - m.divr ≠ -m.sigma ^ 2) :
    (priceMvsk m T).2.1 * (priceMvsk m T).1 ^ 2 - centralMoment (Spec.average B m.sigma m.intr m.divr T) 2 P =
      4 * (exprelTail ((m.intr - m.divr) * T) - exprelTail (m.sigma ^ 2 * T)) / (m.sigma ^ 2 * T) / ((2 * (m.intr - m.divr) / m.sigma ^ 2 + 1) * (2 * (m.intr - m.divr) / m.sigma ^ 2 + 2)) := by
  rw [(var_raw hB m hT).1, (var_raw hB m hT).2, ← mu2_exact m hs hT h1 h2]
  unfold mu2 base
  simp only
  rw [if_pos hv, ← sub_div]
  have e2 : (2.0:ℝ) = 2 := by norm_num
  rw [e2]
  congr 1
  unfold exprelTail
  have : (m.intr - m.divr) * T = 2 * (m.intr - m.divr) / m.sigma ^ 2 * (m.sigma ^ 2 * T) / 2 := by field_simp
  have hv0 : m.sigma ^ 2 * T ≠ 0 := by positivity
  generalize exprel ((m.intr - m.divr) * T) = a at *
  rw [this]
  generalize 2 * (m.intr - m.divr) / m.sigma ^ 2 = p at *
  generalize m.sigma ^ 2 * T = v at *
  field_simp
  ring

/-- **C63** (small variance).  For `σ²T < 0.01` and a nonnegative carry `r - q`, the variance returned by `price_mvsk` differs from the variance of the average by at most
`σ²T (u e^u + 2 σ²T e^(σ²T)) / 24`, where `u = (r - q) T`. -/
theorem price_var_small (hB : Spec.IsBM P B) (m : MParams) (hs : m.sigma ≠ 0) {T : ℝ} (hT : 0 < T) (hv : m.sigma ^ 2 * T < 0.01) (hc : m.divr ≤ m.intr) :
    |(priceMvsk m T).2.1 * (priceMvsk m T).1 ^ 2 - centralMoment (Spec.average B m.sigma m.intr m.divr T) 2 P| ≤
      m.sigma ^ 2 * T * ((m.intr - m.divr) * T * exp ((m.intr - m.divr) * T) + 2 * (m.sigma ^ 2 * T) * exp (m.sigma ^ 2 * T)) / 24 := by
  have hs2 : 0 < m.sigma ^ 2 := by positivity
  rw [small_error hB m hs hT hv (by linarith) (by linarith)]
  have hu : 0 ≤ (m.intr - m.divr) * T := mul_nonneg (by linarith) hT.le
  have hv0 : 0 < m.sigma ^ 2 * T := by positivity
  have hp : 0 ≤ 2 * (m.intr - m.divr) / m.sigma ^ 2 := div_nonneg (by linarith) hs2.le
  have hup : (m.intr - m.divr) * T = 2 * (m.intr - m.divr) / m.sigma ^ 2 * (m.sigma ^ 2 * T) / 2 := by field_simp
  generalize (m.intr - m.divr) * T = u at *
  generalize 2 * (m.intr - m.divr) / m.sigma ^ 2 = p at *
  generalize m.sigma ^ 2 * T = v at *
  obtain ⟨a1, a2⟩ := exprelTail_bounds hu
  obtain ⟨b1, b2⟩ := exprelTail_bounds hv0.le
  have hd : |exprelTail u - exprelTail v| ≤ u ^ 3 * exp u / 24 + v ^ 3 * exp v / 24 := by
    rw [abs_le]; constructor <;> linarith
  rw [abs_div, abs_div, abs_mul, abs_of_pos hv0, abs_of_pos (show (0:ℝ) < 4 by norm_num), abs_of_pos (show 0 < (p + 1) * (p + 2) by positivity), div_div, div_le_iff₀ (by positivity)]
  have k1 : u ^ 3 = u * p ^ 2 * v ^ 2 / 4 := by rw [hup]; ring
  have eu := exp_pos u
  have ev := exp_pos v
  have m1 : 0 ≤ u * v ^ 2 * exp u := by positivity
  have m2 : 0 ≤ v ^ 3 * exp v := by positivity
  have q1 : 0 ≤ u * v ^ 2 * exp u * (3 * p + 2) := by positivity
  have q2 : 0 ≤ v ^ 3 * exp v * (p ^ 2 + 3 * p) := by positivity
  calc 4 * |exprelTail u - exprelTail v| ≤ 4 * (u ^ 3 * exp u / 24 + v ^ 3 * exp v / 24) := by linarith
    _ = (u * v ^ 2 * exp u * p ^ 2 + 4 * (v ^ 3 * exp v)) / 24 := by rw [k1]; ring
    _ ≤ _ := by
      have : v * (u * exp u + 2 * v * exp v) / 24 * (v * ((p + 1) * (p + 2))) = (u * v ^ 2 * exp u * (p ^ 2 + 3 * p + 2) + 2 * (v ^ 3 * exp v) * (p ^ 2 + 3 * p + 2)) / 24 := by ring
      rw [this]
      linarith

/-! ### The error does not vanish relative to the variance -/

/-- The factor in the limit of the variance. -/
noncomputable def hLim (u : ℝ) : ℝ := 2 * u * exp (2 * u) - 3 * exp (2 * u) + 4 * exp u - 1

lemma hLim_sign {u : ℝ} (hu : u ≠ 0) : 0 < hLim u * u := by
  refine sign_of_deriv (f := hLim) (f' := fun u => 4 * exp u * (u * exp u - exp u + 1)) (fun x => ?_) (by simp [hLim]; norm_num) (fun x hx => ?_) hu
  · have e2 : HasDerivAt (fun u : ℝ => exp (2 * u)) (exp (2 * x) * 2) x := ((hasDerivAt_id x).const_mul 2).exp.congr_deriv (by simp)
    refine ((((((hasDerivAt_id x).const_mul 2).mul e2).sub (e2.const_mul 3)).add ((hasDerivAt_exp x).const_mul 4)).sub_const 1).congr_deriv ?_
    have : exp (2 * x) = exp x ^ 2 := by rw [← exp_nat_mul]; norm_num
    simp only [id, this]; ring
  · have h := add_one_lt_exp (neg_ne_zero.2 hx)
    rw [exp_neg] at h
    have e := exp_pos x
    have h2 := mul_lt_mul_of_pos_right h e
    rw [inv_mul_cancel₀ e.ne'] at h2
    have : 0 < x * exp x - exp x + 1 := by linarith
    positivity

lemma continuousAt_exprel_zero : ContinuousAt exprel 0 := by
  have h : HasDerivAt exp 1 0 := by simpa using hasDerivAt_exp (0:ℝ)
  rw [hasDerivAt_iff_tendsto_slope] at h
  rw [continuousAt_iff_punctured_nhds]
  have e0 : exprel 0 = 1 := by simp [exprel]
  rw [e0]
  refine h.congr' ?_
  filter_upwards [self_mem_nhdsWithin] with x hx
  have hx : x ≠ 0 := hx
  simp [slope, exprel, hx]
  field_simp

/-- **C63** (disagreement).  For a fixed carry `r - q ≠ 0` and maturity the variance returned by `price_mvsk` is not asymptotically right as the volatility goes to zero: its ratio to the variance of the
average tends to a number different from one. -/
theorem price_var_small_wrong (hB : Spec.IsBM P B) (m : MParams) {T : ℝ} (hT : 0 < T) (hc : m.intr ≠ m.divr) :
    Tendsto (fun s => (priceMvsk { m with sigma := s } T).2.1 * (priceMvsk { m with sigma := s } T).1 ^ 2 / centralMoment (Spec.average B s m.intr m.divr T) 2 P) (𝓝[>] 0)
      (𝓝 (1 + 2 * (exp ((m.intr - m.divr) * T) - (1 + (m.intr - m.divr) * T + ((m.intr - m.divr) * T) ^ 2 / 2 + ((m.intr - m.divr) * T) ^ 3 / 6)) /
        (2 * ((m.intr - m.divr) * T) * exp (2 * ((m.intr - m.divr) * T)) - 3 * exp (2 * ((m.intr - m.divr) * T)) + 4 * exp ((m.intr - m.divr) * T) - 1)))
    ∧ 2 * (exp ((m.intr - m.divr) * T) - (1 + (m.intr - m.divr) * T + ((m.intr - m.divr) * T) ^ 2 / 2 + ((m.intr - m.divr) * T) ^ 3 / 6)) /
        (2 * ((m.intr - m.divr) * T) * exp (2 * ((m.intr - m.divr) * T)) - 3 * exp (2 * ((m.intr - m.divr) * T)) + 4 * exp ((m.intr - m.divr) * T) - 1) ≠ 0 := by
  have hc' : m.intr - m.divr ≠ 0 := sub_ne_zero.2 hc
  obtain ⟨u, hu⟩ : ∃ u, u = (m.intr - m.divr) * T := ⟨_, rfl⟩
  have hu0 : u ≠ 0 := by rw [hu]; exact mul_ne_zero hc' hT.ne'
  have hH := hLim_sign hu0
  have hH0 : hLim u ≠ 0 := fun h => by rw [h] at hH; simp at hH
  have hE := expTail_pos hu0
  rw [← hu]
  change Tendsto _ _ (𝓝 (1 + 2 * expTail u / hLim u)) ∧ 2 * expTail u / hLim u ≠ 0
  refine ⟨?_, div_ne_zero (by positivity) hH0⟩
  -- the numerator of the variance
  obtain ⟨N, hN⟩ : ∃ N : ℝ → ℝ, N = fun v => 4 * (exprel v - exprel u) + 8 * u * exprel u * exprel v + exprel u ^ 2 * (4 * u ^ 2 * exprel v - 6 * u - 2 * v) := ⟨_, rfl⟩
  have hN0 : u * N 0 = 2 * hLim u := by
    have e0 : exprel 0 = 1 := by simp [exprel]
    have k := mul_exprel u
    have e2 : exp (2 * u) = exp u ^ 2 := by rw [← exp_nat_mul]; norm_num
    have ke : exp u = 1 + u * exprel u := by linarith
    rw [hN]
    unfold hLim
    simp only [e0, e2, ke]
    ring
  have hNne : N 0 ≠ 0 := fun h => by rw [h, mul_zero] at hN0; exact hH0 (by linarith)
  have hNc : ContinuousAt N 0 := by
    rw [hN]
    have := continuousAt_exprel_zero
    fun_prop
  have hlim : Tendsto (fun s : ℝ => s ^ 2 * T) (𝓝[>] 0) (𝓝 0) := by
    have : Continuous fun s : ℝ => s ^ 2 * T := by fun_prop
    exact (this.tendsto' 0 0 (by simp)).mono_left nhdsWithin_le_nhds
  have hNt : Tendsto (fun s : ℝ => N (s ^ 2 * T)) (𝓝[>] 0) (𝓝 (N 0)) := hNc.tendsto.comp hlim
  have hRt : Tendsto (fun s : ℝ => exprelTail (s ^ 2 * T)) (𝓝[>] 0) (𝓝 0) := by
    have hc : ContinuousAt exprelTail 0 := by
      unfold exprelTail
      have := continuousAt_exprel_zero
      fun_prop
    have := hc.tendsto.comp hlim
    have e0 : exprelTail 0 = 0 := by simp [exprelTail, exprel]
    rw [e0] at this
    exact this
  have key : Tendsto (fun s : ℝ => 1 + 4 * (exprelTail u - exprelTail (s ^ 2 * T)) / N (s ^ 2 * T)) (𝓝[>] 0) (𝓝 (1 + 4 * (exprelTail u - 0) / N 0)) :=
    ((((hRt.const_sub _).const_mul 4).div hNt hNne).const_add 1)
  have hval : 1 + 4 * (exprelTail u - 0) / N 0 = 1 + 2 * expTail u / hLim u := by
    congr 1
    rw [div_eq_div_iff hNne hH0, ← mul_exprelTail]
    linear_combination (-2 * exprelTail u) * hN0
  rw [← hval]
  refine key.congr' ?_
  have s1 : ∀ᶠ s : ℝ in 𝓝[>] 0, s ^ 2 * T < 0.01 := hlim.eventually (gt_mem_nhds (by norm_num))
  have s2 : ∀ᶠ s : ℝ in 𝓝[>] 0, s ^ 2 * T < |u| := hlim.eventually (gt_mem_nhds (abs_pos.2 hu0))
  have s3 : ∀ᶠ s : ℝ in 𝓝[>] 0, N (s ^ 2 * T) ≠ 0 := hNt.eventually_ne hNne
  filter_upwards [s1, s2, s3, self_mem_nhdsWithin] with s k1 k2 k3 k4
  have k4 : 0 < s := k4
  have hv : 0 < s ^ 2 * T := by positivity
  have n1 : 2 * u + s ^ 2 * T ≠ 0 := fun h => by
    have : |2 * u| = s ^ 2 * T := by rw [show 2 * u = -(s ^ 2 * T) by linarith, abs_neg, abs_of_pos hv]
    rw [abs_mul] at this; norm_num at this; linarith
  have n2 : u + s ^ 2 * T ≠ 0 := fun h => by
    have : |u| = s ^ 2 * T := by rw [show u = -(s ^ 2 * T) by linarith, abs_neg, abs_of_pos hv]
    linarith
  have p1 : 2 * (m.intr - m.divr) ≠ -s ^ 2 := fun h => n1 (by rw [hu]; linear_combination T * h)
  have p2 : m.intr - m.divr ≠ -s ^ 2 := fun h => n2 (by rw [hu]; linear_combination T * h)
  have hE := small_error hB { m with sigma := s } k4.ne' hT k1 p1 p2
  have hV := (var_raw hB { m with sigma := s } hT).1.trans (mu2_exact { m with sigma := s } k4.ne' hT p1 p2).symm
  simp only at hE hV
  have e2 : (2.0:ℝ) = 2 := by norm_num
  have hp : 2 * (m.intr - m.divr) / s ^ 2 = 2 * u / (s ^ 2 * T) := by rw [hu]; field_simp
  rw [e2, hp, ← hu] at hV
  rw [hp, ← hu] at hE
  generalize centralMoment (Spec.average B s m.intr m.divr T) 2 P = V at *
  generalize (priceMvsk { m with sigma := s } T).2.1 * (priceMvsk { m with sigma := s } T).1 ^ 2 = C at *
  generalize s ^ 2 * T = v at *
  have hV' : V = v * N v / ((2 * u + v) * (2 * u + 2 * v)) := by
    rw [hV, hN]
    have n3 : 2 * u + 2 * v ≠ 0 := by intro h; apply n2; linarith
    have d1 : 2 * u / v + 1 = (2 * u + v) / v := by field_simp
    have d2 : 2 * u / v + 2 = (2 * u + 2 * v) / v := by field_simp
    rw [d1, d2]
    field_simp
    ring
  have hE' : C - V = v * (4 * (exprelTail u - exprelTail v)) / ((2 * u + v) * (2 * u + 2 * v)) := by
    rw [hE]
    have n3 : 2 * u + 2 * v ≠ 0 := by intro h; apply n2; linarith
    have d1 : 2 * u / v + 1 = (2 * u + v) / v := by field_simp
    have d2 : 2 * u / v + 2 = (2 * u + 2 * v) / v := by field_simp
    rw [d1, d2]
    field_simp
  have n3 : 2 * u + 2 * v ≠ 0 := by intro h; apply n2; linarith
  have hVne : V ≠ 0 := by
    rw [hV']; exact div_ne_zero (mul_ne_zero hv.ne' k3) (mul_ne_zero n1 n3)
  have : C / V = 1 + (C - V) / V := by field_simp; ring
  rw [this, hE', hV']
  congr 1
  field_simp

/-- The hypotheses of the two theorems are met by ordinary parameters. -/
example (hB : Spec.IsBM P B) :
    |(priceMvsk ⟨1 / 20, 1 / 20, 0, false⟩ 1).2.1 * (priceMvsk ⟨1 / 20, 1 / 20, 0, false⟩ 1).1 ^ 2 - centralMoment (Spec.average B (1 / 20) (1 / 20) 0 1) 2 P| ≤
      (1 / 20) ^ 2 * 1 * ((1 / 20 - 0) * 1 * exp ((1 / 20 - 0) * 1) + 2 * ((1 / 20) ^ 2 * 1) * exp ((1 / 20) ^ 2 * 1)) / 24 :=
  price_var_small hB ⟨1 / 20, 1 / 20, 0, false⟩ (by norm_num) one_pos (by norm_num) (by norm_num)

end Asian

end PyFENG
