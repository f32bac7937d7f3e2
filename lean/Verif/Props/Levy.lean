import Verif.Model.Levy
import Verif.Lemmas.Subord
import Mathlib.Analysis.Calculus.IteratedDeriv.Lemmas

/-!
# C32, C33, C34: variance gamma and normal inverse Gaussian models
-/

namespace PyFENG

open Real MeasureTheory ProbabilityTheory Set

/-! ## C32: the two parametrisations -/

namespace VarGamma

/-- Accepted arguments: the code stores `-log` of the positive number `1 - θν - σ²ν/2`. -/
lemma init_ok {a : SubArgs} {m : SubParams} (h : init a = .ok m) :
    0 < 1 - a.theta * a.nu - 0.5 * a.sigma ^ 2 * a.nu ∧
    m = ⟨a.sigma, a.nu, a.theta, -log (1 - a.theta * a.nu - 0.5 * a.sigma ^ 2 * a.nu), a.intr, a.divr, a.isFwd⟩ := by
  unfold init at h
  simp only at h
  split_ifs at h with h1
  · exact ⟨not_le.1 h1, by injection h with h; exact h.symm⟩

/-- **C32 (VarGamma).** Converting to the stochastic-volatility parametrisation succeeds exactly when
`ν(2θ+σ²) ≤ 1`, yields a positive volatility and `|ρ| < 1`, and converting back returns the original parameters. -/
theorem toOrig_toSv {sigma theta nu : ℝ} (hs : 0 < sigma) (hn : 0 < nu) (hc : nu * (2 * theta + sigma ^ 2) ≤ 1) :
    ∃ sb rho vov, toSvParam sigma theta nu = .ok (sb, rho, vov) ∧ 0 < sb ∧ |rho| < 1 ∧ 0 < vov ∧
      rho * sb * vov ≤ 1 ∧ toOrigParam sb rho vov = (sigma, theta, nu) := by
  unfold toSvParam
  simp only [gt_iff_lt, not_lt.2 hc, if_false]
  set v := √nu with hv
  have hv0 : 0 < v := sqrt_pos.2 hn
  have hv2 : v ^ 2 = nu := sq_sqrt hn.le
  set r := √(1 - nu * (2 * theta + sigma ^ 2)) with hr
  have hr0 : 0 ≤ r := sqrt_nonneg _
  have hr2 : r ^ 2 = 1 - nu * (2 * theta + sigma ^ 2) := sq_sqrt (by linarith)
  set d := √((1 - r) ^ 2 + sigma ^ 2 * nu) with hd
  have hdp : 0 < (1 - r) ^ 2 + sigma ^ 2 * nu := by positivity
  have hd0 : 0 < d := sqrt_pos.2 hdp
  have hd2 : d ^ 2 = (1 - r) ^ 2 + sigma ^ 2 * nu := sq_sqrt hdp.le
  refine ⟨d / v, (1 - r) / d, v, rfl, by positivity, ?_, hv0, ?_, ?_⟩
  · rw [abs_div, abs_of_pos hd0, div_lt_one hd0]
    refine abs_lt_of_sq_lt_sq ?_ hd0.le
    rw [hd2]
    have : 0 < sigma ^ 2 * nu := by positivity
    linarith
  · have : (1 - r) / d * (d / v) * v = 1 - r := by field_simp
    rw [this]; linarith
  · unfold toOrigParam
    refine Prod.ext ?_ (Prod.ext ?_ hv2)
    · change √(1 - ((1 - r) / d) ^ 2) * (d / v) = sigma
      have : 1 - ((1 - r) / d) ^ 2 = (sigma * v / d) ^ 2 := by
        rw [div_pow, div_pow, mul_pow, hv2]
        field_simp
        linarith
      rw [this, sqrt_sq (by positivity)]
      field_simp
    · change (1 - r) / d * (d / v) / v - 0.5 * (d / v) ^ 2 = theta
      rw [div_pow, hd2, hv2]
      have e : (1 - r) / d * (d / v) / v = (1 - r) / nu := by rw [← hv2]; field_simp
      rw [e]
      field_simp
      nlinarith

/-- **C32 (VarGamma).** Outside that region the conversion raises `ValueError`. -/
theorem toSv_error {sigma theta nu : ℝ} (hc : 1 < nu * (2 * theta + sigma ^ 2)) :
    ∃ e, toSvParam sigma theta nu = .error e := by
  unfold toSvParam
  simp only [gt_iff_lt, hc, if_true]
  exact ⟨_, rfl⟩

/-- The conversion condition in the new coordinates is a perfect square. -/
lemma cond_orig {sb rho vov : ℝ} (hv : 0 < vov) (hr : |rho| ≤ 1) :
    let o := toOrigParam sb rho vov
    1 - o.2.2 * (2 * o.2.1 + o.1 ^ 2) = (1 - rho * sb * vov) ^ 2 ∧
    o.1 ^ 2 * o.2.2 = (1 - rho ^ 2) * sb ^ 2 * vov ^ 2 := by
  have h1 : 0 ≤ 1 - rho ^ 2 := by
    have := (sq_le_one_iff_abs_le_one rho).2 hr; linarith
  unfold toOrigParam
  simp only
  rw [mul_pow, sq_sqrt h1]
  constructor
  · field_simp
    ring
  · ring

/-- What a round trip from the stochastic-volatility side returns for **every** parameter: `ρσv` is folded to
`1 - |1 - ρσv|`. -/
lemma toSv_toOrig_law {sb rho vov : ℝ} (hv : 0 < vov) (hr : |rho| < 1) :
    let c := 1 - |1 - rho * sb * vov|
    let d := √(c ^ 2 + (1 - rho ^ 2) * sb ^ 2 * vov ^ 2)
    toSvParam (toOrigParam sb rho vov).1 (toOrigParam sb rho vov).2.1 (toOrigParam sb rho vov).2.2 =
      .ok (d / vov, c / d, vov) := by
  obtain ⟨h1, h2⟩ := cond_orig (sb := sb) hv hr.le
  have hc : ¬ (1 < (toOrigParam sb rho vov).2.2 * (2 * (toOrigParam sb rho vov).2.1 + (toOrigParam sb rho vov).1 ^ 2)) := by
    rw [not_lt]; nlinarith [sq_nonneg (1 - rho * sb * vov)]
  unfold toSvParam
  simp only [gt_iff_lt, hc, if_false]
  rw [h1, h2, sqrt_sq_eq_abs]
  have : √((toOrigParam sb rho vov).2.2) = vov := by
    change √(vov ^ 2) = vov
    exact sqrt_sq hv.le
  rw [this]

/-- **C32 (VarGamma), partial.** Round trip from the stochastic-volatility side, on the region `ρσv ≤ 1` that
`to_sv_param` produces.  (For `ρσv > 1` it fails: `toSv_toOrig_wrong`.) -/
theorem toSv_toOrig_partial {sb rho vov : ℝ} (hsb : 0 < sb) (hv : 0 < vov) (hr : |rho| < 1)
    (hc : rho * sb * vov ≤ 1) :
    toSvParam (toOrigParam sb rho vov).1 (toOrigParam sb rho vov).2.1 (toOrigParam sb rho vov).2.2 =
      .ok (sb, rho, vov) := by
  rw [toSv_toOrig_law hv hr]
  rw [abs_of_nonneg (by linarith)]
  have e : (1 - (1 - rho * sb * vov)) ^ 2 + (1 - rho ^ 2) * sb ^ 2 * vov ^ 2 = (sb * vov) ^ 2 := by ring
  rw [e, sqrt_sq (by positivity)]
  congr 2
  · field_simp
  · congr 1
    field_simp
    ring

/-- **C32 is false for `ρσv > 1`**: the round trip silently returns a different correlation. -/
theorem toSv_toOrig_wrong {sb rho vov : ℝ} (hsb : 0 < sb) (hv : 0 < vov) (hr : |rho| < 1)
    (hc : 1 < rho * sb * vov) :
    ∃ sb' rho', toSvParam (toOrigParam sb rho vov).1 (toOrigParam sb rho vov).2.1 (toOrigParam sb rho vov).2.2 =
      .ok (sb', rho', vov) ∧ rho' * sb' * vov = 2 - rho * sb * vov ∧ (sb', rho') ≠ (sb, rho) := by
  refine ⟨_, _, toSv_toOrig_law hv hr, ?_, ?_⟩
  all_goals
    rw [abs_of_neg (by linarith)]
    have hr2 : 0 < 1 - rho ^ 2 := by
      have := (sq_lt_one_iff_abs_lt_one rho).2 hr; linarith
    have hd : 0 < √((1 - -(1 - rho * sb * vov)) ^ 2 + (1 - rho ^ 2) * sb ^ 2 * vov ^ 2) :=
      sqrt_pos.2 (by positivity)
  · field_simp
    ring
  · intro h
    rw [Prod.mk.injEq] at h
    have h3 : (1 - -(1 - rho * sb * vov)) /
        √((1 - -(1 - rho * sb * vov)) ^ 2 + (1 - rho ^ 2) * sb ^ 2 * vov ^ 2) *
        (√((1 - -(1 - rho * sb * vov)) ^ 2 + (1 - rho ^ 2) * sb ^ 2 * vov ^ 2) / vov) * vov = rho * sb * vov := by
      rw [h.1, h.2]
    have h4 : ∀ d c : ℝ, 0 < d → c / d * (d / vov) * vov = c := fun d c hd => by field_simp
    rw [h4 _ _ hd] at h3
    linarith

/-- **C32.** `from_sv_param` always builds a valid variance gamma model. -/
theorem fromSv_valid {sb rho vov : ℝ} (hv : 0 < vov) (hr : |rho| ≤ 1) (r q : ℝ) (f : Bool) :
    ∃ m, init ⟨(toOrigParam sb rho vov).1, (toOrigParam sb rho vov).2.2, (toOrigParam sb rho vov).2.1, r, q, f⟩ =
      .ok m := by
  obtain ⟨h1, -⟩ := cond_orig (sb := sb) hv hr
  unfold init
  simp only
  rw [if_neg]
  · exact ⟨_, rfl⟩
  · rw [not_le]
    nlinarith [sq_nonneg (1 - rho * sb * vov)]

/-- Non-vacuity: equity-like parameters. -/
example : (0 : ℝ) < 0.2 ∧ (0 : ℝ) < 0.3 ∧ (0.3 : ℝ) * (2 * (-0.1) + 0.2 ^ 2) ≤ 1 := by norm_num
/-- Non-vacuity of the failing region (very large volatility of variance). -/
example : |(0.9 : ℝ)| < 1 ∧ 1 < (0.9 : ℝ) * 1 * 2 := by
  constructor
  · rw [abs_of_pos] <;> norm_num
  · norm_num

end VarGamma

namespace Nig

lemma init_ok {a : SubArgs} {m : SubParams} (h : init a = .ok m) :
    0 < 1 - 2 * a.theta * a.nu - a.sigma ^ 2 * a.nu ∧
    m = ⟨a.sigma, a.nu, a.theta, 1 - √(1 - 2 * a.theta * a.nu - a.sigma ^ 2 * a.nu), a.intr, a.divr, a.isFwd⟩ := by
  unfold init at h
  simp only at h
  split_ifs at h with h1
  · exact ⟨not_le.1 h1, by injection h with h; exact h.symm⟩

/-- The NIG conversion is the variance gamma conversion without the guard. -/
lemma toSv_eq {sigma theta nu : ℝ} (hc : nu * (2 * theta + sigma ^ 2) ≤ 1) :
    VarGamma.toSvParam sigma theta nu = .ok (toSvParam sigma theta nu) := by
  unfold VarGamma.toSvParam toSvParam
  simp only [gt_iff_lt, not_lt.2 hc, if_false]

/-- **C32 (NIG).** For the parameters of every constructible NIG object with positive `σ`, `ν`, converting to the
stochastic-volatility parametrisation and back is the identity. -/
theorem toOrig_toSv {a : SubArgs} {m : SubParams} (h : init a = .ok m) (hs : 0 < a.sigma) (hn : 0 < a.nu) :
    let s := toSvParam m.sigma m.theta m.nu
    0 < s.1 ∧ |s.2.1| < 1 ∧ 0 < s.2.2 ∧ s.2.1 * s.1 * s.2.2 < 1 ∧
    VarGamma.toOrigParam s.1 s.2.1 s.2.2 = (m.sigma, m.theta, m.nu) := by
  obtain ⟨hp, rfl⟩ := init_ok h
  have hc : a.nu * (2 * a.theta + a.sigma ^ 2) < 1 := by nlinarith
  obtain ⟨sb, rho, vov, h1, h2, h3, h4, h5, h6⟩ := VarGamma.toOrig_toSv hs hn hc.le
  rw [toSv_eq hc.le] at h1
  injection h1 with h1
  simp only [h1]
  refine ⟨h2, h3, h4, ?_, h6⟩
  obtain ⟨h7, -⟩ := VarGamma.cond_orig (sb := sb) (rho := rho) h4 h3.le
  rw [h6] at h7
  simp only at h7
  refine lt_of_le_of_ne h5 fun hne => ?_
  rw [hne] at h7
  nlinarith

/-- **C32 (NIG).** `from_sv_param` is accepted exactly when `ρσv ≠ 1`. -/
theorem fromSv_valid_iff {sb rho vov : ℝ} (hv : 0 < vov) (hr : |rho| ≤ 1) (r q : ℝ) (f : Bool) :
    (∃ m, init ⟨(VarGamma.toOrigParam sb rho vov).1, (VarGamma.toOrigParam sb rho vov).2.2,
      (VarGamma.toOrigParam sb rho vov).2.1, r, q, f⟩ = .ok m) ↔ rho * sb * vov ≠ 1 := by
  obtain ⟨h1, -⟩ := VarGamma.cond_orig (sb := sb) hv hr
  set o := VarGamma.toOrigParam sb rho vov
  have e : 1 - 2 * o.2.1 * o.2.2 - o.1 ^ 2 * o.2.2 = (1 - rho * sb * vov) ^ 2 := by
    rw [← h1]; ring
  unfold init
  simp only
  rw [e]
  constructor
  · rintro ⟨m, hm⟩ h
    rw [h] at hm
    simp at hm
  · intro h
    rw [if_neg]
    · exact ⟨_, rfl⟩
    · rw [not_le]
      have : 1 - rho * sb * vov ≠ 0 := fun h' => h (by linarith)
      positivity

/-- **C32 (NIG), partial.** Round trip from the other side on `ρσv < 1`. -/
theorem toSv_toOrig_partial {sb rho vov : ℝ} (hsb : 0 < sb) (hv : 0 < vov) (hr : |rho| < 1)
    (hc : rho * sb * vov < 1) :
    toSvParam (VarGamma.toOrigParam sb rho vov).1 (VarGamma.toOrigParam sb rho vov).2.1
      (VarGamma.toOrigParam sb rho vov).2.2 = (sb, rho, vov) := by
  have h := VarGamma.toSv_toOrig_partial hsb hv hr hc.le
  obtain ⟨h1, -⟩ := VarGamma.cond_orig (sb := sb) hv hr.le
  rw [toSv_eq (by nlinarith [sq_nonneg (1 - rho * sb * vov)])] at h
  injection h

/-- **C32 is false for `ρσv > 1`** also for NIG: an accepted model whose `sv_params_dict` reports other parameters. -/
theorem toSv_toOrig_wrong {sb rho vov : ℝ} (hsb : 0 < sb) (hv : 0 < vov) (hr : |rho| < 1)
    (hc : 1 < rho * sb * vov) :
    toSvParam (VarGamma.toOrigParam sb rho vov).1 (VarGamma.toOrigParam sb rho vov).2.1
      (VarGamma.toOrigParam sb rho vov).2.2 ≠ (sb, rho, vov) := by
  obtain ⟨sb', rho', h, -, h3⟩ := VarGamma.toSv_toOrig_wrong hsb hv hr hc
  obtain ⟨h1, -⟩ := VarGamma.cond_orig (sb := sb) hv hr.le
  rw [toSv_eq (by nlinarith [sq_nonneg (1 - rho * sb * vov)])] at h
  injection h with h
  rw [h]
  intro h4
  simp only [Prod.mk.injEq] at h4
  exact h3 (by rw [h4.1, h4.2.1])

end Nig

/-! ## C33: moment generating functions -/

namespace VarGamma

/-- Convexity: the exponent stays below the abscissa of convergence on the strip `0 ≤ Re u ≤ 1`. -/
lemma strip {k θ s a : ℝ} (hk : 0 < k) (hs : 0 ≤ s) (h1 : θ + s < k) (h0 : 0 ≤ a) (ha : a ≤ 1) :
    θ * a + s * a ^ 2 < k := by
  have h2 : s * a ^ 2 ≤ s * a := mul_le_mul_of_nonneg_left (by nlinarith) hs
  have h3 : (θ + s) * a < k := by
    rcases le_or_gt (θ + s) 0 with h | h
    · nlinarith
    · nlinarith
  nlinarith

lemma re_quad (θ σ : ℝ) (u : ℂ) : ((θ : ℂ) * u + (σ : ℂ) ^ 2 * u ^ 2 / 2).re ≤ θ * u.re + σ ^ 2 * u.re ^ 2 / 2 := by
  have : ((θ : ℂ) * u + (σ : ℂ) ^ 2 * u ^ 2 / 2).re = θ * u.re + σ ^ 2 * (u.re ^ 2 - u.im ^ 2) / 2 := by
    rw [show (σ : ℂ) ^ 2 * u ^ 2 / 2 = ((σ ^ 2 / 2 : ℝ) : ℂ) * (u ^ 2) by push_cast; ring]
    rw [Complex.add_re, Complex.re_ofReal_mul, Complex.re_ofReal_mul, sq u, Complex.mul_re]
    ring
  rw [this]
  nlinarith [sq_nonneg (σ * u.im)]

/-- The law of `log(S_T/F)` in the model with drift `ω`: `ωT + θV + σW_V`, `V ~ Gamma(T/ν, scale ν)`. -/
noncomputable def law (omega theta sigma nu T : ℝ) : Measure ℝ :=
  Spec.subordLaw (omega * T) theta sigma (gammaMeasure (T / nu) (1 / nu))

lemma law_mgf (omega theta sigma : ℝ) {nu T : ℝ} (hn : 0 < nu) (hT : 0 < T) {u : ℂ}
    (hu : theta * u.re + sigma ^ 2 * u.re ^ 2 / 2 < 1 / nu) :
    Integrable (fun x => Real.exp (u.re * x)) (law omega theta sigma nu T) ∧
    complexMGF id (law omega theta sigma nu T) u = Complex.exp (u * (omega * T)) *
      Complex.exp (-(T / nu) * Complex.log (1 - (theta * u + sigma ^ 2 * u ^ 2 / 2) * nu)) := by
  have ha : 0 < T / nu := by positivity
  have hr : 0 < 1 / nu := by positivity
  have := isProbabilityMeasure_gammaMeasure ha hr
  obtain ⟨h1, h2⟩ := complexMGF_subordLaw (c := omega * T) (θ := theta) (σ := sigma) (u := u)
    (gammaMeasure_pos (a := T / nu) (r := 1 / nu)) (gamma_mgf ha hr hu).1
  refine ⟨h1, ?_⟩
  unfold law
  rw [h2, gamma_complexMGF ha hr ((re_quad _ _ _).trans_lt hu)]
  push_cast
  congr 4
  rw [div_div_eq_mul_div, div_one]

/-- **C33 (VarGamma).** For every accepted model and every `u` in the strip `0 ≤ Re u ≤ 1`, `logp_mgf(u, T)` is
`E[exp(u X)]` where `X = ωT + θV + σW_V` with gamma time `V` (mean `T`, variance `νT`) and with **the** drift `ω` that makes
`exp(X)` a martingale, `E[exp X] = 1`. -/
theorem logpMgf_correct {a : SubArgs} {m : SubParams} (h : init a = .ok m) (hn : 0 < a.nu) {T : ℝ} (hT : 0 < T)
    {omega : ℝ} (hmart : ∫ x, exp x ∂(law omega a.theta a.sigma a.nu T) = 1)
    {u : ℂ} (h0 : 0 ≤ u.re) (h1 : u.re ≤ 1) :
    logpMgf m u T = complexMGF id (law omega a.theta a.sigma a.nu T) u := by
  obtain ⟨hp, rfl⟩ := init_ok h
  have hk : 0 < 1 / a.nu := by positivity
  have hk1 : a.theta + a.sigma ^ 2 / 2 < 1 / a.nu := by
    rw [lt_div_iff₀ hn]; linarith
  have hst := strip hk (by positivity) hk1 h0 h1
  rw [show a.sigma ^ 2 / 2 * u.re ^ 2 = a.sigma ^ 2 * u.re ^ 2 / 2 by ring] at hst
  rw [(law_mgf omega _ _ hn hT hst).2]
  -- identify the drift
  have hom : omega * T = T / a.nu * log (1 - a.theta * a.nu - 0.5 * a.sigma ^ 2 * a.nu) := by
    have h2 := (law_mgf omega a.theta a.sigma hn hT (u := 1) (by simpa using hk1)).2
    have h3 : complexMGF id (law omega a.theta a.sigma a.nu T) 1 = 1 := by
      have := complexMGF_ofReal (X := id) (μ := law omega a.theta a.sigma a.nu T) 1
      rw [Complex.ofReal_one] at this
      rw [this]
      unfold mgf
      simp only [id, one_mul]
      rw [hmart]; simp
    rw [h3, ← Complex.exp_add] at h2
    have h4 : (1 : ℂ) * (omega * T) + -(T / a.nu) * Complex.log (1 - (a.theta * 1 + a.sigma ^ 2 * 1 ^ 2 / 2) * a.nu) =
        ((omega * T - T / a.nu * log (1 - a.theta * a.nu - 0.5 * a.sigma ^ 2 * a.nu) : ℝ) : ℂ) := by
      rw [show (1 - ((a.theta : ℂ) * 1 + a.sigma ^ 2 * 1 ^ 2 / 2) * a.nu) =
        ((1 - a.theta * a.nu - 0.5 * a.sigma ^ 2 * a.nu : ℝ) : ℂ) by push_cast; ring, ← Complex.ofReal_log hp.le]
      push_cast; ring
    rw [h4, ← Complex.ofReal_exp] at h2
    have h5 : exp (omega * T - T / a.nu * log (1 - a.theta * a.nu - 0.5 * a.sigma ^ 2 * a.nu)) = 1 := by
      exact_mod_cast h2.symm
    rw [exp_eq_one_iff] at h5
    linarith
  unfold logpMgf
  simp only
  rw [← Complex.exp_add]
  congr 1
  have hom' : (omega : ℂ) * T = T / a.nu * ((log (1 - a.theta * a.nu - 0.5 * a.sigma ^ 2 * a.nu) : ℝ) : ℂ) := by
    exact_mod_cast congrArg (fun x : ℝ => (x : ℂ)) hom
  rw [hom', show (1 : ℂ) + (-(a.theta : ℂ) * a.nu - 0.5 * (a.nu * a.sigma ^ 2) * u) * u =
    1 - (a.theta * u + a.sigma ^ 2 * u ^ 2 / 2) * a.nu by ring]
  push_cast
  ring

/-- The martingale drift exists (it is the one documented in the class), so the hypothesis of `logpMgf_correct` can be
met for every accepted model. -/
theorem martingale_drift {a : SubArgs} {m : SubParams} (h : init a = .ok m) (hn : 0 < a.nu) {T : ℝ} (hT : 0 < T) :
    ∫ x, exp x ∂(law (log (1 - a.theta * a.nu - 0.5 * a.sigma ^ 2 * a.nu) / a.nu) a.theta a.sigma a.nu T) = 1 := by
  obtain ⟨hp, rfl⟩ := init_ok h
  set omega := log (1 - a.theta * a.nu - 0.5 * a.sigma ^ 2 * a.nu) / a.nu with ho
  have hk1 : a.theta + a.sigma ^ 2 / 2 < 1 / a.nu := by
    rw [lt_div_iff₀ hn]; linarith
  have h2 := (law_mgf omega a.theta a.sigma hn hT (u := 1) (by simpa using hk1)).2
  have h3 := complexMGF_ofReal (X := id) (μ := law omega a.theta a.sigma a.nu T) 1
  rw [Complex.ofReal_one, h2, ← Complex.exp_add] at h3
  rw [show (1 - ((a.theta : ℂ) * 1 + a.sigma ^ 2 * 1 ^ 2 / 2) * a.nu) =
        ((1 - a.theta * a.nu - 0.5 * a.sigma ^ 2 * a.nu : ℝ) : ℂ) by push_cast; ring, ← Complex.ofReal_log hp.le] at h3
  rw [show (1 : ℂ) * (omega * T) + -(T / a.nu) *
      ((log (1 - a.theta * a.nu - 0.5 * a.sigma ^ 2 * a.nu) : ℝ) : ℂ) = 0 by
    rw [ho]; push_cast
    have : (a.nu : ℂ) ≠ 0 := by exact_mod_cast hn.ne'
    field_simp; ring, Complex.exp_zero] at h3
  unfold mgf at h3
  simp only [id, one_mul] at h3
  exact_mod_cast h3.symm

/-- **C33 (VarGamma).** Normalisation: `logp_mgf(0, T) = 1`, `logp_mgf(1, T) = 1`; and the Lévy property
`logp_mgf(u, T₁+T₂) = logp_mgf(u, T₁)·logp_mgf(u, T₂)`. -/
theorem logpMgf_normalised {a : SubArgs} {m : SubParams} (h : init a = .ok m) (T T1 T2 : ℝ) (u : ℂ) :
    logpMgf m 0 T = 1 ∧ logpMgf m 1 T = 1 ∧ logpMgf m u (T1 + T2) = logpMgf m u T1 * logpMgf m u T2 := by
  obtain ⟨hp, rfl⟩ := init_ok h
  refine ⟨?_, ?_, ?_⟩
  · simp [logpMgf]
  · unfold logpMgf
    simp only
    rw [show (1 : ℂ) + (-(a.theta : ℂ) * a.nu - 0.5 * (a.nu * a.sigma ^ 2) * 1) * 1 =
      ((1 - a.theta * a.nu - 0.5 * a.sigma ^ 2 * a.nu : ℝ) : ℂ) by push_cast; ring, ← Complex.ofReal_log hp.le]
    push_cast
    simp
  · unfold logpMgf
    simp only
    rw [← Complex.exp_add]
    congr 1
    push_cast
    ring

/-- Non-vacuity: an accepted model. -/
example : ∃ m, init ⟨0.2, 0.3, -0.1, 0, 0, false⟩ = .ok m := by
  unfold init
  norm_num

end VarGamma

namespace Nig

/-- The law of `log(S_T/F)`: `ωT + θV + σW_V` with inverse Gaussian time `V ~ IG(mean T, shape T²/ν)`. -/
noncomputable def law (omega theta sigma nu T : ℝ) : Measure ℝ :=
  Spec.subordLaw (omega * T) theta sigma (Spec.igMeasure T (T ^ 2 / nu))

lemma law_mgf (omega theta sigma : ℝ) {nu T : ℝ} (hn : 0 < nu) (hT : 0 < T) {u : ℂ}
    (hu : theta * u.re + sigma ^ 2 * u.re ^ 2 / 2 < 1 / (2 * nu)) :
    Integrable (fun x => Real.exp (u.re * x)) (law omega theta sigma nu T) ∧
    complexMGF id (law omega theta sigma nu T) u = Complex.exp (u * (omega * T)) *
      Complex.exp (T / nu * (1 - (1 - (theta * u + sigma ^ 2 * u ^ 2 / 2) * (2 * nu)) ^ (1 / 2 : ℂ))) := by
  have hl : 0 < T ^ 2 / nu := by positivity
  have e : T ^ 2 / nu / (2 * T ^ 2) = 1 / (2 * nu) := by field_simp
  have := DistInvGauss.isProbabilityMeasure hT hl
  obtain ⟨h1, h2⟩ := complexMGF_subordLaw (c := omega * T) (θ := theta) (σ := sigma) (u := u)
    (igMeasure_pos (mu := T) (lam := T ^ 2 / nu)) (ig_mgf hT hl (by rw [e]; exact hu)).1
  refine ⟨h1, ?_⟩
  unfold law
  rw [h2, ig_complexMGF hT hl (by rw [e]; exact (VarGamma.re_quad _ _ _).trans_lt hu)]
  have hTc : (T : ℂ) ≠ 0 := by exact_mod_cast hT.ne'
  have hnc : (nu : ℂ) ≠ 0 := by exact_mod_cast hn.ne'
  have e1 : (((T ^ 2 / nu : ℝ) : ℂ)) / T = T / nu := by push_cast; field_simp
  have e2 : ∀ z : ℂ, 2 * (T : ℂ) ^ 2 * z / ((T ^ 2 / nu : ℝ) : ℂ) = z * (2 * nu) := by
    intro z; push_cast; field_simp
  rw [e1, e2]
  push_cast
  rfl

/-- **C33 (NIG).** Same statement as for variance gamma, with inverse Gaussian time. -/
theorem logpMgf_correct {a : SubArgs} {m : SubParams} (h : init a = .ok m) (hn : 0 < a.nu) {T : ℝ} (hT : 0 < T)
    {omega : ℝ} (hmart : ∫ x, exp x ∂(law omega a.theta a.sigma a.nu T) = 1)
    {u : ℂ} (h0 : 0 ≤ u.re) (h1 : u.re ≤ 1) :
    logpMgf m u T = complexMGF id (law omega a.theta a.sigma a.nu T) u := by
  obtain ⟨hp, rfl⟩ := init_ok h
  have hk : 0 < 1 / (2 * a.nu) := by positivity
  have hk1 : a.theta + a.sigma ^ 2 / 2 < 1 / (2 * a.nu) := by
    rw [lt_div_iff₀ (by positivity)]; linarith
  have hst := VarGamma.strip hk (by positivity) hk1 h0 h1
  rw [show a.sigma ^ 2 / 2 * u.re ^ 2 = a.sigma ^ 2 * u.re ^ 2 / 2 by ring] at hst
  rw [(law_mgf omega _ _ hn hT hst).2]
  have hsq : (((1 - 2 * a.theta * a.nu - a.sigma ^ 2 * a.nu : ℝ) : ℂ)) ^ (1 / 2 : ℂ) =
      ((√(1 - 2 * a.theta * a.nu - a.sigma ^ 2 * a.nu) : ℝ) : ℂ) := by
    rw [sqrt_eq_rpow, Complex.ofReal_cpow hp.le]
    push_cast; rfl
  have hom : omega * T = -(T / a.nu * (1 - √(1 - 2 * a.theta * a.nu - a.sigma ^ 2 * a.nu))) := by
    have h2 := (law_mgf omega a.theta a.sigma hn hT (u := 1) (by simpa using hk1)).2
    have h3 : complexMGF id (law omega a.theta a.sigma a.nu T) 1 = 1 := by
      have := complexMGF_ofReal (X := id) (μ := law omega a.theta a.sigma a.nu T) 1
      rw [Complex.ofReal_one] at this
      rw [this]
      unfold mgf
      simp only [id, one_mul]
      rw [hmart]; simp
    rw [h3, ← Complex.exp_add] at h2
    rw [show (1 - ((a.theta : ℂ) * 1 + a.sigma ^ 2 * 1 ^ 2 / 2) * (2 * a.nu)) =
        ((1 - 2 * a.theta * a.nu - a.sigma ^ 2 * a.nu : ℝ) : ℂ) by push_cast; ring, hsq] at h2
    have h4 : (1 : ℂ) * (omega * T) + T / a.nu * (1 - ((√(1 - 2 * a.theta * a.nu - a.sigma ^ 2 * a.nu) : ℝ) : ℂ)) =
        ((omega * T + T / a.nu * (1 - √(1 - 2 * a.theta * a.nu - a.sigma ^ 2 * a.nu)) : ℝ) : ℂ) := by
      push_cast; ring
    rw [h4, ← Complex.ofReal_exp] at h2
    have h5 : exp (omega * T + T / a.nu * (1 - √(1 - 2 * a.theta * a.nu - a.sigma ^ 2 * a.nu))) = 1 := by
      exact_mod_cast h2.symm
    rw [exp_eq_one_iff] at h5
    linarith
  unfold logpMgf
  simp only
  rw [← Complex.exp_add]
  congr 1
  have hom' : (omega : ℂ) * T = -(T / a.nu * (1 - ((√(1 - 2 * a.theta * a.nu - a.sigma ^ 2 * a.nu) : ℝ) : ℂ))) := by
    exact_mod_cast congrArg (fun x : ℝ => (x : ℂ)) hom
  rw [hom', show (1 : ℂ) + (-2 * (a.theta : ℂ) * a.nu - (a.nu * a.sigma ^ 2) * u) * u =
    1 - (a.theta * u + a.sigma ^ 2 * u ^ 2 / 2) * (2 * a.nu) by ring]
  push_cast
  ring

theorem martingale_drift {a : SubArgs} {m : SubParams} (h : init a = .ok m) (hn : 0 < a.nu) {T : ℝ} (hT : 0 < T) :
    ∫ x, exp x ∂(law ((√(1 - 2 * a.theta * a.nu - a.sigma ^ 2 * a.nu) - 1) / a.nu) a.theta a.sigma a.nu T) = 1 := by
  obtain ⟨hp, rfl⟩ := init_ok h
  set omega := (√(1 - 2 * a.theta * a.nu - a.sigma ^ 2 * a.nu) - 1) / a.nu with ho
  have hk1 : a.theta + a.sigma ^ 2 / 2 < 1 / (2 * a.nu) := by
    rw [lt_div_iff₀ (by positivity)]; linarith
  have hsq : (((1 - 2 * a.theta * a.nu - a.sigma ^ 2 * a.nu : ℝ) : ℂ)) ^ (1 / 2 : ℂ) =
      ((√(1 - 2 * a.theta * a.nu - a.sigma ^ 2 * a.nu) : ℝ) : ℂ) := by
    rw [sqrt_eq_rpow, Complex.ofReal_cpow hp.le]
    push_cast; rfl
  have h2 := (law_mgf omega a.theta a.sigma hn hT (u := 1) (by simpa using hk1)).2
  have h3 := complexMGF_ofReal (X := id) (μ := law omega a.theta a.sigma a.nu T) 1
  rw [Complex.ofReal_one, h2, ← Complex.exp_add] at h3
  rw [show (1 - ((a.theta : ℂ) * 1 + a.sigma ^ 2 * 1 ^ 2 / 2) * (2 * a.nu)) =
        ((1 - 2 * a.theta * a.nu - a.sigma ^ 2 * a.nu : ℝ) : ℂ) by push_cast; ring, hsq] at h3
  rw [show (1 : ℂ) * (omega * T) + T / a.nu * (1 - ((√(1 - 2 * a.theta * a.nu - a.sigma ^ 2 * a.nu) : ℝ) : ℂ)) = 0 by
    rw [ho]; push_cast
    ring, Complex.exp_zero] at h3
  unfold mgf at h3
  simp only [id, one_mul] at h3
  exact_mod_cast h3.symm

/-- **C33 (NIG).** Normalisation and the Lévy property. -/
theorem logpMgf_normalised {a : SubArgs} {m : SubParams} (h : init a = .ok m) (T T1 T2 : ℝ) (u : ℂ) :
    logpMgf m 0 T = 1 ∧ logpMgf m 1 T = 1 ∧ logpMgf m u (T1 + T2) = logpMgf m u T1 * logpMgf m u T2 := by
  obtain ⟨hp, rfl⟩ := init_ok h
  refine ⟨?_, ?_, ?_⟩
  · simp [logpMgf]
  · unfold logpMgf
    simp only
    have hsq : (((1 - 2 * a.theta * a.nu - a.sigma ^ 2 * a.nu : ℝ) : ℂ)) ^ (1 / 2 : ℂ) =
        ((√(1 - 2 * a.theta * a.nu - a.sigma ^ 2 * a.nu) : ℝ) : ℂ) := by
      rw [sqrt_eq_rpow, Complex.ofReal_cpow hp.le]
      push_cast; rfl
    rw [show (1 : ℂ) + (-2 * (a.theta : ℂ) * a.nu - (a.nu * a.sigma ^ 2) * 1) * 1 =
      ((1 - 2 * a.theta * a.nu - a.sigma ^ 2 * a.nu : ℝ) : ℂ) by push_cast; ring, hsq]
    push_cast
    rw [show ∀ x : ℂ, -(1 - x) * 1 + 1 - x = 0 by intro x; ring]
    simp
  · unfold logpMgf
    simp only
    rw [← Complex.exp_add]
    congr 1
    push_cast
    ring

example : ∃ m, init ⟨0.2, 0.3, -0.1, 0, 0, false⟩ = .ok m := by
  unfold init
  norm_num

end Nig

/-! ## C34: cumulants -/

/-- Derivatives computed by hand are the iterated derivatives. -/
lemma iteratedDeriv_chain {f f1 f2 f3 f4 : ℝ → ℝ} {U : Set ℝ} (hU : IsOpen U) {x : ℝ} (hx : x ∈ U)
    (h1 : ∀ y ∈ U, HasDerivAt f (f1 y) y) (h2 : ∀ y ∈ U, HasDerivAt f1 (f2 y) y)
    (h3 : ∀ y ∈ U, HasDerivAt f2 (f3 y) y) (h4 : ∀ y ∈ U, HasDerivAt f3 (f4 y) y) :
    iteratedDeriv 1 f x = f1 x ∧ iteratedDeriv 2 f x = f2 x ∧ iteratedDeriv 3 f x = f3 x ∧
    iteratedDeriv 4 f x = f4 x := by
  have key : ∀ {g g' : ℝ → ℝ}, (∀ y ∈ U, HasDerivAt g (g' y) y) → ∀ n, ∀ y ∈ U,
      iteratedDeriv (n + 1) g y = iteratedDeriv n g' y := by
    intro g g' hg n y hy
    rw [iteratedDeriv_succ']
    refine Filter.EventuallyEq.iteratedDeriv_eq n ?_
    filter_upwards [hU.mem_nhds hy] with z hz using (hg z hz).deriv
  refine ⟨?_, ?_, ?_, ?_⟩
  · rw [key h1 0 x hx, iteratedDeriv_zero]
  · rw [key h1 1 x hx, key h2 0 x hx, iteratedDeriv_zero]
  · rw [key h1 2 x hx, key h2 1 x hx, key h3 0 x hx, iteratedDeriv_zero]
  · rw [key h1 3 x hx, key h2 2 x hx, key h3 1 x hx, key h4 0 x hx, iteratedDeriv_zero]

/-- Derivatives of `k·u - A·log(1 - p u - s u²/2)`. -/
lemma cum_log (k A p s : ℝ) :
    let K := fun u : ℝ => k * u - A * log (1 - p * u - s * u ^ 2 / 2)
    iteratedDeriv 1 K 0 = k + A * p ∧ iteratedDeriv 2 K 0 = A * (s + p ^ 2) ∧
    iteratedDeriv 3 K 0 = A * (3 * s * p + 2 * p ^ 3) ∧
    iteratedDeriv 4 K 0 = A * (3 * s ^ 2 + 12 * s * p ^ 2 + 6 * p ^ 4) := by
  intro K
  set q := fun u : ℝ => 1 - p * u - s * u ^ 2 / 2 with hq
  have hU : IsOpen {u : ℝ | 0 < q u} := isOpen_lt continuous_const (by fun_prop)
  have h0 : (0 : ℝ) ∈ {u : ℝ | 0 < q u} := by simp [hq]
  have dq : ∀ u, HasDerivAt q (-(p + s * u)) u := fun u => by
    have := (((hasDerivAt_id' u).const_mul p).const_sub 1).sub ((((hasDerivAt_id' u).pow 2).const_mul s).div_const 2)
    refine this.congr_deriv ?_
    simp; ring
  have dw : ∀ u, HasDerivAt (fun u : ℝ => p + s * u) s u := fun u => by
    have := ((hasDerivAt_id' u).const_mul s).const_add p
    refine this.congr_deriv (by simp)
  set f1 : ℝ → ℝ := fun u => k + A * ((p + s * u) / q u) with hf1
  set f2 : ℝ → ℝ := fun u => A * (s / q u + (p + s * u) ^ 2 / q u ^ 2) with hf2
  set f3 : ℝ → ℝ := fun u => A * (3 * s * (p + s * u) / q u ^ 2 + 2 * (p + s * u) ^ 3 / q u ^ 3) with hf3
  set f4 : ℝ → ℝ := fun u => A * (3 * s ^ 2 / q u ^ 2 + 12 * s * (p + s * u) ^ 2 / q u ^ 3 + 6 * (p + s * u) ^ 4 / q u ^ 4) with hf4
  have d1 : ∀ u ∈ {u : ℝ | 0 < q u}, HasDerivAt K (f1 u) u := by
    intro u hu
    have hu' : q u ≠ 0 := ne_of_gt hu
    refine (((hasDerivAt_id' u).const_mul k).sub (((dq u).log hu').const_mul A)).congr_deriv ?_
    ring
  have d2 : ∀ u ∈ {u : ℝ | 0 < q u}, HasDerivAt f1 (f2 u) u := by
    intro u hu
    have hu' : q u ≠ 0 := ne_of_gt hu
    refine ((((dw u).div (dq u) hu').const_mul A).const_add k).congr_deriv ?_
    simp only [hf2]
    field_simp
    ring
  have d3 : ∀ u ∈ {u : ℝ | 0 < q u}, HasDerivAt f2 (f3 u) u := by
    intro u hu
    have hu' : q u ≠ 0 := ne_of_gt hu
    refine (((((hasDerivAt_const u s).div (dq u) hu').add
      (((dw u).pow 2).div ((dq u).pow 2) (pow_ne_zero 2 hu')))).const_mul A).congr_deriv ?_
    simp only [hf3]
    congr 1
    simp
    field_simp
    ring
  have d4 : ∀ u ∈ {u : ℝ | 0 < q u}, HasDerivAt f3 (f4 u) u := by
    intro u hu
    have hu' : q u ≠ 0 := ne_of_gt hu
    refine ((((((dw u).const_mul (3 * s))).div ((dq u).pow 2) (pow_ne_zero 2 hu')).add
      ((((dw u).pow 3).const_mul 2).div ((dq u).pow 3) (pow_ne_zero 3 hu'))).const_mul A).congr_deriv ?_
    simp only [hf4]
    congr 1
    simp
    field_simp
    ring
  obtain ⟨e1, e2, e3, e4⟩ := iteratedDeriv_chain hU h0 d1 d2 d3 d4
  refine ⟨e1.trans ?_, e2.trans ?_, e3.trans ?_, e4.trans ?_⟩ <;> simp [hf1, hf2, hf3, hf4, hq]

/-- Derivatives of `k·u + A·(1 - √(1 - 2p u - s u²))`. -/
lemma cum_sqrt (k A p s : ℝ) :
    let K := fun u : ℝ => k * u + A * (1 - √(1 - 2 * p * u - s * u ^ 2))
    iteratedDeriv 1 K 0 = k + A * p ∧ iteratedDeriv 2 K 0 = A * (s + p ^ 2) ∧
    iteratedDeriv 3 K 0 = A * (3 * s * p + 3 * p ^ 3) ∧
    iteratedDeriv 4 K 0 = A * (3 * s ^ 2 + 18 * s * p ^ 2 + 15 * p ^ 4) := by
  intro K
  set q := fun u : ℝ => 1 - 2 * p * u - s * u ^ 2 with hq
  have hU : IsOpen {u : ℝ | 0 < q u} := isOpen_lt continuous_const (by fun_prop)
  have h0 : (0 : ℝ) ∈ {u : ℝ | 0 < q u} := by simp [hq]
  have dq : ∀ u, HasDerivAt q (-2 * (p + s * u)) u := fun u => by
    have := (((hasDerivAt_id' u).const_mul (2 * p)).const_sub 1).sub (((hasDerivAt_id' u).pow 2).const_mul s)
    refine this.congr_deriv ?_
    simp; ring
  set r := fun u : ℝ => √(q u) with hr
  have dr : ∀ u, 0 < q u → HasDerivAt r (-(p + s * u) / r u) u := fun u hu => by
    refine ((dq u).sqrt hu.ne').congr_deriv ?_
    have : 0 < √(q u) := sqrt_pos.2 hu
    simp only [hr]
    field_simp
  have dw : ∀ u, HasDerivAt (fun u : ℝ => p + s * u) s u := fun u => by
    have := ((hasDerivAt_id' u).const_mul s).const_add p
    refine this.congr_deriv (by simp)
  set f1 : ℝ → ℝ := fun u => k + A * ((p + s * u) / r u) with hf1
  set f2 : ℝ → ℝ := fun u => A * (s / r u + (p + s * u) ^ 2 / r u ^ 3) with hf2
  set f3 : ℝ → ℝ := fun u => A * (3 * s * (p + s * u) / r u ^ 3 + 3 * (p + s * u) ^ 3 / r u ^ 5) with hf3
  set f4 : ℝ → ℝ := fun u => A * (3 * s ^ 2 / r u ^ 3 + 18 * s * (p + s * u) ^ 2 / r u ^ 5 + 15 * (p + s * u) ^ 4 / r u ^ 7) with hf4
  have d1 : ∀ u ∈ {u : ℝ | 0 < q u}, HasDerivAt K (f1 u) u := by
    intro u hu
    refine (((hasDerivAt_id' u).const_mul k).add (((dr u hu).const_sub 1).const_mul A)).congr_deriv ?_
    ring
  have d2 : ∀ u ∈ {u : ℝ | 0 < q u}, HasDerivAt f1 (f2 u) u := by
    intro u hu
    have hu' : r u ≠ 0 := (sqrt_pos.2 hu).ne'
    refine ((((dw u).div (dr u hu) hu').const_mul A).const_add k).congr_deriv ?_
    simp only [hf2]
    field_simp
    ring
  have d3 : ∀ u ∈ {u : ℝ | 0 < q u}, HasDerivAt f2 (f3 u) u := by
    intro u hu
    have hu' : r u ≠ 0 := (sqrt_pos.2 hu).ne'
    refine (((((hasDerivAt_const u s).div (dr u hu) hu').add
      (((dw u).pow 2).div ((dr u hu).pow 3) (pow_ne_zero 3 hu')))).const_mul A).congr_deriv ?_
    simp only [hf3]
    congr 1
    simp
    field_simp
    ring
  have d4 : ∀ u ∈ {u : ℝ | 0 < q u}, HasDerivAt f3 (f4 u) u := by
    intro u hu
    have hu' : r u ≠ 0 := (sqrt_pos.2 hu).ne'
    refine ((((((dw u).const_mul (3 * s))).div ((dr u hu).pow 3) (pow_ne_zero 3 hu')).add
      ((((dw u).pow 3).const_mul 3).div ((dr u hu).pow 5) (pow_ne_zero 5 hu'))).const_mul A).congr_deriv ?_
    simp only [hf4]
    congr 1
    simp
    field_simp
    ring
  obtain ⟨e1, e2, e3, e4⟩ := iteratedDeriv_chain hU h0 d1 d2 d3 d4
  refine ⟨e1.trans ?_, e2.trans ?_, e3.trans ?_, e4.trans ?_⟩ <;> simp [hf1, hf2, hf3, hf4, hq, hr]

/-- Specification: the first four cumulants (derivatives at zero of the cumulant generating function) of a law. -/
def Spec.IsCum4 (μ : Measure ℝ) (c : ℝ × ℝ × ℝ × ℝ) : Prop :=
  iteratedDeriv 1 (cgf id μ) 0 = c.1 ∧ iteratedDeriv 2 (cgf id μ) 0 = c.2.1 ∧
  iteratedDeriv 3 (cgf id μ) 0 = c.2.2.1 ∧ iteratedDeriv 4 (cgf id μ) 0 = c.2.2.2

/-- **C34 (VarGamma).** `logp_cum4` are the first four cumulants of the law of `log(S_T/F)` (the law of
`logpMgf_correct`, with the martingale drift). -/
theorem VarGamma.logpCum4_correct {a : SubArgs} {m : SubParams} (h : VarGamma.init a = .ok m) (hn : 0 < a.nu)
    {T : ℝ} (hT : 0 < T) :
    Spec.IsCum4 (VarGamma.law (log (1 - a.theta * a.nu - 0.5 * a.sigma ^ 2 * a.nu) / a.nu) a.theta a.sigma a.nu T)
      (VarGamma.logpCum4 m T) := by
  obtain ⟨hp, rfl⟩ := VarGamma.init_ok h
  set omega := log (1 - a.theta * a.nu - 0.5 * a.sigma ^ 2 * a.nu) / a.nu with ho
  have hev : cgf id (VarGamma.law omega a.theta a.sigma a.nu T) =ᶠ[nhds 0]
      fun u => omega * T * u - T / a.nu * log (1 - a.theta * a.nu * u - a.sigma ^ 2 * a.nu * u ^ 2 / 2) := by
    have hopen : IsOpen {u : ℝ | a.theta * u + a.sigma ^ 2 * u ^ 2 / 2 < 1 / a.nu} :=
      isOpen_lt (by fun_prop) continuous_const
    filter_upwards [hopen.mem_nhds (show (0 : ℝ) ∈ _ by simp [hn])] with u hu
    have hu' : a.theta * u + a.sigma ^ 2 * u ^ 2 / 2 < 1 / a.nu := hu
    have h1 := (VarGamma.law_mgf omega a.theta a.sigma hn hT (u := (u : ℂ)) (by simpa using hu')).2
    rw [complexMGF_ofReal] at h1
    have hq : 0 < 1 - a.theta * a.nu * u - a.sigma ^ 2 * a.nu * u ^ 2 / 2 := by
      rw [lt_div_iff₀ hn] at hu'; nlinarith
    rw [show (1 - ((a.theta : ℂ) * u + a.sigma ^ 2 * (u : ℂ) ^ 2 / 2) * a.nu) =
        ((1 - a.theta * a.nu * u - a.sigma ^ 2 * a.nu * u ^ 2 / 2 : ℝ) : ℂ) by push_cast; ring,
      ← Complex.ofReal_log hq.le, ← Complex.exp_add] at h1
    have h2 : mgf id (VarGamma.law omega a.theta a.sigma a.nu T) u = exp (u * (omega * T) + -(T / a.nu) *
        log (1 - a.theta * a.nu * u - a.sigma ^ 2 * a.nu * u ^ 2 / 2)) := by
      exact_mod_cast h1
    unfold cgf
    rw [h2, log_exp]
    ring
  obtain ⟨e1, e2, e3, e4⟩ := cum_log (omega * T) (T / a.nu) (a.theta * a.nu) (a.sigma ^ 2 * a.nu)
  unfold Spec.IsCum4 VarGamma.logpCum4
  simp only
  rw [hev.iteratedDeriv_eq 1, hev.iteratedDeriv_eq 2, hev.iteratedDeriv_eq 3, hev.iteratedDeriv_eq 4, e1, e2, e3, e4, neg_neg]
  refine ⟨?_, ?_, ?_, ?_⟩
  · rw [← ho]; field_simp
  · field_simp
  · field_simp
  · field_simp
    ring

/-- **C34 (NIG).** -/
theorem Nig.logpCum4_correct {a : SubArgs} {m : SubParams} (h : Nig.init a = .ok m) (hn : 0 < a.nu)
    {T : ℝ} (hT : 0 < T) :
    Spec.IsCum4 (Nig.law ((√(1 - 2 * a.theta * a.nu - a.sigma ^ 2 * a.nu) - 1) / a.nu) a.theta a.sigma a.nu T)
      (Nig.logpCum4 m T) := by
  obtain ⟨hp, rfl⟩ := Nig.init_ok h
  set omega := (√(1 - 2 * a.theta * a.nu - a.sigma ^ 2 * a.nu) - 1) / a.nu with ho
  have hev : cgf id (Nig.law omega a.theta a.sigma a.nu T) =ᶠ[nhds 0]
      fun u => omega * T * u + T / a.nu * (1 - √(1 - 2 * (a.theta * a.nu) * u - a.sigma ^ 2 * a.nu * u ^ 2)) := by
    have hopen : IsOpen {u : ℝ | a.theta * u + a.sigma ^ 2 * u ^ 2 / 2 < 1 / (2 * a.nu)} :=
      isOpen_lt (by fun_prop) continuous_const
    filter_upwards [hopen.mem_nhds (show (0 : ℝ) ∈ _ by simp [hn])] with u hu
    have hu' : a.theta * u + a.sigma ^ 2 * u ^ 2 / 2 < 1 / (2 * a.nu) := hu
    have h1 := (Nig.law_mgf omega a.theta a.sigma hn hT (u := (u : ℂ)) (by simpa using hu')).2
    rw [complexMGF_ofReal] at h1
    have hq : 0 < 1 - 2 * (a.theta * a.nu) * u - a.sigma ^ 2 * a.nu * u ^ 2 := by
      rw [lt_div_iff₀ (by positivity)] at hu'; nlinarith
    have hsq : (((1 - 2 * (a.theta * a.nu) * u - a.sigma ^ 2 * a.nu * u ^ 2 : ℝ) : ℂ)) ^ (1 / 2 : ℂ) =
        ((√(1 - 2 * (a.theta * a.nu) * u - a.sigma ^ 2 * a.nu * u ^ 2) : ℝ) : ℂ) := by
      rw [sqrt_eq_rpow, Complex.ofReal_cpow hq.le]
      push_cast; rfl
    rw [show (1 - ((a.theta : ℂ) * u + a.sigma ^ 2 * (u : ℂ) ^ 2 / 2) * (2 * a.nu)) =
        ((1 - 2 * (a.theta * a.nu) * u - a.sigma ^ 2 * a.nu * u ^ 2 : ℝ) : ℂ) by push_cast; ring, hsq,
      ← Complex.exp_add] at h1
    have h2 : mgf id (Nig.law omega a.theta a.sigma a.nu T) u = exp (u * (omega * T) + T / a.nu *
        (1 - √(1 - 2 * (a.theta * a.nu) * u - a.sigma ^ 2 * a.nu * u ^ 2))) := by
      exact_mod_cast h1
    unfold cgf
    rw [h2, log_exp]
    ring
  obtain ⟨e1, e2, e3, e4⟩ := cum_sqrt (omega * T) (T / a.nu) (a.theta * a.nu) (a.sigma ^ 2 * a.nu)
  unfold Spec.IsCum4 Nig.logpCum4
  simp only
  rw [hev.iteratedDeriv_eq 1, hev.iteratedDeriv_eq 2, hev.iteratedDeriv_eq 3, hev.iteratedDeriv_eq 4, e1, e2, e3, e4]
  refine ⟨?_, ?_, ?_, ?_⟩
  · rw [neg_sub, ← ho]; field_simp
  · field_simp
  · field_simp
  · field_simp
    ring

end PyFENG
