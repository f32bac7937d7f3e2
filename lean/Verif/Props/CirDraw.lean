import Verif.Props.Cir
import Verif.Lemmas.Kang
import Verif.Lemmas.Moments

/-!
# C42, C86: samplers of the CIR variance
-/

namespace PyFENG

open Real Set MeasureTheory

/-! ### Expectations of gamma and Poisson draws -/

lemma Ex.gamma_exp {a s : ℝ} (ha : 0 < a) (hs : s < 1) : Ex.gamma a (fun g => exp (s * g)) = (1 - s) ^ (-a) := by
  unfold Ex.gamma gammaPdf
  have h := Real.integral_rpow_mul_exp_neg_mul_Ioi ha (show 0 < 1 - s by linarith)
  have e : ∀ g : ℝ, g ^ (a - 1) * exp (-g) / Real.Gamma a * exp (s * g) = (g ^ (a - 1) * exp (-((1 - s) * g))) / Real.Gamma a := by
    intro g
    rw [show -((1 - s) * g) = -g + s * g by ring, exp_add]
    ring
  simp only [e]
  rw [integral_div, h, one_div, mul_div_assoc, div_self (Real.Gamma_pos_of_pos ha).ne', mul_one, inv_rpow (by linarith), rpow_neg (by linarith)]

lemma Ex.gamma_mom {a : ℝ} (ha : 0 < a) : Ex.gamma a (fun g => g) = a ∧ Ex.gamma a (fun g => g ^ 2) = a * (a + 1) := by
  unfold Ex.gamma gammaPdf
  have hG := (Real.Gamma_pos_of_pos ha).ne'
  constructor
  · have h := Real.integral_rpow_mul_exp_neg_mul_Ioi (show 0 < a + 1 by linarith) (zero_lt_one' ℝ)
    rw [← integral_congr_ae (f := fun g => (g ^ (a + 1 - 1) * exp (-(1 * g))) / Real.Gamma a), integral_div, h, Real.Gamma_add_one ha.ne']
    · simp; field_simp
    · filter_upwards [ae_restrict_mem measurableSet_Ioi] with g hg
      rw [add_sub_cancel_right, one_mul, rpow_sub_one (ne_of_gt hg)]
      have : g ≠ 0 := ne_of_gt hg
      field_simp
  · have h := Real.integral_rpow_mul_exp_neg_mul_Ioi (show 0 < a + 1 + 1 by linarith) (zero_lt_one' ℝ)
    rw [← integral_congr_ae (f := fun g => (g ^ (a + 1 + 1 - 1) * exp (-(1 * g))) / Real.Gamma a), integral_div, h, Real.Gamma_add_one (by linarith),
      Real.Gamma_add_one ha.ne']
    · simp; field_simp
    · filter_upwards [ae_restrict_mem measurableSet_Ioi] with g hg
      have hg' : g ≠ 0 := ne_of_gt hg
      rw [add_sub_cancel_right, one_mul, rpow_sub_one hg', rpow_add_one hg']
      field_simp

lemma Ex.poisson_pow (mu r : ℝ) : Ex.poisson mu (fun n => r ^ n) = exp (mu * (r - 1)) := by
  unfold Ex.poisson poisMix
  have h : ∀ j : ℕ, mu ^ j / j.factorial * r ^ j = (mu * r) ^ j / j.factorial := fun j => by rw [mul_pow]; ring
  simp only [h]
  rw [(NormedSpace.expSeries_div_hasSum_exp (mu * r)).tsum_eq, ← Real.exp_eq_exp_ℝ, ← exp_add]
  congr 1
  ring

lemma hasSum_pois0 (mu : ℝ) : HasSum (fun j : ℕ => mu ^ j / j.factorial) (exp mu) := by
  rw [Real.exp_eq_exp_ℝ]
  exact NormedSpace.expSeries_div_hasSum_exp mu

lemma hasSum_pois1 (mu : ℝ) : HasSum (fun j : ℕ => mu ^ j / j.factorial * j) (mu * exp mu) := by
  rw [← hasSum_nat_add_iff' 1]
  have h := (hasSum_pois0 mu).mul_left mu
  simp only [Finset.range_one, Finset.sum_singleton, Nat.cast_zero, mul_zero, sub_zero]
  refine h.congr_fun fun j => ?_
  rw [Nat.factorial_succ, pow_succ]
  push_cast
  have : (j.factorial : ℝ) ≠ 0 := by positivity
  field_simp

lemma hasSum_pois2 (mu : ℝ) : HasSum (fun j : ℕ => mu ^ j / j.factorial * (j * (j - 1))) (mu ^ 2 * exp mu) := by
  rw [← hasSum_nat_add_iff' 1]
  have h := (hasSum_pois1 mu).mul_left mu
  simp only [Finset.range_one, Finset.sum_singleton, Nat.cast_zero, zero_mul, mul_zero, sub_zero]
  rw [show mu ^ 2 * exp mu = mu * (mu * exp mu) by ring]
  refine h.congr_fun fun j => ?_
  rw [Nat.factorial_succ, pow_succ]
  push_cast
  have : (j.factorial : ℝ) ≠ 0 := by positivity
  field_simp
  ring

lemma Ex.poisson_quad (mu A B C : ℝ) : Ex.poisson mu (fun n => A + B * n + C * (n * (n - 1))) = A + B * mu + C * mu ^ 2 := by
  unfold Ex.poisson poisMix
  have h := (((hasSum_pois0 mu).mul_left A).add ((hasSum_pois1 mu).mul_left B)).add ((hasSum_pois2 mu).mul_left C)
  have e : ∀ j : ℕ, mu ^ j / j.factorial * (A + B * j + C * (j * (j - 1))) =
      A * (mu ^ j / j.factorial) + B * (mu ^ j / j.factorial * j) + C * (mu ^ j / j.factorial * (j * (j - 1))) := fun j => by ring
  simp only [e]
  rw [h.tsum_eq]
  have : exp (-mu) * exp mu = 1 := by rw [← exp_add]; simp
  linear_combination (A + B * mu + C * mu ^ 2) * this

lemma Ex.gamma_smul (a k : ℝ) (f : ℝ → ℝ) : Ex.gamma a (fun g => k * f g) = k * Ex.gamma a f := by
  unfold Ex.gamma
  rw [← integral_const_mul]
  congr 1
  ext g
  ring

lemma Ex.poisson_smul (mu k : ℝ) (f : ℕ → ℝ) : Ex.poisson mu (fun n => k * f n) = k * Ex.poisson mu f := by
  unfold Ex.poisson poisMix
  have e : ∀ j : ℕ, mu ^ j / j.factorial * (k * f j) = k * (mu ^ j / j.factorial * f j) := fun j => by ring
  simp only [e, tsum_mul_left]
  ring

namespace Cir

/-! ### The exact samplers -/

/-- `exp_h / phi`, the scale of the chi-square law. -/
lemma scale_eq (c : Cir) {dt : ℝ} (hk : c.mr ≠ 0) (hs : c.sigma ≠ 0) (hdt : dt ≠ 0) :
    (c.phiExp dt).2 / (c.phiExp dt).1 = c.sigma ^ 2 * (1 - exp (-(c.mr * dt))) / (4 * c.mr) ∧
    (c.phiExp dt).2 * (c.phiExp dt).1 * (c.sigma ^ 2 * (1 - exp (-(c.mr * dt))) / (4 * c.mr)) = exp (-(c.mr * dt)) := by
  have hE : exp (-(c.mr * dt)) = exp (-c.mr * dt / 2) ^ 2 := by rw [← exp_nat_mul]; congr 1; push_cast; ring
  have h1 : exp (-c.mr * dt / 2) ^ 2 ≠ 1 := by
    rw [← hE, Ne, exp_eq_one_iff]
    exact neg_ne_zero.2 (mul_ne_zero hk hdt)
  unfold phiExp
  simp only
  rw [hE]
  have hp := exp_pos (-c.mr * dt / 2)
  generalize exp (-c.mr * dt / 2) = e at *
  have h2 : 1 - e ^ 2 ≠ 0 := sub_ne_zero.2 h1.symm
  have h3 : 1 / e - e = (1 - e ^ 2) / e := by field_simp
  rw [h3]
  constructor
  · field_simp
  · field_simp

/-- The two exact samplers have the same law. -/
theorem draw_ncx2_eq_pois_gamma (c : Cir) (dt v0 : ℝ) (φ : ℝ → ℝ) :
    drawNcx2 Ex.ncx2 c dt v0 φ = drawPoisGamma Ex.gamma Ex.poisson c dt v0 (fun p => φ p.1) := by
  show Ex.poisson _ (fun n => Ex.gamma _ (fun g => φ ((c.phiExp dt).2 / (c.phiExp dt).1 * (2 * g)))) =
    Ex.poisson _ (fun n => Ex.gamma _ (fun g => φ ((c.phiExp dt).2 / (c.phiExp dt).1 * 2 * g)))
  simp only [mul_assoc]

/-- **C86**: the exact sampler has the moment generating function documented for `V_T` (scaled noncentral chi-square), at every argument
where that is finite. -/
theorem draw_pois_gamma_mgf (c : Cir) {dt v0 u : ℝ} (hk : 0 < c.mr) (ht : 0 < c.theta) (hs : c.sigma ≠ 0) (hdt : 0 < dt)
    (hu : 2 * (c.sigma ^ 2 * (1 - exp (-(c.mr * dt))) / (4 * c.mr)) * u < 1) :
    drawPoisGamma Ex.gamma Ex.poisson c dt v0 (fun p => exp (u * p.1)) = c.mgfVt dt v0 u := by
  obtain ⟨e1, e2⟩ := c.scale_eq hk.ne' hs hdt.ne'
  have hd : 0 < 4 * c.mr * c.theta / c.sigma ^ 2 := by positivity
  have hE : exp (-(c.mr * dt)) < 1 := by
    rw [exp_lt_one_iff]
    linarith [mul_pos hk hdt]
  have ha : 0 < c.sigma ^ 2 * (1 - exp (-(c.mr * dt))) / (4 * c.mr) := by
    have : 0 < 1 - exp (-(c.mr * dt)) := by linarith
    positivity
  show Ex.poisson (v0 * (c.phiExp dt).2 * (c.phiExp dt).1 / 2) (fun n => Ex.gamma (4 * c.mr * c.theta / c.sigma ^ 2 / 2 + n)
    (fun g => exp (u * ((c.phiExp dt).2 / (c.phiExp dt).1 * 2 * g)))) = _
  rw [e1]
  unfold mgfVt
  simp only
  rw [show c.sigma ^ 2 * (-(exp (-(c.mr * dt)) - 1)) / (4 * c.mr) = c.sigma ^ 2 * (1 - exp (-(c.mr * dt))) / (4 * c.mr) by ring]
  generalize c.sigma ^ 2 * (1 - exp (-(c.mr * dt))) / (4 * c.mr) = al at *
  generalize 4 * c.mr * c.theta / c.sigma ^ 2 = d at *
  have hpos : 0 < 1 - 2 * al * u := by linarith
  have hg : ∀ n : ℕ, Ex.gamma (d / 2 + n) (fun g => exp (u * (al * 2 * g))) = (1 - 2 * al * u) ^ (-(d / 2)) * (1 / (1 - 2 * al * u)) ^ n := by
    intro n
    have h := Ex.gamma_exp (a := d / 2 + n) (s := 2 * al * u) (by positivity) hu
    have e : (fun g => exp (u * (al * 2 * g))) = fun g => exp (2 * al * u * g) := by ext g; congr 1; ring
    rw [e, h, neg_add, rpow_add hpos, rpow_neg hpos.le (n : ℝ), rpow_natCast, one_div, inv_pow]
  simp only [hg]
  rw [Ex.poisson_smul, Ex.poisson_pow, exp_add, rpow_def_of_pos hpos, show 1 + -2 * al * u = 1 - 2 * al * u by ring]
  congr 1
  · congr 1; ring
  · congr 1
    have e3 : v0 * (c.phiExp dt).2 * (c.phiExp dt).1 = v0 * exp (-(c.mr * dt)) / al := by
      rw [eq_div_iff ha.ne', ← e2]; ring
    rw [e3]
    have hp' := hpos.ne'
    have e4 : 1 / (1 - 2 * al * u) - 1 = 2 * al * u / (1 - 2 * al * u) := by
      rw [eq_div_iff hp', sub_mul, one_div, inv_mul_cancel₀ hp']; ring
    rw [e4]
    field_simp

/-- **C86**: mean and variance of the exact sampler are those returned by `mv`. -/
theorem draw_pois_gamma_mv (c : Cir) {dt v0 : ℝ} (hk : 0 < c.mr) (ht : 0 < c.theta) (hs : c.sigma ≠ 0) (hdt : 0 < dt) :
    drawPoisGamma Ex.gamma Ex.poisson c dt v0 (fun p => p.1) = (c.mv dt v0).1 ∧
    drawPoisGamma Ex.gamma Ex.poisson c dt v0 (fun p => p.1 ^ 2) - (c.mv dt v0).1 ^ 2 = (c.mv dt v0).2 := by
  obtain ⟨e1, e2⟩ := c.scale_eq hk.ne' hs hdt.ne'
  have hd : 0 < 4 * c.mr * c.theta / c.sigma ^ 2 := by positivity
  have hE : exp (-(c.mr * dt)) < 1 := by
    rw [exp_lt_one_iff]
    linarith [mul_pos hk hdt]
  have ha : 0 < c.sigma ^ 2 * (1 - exp (-(c.mr * dt))) / (4 * c.mr) := by
    have : 0 < 1 - exp (-(c.mr * dt)) := by linarith
    positivity
  set al := c.sigma ^ 2 * (1 - exp (-(c.mr * dt))) / (4 * c.mr) with hal
  set d := 4 * c.mr * c.theta / c.sigma ^ 2 with hdd
  have e3 : v0 * (c.phiExp dt).2 * (c.phiExp dt).1 / 2 = v0 * exp (-(c.mr * dt)) / (2 * al) := by
    rw [← e2]; field_simp
  have h1 : drawPoisGamma Ex.gamma Ex.poisson c dt v0 (fun p => p.1) = al * d + 2 * al * (v0 * exp (-(c.mr * dt)) / (2 * al)) := by
    show Ex.poisson (v0 * (c.phiExp dt).2 * (c.phiExp dt).1 / 2) (fun n => Ex.gamma (d / 2 + n)
      (fun g => ((c.phiExp dt).2 / (c.phiExp dt).1 * 2 * g))) = _
    rw [e1, e3]
    have hg : ∀ n : ℕ, Ex.gamma (d / 2 + n) (fun g => al * 2 * g) = al * d + 2 * al * n + 0 * (n * (n - 1)) := by
      intro n
      rw [Ex.gamma_smul _ _ (fun g => g), (Ex.gamma_mom (a := d / 2 + n) (by positivity)).1]; ring
    simp only [hg]
    rw [Ex.poisson_quad]
    ring
  have h2 : drawPoisGamma Ex.gamma Ex.poisson c dt v0 (fun p => p.1 ^ 2) = al ^ 2 * (d * (d + 2))
      + 4 * al ^ 2 * (d + 2) * (v0 * exp (-(c.mr * dt)) / (2 * al)) + 4 * al ^ 2 * (v0 * exp (-(c.mr * dt)) / (2 * al)) ^ 2 := by
    show Ex.poisson (v0 * (c.phiExp dt).2 * (c.phiExp dt).1 / 2) (fun n => Ex.gamma (d / 2 + n)
      (fun g => ((c.phiExp dt).2 / (c.phiExp dt).1 * 2 * g) ^ 2)) = _
    rw [e1, e3]
    have hg : ∀ n : ℕ, Ex.gamma (d / 2 + n) (fun g => (al * 2 * g) ^ 2) = al ^ 2 * (d * (d + 2)) + 4 * al ^ 2 * (d + 2) * n
        + 4 * al ^ 2 * (n * (n - 1)) := by
      intro n
      simp only [mul_pow]
      rw [Ex.gamma_smul _ _ (fun g => g ^ 2), (Ex.gamma_mom (a := d / 2 + n) (by positivity)).2]; ring
    simp only [hg]
    rw [Ex.poisson_quad]
  rw [h1, h2]
  unfold mv
  simp only
  rw [exprel_neg (mul_pos hk hdt).ne', hal, hdd]
  have hE' : 1 - exp (-(c.mr * dt)) ≠ 0 := by linarith
  generalize exp (-(c.mr * dt)) = E at *
  constructor
  · field_simp
    ring
  · field_simp
    ring

/-- The generating function in a form valid for every step, zero included. -/
lemma mgfVt_eq (c : Cir) {dt v0 u : ℝ} (hk : c.mr ≠ 0) (hs : c.sigma ≠ 0) (hdt : dt ≠ 0) :
    c.mgfVt dt v0 u = exp (-(2 * c.mr * c.theta / c.sigma ^ 2) * log (1 - c.sigma ^ 2 * (1 - exp (-(c.mr * dt))) / (2 * c.mr) * u)
      + v0 * exp (-(c.mr * dt)) * u / (1 - c.sigma ^ 2 * (1 - exp (-(c.mr * dt))) / (2 * c.mr) * u)) := by
  have h1 : exp (-(c.mr * dt)) ≠ 1 := by
    rw [Ne, exp_eq_one_iff]
    exact neg_ne_zero.2 (mul_ne_zero hk hdt)
  have h2 : 1 - exp (-(c.mr * dt)) ≠ 0 := sub_ne_zero.2 h1.symm
  unfold mgfVt
  simp only
  congr 1
  have e1 : c.sigma ^ 2 * -(exp (-(c.mr * dt)) - 1) / (4 * c.mr) = c.sigma ^ 2 * (1 - exp (-(c.mr * dt))) / (4 * c.mr) := by ring
  have e2 : 2 * (c.sigma ^ 2 * (1 - exp (-(c.mr * dt))) / (4 * c.mr)) = c.sigma ^ 2 * (1 - exp (-(c.mr * dt))) / (2 * c.mr) := by
    field_simp; ring
  rw [e1, show -2 * (c.sigma ^ 2 * (1 - exp (-(c.mr * dt))) / (4 * c.mr)) = -(2 * (c.sigma ^ 2 * (1 - exp (-(c.mr * dt))) / (4 * c.mr))) by ring, e2,
    div_mul_cancel₀ _ (by positivity)]
  congr 2
  · ring
  · congr 1; ring

/-- **C86** (Kolmogorov backward equation): as a function of the horizon and of the starting variance, the generating function of the
exact sampler solves `∂f/∂t = mr (theta - v) ∂f/∂v + sigma^2 v / 2 ∂²f/∂v²` of the CIR process, for every argument `u <= 0`. -/
theorem mgfVt_backward (c : Cir) {t v u : ℝ} (hk : 0 < c.mr) (hs : c.sigma ≠ 0) (ht : 0 < t) (hu : u ≤ 0) :
    ∃ ft fv fvv : ℝ, HasDerivAt (fun t => c.mgfVt t v u) ft t ∧ HasDerivAt (fun v => c.mgfVt t v u) fv v ∧
      HasDerivAt (deriv fun v => c.mgfVt t v u) fvv v ∧
      ft = c.mr * (c.theta - v) * fv + c.sigma ^ 2 * v / 2 * fvv := by
  set q : ℝ → ℝ := fun t => 1 - c.sigma ^ 2 * (1 - exp (-(c.mr * t))) / (2 * c.mr) * u with hq
  have hqpos : 0 < q t := by
    have hE : exp (-(c.mr * t)) < 1 := by
      rw [exp_lt_one_iff]
      linarith [mul_pos hk ht]
    have : 0 ≤ c.sigma ^ 2 * (1 - exp (-(c.mr * t))) / (2 * c.mr) := by
      have : 0 < 1 - exp (-(c.mr * t)) := by linarith
      positivity
    have := mul_nonpos_of_nonneg_of_nonpos this hu
    simp only [hq]
    linarith
  have hf : ∀ s w, s ≠ 0 → c.mgfVt s w u = exp (-(2 * c.mr * c.theta / c.sigma ^ 2) * log (q s) + w * exp (-(c.mr * s)) * u / q s) :=
    fun s w hs' => c.mgfVt_eq hk.ne' hs hs'
  have hfv : (fun w => c.mgfVt t w u) = fun w => exp (-(2 * c.mr * c.theta / c.sigma ^ 2) * log (q t) + w * exp (-(c.mr * t)) * u / q t) :=
    funext fun w => hf t w ht.ne'
  set a := exp (-(c.mr * t)) * u / q t with ha
  have hdv : ∀ w, HasDerivAt (fun w => c.mgfVt t w u) (a * c.mgfVt t w u) w := by
    intro w
    rw [hfv]
    have h : HasDerivAt (fun w => -(2 * c.mr * c.theta / c.sigma ^ 2) * log (q t) + w * exp (-(c.mr * t)) * u / q t) a w := by
      have := ((((hasDerivAt_id' w).mul_const (exp (-(c.mr * t)))).mul_const u).div_const (q t)).const_add (-(2 * c.mr * c.theta / c.sigma ^ 2) * log (q t))
      refine this.congr_deriv ?_
      rw [ha]; ring
    refine h.exp.congr_deriv ?_
    rw [mul_comm, hf t w ht.ne']
  have hdd : (deriv fun w => c.mgfVt t w u) = fun w => a * c.mgfVt t w u := funext fun w => (hdv w).deriv
  refine ⟨(c.mr * (c.theta - v) * a + c.sigma ^ 2 * v / 2 * (a * a)) * c.mgfVt t v u, a * c.mgfVt t v u, a * (a * c.mgfVt t v u), ?_, hdv v, ?_, by ring⟩
  · have he : HasDerivAt (fun s => exp (-(c.mr * s))) (exp (-(c.mr * t)) * -(c.mr * 1)) t := (((hasDerivAt_id' t).const_mul c.mr).neg).exp
    have hqd : HasDerivAt q (-(c.sigma ^ 2 * exp (-(c.mr * t)) / 2 * u)) t := by
      refine (((((he.const_sub 1).const_mul (c.sigma ^ 2)).div_const (2 * c.mr)).mul_const u).const_sub 1).congr_deriv ?_
      field_simp
    have h := (((hqd.log hqpos.ne').const_mul (-(2 * c.mr * c.theta / c.sigma ^ 2))).add
      (((he.const_mul v).mul_const u).div hqd hqpos.ne')).exp
    have hev : (fun s => c.mgfVt s v u) =ᶠ[nhds t] fun s => exp (-(2 * c.mr * c.theta / c.sigma ^ 2) * log (q s) + v * exp (-(c.mr * s)) * u / q s) := by
      filter_upwards [lt_mem_nhds ht] with s hs' using hf s v (ne_of_gt hs')
    refine (h.congr_of_eventuallyEq hev).congr_deriv ?_
    rw [hf t v ht.ne']
    simp only [Pi.add_apply, Pi.div_apply]
    rw [mul_comm]
    congr 1
    rw [ha]
    have hq' := hqpos.ne'
    have hqq : q t = 1 - c.sigma ^ 2 * (1 - exp (-(c.mr * t))) / (2 * c.mr) * u := rfl
    generalize exp (-(c.mr * t)) = E at *
    generalize q t = Q at *
    field_simp
    ring
  · rw [hdd]
    exact (hdv v).const_mul a

/-- **C86** (initial condition): as the step shrinks the sampler returns the variance it started from. -/
theorem mgfVt_initial (c : Cir) {v u : ℝ} (hk : c.mr ≠ 0) (hs : c.sigma ≠ 0) :
    Filter.Tendsto (fun t => c.mgfVt t v u) (nhdsWithin 0 (Ioi 0)) (nhds (exp (u * v))) := by
  have hc : ContinuousAt (fun t => exp (-(2 * c.mr * c.theta / c.sigma ^ 2) * log (1 - c.sigma ^ 2 * (1 - exp (-(c.mr * t))) / (2 * c.mr) * u)
      + v * exp (-(c.mr * t)) * u / (1 - c.sigma ^ 2 * (1 - exp (-(c.mr * t))) / (2 * c.mr) * u))) 0 := by
    have h1 : 1 - c.sigma ^ 2 * (1 - exp (-(c.mr * 0))) / (2 * c.mr) * u ≠ 0 := by simp
    have hq : ContinuousAt (fun t => 1 - c.sigma ^ 2 * (1 - exp (-(c.mr * t))) / (2 * c.mr) * u) 0 := by fun_prop
    refine ContinuousAt.rexp (ContinuousAt.add (ContinuousAt.mul continuousAt_const (hq.log h1)) (ContinuousAt.div ?_ hq h1))
    fun_prop
  have h0 := hc.tendsto.mono_left (nhdsWithin_le_nhds (s := Ioi 0))
  have e0 : exp (-(2 * c.mr * c.theta / c.sigma ^ 2) * log (1 - c.sigma ^ 2 * (1 - exp (-(c.mr * 0))) / (2 * c.mr) * u)
      + v * exp (-(c.mr * 0)) * u / (1 - c.sigma ^ 2 * (1 - exp (-(c.mr * 0))) / (2 * c.mr) * u)) = exp (u * v) := by
    simp [mul_comm]
  rw [e0] at h0
  refine h0.congr' ?_
  filter_upwards [self_mem_nhdsWithin] with t ht
  exact (c.mgfVt_eq hk hs (ne_of_gt ht)).symm

/-- **C86** (Markov consistency, Chapman-Kolmogorov): drawing a step of length `s` and then one of length `t` has the law of a single step
of length `s + t` (equality of Laplace transforms at every `u <= 0`). -/
theorem draw_chapman_kolmogorov (c : Cir) {s t v0 u : ℝ} (hk : 0 < c.mr) (hth : 0 < c.theta) (hs : c.sigma ≠ 0) (hs0 : 0 < s) (ht0 : 0 < t)
    (hu : u ≤ 0) :
    (drawPoisGamma Ex.gamma Ex.poisson c s v0 >>= fun p => drawPoisGamma Ex.gamma Ex.poisson c t p.1) (fun p => exp (u * p.1))
      = drawPoisGamma Ex.gamma Ex.poisson c (s + t) v0 (fun p => exp (u * p.1)) := by
  have hsc : ∀ {r w : ℝ}, 0 < r → w ≤ 0 → 2 * (c.sigma ^ 2 * (1 - exp (-(c.mr * r))) / (4 * c.mr)) * w < 1 := by
    intro r w hr hw
    have hE : exp (-(c.mr * r)) < 1 := by
      rw [exp_lt_one_iff]
      linarith [mul_pos hk hr]
    have : 0 ≤ 2 * (c.sigma ^ 2 * (1 - exp (-(c.mr * r))) / (4 * c.mr)) := by
      have : 0 < 1 - exp (-(c.mr * r)) := by linarith
      positivity
    have := mul_nonpos_of_nonneg_of_nonpos this hw
    linarith
  have hq : ∀ {r w : ℝ}, 0 < r → w ≤ 0 → 0 < 1 - c.sigma ^ 2 * (1 - exp (-(c.mr * r))) / (2 * c.mr) * w := by
    intro r w hr hw
    have h := hsc hr hw
    have e : 2 * (c.sigma ^ 2 * (1 - exp (-(c.mr * r))) / (4 * c.mr)) = c.sigma ^ 2 * (1 - exp (-(c.mr * r))) / (2 * c.mr) := by
      field_simp; ring
    rw [e] at h
    linarith
  rw [c.draw_pois_gamma_mgf hk hth hs (add_pos hs0 ht0) (hsc (add_pos hs0 ht0) hu)]
  show drawPoisGamma Ex.gamma Ex.poisson c s v0 (fun p => drawPoisGamma Ex.gamma Ex.poisson c t p.1 (fun p => exp (u * p.1))) = _
  simp only [c.draw_pois_gamma_mgf hk hth hs ht0 (hsc ht0 hu), c.mgfVt_eq hk.ne' hs ht0.ne']
  set Q := 1 - c.sigma ^ 2 * (1 - exp (-(c.mr * t))) / (2 * c.mr) * u with hQ
  have hQp : 0 < Q := hq ht0 hu
  set w := exp (-(c.mr * t)) * u / Q with hw
  have hw0 : w ≤ 0 := div_nonpos_of_nonpos_of_nonneg (mul_nonpos_of_nonneg_of_nonpos (exp_pos _).le hu) hQp.le
  have hlin : ∀ (k : ℝ) (f : ℝ × ℕ → ℝ), drawPoisGamma Ex.gamma Ex.poisson c s v0 (fun p => k * f p) = k * drawPoisGamma Ex.gamma Ex.poisson c s v0 f := by
    intro k f
    show Ex.poisson _ (fun n => Ex.gamma _ (fun g => k * f _)) = k * Ex.poisson _ (fun n => Ex.gamma _ (fun g => f _))
    simp only [Ex.gamma_smul]
    rw [← Ex.poisson_smul]
  have e1 : (fun p : ℝ × ℕ => exp (-(2 * c.mr * c.theta / c.sigma ^ 2) * log Q + p.1 * exp (-(c.mr * t)) * u / Q))
      = fun p => exp (-(2 * c.mr * c.theta / c.sigma ^ 2) * log Q) * exp (w * p.1) := by
    ext p
    rw [← exp_add]
    congr 1
    rw [hw]; ring
  rw [e1, hlin, c.draw_pois_gamma_mgf hk hth hs hs0 (hsc hs0 hw0), c.mgfVt_eq hk.ne' hs hs0.ne', c.mgfVt_eq hk.ne' hs (add_pos hs0 ht0).ne', ← exp_add]
  have hR := hq hs0 hw0
  have hprod : (1 - c.sigma ^ 2 * (1 - exp (-(c.mr * s))) / (2 * c.mr) * w) * Q
      = 1 - c.sigma ^ 2 * (1 - exp (-(c.mr * (s + t)))) / (2 * c.mr) * u := by
    rw [mul_add, neg_add, exp_add, sub_mul, one_mul, mul_assoc, show w * Q = exp (-(c.mr * t)) * u from div_mul_cancel₀ _ hQp.ne', hQ]
    field_simp
    ring
  rw [← hprod, log_mul hR.ne' hQp.ne', show exp (-(c.mr * (s + t))) = exp (-(c.mr * s)) * exp (-(c.mr * t)) by rw [← exp_add]; congr 1; ring]
  congr 1
  have e2 : v0 * exp (-(c.mr * s)) * w / (1 - c.sigma ^ 2 * (1 - exp (-(c.mr * s))) / (2 * c.mr) * w)
      = v0 * (exp (-(c.mr * s)) * exp (-(c.mr * t))) * u / ((1 - c.sigma ^ 2 * (1 - exp (-(c.mr * s))) / (2 * c.mr) * w) * Q) := by
    generalize 1 - c.sigma ^ 2 * (1 - exp (-(c.mr * s))) / (2 * c.mr) * w = R
    rw [hw, div_mul_eq_div_div_swap]
    congr 1
    ring
  rw [e2]
  ring

/-- **C86**: the exact samplers never return a negative variance (test functions vanishing on `[0, ∞)` have zero expectation). -/
theorem draw_pois_gamma_nonneg (c : Cir) {dt v0 : ℝ} (hk : 0 < c.mr) (hs : c.sigma ≠ 0) (hdt : 0 < dt) (φ : ℝ × ℕ → ℝ)
    (hφ : ∀ p, 0 ≤ p.1 → φ p = 0) : drawPoisGamma Ex.gamma Ex.poisson c dt v0 φ = 0 := by
  obtain ⟨e1, -⟩ := c.scale_eq hk.ne' hs hdt.ne'
  have ha : 0 ≤ (c.phiExp dt).2 / (c.phiExp dt).1 := by
    have hE : exp (-(c.mr * dt)) < 1 := by
      rw [exp_lt_one_iff]
      linarith [mul_pos hk hdt]
    have : 0 < 1 - exp (-(c.mr * dt)) := by linarith
    rw [e1]; positivity
  show Ex.poisson _ (fun n => Ex.gamma _ (fun g => φ ((c.phiExp dt).2 / (c.phiExp dt).1 * 2 * g, n))) = 0
  have hg : ∀ (a : ℝ) (n : ℕ), Ex.gamma a (fun g => φ ((c.phiExp dt).2 / (c.phiExp dt).1 * 2 * g, n)) = 0 := by
    intro a n
    unfold Ex.gamma
    refine setIntegral_eq_zero_of_forall_eq_zero fun g hg => ?_
    have hg' : 0 < g := hg
    show gammaPdf a g * φ _ = 0
    rw [hφ _ (mul_nonneg (mul_nonneg ha zero_le_two) hg'.le), mul_zero]
  simp only [hg]
  unfold Ex.poisson poisMix
  simp

/-! ### The Euler step -/

/-- **C42**: the Euler/Milstein step is never negative, whatever the draw. -/
theorem draw_euler_nonneg (c : Cir) (dt v0 : ℝ) (milstein : Bool) (z : ℝ) :
    0 ≤ (drawEuler (m := Id) z c dt v0 milstein).run := le_max_right _ _

/-- **C42** (what the Euler step really does): before the floor, the step has the right mean, but its variance is `sigma^2 v0`, not
`sigma^2 v0 dt`: the factor `sqrt(dt)` on the normal draw is missing. -/
theorem draw_euler_moments (c : Cir) {dt v0 : ℝ} (hv : 0 ≤ v0) :
    (∀ z : ℝ, (drawEuler (m := Id) z c dt v0 false).run = max (v0 + c.mr * (c.theta - v0) * dt + √v0 * c.sigma * z) 0) ∧
    Spec.gaussE (fun z => v0 + c.mr * (c.theta - v0) * dt + √v0 * c.sigma * z) = v0 + c.mr * (c.theta - v0) * dt ∧
    Spec.gaussE (fun z => (v0 + c.mr * (c.theta - v0) * dt + √v0 * c.sigma * z - (v0 + c.mr * (c.theta - v0) * dt)) ^ 2) = c.sigma ^ 2 * v0 := by
  refine ⟨fun z => rfl, ?_, ?_⟩
  · have h := gaussE_poly (v0 + c.mr * (c.theta - v0) * dt) (√v0 * c.sigma) 0 0 0
    have e : (fun z : ℝ => v0 + c.mr * (c.theta - v0) * dt + √v0 * c.sigma * z) =
        fun z => v0 + c.mr * (c.theta - v0) * dt + √v0 * c.sigma * z + 0 * z ^ 2 + 0 * z ^ 3 + 0 * z ^ 4 := by ext z; ring
    rw [e, h.2]; ring
  · have h := gaussE_poly 0 0 (c.sigma ^ 2 * v0) 0 0
    have e : (fun z : ℝ => (v0 + c.mr * (c.theta - v0) * dt + √v0 * c.sigma * z - (v0 + c.mr * (c.theta - v0) * dt)) ^ 2) =
        fun z => 0 + 0 * z + c.sigma ^ 2 * v0 * z ^ 2 + 0 * z ^ 3 + 0 * z ^ 4 := by
      ext z
      have := sq_sqrt hv
      linear_combination c.sigma ^ 2 * z ^ 2 * this
    rw [e, h.2]; ring

/-- **C42 fails**: a step of zero length moves the variance (for every draw of the sign of `sigma`). -/
theorem draw_euler_zero_step (c : Cir) {v0 z : ℝ} (hv : 0 < v0) (hz : 0 < c.sigma * z) :
    (drawEuler (m := Id) z c 0 v0 false).run = v0 + √v0 * c.sigma * z ∧ (drawEuler (m := Id) z c 0 v0 false).run ≠ v0 := by
  have hp : 0 < √v0 * c.sigma * z := by rw [mul_assoc]; exact mul_pos (sqrt_pos.2 hv) hz
  have e : (drawEuler (m := Id) z c 0 v0 false).run = v0 + √v0 * c.sigma * z := by
    show max (v0 + c.mr * (c.theta - v0) * 0 + √v0 * c.sigma * z) 0 = _
    rw [mul_zero, add_zero, max_eq_left (by linarith)]
  refine ⟨e, ?_⟩
  rw [e]
  exact ne_of_gt (lt_add_of_pos_right v0 hp)

/-- **C42 fails** for the variance: before the floor it equals the CIR value `sigma^2 v0 dt` only for `dt = 1`. -/
theorem draw_euler_variance_wrong (c : Cir) {dt v0 : ℝ} (hv : 0 < v0) (hs : c.sigma ≠ 0) :
    Spec.gaussE (fun z => (v0 + c.mr * (c.theta - v0) * dt + √v0 * c.sigma * z - (v0 + c.mr * (c.theta - v0) * dt)) ^ 2) = c.sigma ^ 2 * v0 * dt
      ↔ dt = 1 := by
  rw [(c.draw_euler_moments hv.le).2.2]
  have : c.sigma ^ 2 * v0 ≠ 0 := by positivity
  constructor
  · intro h
    have h2 : c.sigma ^ 2 * v0 * 1 = c.sigma ^ 2 * v0 * dt := by rw [mul_one]; exact h
    exact (mul_left_cancel₀ this h2).symm
  · rintro rfl
    ring

/-- **C42 fails** for Milstein: the correction should be `(z^2 - 1) dt`; the code's `z^2 - dt` biases the mean by `sigma^2 (1 - dt) / 4`. -/
theorem draw_milstein_bias (c : Cir) {dt v0 : ℝ} :
    (∀ z : ℝ, (drawEuler (m := Id) z c dt v0 true).run =
      max (v0 + c.mr * (c.theta - v0) * dt + √v0 * c.sigma * z + 0.25 * c.sigma ^ 2 * (z ^ 2 - dt)) 0) ∧
    Spec.gaussE (fun z => v0 + c.mr * (c.theta - v0) * dt + √v0 * c.sigma * z + 0.25 * c.sigma ^ 2 * (z ^ 2 - dt))
      = v0 + c.mr * (c.theta - v0) * dt + c.sigma ^ 2 * (1 - dt) / 4 := by
  refine ⟨fun z => rfl, ?_⟩
  have h := gaussE_poly (v0 + c.mr * (c.theta - v0) * dt - 0.25 * c.sigma ^ 2 * dt) (√v0 * c.sigma) (0.25 * c.sigma ^ 2) 0 0
  have e : (fun z : ℝ => v0 + c.mr * (c.theta - v0) * dt + √v0 * c.sigma * z + 0.25 * c.sigma ^ 2 * (z ^ 2 - dt)) =
      fun z => v0 + c.mr * (c.theta - v0) * dt - 0.25 * c.sigma ^ 2 * dt + √v0 * c.sigma * z + 0.25 * c.sigma ^ 2 * z ^ 2 + 0 * z ^ 3 + 0 * z ^ 4 := by
    ext z; ring
  rw [e, h.2]; ring

/-- The hypotheses above are met by the default CIR model. -/
example : ∃ c : Cir, 0 < c.mr ∧ 0 < c.theta ∧ c.sigma ≠ 0 := ⟨⟨0.2, 1, 0.04⟩, by norm_num, by norm_num, by norm_num⟩

end Cir

end PyFENG
