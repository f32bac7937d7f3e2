import Verif.Model.Svi
import Verif.Props.Bsm
import Verif.Props.HestonMgf
import Mathlib.Analysis.Convex.Function
import Mathlib.Analysis.SpecialFunctions.Sqrt

/-!
# C52, C87: SVI smile and its Heston initialisation
-/

namespace PyFENG

open Real Filter Topology

/-- Specification: Gatheral's raw SVI parametrisation at log-moneyness `k`. -/
noncomputable def Spec.svi (a b rho m s k : ℝ) : ℝ := a + b * (rho * (k - m) + √((k - m) ^ 2 + s ^ 2))

namespace Svi

/-- The smile's lowest point. -/
lemma svi_core {rho x s : ℝ} (hr : rho ^ 2 ≤ 1) : |s| * √(1 - rho ^ 2) ≤ rho * x + √(x ^ 2 + s ^ 2) := by
  have h0 : 0 ≤ 1 - rho ^ 2 := by linarith
  have h1 : |s| * √(1 - rho ^ 2) - rho * x ≤ √(x ^ 2 + s ^ 2) := by
    refine le_sqrt_of_sq_le ?_
    have h2 := sq_sqrt h0
    have h3 := sq_abs s
    nlinarith [sq_nonneg (|s| * rho + √(1 - rho ^ 2) * x)]
  linarith

/-- **C52** (positivity): the SVI variance is bounded below by `a + b |s| sqrt(1 - rho^2)`, hence non-negative under the usual constraint, and
the bound is attained at `k = m - rho |s| / sqrt(1 - rho^2)`. -/
theorem svi_min {a b rho m s : ℝ} (hb : 0 ≤ b) (hr : rho ^ 2 < 1) :
    (∀ k, a + b * |s| * √(1 - rho ^ 2) ≤ Spec.svi a b rho m s k) ∧
      Spec.svi a b rho m s (m - rho * |s| / √(1 - rho ^ 2)) = a + b * |s| * √(1 - rho ^ 2) := by
  constructor
  · intro k
    unfold Spec.svi
    have := mul_le_mul_of_nonneg_left (svi_core (x := k - m) (s := s) hr.le) hb
    linarith
  · unfold Spec.svi
    have h0 : 0 < 1 - rho ^ 2 := by linarith
    have hq := sqrt_pos.2 h0
    have hq2 := sq_sqrt h0.le
    have e : (m - rho * |s| / √(1 - rho ^ 2) - m) ^ 2 + s ^ 2 = (|s| / √(1 - rho ^ 2)) ^ 2 := by
      have h3 := sq_abs s
      field_simp
      rw [hq2, h3]
      linear_combination rho ^ 2 * h3
    rw [e, sqrt_sq (by positivity)]
    field_simp
    linear_combination (-b * |s|) * hq2

/-- **C52**: the squared volatility used for pricing is the SVI formula at the log-moneyness of the strike against the forward. -/
theorem vol_sq (m : Svi) {K S T : ℝ} (hb : 0 ≤ m.vov) (hr : m.rho ^ 2 ≤ 1)
    (ha : 0 ≤ m.sigma + m.vov * |m.smooth| * √(1 - m.rho ^ 2)) :
    m.volForPrice K S T ^ 2 = Spec.svi m.sigma m.vov m.rho m.shift m.smooth (log (K / Spec.forward m.isFwd m.intr m.divr S T)) := by
  unfold volForPrice Spec.svi
  rw [m.mp.forward_eq_spec]
  refine sq_sqrt ?_
  have := mul_le_mul_of_nonneg_left (svi_core (x := log (K / Spec.forward m.isFwd m.intr m.divr S T) - m.shift) (s := m.smooth) hr) hb
  simp only [mp] at *
  linarith

/-- **C52**: the smile is convex in log-moneyness. -/
theorem svi_convex {a b rho m s : ℝ} (hb : 0 ≤ b) : ConvexOn ℝ Set.univ (Spec.svi a b rho m s) := by
  refine ⟨convex_univ, fun x _ y _ p q hp hq hpq => ?_⟩
  unfold Spec.svi
  simp only [smul_eq_mul]
  have hn : ∀ z : ℝ, √((z - m) ^ 2 + s ^ 2) = ‖((z - m : ℝ) : ℂ) + (s : ℝ) * Complex.I‖ := fun z => (Complex.norm_add_mul_I _ _).symm
  have h : √((p * x + q * y - m) ^ 2 + s ^ 2) ≤ p * √((x - m) ^ 2 + s ^ 2) + q * √((y - m) ^ 2 + s ^ 2) := by
    rw [hn, hn, hn]
    have e : (((p * x + q * y - m : ℝ) : ℂ) + (s : ℝ) * Complex.I) = (p : ℂ) * (((x - m : ℝ) : ℂ) + (s : ℝ) * Complex.I)
        + (q : ℂ) * (((y - m : ℝ) : ℂ) + (s : ℝ) * Complex.I) := by
      have hq' : (q : ℂ) = 1 - p := by rw [← Complex.ofReal_one, ← hpq]; push_cast; ring
      push_cast
      rw [hq']
      ring
    rw [e]
    refine (norm_add_le _ _).trans ?_
    rw [norm_mul, norm_mul, Complex.norm_real, Complex.norm_real, norm_eq_abs, norm_eq_abs, abs_of_nonneg hp, abs_of_nonneg hq]
  have h2 := mul_le_mul_of_nonneg_left h hb
  have e2 : a + b * (rho * (p * x + q * y - m)) = p * (a + b * (rho * (x - m))) + q * (a + b * (rho * (y - m))) := by
    have hq' : q = 1 - p := by linarith
    rw [hq']; ring
  nlinarith

/-- **C52** (wings): the variance grows linearly with slopes `b (1 + rho)` to the right and `b (1 - rho)` to the left. -/
theorem svi_wings (a b rho m s : ℝ) :
    Tendsto (fun k => Spec.svi a b rho m s k / k) atTop (𝓝 (b * (1 + rho))) ∧
      Tendsto (fun k => Spec.svi a b rho m s k / (-k)) atBot (𝓝 (b * (1 - rho))) := by
  have key : ∀ (a b rho m s : ℝ), Tendsto (fun k => Spec.svi a b rho m s k / k) atTop (𝓝 (b * (1 + rho))) := by
    intro a b rho m s
    have h1 : Tendsto (fun k : ℝ => k⁻¹) atTop (𝓝 0) := tendsto_inv_atTop_zero
    have h2 : Tendsto (fun k : ℝ => a * k⁻¹ + b * (rho * (1 - m * k⁻¹) + √((1 - m * k⁻¹) ^ 2 + (s * k⁻¹) ^ 2))) atTop
        (𝓝 (a * 0 + b * (rho * (1 - m * 0) + √((1 - m * 0) ^ 2 + (s * 0) ^ 2)))) := by
      refine (h1.const_mul a).add (Tendsto.const_mul b ?_)
      have h3 := (h1.const_mul m).const_sub 1
      exact (h3.const_mul rho).add (((h3.pow 2).add ((h1.const_mul s).pow 2)).sqrt)
    have e : a * 0 + b * (rho * (1 - m * 0) + √((1 - m * 0) ^ 2 + (s * 0) ^ 2)) = b * (1 + rho) := by
      simp only [mul_zero, sub_zero, one_pow, zero_pow two_ne_zero, add_zero, sqrt_one]; ring
    rw [e] at h2
    refine h2.congr' ?_
    filter_upwards [eventually_gt_atTop (0 : ℝ)] with k hk
    have hs : √((1 - m * k⁻¹) ^ 2 + (s * k⁻¹) ^ 2) = √((k - m) ^ 2 + s ^ 2) / k := by
      rw [show (1 - m * k⁻¹) ^ 2 + (s * k⁻¹) ^ 2 = ((k - m) ^ 2 + s ^ 2) / k ^ 2 by field_simp, sqrt_div' _ (by positivity), sqrt_sq hk.le]
    unfold Spec.svi
    rw [hs]
    field_simp
  refine ⟨key a b rho m s, ?_⟩
  have h := (key a b (-rho) (-m) s).comp tendsto_neg_atBot_atTop
  rw [show b * (1 + -rho) = b * (1 - rho) by ring] at h
  refine h.congr fun k => ?_
  simp only [Function.comp, Spec.svi]
  rw [show (-k - -m) ^ 2 = (k - m) ^ 2 by ring]
  ring

/-- **C52**: put-call parity. -/
theorem svi_parity (m : Svi) (K S T : ℝ) :
    Spec.Parity (m.price K S T 1) (m.price K S T (-1)) (Spec.discount m.intr T) (Spec.forward m.isFwd m.intr m.divr S T) K :=
  bsm_put_call_parity (m.baseModel (m.volForPrice K S T)) K S T

/-- **C52**: the SVI price is the Bsm price at the SVI volatility, and that volatility is the only one (above the machine-precision floor)
giving it: the implied volatility of the price is the smile. -/
theorem svi_impvol (m : Svi) {K S T cp : ℝ} (hcp : Spec.IsCp cp) (hK : 0 < K) (hS : 0 < S) (hT : 0 < T)
    (hv : eps ≤ m.volForPrice K S T * √T) {σ : ℝ} (hσ : eps ≤ σ * √T)
    (h : Bsm.price ⟨σ, m.intr, m.divr, m.isFwd⟩ K S T cp = m.price K S T cp) : σ = m.volForPrice K S T := by
  have hlo : Bsm.price { m.mp with sigma := 0 } K S T cp ≤ m.price K S T cp := by
    unfold price
    rw [Bsm.price_eq_black, Bsm.price_eq_black]
    have hF := m.mp.fwd_pos hS T
    have e1 : sigmaStd (m.baseModel (m.volForPrice K S T)).sigma T = m.volForPrice K S T * √T := max_eq_left hv
    have e0 : sigmaStd ({ m.mp with sigma := 0 } : MParams).sigma T = eps := by simp [sigmaStd, eps_pos.le]
    rw [e1, e0]
    refine mul_le_mul_of_nonneg_left ?_ (m.mp.df_pos T).le
    exact (strictMonoOn_black hcp hF hK).monotoneOn (Set.mem_Ioi.2 eps_pos) (Set.mem_Ioi.2 (lt_of_lt_of_le eps_pos hv)) hv
  have hhi := (bsm_price_bounds (m.baseModel (m.volForPrice K S T)) (T := T) hcp hK hS).2
  obtain ⟨σ₀, _, hu⟩ := bsm_impvol_exists_unique m.mp hcp hK hS hT hlo hhi
  rw [hu σ ⟨hσ, h⟩, hu (m.volForPrice K S T) ⟨hv, rfl⟩]

end Svi

/-! ### C87: Heston initialisation -/

/-- Specification: long-maturity cumulant function of the Heston log price, `lim log E[(S_T/F)^u] / T`. -/
noncomputable def Spec.hestonLongCgf (mr theta vov rho u : ℝ) : ℝ :=
  mr * theta / vov ^ 2 * (mr - rho * vov * u - √((mr - rho * vov * u) ^ 2 + vov ^ 2 * (u * (1 - u))))

/-- Specification: `w` is a Black-Scholes variance whose large-deviation rate `(x + w/2)^2 / (2 w)` at log-moneyness `x T` equals the
Heston rate, i.e. the Legendre transform `sup_u (u x - V(u))` over the domain of `V`. -/
def Spec.IsLongImplVar (mr theta vov rho x w : ℝ) : Prop :=
  0 < w ∧ IsLUB {y | ∃ u : ℝ, 0 ≤ (mr - rho * vov * u) ^ 2 + vov ^ 2 * (u * (1 - u)) ∧
    y = u * x - Spec.hestonLongCgf mr theta vov rho u} ((x + w / 2) ^ 2 / (2 * w))

/-- Specification: the Gatheral-Jacquier (2011) large-maturity variance. -/
noncomputable def Spec.gatheralJacquier (mr theta vov rho x : ℝ) : ℝ :=
  let w1 := 4 * mr * theta / (vov ^ 2 * (1 - rho ^ 2)) * (√((2 * mr - rho * vov) ^ 2 + vov ^ 2 * (1 - rho ^ 2)) - (2 * mr - rho * vov))
  let w2 := vov / (mr * theta)
  w1 / 2 * (1 + w2 * rho * x + √((w2 * x + rho) ^ 2 + 1 - rho ^ 2))

/-- The Legendre transform behind the Gatheral-Jacquier formula. -/
theorem Spec.gatheralJacquier_correct {mr theta vov rho : ℝ} (hk : 0 < mr) (ht : 0 < theta) (hv : 0 < vov) (hr : rho ^ 2 < 1) (x : ℝ) :
    Spec.IsLongImplVar mr theta vov rho x (Spec.gatheralJacquier mr theta vov rho x) := by
  set q := 1 - rho ^ 2 with hq
  have hq0 : 0 < q := by rw [hq]; linarith
  set a := mr * theta / vov ^ 2 with ha
  have ha0 : 0 < a := by rw [ha]; positivity
  set k := 2 * mr - rho * vov with hkd
  set y := vov / (mr * theta) * x + rho with hy
  have hx : x = a * vov * (y - rho) := by rw [hy, ha]; field_simp; ring
  have hR0 : 0 ≤ k ^ 2 + vov ^ 2 * q := by positivity
  set R := √(k ^ 2 + vov ^ 2 * q) with hRd
  have hR2 : R ^ 2 = k ^ 2 + vov ^ 2 * q := sq_sqrt hR0
  have hRk : |k| < R := by
    rw [hRd]
    refine lt_sqrt_of_sq_lt ?_
    rw [sq_abs]
    have : 0 < vov ^ 2 * q := by positivity
    linarith
  have hRpos : 0 < R := lt_of_le_of_lt (abs_nonneg k) hRk
  have hRk' : 0 < R - k := by linarith [le_abs_self k]
  have hQ0 : 0 ≤ y ^ 2 + q := by positivity
  set Q := √(y ^ 2 + q) with hQd
  have hQ2 : Q ^ 2 = y ^ 2 + q := sq_sqrt hQ0
  have hQpos : 0 < Q := sqrt_pos.2 (by positivity)
  set P := q + rho * y with hP
  have hPQ : Q ^ 2 - P ^ 2 = q * (y - rho) ^ 2 := by
    rw [hQ2, hP]
    have : q = 1 - rho ^ 2 := hq
    generalize q = q' at *
    subst this
    ring
  have hPQ0 : 0 < P + Q := by
    have h1 : P ^ 2 ≤ Q ^ 2 := by
      have : 0 ≤ q * (y - rho) ^ 2 := by positivity
      linarith
    have h2 : -P ≤ Q := by
      have := abs_le_of_sq_le_sq' h1 hQpos.le
      linarith [this.1]
    rcases eq_or_lt_of_le h2 with h | h
    · exfalso
      have h3 : q * (y - rho) ^ 2 = 0 := by rw [← hPQ, ← h]; ring
      have h4 : y = rho := by
        have := (mul_eq_zero.1 h3).resolve_left hq0.ne'
        have := pow_eq_zero_iff two_ne_zero |>.1 this
        linarith
      have h5 : P = 1 := by rw [hP, h4, hq]; ring
      rw [h5] at h
      linarith
    · linarith
  have hw : Spec.gatheralJacquier mr theta vov rho x = 2 * a / q * (R - k) * (P + Q) := by
    unfold Spec.gatheralJacquier
    simp only
    rw [← hq, ← hkd, ← hRd, ← hy, show y ^ 2 + 1 - rho ^ 2 = y ^ 2 + q by rw [hq]; ring, ← hQd]
    have e1 : vov / (mr * theta) * rho * x = rho * (y - rho) := by rw [hy]; ring
    rw [e1, hP, ha]
    have e2 : 1 + rho * (y - rho) + Q = q + rho * y + Q := by rw [hq]; ring
    rw [e2]
    field_simp
    ring
  have hwpos : 0 < 2 * a / q * (R - k) * (P + Q) := by positivity
  rw [hw]
  refine ⟨hwpos, ?_⟩
  -- value of the rate
  have hval : (x + 2 * a / q * (R - k) * (P + Q) / 2) ^ 2 / (2 * (2 * a / q * (R - k) * (P + Q)))
      = a / (2 * q) * (vov * q * (y - rho) - k * P + R * Q) := by
    rw [div_eq_iff (by positivity), hx]
    have h1 : q ^ 2 * vov ^ 2 * (y - rho) ^ 2 = (R ^ 2 - k ^ 2) * (Q ^ 2 - P ^ 2) := by rw [hPQ, hR2]; ring
    field_simp
    linear_combination h1
  rw [hval]
  -- quadratic under the root
  have hquad : ∀ u : ℝ, (mr - rho * vov * u) ^ 2 + vov ^ 2 * (u * (1 - u)) = R ^ 2 / (4 * q) - (vov * q * u - (vov * q - rho * k) / 2) ^ 2 / q :=
    fun u => by
      rw [hR2, eq_sub_iff_add_eq, hkd]
      field_simp
      rw [hq]
      ring
  have hlin : ∀ u : ℝ, u * x - Spec.hestonLongCgf mr theta vov rho u = a / q * y * (vov * q * u - (vov * q - rho * k) / 2)
      + a * √((mr - rho * vov * u) ^ 2 + vov ^ 2 * (u * (1 - u))) + a / (2 * q) * (vov * q * (y - rho) - k * P) := fun u => by
    unfold Spec.hestonLongCgf
    rw [← ha, hx, hP, hkd]
    have hm : mr = (k + rho * vov) / 2 := by rw [hkd]; ring
    field_simp
    rw [hq]
    ring
  constructor
  · rintro z ⟨u, hu, rfl⟩
    rw [hlin u]
    set t := vov * q * u - (vov * q - rho * k) / 2 with htd
    rw [hquad u] at hu ⊢
    set d := √(R ^ 2 / (4 * q) - t ^ 2 / q) with hdd
    have hd0 : 0 ≤ d := sqrt_nonneg _
    have hd2 : d ^ 2 = R ^ 2 / (4 * q) - t ^ 2 / q := sq_sqrt hu
    have hcs : y * t + q * d ≤ R * Q / 2 := by
      refine abs_le_of_sq_le_sq' ?_ (by positivity) |>.2
      have e : (R * Q / 2) ^ 2 - (y * t + q * d) ^ 2 = q * (t - y * d) ^ 2 := by
        have h1 : 4 * q * d ^ 2 = R ^ 2 - 4 * t ^ 2 := by rw [hd2]; field_simp
        have : (R * Q / 2) ^ 2 = R ^ 2 * Q ^ 2 / 4 := by ring
        rw [this, hQ2]
        linear_combination (-(y ^ 2 + q) / 4) * h1
      have : 0 ≤ q * (t - y * d) ^ 2 := by positivity
      linarith
    have := mul_le_mul_of_nonneg_left hcs (div_pos ha0 hq0).le
    have e2 : a / q * (y * t + q * d) = a / q * y * t + a * d := by field_simp
    have e3 : a / q * (R * Q / 2) = a / (2 * q) * (R * Q) := by field_simp
    rw [e2, e3] at this
    linarith
  · intro z hz
    -- maximiser
    set t := R * y / (2 * Q) with htd
    have hu := hz (a := _) ⟨(t + (vov * q - rho * k) / 2) / (vov * q), ?_, rfl⟩
    · rw [hlin, hquad] at hu
      have et : vov * q * ((t + (vov * q - rho * k) / 2) / (vov * q)) - (vov * q - rho * k) / 2 = t := by field_simp; ring
      rw [et] at hu
      have es : R ^ 2 / (4 * q) - t ^ 2 / q = (R / (2 * Q)) ^ 2 := by
        rw [htd]
        field_simp
        rw [hQ2]
        ring
      rw [es, sqrt_sq (by positivity)] at hu
      have : a / q * y * t + a * (R / (2 * Q)) = a / (2 * q) * (R * Q) := by
        rw [htd]
        field_simp
        rw [hQ2]
      linarith
    · rw [hquad]
      have et : vov * q * ((t + (vov * q - rho * k) / 2) / (vov * q)) - (vov * q - rho * k) / 2 = t := by field_simp; ring
      rw [et]
      have es : R ^ 2 / (4 * q) - t ^ 2 / q = (R / (2 * Q)) ^ 2 := by
        rw [htd]
        field_simp
        rw [hQ2]
        ring
      rw [es]
      positivity

/-- **C87** (what the limit is about): the cumulant function of the code's own Heston transform, per unit time, tends to `hestonLongCgf`. -/
theorem Heston.logp_mgf_long (m : Heston) {u : ℝ} (hv : m.vov ≠ 0) (h0 : 0 ≤ u) (h1 : u ≤ 1) (hr : m.rho ^ 2 ≤ 1)
    (ha : 0 < m.mr - m.rho * m.vov * u) (hk : m.rho * m.vov / 2 ≤ m.mr) :
    Tendsto (fun T => log ‖m.logpMgf (u : ℂ) T‖ / T) atTop (𝓝 (Spec.hestonLongCgf m.mr m.theta m.vov m.rho u)) := by
  obtain ⟨hd, hb⟩ := m.beta_dd (u := (u : ℂ)) (by simpa using h0) (by simpa using h1) hr (by simpa using ha) hk
  have hw : 0 ≤ (m.mr - m.rho * m.vov * u) ^ 2 + m.vov ^ 2 * (u * (1 - u)) := by
    have := mul_nonneg h0 (sub_nonneg.2 h1)
    positivity
  have hdr : (((m.mr : ℂ) - m.vov * m.rho * (u : ℂ)) ^ 2 + (m.vov : ℂ) ^ 2 * u * (1 - u)) ^ (1 / 2 : ℂ)
      = ((√((m.mr - m.rho * m.vov * u) ^ 2 + m.vov ^ 2 * (u * (1 - u))) : ℝ) : ℂ) := by
    rw [show (((m.mr : ℂ) - m.vov * m.rho * (u : ℂ)) ^ 2 + (m.vov : ℂ) ^ 2 * u * (1 - u))
      = (((m.mr - m.rho * m.vov * u) ^ 2 + m.vov ^ 2 * (u * (1 - u)) : ℝ) : ℂ) by push_cast; ring,
      show (1 / 2 : ℂ) = ((1 / 2 : ℝ) : ℂ) by push_cast; rfl, ← Complex.ofReal_cpow hw, sqrt_eq_rpow]
  obtain ⟨hbd, hg⟩ := Heston.gg_lt hb
  unfold Heston.logpMgf Heston.logpMgfExpo
  simp only [Complex.norm_exp, log_exp]
  rw [hdr] at hd hbd hg ⊢
  set d := √((m.mr - m.rho * m.vov * u) ^ 2 + m.vov ^ 2 * (u * (1 - u))) with hdd
  simp only [Complex.ofReal_re] at hd
  set b := (m.mr : ℂ) - m.vov * m.rho * (u : ℂ) with hbdef
  set g := (b - d) / (b + d) with hgdef
  have hg1 : 0 < (1 - g).re := Heston.one_sub_re hg
  have hg1' : 1 - g ≠ 0 := fun h => by rw [h] at hg1; simp at hg1
  have hE : Tendsto (fun T : ℝ => Complex.exp (-(d : ℂ) * T)) atTop (𝓝 0) := by
    have h : Tendsto (fun T : ℝ => ((exp (-(d * T)) : ℝ) : ℂ)) atTop (𝓝 ((0 : ℝ) : ℂ)) := by
      refine (Complex.continuous_ofReal.tendsto 0).comp ?_
      exact tendsto_exp_neg_atTop_nhds_zero.comp (tendsto_id.const_mul_atTop hd)
    rw [Complex.ofReal_zero] at h
    refine h.congr fun T => ?_
    push_cast
    congr 1
    ring
  have hT1 : Tendsto (fun T : ℝ => 1 - g * Complex.exp (-(d : ℂ) * T)) atTop (𝓝 1) := by
    have := (hE.const_mul g).const_sub 1
    simpa using this
  have hL : Tendsto (fun T : ℝ => Complex.log ((1 - g * Complex.exp (-(d : ℂ) * T)) / (1 - g))) atTop (𝓝 (Complex.log (1 / (1 - g)))) :=
    (hT1.div_const (1 - g)).clog (Heston.slit_div (by simp) hg1)
  have hI : Tendsto (fun T : ℝ => ((T⁻¹ : ℝ) : ℂ)) atTop (𝓝 0) := by
    have := (Complex.continuous_ofReal.tendsto 0).comp tendsto_inv_atTop_zero
    rw [Complex.ofReal_zero] at this
    exact this
  have hB : Tendsto (fun T : ℝ => (m.sigma : ℂ) * (b - d) * (1 - Complex.exp (-(d : ℂ) * T)) / (1 - g * Complex.exp (-(d : ℂ) * T)))
      atTop (𝓝 ((m.sigma : ℂ) * (b - d) * (1 - 0) / 1)) := ((hE.const_sub 1).const_mul _).div hT1 one_ne_zero
  have hall : Tendsto (fun T : ℝ => ((m.mr : ℂ) * m.theta * ((b - d) - 2 * (Complex.log ((1 - g * Complex.exp (-(d : ℂ) * T)) / (1 - g))
      * ((T⁻¹ : ℝ) : ℂ))) + (m.sigma : ℂ) * (b - d) * (1 - Complex.exp (-(d : ℂ) * T)) / (1 - g * Complex.exp (-(d : ℂ) * T))
      * ((T⁻¹ : ℝ) : ℂ)) / (m.vov : ℂ) ^ 2) atTop (𝓝 (((m.mr : ℂ) * m.theta * ((b - d) - 2 * (Complex.log (1 / (1 - g)) * 0))
      + (m.sigma : ℂ) * (b - d) * (1 - 0) / 1 * 0) / (m.vov : ℂ) ^ 2)) :=
    (((((hL.mul hI).const_mul 2).const_sub (b - d)).const_mul _).add (hB.mul hI)).div_const _
  have hre := (Complex.continuous_re.tendsto _).comp hall
  have e : (((m.mr : ℂ) * m.theta * ((b - d) - 2 * (Complex.log (1 / (1 - g)) * 0))
      + (m.sigma : ℂ) * (b - d) * (1 - 0) / 1 * 0) / (m.vov : ℂ) ^ 2).re = Spec.hestonLongCgf m.mr m.theta m.vov m.rho u := by
    unfold Spec.hestonLongCgf
    rw [← hdd, hbdef]
    have : (((m.mr : ℂ) * m.theta * (((m.mr : ℂ) - m.vov * m.rho * (u : ℂ) - d) - 2 * (Complex.log (1 / (1 - g)) * 0))
      + (m.sigma : ℂ) * ((m.mr : ℂ) - m.vov * m.rho * (u : ℂ) - d) * (1 - 0) / 1 * 0) / (m.vov : ℂ) ^ 2)
      = ((m.mr * m.theta / m.vov ^ 2 * (m.mr - m.rho * m.vov * u - d) : ℝ) : ℂ) := by
      push_cast; ring
    rw [this, Complex.ofReal_re]
  rw [e] at hre
  refine hre.congr' ?_
  filter_upwards [eventually_gt_atTop (0 : ℝ)] with T hT
  simp only [Function.comp]
  rw [← Complex.div_ofReal_re]
  congr 1
  have hTc : (T : ℂ) ≠ 0 := by exact_mod_cast hT.ne'
  have hvc : (m.vov : ℂ) ≠ 0 := by exact_mod_cast hv
  rw [Complex.ofReal_inv]
  generalize Complex.log ((1 - g * Complex.exp (-(d : ℂ) * T)) / (1 - g)) = L
  generalize (m.sigma : ℂ) * (b - d) * (1 - Complex.exp (-(d : ℂ) * T)) / (1 - g * Complex.exp (-(d : ℂ) * T)) = B
  field_simp

namespace Svi

/-- **C87**: the code's initialisation is the Gatheral-Jacquier formula with the initial variance `sigma` in the place of the volatility of
variance in `w2`: the smile it produces is the correct one of a Heston model whose `w2` is rescaled. -/
theorem init_from_heston_formula {sigma vov rho mr th T r q S K : ℝ} {isF : Bool} (hs : 0 < sigma) (hv : 0 < vov) (hk : 0 < mr)
    (ht : 0 < th) (hr : rho ^ 2 < 1) (hT : 0 < T) :
    (initFromHeston sigma vov rho mr (some th) T r q isF).volForPrice K S T ^ 2 =
      Spec.gatheralJacquier mr th vov rho (sigma / vov * (log (K / Spec.forward isF r q S T) / T)) := by
  have hq0 : 0 < 1 - rho ^ 2 := by linarith
  have hR : 0 < √((2 * mr - rho * vov) ^ 2 + vov ^ 2 * (1 - rho ^ 2)) - (2 * mr - rho * vov) := by
    have : |2 * mr - rho * vov| < √((2 * mr - rho * vov) ^ 2 + vov ^ 2 * (1 - rho ^ 2)) := by
      refine lt_sqrt_of_sq_lt ?_
      rw [sq_abs]
      have : 0 < vov ^ 2 * (1 - rho ^ 2) := by positivity
      linarith
    linarith [le_abs_self (2 * mr - rho * vov)]
  rw [vol_sq]
  · unfold Spec.svi Spec.gatheralJacquier initFromHeston
    simp only [Option.getD_some]
    generalize log (K / Spec.forward isF r q S T) = k
    generalize √((2 * mr - rho * vov) ^ 2 + vov ^ 2 * (1 - rho ^ 2)) - (2 * mr - rho * vov) = R at *
    have e : (k - -rho * T / (sigma / (mr * th))) ^ 2 + (√(1 - rho ^ 2) * T / (sigma / (mr * th))) ^ 2
        = ((vov / (mr * th) * (sigma / vov * (k / T)) + rho) ^ 2 + 1 - rho ^ 2) * (T * (mr * th) / sigma) ^ 2 := by
      have := sq_sqrt hq0.le
      field_simp
      rw [this]
      ring
    rw [e, sqrt_mul' _ (by positivity), sqrt_sq (by positivity)]
    generalize √((vov / (mr * th) * (sigma / vov * (k / T)) + rho) ^ 2 + 1 - rho ^ 2) = Z
    field_simp
    ring
  · simp only [initFromHeston, Option.getD_some]
    positivity
  · exact hr.le
  · simp only [initFromHeston, Option.getD_some]
    positivity

/-- **C87** (conditional): when the initial variance happens to equal the volatility of variance, the initial SVI smile is the long-maturity
Heston smile at every strike. -/
theorem init_from_heston_partial {vov rho mr th T r q S K : ℝ} {isF : Bool} (hv : 0 < vov) (hk : 0 < mr)
    (ht : 0 < th) (hr : rho ^ 2 < 1) (hT : 0 < T) :
    Spec.IsLongImplVar mr th vov rho (log (K / Spec.forward isF r q S T) / T)
      ((initFromHeston vov vov rho mr (some th) T r q isF).volForPrice K S T ^ 2) := by
  rw [init_from_heston_formula hv hv hk ht hr hT, div_self hv.ne', one_mul]
  exact Spec.gatheralJacquier_correct hk ht hv hr _

/-- **C87 fails** for the code as written: with initial variance 0.04 and volatility of variance 1.5 the smile is not the long-maturity
Heston smile (`w2` uses `sigma` instead of `vov`, line 53). -/
theorem init_from_heston_wrong :
    ∃ K > 0, ¬ Spec.IsLongImplVar 1 0.04 1.5 0 (log (K / Spec.forward true 0 0 1 1) / 1)
      ((initFromHeston 0.04 1.5 0 1 (some 0.04) 1 0 0 true).volForPrice K 1 1 ^ 2) := by
  refine ⟨exp (-0.02), exp_pos _, ?_⟩
  rw [init_from_heston_formula (by norm_num) (by norm_num) (by norm_num) (by norm_num) (by norm_num) (by norm_num)]
  have hx : log (exp (-0.02) / Spec.forward true 0 0 1 1) = -0.02 := by simp [Spec.forward]
  rw [hx]
  intro ⟨hw, hl⟩
  have hgood := (Spec.gatheralJacquier_correct (mr := 1) (theta := 0.04) (vov := 1.5) (rho := 0) (by norm_num) (by norm_num) (by norm_num)
    (by norm_num) (-0.02)).2
  rw [show (-0.02 : ℝ) / 1 = -0.02 by norm_num] at hl
  have he := hl.unique hgood
  have hR : √((2 * (1 : ℝ) - 0 * 1.5) ^ 2 + 1.5 ^ 2 * (1 - 0 ^ 2)) = 2.5 := by
    rw [show (2 * (1 : ℝ) - 0 * 1.5) ^ 2 + 1.5 ^ 2 * (1 - 0 ^ 2) = 2.5 ^ 2 by norm_num, sqrt_sq (by norm_num)]
  have hg : Spec.gatheralJacquier 1 0.04 1.5 0 (-0.02) = 0.04 := by
    unfold Spec.gatheralJacquier
    simp only
    rw [hR, show ((1.5 : ℝ) / (1 * 0.04) * -0.02 + 0) ^ 2 + 1 - 0 ^ 2 = 1.25 ^ 2 by norm_num, sqrt_sq (by norm_num)]
    norm_num
  rw [hg] at he
  have h0 : ((-0.02 : ℝ) + 0.04 / 2) ^ 2 / (2 * 0.04) = 0 := by norm_num
  rw [h0, div_eq_zero_iff] at he
  have hlt : Spec.gatheralJacquier 1 0.04 1.5 0 (0.04 / 1.5 * -0.02) < 0.04 := by
    unfold Spec.gatheralJacquier
    simp only
    rw [hR]
    have : √(((1.5 : ℝ) / (1 * 0.04) * (0.04 / 1.5 * -0.02) + 0) ^ 2 + 1 - 0 ^ 2) ≤ 1.1 := by
      rw [sqrt_le_left (by norm_num)]
      norm_num
    norm_num at this ⊢
    linarith
  rcases he with h | h
  · have := pow_eq_zero_iff two_ne_zero |>.1 h
    rw [show (-0.02 : ℝ) / 1 = -0.02 by norm_num] at *
    linarith
  · rw [show (-0.02 : ℝ) / 1 = -0.02 by norm_num] at *
    linarith

example : Spec.IsLongImplVar 1 0.04 1.5 0 (-0.02) 0.04 := by
  have h := Spec.gatheralJacquier_correct (mr := 1) (theta := 0.04) (vov := 1.5) (rho := 0) (by norm_num) (by norm_num) (by norm_num)
    (by norm_num) (-0.02)
  have hR : √((2 * (1 : ℝ) - 0 * 1.5) ^ 2 + 1.5 ^ 2 * (1 - 0 ^ 2)) = 2.5 := by
    rw [show (2 * (1 : ℝ) - 0 * 1.5) ^ 2 + 1.5 ^ 2 * (1 - 0 ^ 2) = 2.5 ^ 2 by norm_num, sqrt_sq (by norm_num)]
  have hg : Spec.gatheralJacquier 1 0.04 1.5 0 (-0.02) = 0.04 := by
    unfold Spec.gatheralJacquier
    simp only
    rw [hR, show ((1.5 : ℝ) / (1 * 0.04) * -0.02 + 0) ^ 2 + 1 - 0 ^ 2 = 1.25 ^ 2 by norm_num, sqrt_sq (by norm_num)]
    norm_num
  rwa [hg] at h

example : Spec.Parity (Svi.price ⟨0.04, 0.1, -0.4, 0.1, 0, 0.02, 0.01, false⟩ 110 100 1 1)
    (Svi.price ⟨0.04, 0.1, -0.4, 0.1, 0, 0.02, 0.01, false⟩ 110 100 1 (-1)) (Spec.discount 0.02 1) (Spec.forward false 0.02 0.01 100 1) 110 :=
  svi_parity _ _ _ _

end Svi

end PyFENG
