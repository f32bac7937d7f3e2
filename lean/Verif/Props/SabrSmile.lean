import Verif.Props.SabrShort
import Mathlib.Analysis.SpecialFunctions.Exponential
import Mathlib.Analysis.SpecialFunctions.ExpDeriv

/-!
# SABR volatility approximations: Taylor expansion of the short-maturity smile

The formulas of Lorig et al. (2017) and of Hagan et al. (2002) are compared, in powers of the log-moneyness, with the exact short-maturity limit of the
implied volatility.
-/

namespace PyFENG

open Real Filter Topology Asymptotics

namespace Sabr

/-- Specification: the limit, as the expiry goes to zero, of the Black-Scholes implied volatility of the SABR model (Berestycki, Busca and Florent 2004): log-moneyness over the
geodesic distance. -/
noncomputable def Spec.shortVol (σ vov ρ β F K : ℝ) : ℝ := log (K / F) / (Spec.sabrDist σ vov ρ β F K / vov)

/-- `f` has the Taylor coefficients `a0, …, a4` at zero. -/
def Jet (f : ℝ → ℝ) (a0 a1 a2 a3 a4 : ℝ) : Prop :=
  (fun k => f k - (a0 + a1 * k + a2 * k ^ 2 + a3 * k ^ 3 + a4 * k ^ 4)) =O[𝓝 0] fun k => k ^ 5

namespace Jet

variable {f g : ℝ → ℝ} {a0 a1 a2 a3 a4 b0 b1 b2 b3 b4 : ℝ}

lemma of_poly (h : ∀ k, f k = a0 + a1 * k + a2 * k ^ 2 + a3 * k ^ 3 + a4 * k ^ 4) : Jet f a0 a1 a2 a3 a4 := by
  unfold Jet
  simp only [h, sub_self]
  exact isBigO_zero _ _

lemma congr (h : Jet f a0 a1 a2 a3 a4) (e0 : a0 = b0) (e1 : a1 = b1) (e2 : a2 = b2) (e3 : a3 = b3) (e4 : a4 = b4) : Jet f b0 b1 b2 b3 b4 := by
  subst e0 e1 e2 e3 e4; exact h

lemma congr_fun (h : Jet f a0 a1 a2 a3 a4) (e : ∀ k, g k = f k) : Jet g a0 a1 a2 a3 a4 := by
  rw [show g = f from funext e]; exact h

lemma add (hf : Jet f a0 a1 a2 a3 a4) (hg : Jet g b0 b1 b2 b3 b4) : Jet (fun k => f k + g k) (a0 + b0) (a1 + b1) (a2 + b2) (a3 + b3) (a4 + b4) := by
  refine (IsBigO.add hf hg).congr_left fun k => ?_
  ring

lemma smul (c : ℝ) (hf : Jet f a0 a1 a2 a3 a4) : Jet (fun k => c * f k) (c * a0) (c * a1) (c * a2) (c * a3) (c * a4) := by
  refine (IsBigO.const_mul_left hf c).congr_left fun k => ?_
  ring

lemma poly_bdd (a0 a1 a2 a3 a4 : ℝ) : (fun k : ℝ => a0 + a1 * k + a2 * k ^ 2 + a3 * k ^ 3 + a4 * k ^ 4) =O[𝓝 0] fun _ => (1:ℝ) :=
  ((by fun_prop : Continuous fun k : ℝ => a0 + a1 * k + a2 * k ^ 2 + a3 * k ^ 3 + a4 * k ^ 4).tendsto 0).isBigO_one ℝ

lemma pow5_one : (fun k : ℝ => k ^ 5) =O[𝓝 0] fun _ => (1:ℝ) := ((by fun_prop : Continuous fun k : ℝ => k ^ 5).tendsto 0).isBigO_one ℝ

lemma bdd (hf : Jet f a0 a1 a2 a3 a4) : f =O[𝓝 0] fun _ => (1:ℝ) := by
  have := (IsBigO.trans hf pow5_one).add (poly_bdd a0 a1 a2 a3 a4)
  exact this.congr_left fun k => by ring

lemma mul (hf : Jet f a0 a1 a2 a3 a4) (hg : Jet g b0 b1 b2 b3 b4) :
    Jet (fun k => f k * g k) (a0 * b0) (a0 * b1 + a1 * b0) (a0 * b2 + a1 * b1 + a2 * b0) (a0 * b3 + a1 * b2 + a2 * b1 + a3 * b0)
      (a0 * b4 + a1 * b3 + a2 * b2 + a3 * b1 + a4 * b0) := by
  have h1 := (IsBigO.mul hf hg.bdd).congr_right (g₂ := fun k => k ^ 5) fun k => by ring
  have h2 := (IsBigO.mul (poly_bdd a0 a1 a2 a3 a4) hg).congr_right (g₂ := fun k => k ^ 5) fun k => by ring
  have h3 : (fun k : ℝ => k ^ 5 * ((a1 * b4 + a2 * b3 + a3 * b2 + a4 * b1) + (a2 * b4 + a3 * b3 + a4 * b2) * k + (a3 * b4 + a4 * b3) * k ^ 2 + (a4 * b4) * k ^ 3 + 0 * k ^ 4))
      =O[𝓝 0] fun k => k ^ 5 :=
    ((isBigO_refl (fun k : ℝ => k ^ 5) _).mul (poly_bdd _ _ _ _ _)).congr_right fun k => by ring
  refine ((h1.add h2).add h3).congr_left fun k => ?_
  ring

lemma ev_congr (h : Jet f a0 a1 a2 a3 a4) (e : ∀ᶠ k in 𝓝 0, g k = f k) : Jet g a0 a1 a2 a3 a4 := by
  refine IsBigO.congr' h (e.mono fun k hk => ?_) EventuallyEq.rfl
  simp only [hk]

lemma tendsto (h : Jet f a0 a1 a2 a3 a4) : Tendsto f (𝓝 0) (𝓝 a0) := by
  have h5 : Tendsto (fun k : ℝ => k ^ 5) (𝓝 0) (𝓝 0) := by
    have : Continuous fun k : ℝ => k ^ 5 := by fun_prop
    simpa using this.tendsto 0
  have h1 := IsBigO.trans_tendsto h h5
  have h2 : Tendsto (fun k : ℝ => a0 + a1 * k + a2 * k ^ 2 + a3 * k ^ 3 + a4 * k ^ 4) (𝓝 0) (𝓝 a0) := by
    have : Continuous fun k : ℝ => a0 + a1 * k + a2 * k ^ 2 + a3 * k ^ 3 + a4 * k ^ 4 := by fun_prop
    simpa using this.tendsto 0
  have := h1.add h2
  rw [zero_add] at this
  exact this.congr fun k => by ring

/-- A jet without constant term is `O(k)`. -/
lemma isBigO_id (h : Jet f 0 a1 a2 a3 a4) : f =O[𝓝 0] fun k => k := by
  have h1 : (fun k : ℝ => k ^ 5) =O[𝓝 0] fun k => k :=
    ((isBigO_refl (fun k : ℝ => k) (𝓝 0)).mul (((by fun_prop : Continuous fun k : ℝ => k ^ 4).tendsto 0).isBigO_one ℝ)).congr (fun k => by ring) fun k => by ring
  have h2 : (fun k : ℝ => k * (a1 + a2 * k + a3 * k ^ 2 + a4 * k ^ 3 + 0 * k ^ 4)) =O[𝓝 0] fun k => k :=
    ((isBigO_refl (fun k : ℝ => k) (𝓝 0)).mul (poly_bdd _ _ _ _ _)).congr_right fun k => by ring
  refine ((IsBigO.trans h h1).add h2).congr_left fun k => ?_
  ring

lemma exp (c : ℝ) : Jet (fun k => rexp (c * k)) 1 c (c ^ 2 / 2) (c ^ 3 / 6) (c ^ 4 / 24) := by
  have ht : Tendsto (fun k : ℝ => c * k) (𝓝 0) (𝓝 0) := by
    have : Continuous fun k : ℝ => c * k := by fun_prop
    simpa using this.tendsto 0
  have h := (Real.exp_sub_sum_range_isBigO_pow 5).comp_tendsto ht
  have h2 : ((fun x : ℝ => x ^ 5) ∘ fun k => c * k) =O[𝓝 0] fun k => k ^ 5 :=
    ((isBigO_refl (fun k : ℝ => k ^ 5) (𝓝 0)).const_mul_left (c ^ 5)).congr_left fun k => by simp only [Function.comp]; ring
  refine (h.trans h2).congr_left fun k => ?_
  simp only [Function.comp, Finset.sum_range_succ, Finset.sum_range_zero, Nat.factorial]
  push_cast
  ring

end Jet

/-- `(e^{bk} - 1)/b`, and `k` for `b = 0`. -/
noncomputable def qFun (b k : ℝ) : ℝ := if b = 0 then k else (exp (b * k) - 1) / b

lemma qFun_jet (b : ℝ) : Jet (qFun b) 0 1 (b / 2) (b ^ 2 / 6) (b ^ 3 / 24) := by
  by_cases hb : b = 0
  · subst hb
    refine Jet.of_poly fun k => ?_
    simp [qFun]
  · have h := (((Jet.exp b).add (Jet.of_poly (f := fun _ => -1) (a0 := -1) (a1 := 0) (a2 := 0) (a3 := 0) (a4 := 0) fun k => by ring))).smul (1 / b)
    refine (h.congr_fun fun k => ?_).congr ?_ ?_ ?_ ?_ ?_
    · unfold qFun
      rw [if_neg hb]
      ring
    all_goals field_simp
    all_goals ring

lemma levDist_exp {β F : ℝ} (hF : 0 < F) (k : ℝ) : Spec.levDist β F (F * exp k) = F ^ (1 - β) * qFun (1 - β) k := by
  have hpos : ∀ t : ℝ, 0 < F * exp t := fun t => mul_pos hF (exp_pos t)
  have hd : ∀ t ∈ Set.uIcc 0 k, HasDerivAt (fun t => F * exp t) (F * exp t) t := fun t _ => (hasDerivAt_exp t).const_mul F
  have h := intervalIntegral.integral_comp_mul_deriv' (a := 0) (b := k) (f := fun t => F * exp t) (f' := fun t => F * exp t) (g := fun x : ℝ => x ^ (-β)) hd
    (by fun_prop) (by
      intro x hx
      obtain ⟨t, -, rfl⟩ := hx
      exact (continuousAt_rpow_const _ _ (Or.inl (hpos t).ne')).continuousWithinAt)
  simp only [Function.comp, exp_zero, mul_one] at h
  unfold Spec.levDist
  rw [← h]
  have e : ∀ t, (F * exp t) ^ (-β) * (F * exp t) = F ^ (1 - β) * exp ((1 - β) * t) := fun t => by
    have h1 : (F * exp t) ^ (-β) * (F * exp t) = (F * exp t) ^ (1 - β) := by
      rw [show (1:ℝ) - β = -β + 1 by ring, rpow_add (hpos t), rpow_one]
    rw [h1, mul_rpow hF.le (exp_pos t).le, ← exp_mul, mul_comm t]
  simp only [e]
  rw [intervalIntegral.integral_const_mul]
  congr 1
  unfold qFun
  split_ifs with hb
  · simp [hb]
  · rw [intervalIntegral.integral_comp_mul_left (fun x => exp x) hb]
    simp [div_eq_inv_mul]

/-- Jet of the SABR distance as a function of log-moneyness. -/
lemma geo_jet {ρ : ℝ} (hρ : |ρ| ≤ 1) (c b : ℝ) :
    Jet (fun k => Spec.geo ρ (c * qFun b k)) 0 c (c * b / 2 - ρ / 2 * c ^ 2) (c * b ^ 2 / 6 - ρ / 2 * (c ^ 2 * b) + (3 * ρ ^ 2 - 1) / 6 * c ^ 3)
      (c * b ^ 3 / 24 - ρ / 2 * (c ^ 2 * (b ^ 2 / 3 + b ^ 2 / 4)) + (3 * ρ ^ 2 - 1) / 6 * (c ^ 3 * (3 * b / 2)) - (5 * ρ ^ 3 - 3 * ρ) / 8 * c ^ 4) := by
  have hz := (qFun_jet b).smul c
  have h2 := hz.mul hz
  have h3 := h2.mul hz
  have h4 := h2.mul h2
  have hp := ((hz.add (h2.smul (-(ρ / 2)))).add (h3.smul ((3 * ρ ^ 2 - 1) / 6))).add (h4.smul (-((5 * ρ ^ 3 - 3 * ρ) / 8)))
  have hl : Jet (fun k => legI ρ (c * qFun b k)) 0 c (c * b / 2 - ρ / 2 * c ^ 2) (c * b ^ 2 / 6 - ρ / 2 * (c ^ 2 * b) + (3 * ρ ^ 2 - 1) / 6 * c ^ 3)
      (c * b ^ 3 / 24 - ρ / 2 * (c ^ 2 * (b ^ 2 / 3 + b ^ 2 / 4)) + (3 * ρ ^ 2 - 1) / 6 * (c ^ 3 * (3 * b / 2)) - (5 * ρ ^ 3 - 3 * ρ) / 8 * c ^ 4) := by
    refine (hp.congr_fun fun k => ?_).congr ?_ ?_ ?_ ?_ ?_
    · unfold legI; ring
    all_goals ring
  have hz0 : Jet (fun k => c * qFun b k) 0 (c * 1) (c * (b / 2)) (c * (b ^ 2 / 6)) (c * (b ^ 3 / 24)) := by simpa using hz
  have hid := hz0.isBigO_id
  have hev : ∀ᶠ k in 𝓝 (0:ℝ), |c * qFun b k| ≤ 1 / 10 := by
    have ht : Tendsto (fun k => |c * qFun b k|) (𝓝 0) (𝓝 0) := by simpa using hz0.tendsto.abs
    exact ht.eventually (ge_mem_nhds (by norm_num))
  have herr : (fun k => Spec.geo ρ (c * qFun b k) - legI ρ (c * qFun b k)) =O[𝓝 0] fun k => k ^ 5 := by
    have h1 : (fun k => Spec.geo ρ (c * qFun b k) - legI ρ (c * qFun b k)) =O[𝓝 0] fun k => (c * qFun b k) ^ 5 := by
      refine IsBigO.of_bound 5 (hev.mono fun k hk => ?_)
      rw [norm_eq_abs, norm_eq_abs, abs_pow]
      exact geo_error hρ hk
    exact h1.trans (hid.pow 5)
  refine (herr.add hl).congr_left fun k => ?_
  ring

/-- From products to quotients. -/
lemma quotient_bigO {v D : ℝ → ℝ} {ν c : ℝ} {n : ℕ} {e : ℝ → ℝ} (hc : c ≠ 0) {a2 a3 a4 : ℝ} (hD : Jet D 0 c a2 a3 a4)
    (h : (fun k => v k * D k - ν * k - e k * D k) =O[𝓝 0] fun k => k ^ (n + 1)) :
    (fun k => v k - ν * k / D k - e k) =O[𝓝[≠] 0] fun k => k ^ n := by
  have hDk : (fun k : ℝ => k) =O[𝓝[≠] 0] D := by
    have h1 : Tendsto (fun k => D k / k) (𝓝[≠] 0) (𝓝 c) := by
      have h5 : Tendsto (fun k : ℝ => k ^ 4) (𝓝[≠] 0) (𝓝 0) := by
        have : Continuous fun k : ℝ => k ^ 4 := by fun_prop
        simpa using this.continuousWithinAt (x := 0) (s := {0}ᶜ) |>.tendsto
      have h2 : (fun k => (D k - (0 + c * k + a2 * k ^ 2 + a3 * k ^ 3 + a4 * k ^ 4)) * k⁻¹) =O[𝓝[≠] 0] fun k => k ^ 4 := by
        refine ((IsBigO.mono hD nhdsWithin_le_nhds).mul (isBigO_refl (fun k : ℝ => k⁻¹) _)).congr' EventuallyEq.rfl ?_
        filter_upwards [self_mem_nhdsWithin] with k hk
        have : k ≠ 0 := hk
        field_simp
      have h3 := h2.trans_tendsto h5
      have h4 : Tendsto (fun k : ℝ => c + a2 * k + a3 * k ^ 2 + a4 * k ^ 3) (𝓝[≠] 0) (𝓝 c) := by
        have : Continuous fun k : ℝ => c + a2 * k + a3 * k ^ 2 + a4 * k ^ 3 := by fun_prop
        simpa using this.continuousWithinAt (x := 0) (s := {0}ᶜ) |>.tendsto
      have h6 := h3.add h4
      rw [zero_add] at h6
      refine h6.congr' ?_
      filter_upwards [self_mem_nhdsWithin] with k hk
      have : k ≠ 0 := hk
      field_simp
      ring
    have h2 := h1.inv₀ hc
    refine (h2.isBigO_one ℝ |>.mul (isBigO_refl D _)).congr' ?_ (by simp)
    have hne : ∀ᶠ k in 𝓝[≠] 0, D k / k ≠ 0 := h1.eventually_ne hc
    filter_upwards [hne] with k hk
    obtain ⟨x1, x2⟩ := div_ne_zero_iff.1 hk
    field_simp
  have hne : ∀ᶠ k in 𝓝[≠] (0:ℝ), D k ≠ 0 := by
    filter_upwards [hDk.eq_zero_imp, self_mem_nhdsWithin] with k h1 h2 h3
    exact h2 (h1 h3)
  have h1 : (fun k => (v k * D k - ν * k - e k * D k) / D k) =O[𝓝[≠] 0] fun k => k ^ (n + 1) * k⁻¹ := by
    refine (IsBigO.mono h nhdsWithin_le_nhds).mul ?_
    refine IsBigO.inv_rev hDk ?_
    filter_upwards [self_mem_nhdsWithin] with k hk h0
    exact absurd h0 hk
  refine h1.congr' ?_ ?_
  · filter_upwards [hne] with k hk
    field_simp
  · filter_upwards [self_mem_nhdsWithin] with k hk
    have : k ≠ 0 := hk
    rw [pow_succ, mul_assoc, mul_inv_cancel₀ this, mul_one]

lemma shortVol_exp {σ vov ρ β F : ℝ} (hF : 0 < F) (hσ : 0 < σ) (k : ℝ) :
    Spec.shortVol σ vov ρ β F (F * exp k) = vov * k / Spec.geo ρ (vov / (σ / F ^ (1 - β)) * qFun (1 - β) k) := by
  unfold Spec.shortVol Spec.sabrDist
  rw [levDist_exp hF, mul_div_cancel_left₀ _ hF.ne', log_exp]
  have hp := rpow_pos_of_pos hF (1 - β)
  rw [show vov / σ * (F ^ (1 - β) * qFun (1 - β) k) = vov / (σ / F ^ (1 - β)) * qFun (1 - β) k by field_simp, div_div_eq_mul_div, mul_comm]

/-- **C133** (Lorig et al.).  The zero-expiry volatility of `SabrLorig2017` is the exact short-maturity smile up to fourth order in the log-moneyness. -/
theorem lorig_short (m : Sabr) (hρ : |m.rho| < 1) (hν : 0 < m.vov) (hσ : 0 < m.sigma) {S : ℝ} (hS : 0 < S) :
    (fun k => m.lorigVol (S * exp k) S 0 - Spec.shortVol m.sigma m.vov m.rho m.beta S (S * exp k)) =O[𝓝[≠] 0] fun k => k ^ 4 := by
  have e1 : m.mp.fwd S 0 = S := by
    rw [MParams.fwd_eq_forward, MParams.forward_eq_spec]
    unfold _root_.PyFENG.Spec.forward
    split_ifs <;> simp
  have ha : 0 < m.sigma / S ^ (1 - m.beta) := div_pos hσ (rpow_pos_of_pos hS _)
  simp only [shortVol_exp hS hσ]
  obtain ⟨a, hae⟩ : ∃ a, a = m.sigma / S ^ (1 - m.beta) := ⟨_, rfl⟩
  obtain ⟨b, hbe⟩ : ∃ b, b = 1 - m.beta := ⟨_, rfl⟩
  have hD := geo_jet hρ.le (m.vov / a) b
  have hL : Jet (fun k => m.lorigVol (S * exp k) S 0) a (-(a * b / 2) + m.vov * m.rho / 2) (a * b ^ 2 / 12 + m.vov ^ 2 * ((2 - 3 * m.rho ^ 2) / (12 * a)))
      (-(b * m.vov ^ 2 * ((3 * m.rho ^ 2 - 2) / (24 * a))) + m.vov ^ 3 * (m.rho * (6 * m.rho ^ 2 - 5) / (24 * a ^ 2))) 0 := by
    refine Jet.of_poly fun k => ?_
    unfold lorigVol vars
    simp only [e1, mul_div_cancel_left₀ _ hS.ne', log_exp, ← hbe]
    rw [hbe, ← hae, ← hbe]
    have ht : ∀ p : Prop, [Decidable p] → (if p then (0:ℝ) * 0 else 0) = 0 := fun p _ => by simp
    simp only [ht, mul_zero, zero_mul, zero_div, ite_self]
    ring
  rw [← hae] at ha
  have hLD := hL.mul hD
  rw [← hae, ← hbe]
  have hq := quotient_bigO (v := fun k => m.lorigVol (S * exp k) S 0) (ν := m.vov) (n := 4) (e := fun _ => 0) (div_pos hν ha).ne' hD (by
    refine (hLD.congr (b0 := 0) (b1 := m.vov) (b2 := 0) (b3 := 0) (b4 := 0) ?_ ?_ ?_ ?_ ?_).congr_left fun k => ?_
    all_goals first | (field_simp; ring) | skip
    all_goals ring)
  refine hq.congr_left fun k => ?_
  ring

lemma Jet.inv {f : ℝ → ℝ} {a0 a1 a2 a3 a4 b0 b1 b2 b3 b4 : ℝ} (hf : Jet f a0 a1 a2 a3 a4) (h0 : a0 ≠ 0) (e0 : a0 * b0 = 1) (e1 : a0 * b1 + a1 * b0 = 0)
    (e2 : a0 * b2 + a1 * b1 + a2 * b0 = 0) (e3 : a0 * b3 + a1 * b2 + a2 * b1 + a3 * b0 = 0) (e4 : a0 * b4 + a1 * b3 + a2 * b2 + a3 * b1 + a4 * b0 = 0) :
    Jet (fun k => 1 / f k) b0 b1 b2 b3 b4 := by
  have hg : Jet (fun k : ℝ => b0 + b1 * k + b2 * k ^ 2 + b3 * k ^ 3 + b4 * k ^ 4) b0 b1 b2 b3 b4 := Jet.of_poly fun k => rfl
  have hm := (hf.mul hg).congr e0 e1 e2 e3 e4
  have hb : (fun k => 1 / f k) =O[𝓝 0] fun _ => (1:ℝ) := by
    have := (hf.tendsto.inv₀ h0).isBigO_one ℝ
    exact this.congr_left fun k => by rw [one_div]
  have hne : ∀ᶠ k in 𝓝 0, f k ≠ 0 := hf.tendsto.eventually_ne h0
  refine ((IsBigO.neg_left hm).mul hb).congr' ?_ (Eventually.of_forall fun k => by simp)
  filter_upwards [hne] with k hk
  field_simp
  ring

/-- **C133** (Hagan et al.).  When the spot is the forward, the leading-order volatility of `SabrHagan2002` is the exact short-maturity smile up to third order in the
log-moneyness; the third-order error is `-rho vov (1-beta)² k³/48`, so it is of fourth order exactly when `rho vov (1-beta) = 0`. -/
theorem hagan_short (m : Sabr) (ho : m.approxOrder = 0) (hfw : m.isFwd = true) (hρ : |m.rho| < 1) (hν : 0 < m.vov) (hσ : 0 < m.sigma) {S T : ℝ} (hS : 0 < S) (hT : 0 < T)
    (hα : eps ≤ m.sigma / S ^ (1 - m.beta)) :
    (fun k => m.haganVol (S * exp k) S T - Spec.shortVol m.sigma m.vov m.rho m.beta S (S * exp k) - (-(m.rho * m.vov * (1 - m.beta) ^ 2) / 48 * k ^ 3))
      =O[𝓝[≠] 0] fun k => k ^ 4 := by
  have e1 : m.mp.fwd S T = S := by
    rw [MParams.fwd_eq_forward, MParams.forward_eq_spec]
    unfold _root_.PyFENG.Spec.forward
    show (if m.isFwd then S else _) = S
    rw [hfw]; simp
  have ha : 0 < m.sigma / S ^ (1 - m.beta) := div_pos hσ (rpow_pos_of_pos hS _)
  simp only [shortVol_exp hS hσ]
  obtain ⟨a, hae⟩ : ∃ a, a = m.sigma / S ^ (1 - m.beta) := ⟨_, rfl⟩
  rw [← hae] at hα ha ⊢
  obtain ⟨b, hbe⟩ : ∃ b, b = 1 - m.beta := ⟨_, rfl⟩
  have hD := geo_jet hρ.le (m.vov / a) b
  have hz := ((Jet.of_poly (f := fun k : ℝ => k) (a0 := 0) (a1 := 1) (a2 := 0) (a3 := 0) (a4 := 0) fun k => by ring).mul (Jet.exp (b / 2))).smul (m.vov / a)
  have hz2 := hz.mul hz
  have hz3 := hz2.mul hz
  have hh1 := (((Jet.of_poly (f := fun _ : ℝ => 1) (a0 := 1) (a1 := 0) (a2 := 0) (a3 := 0) (a4 := 0) fun k => by ring).add (hz.smul (m.rho / 2))).add
    (hz2.smul (1 / 6 - m.rho * m.rho / 4))).add (hz3.smul (m.rho * (6 * (m.rho * m.rho) - 5) / 24))
  have hpre : Jet (fun k => 1 / (1 + b ^ 2 / 24 * k ^ 2 * (1 + b ^ 2 / 80 * k ^ 2))) 1 0 (-(b ^ 2 / 24)) 0 (b ^ 4 / 576 - b ^ 4 / 1920) := by
    refine Jet.inv (a0 := 1) (a1 := 0) (a2 := b ^ 2 / 24) (a3 := 0) (a4 := b ^ 4 / 1920) (Jet.of_poly fun k => ?_) one_ne_zero ?_ ?_ ?_ ?_ ?_ <;> ring
  have hv := (((hh1.mul (Jet.exp (-(b / 2)))).mul hpre).smul a)
  have hz0 : Tendsto (fun k : ℝ => m.vov / a * (k * rexp (b / 2 * k))) (𝓝 0) (𝓝 0) := by
    have := hz.tendsto
    simpa using this
  have hHev : ∀ᶠ k in 𝓝 (0:ℝ), m.haganVol (S * exp k) S T = a * (((1 + m.rho / 2 * (m.vov / a * (k * rexp (b / 2 * k))) +
      (1 / 6 - m.rho * m.rho / 4) * (m.vov / a * (k * rexp (b / 2 * k)) * (m.vov / a * (k * rexp (b / 2 * k)))) +
      m.rho * (6 * (m.rho * m.rho) - 5) / 24 * (m.vov / a * (k * rexp (b / 2 * k)) * (m.vov / a * (k * rexp (b / 2 * k))) * (m.vov / a * (k * rexp (b / 2 * k))))) *
      rexp (-(b / 2) * k)) * (1 / (1 + b ^ 2 / 24 * k ^ 2 * (1 + b ^ 2 / 80 * k ^ 2)))) := by
    have hev : ∀ᶠ k in 𝓝 (0:ℝ), |m.vov / a * (k * rexp (b / 2 * k))| < 1e-3 := by
      have ht : Tendsto (fun k => |m.vov / a * (k * rexp (b / 2 * k))|) (𝓝 0) (𝓝 0) := by simpa using hz0.abs
      exact ht.eventually (gt_mem_nhds (by norm_num))
    filter_upwards [hev] with k hk
    unfold haganVol vars
    simp only [if_neg (not_le.2 hT), e1, mul_div_cancel_left₀ _ hS.ne', ho, if_true, one_mul]
    have hl : log (S / (S * exp k)) = -k := by
      rw [div_mul_eq_div_div, div_self hS.ne', one_div, ← exp_neg, log_exp]
    rw [hl, ← hae, ← hbe, max_eq_left hα, ← exp_mul]
    have hx : -(rexp (k * (b / 2)) * -k * m.vov / a) = m.vov / a * (k * rexp (b / 2 * k)) := by
      rw [mul_comm k (b / 2)]; ring
    rw [hx]
    unfold hh
    simp only [if_pos hk]
    rw [mul_comm k (b / 2)]
    generalize hE : rexp (b / 2 * k) = E
    have hE' : rexp (-(b / 2) * k) = E⁻¹ := by rw [← hE, ← exp_neg]; congr 1; ring
    rw [hE']
    have hE0 : 0 < E := by rw [← hE]; exact exp_pos _
    have hne : 1 + b ^ 2 / 24 * k ^ 2 * (1 + b ^ 2 / 80 * k ^ 2) ≠ 0 := by positivity
    rw [show (-k) * (-k) = k ^ 2 by ring]
    generalize hP : 1 + b ^ 2 / 24 * k ^ 2 * (1 + b ^ 2 / 80 * k ^ 2) = P at hne ⊢
    field_simp
    ring
  have hH := hv.ev_congr hHev
  have hHD := hH.mul hD
  have hγ := (Jet.of_poly (f := fun k : ℝ => -(m.rho * m.vov * b ^ 2) / 48 * k ^ 3) (a0 := 0) (a1 := 0) (a2 := 0) (a3 := -(m.rho * m.vov * b ^ 2) / 48) (a4 := 0) fun k => by ring).mul hD
  have htot := hHD.add (hγ.smul (-1))
  rw [← hbe]
  refine quotient_bigO (v := fun k => m.haganVol (S * exp k) S T) (ν := m.vov) (n := 4) (e := fun k => -(m.rho * m.vov * b ^ 2) / 48 * k ^ 3) (div_pos hν ha).ne' hD ?_
  refine (htot.congr (b0 := 0) (b1 := m.vov) (b2 := 0) (b3 := 0) (b4 := 0) ?_ ?_ ?_ ?_ ?_).congr_left fun k => ?_
  all_goals first | (field_simp; ring) | skip
  all_goals ring

/-- The hypotheses of the C133 theorems are met. -/
example : ∃ m : Sabr, m.approxOrder = 0 ∧ m.isFwd = true ∧ |m.rho| < 1 ∧ 0 < m.vov ∧ 0 < m.sigma ∧ eps ≤ m.sigma / (100:ℝ) ^ (1 - m.beta) := by
  refine ⟨{ sigma := 0.2, vov := 0.3, rho := -0.25, beta := 1, intr := 0, divr := 0, isFwd := true, approxOrder := 0 }, rfl, rfl, ?_, ?_, ?_, ?_⟩
  · rw [abs_lt]; norm_num
  · norm_num
  · norm_num
  · have := eps_lt
    norm_num at this ⊢
    linarith

end Sabr

end PyFENG
