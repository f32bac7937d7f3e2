import Verif.Model.Nsvh
import Verif.Lemmas.Bach
import Verif.Props.Norm

/-!
# C62: hyperbolic normal stochastic volatility (NSVh), `pyfeng/nsvh.py`
-/

namespace PyFENG

open MeasureTheory ProbabilityTheory Real Set

/-- The NSVh price at expiry for `λ = 1` is a Johnson SU variable: `F + (σ/ν)(sinh(ν√T z) + ρ(cosh(ν√T z) - e^{ν²T/2}))` of a standard normal `z`. -/
noncomputable def Spec.johnson (F sigma vov rho T z : ℝ) : ℝ :=
  F + sigma / vov * (sinh (vov * √T * z) + rho * (cosh (vov * √T * z) - exp (vov ^ 2 * T / 2)))

namespace Nsvh

lemma gaussE_exp (a : ℝ) : Integrable (fun z => exp (a * z)) (gaussianReal 0 1) ∧ ∫ z, exp (a * z) ∂(gaussianReal 0 1) = exp (a ^ 2 / 2) := by
  constructor
  · rw [integrable_gauss_iff]; exact integrable_npdf_mul_exp a
  · rw [integral_gauss]; exact integral_npdf_mul_exp a

lemma johnson_exp (F sigma vov rho T z : ℝ) : Spec.johnson F sigma vov rho T z
    = F - sigma / vov * rho * exp (vov ^ 2 * T / 2) + sigma / vov * ((1 + rho) / 2) * exp (vov * √T * z)
      + (-(sigma / vov * ((1 - rho) / 2))) * exp (-(vov * √T) * z) := by
  unfold Spec.johnson
  rw [sinh_eq, cosh_eq, neg_mul]
  ring_nf

lemma integrable_johnson (F sigma vov rho T : ℝ) : Integrable (fun z => Spec.johnson F sigma vov rho T z) (gaussianReal 0 1) := by
  simp_rw [johnson_exp]
  exact ((integrable_const _).add ((gaussE_exp _).1.const_mul _)).add ((gaussE_exp _).1.const_mul _)

lemma integral_johnson (F sigma vov rho : ℝ) {T : ℝ} (hT : 0 ≤ T) : ∫ z, Spec.johnson F sigma vov rho T z ∂(gaussianReal 0 1) = F := by
  simp_rw [johnson_exp]
  rw [integral_add (f := fun z => _ + _ * exp (vov * √T * z)) ((integrable_const _).add ((gaussE_exp _).1.const_mul _)) ((gaussE_exp _).1.const_mul _),
    integral_add (integrable_const _) ((gaussE_exp _).1.const_mul _), integral_const_mul, integral_const_mul, (gaussE_exp _).2, (gaussE_exp _).2]
  have e : (vov * √T) ^ 2 = vov ^ 2 * T := by rw [mul_pow, sq_sqrt hT]
  rw [neg_sq, e]
  simp
  ring_nf

/-- The exercise point of the code. -/
noncomputable def dd (F K sigma vov rho T : ℝ) : ℝ :=
  (artanh rho + arsinh (((F - K) * (vov * √T) / (sigma * √T) - rho * exp (0.5 * (vov * √T) ^ 2)) / √(1 - rho ^ 2))) / (vov * √T)

lemma johnson_lt_iff {F K sigma vov rho T : ℝ} (hs : 0 < sigma) (hv : 0 < vov) (hr : rho ∈ Ioo (-1) 1) (hT : 0 < T) (z : ℝ) :
    K < Spec.johnson F sigma vov rho T z ↔ -dd F K sigma vov rho T < z := by
  have hsT : 0 < √T := sqrt_pos.2 hT
  have hrc : 0 < √(1 - rho ^ 2) := sqrt_pos.2 (by nlinarith [hr.1, hr.2])
  have hvn : 0 < vov * √T := by positivity
  have e1 : sinh (vov * √T * z) + rho * cosh (vov * √T * z) = √(1 - rho ^ 2) * sinh (vov * √T * z + artanh rho) := by
    rw [sinh_add, sinh_artanh hr, cosh_artanh hr]; field_simp
  have e2 : exp (0.5 * (vov * √T) ^ 2) = exp (vov ^ 2 * T / 2) := by
    congr 1; rw [mul_pow, sq_sqrt hT.le]; norm_num; ring
  have e3 : (F - K) * (vov * √T) / (sigma * √T) = (F - K) * vov / sigma := by field_simp
  unfold Spec.johnson dd
  rw [e2, e3]
  set A := ((F - K) * vov / sigma - rho * exp (vov ^ 2 * T / 2)) / √(1 - rho ^ 2) with hA
  have e4 : √(1 - rho ^ 2) * A = (F - K) * vov / sigma - rho * exp (vov ^ 2 * T / 2) := by rw [hA]; field_simp
  have h1 : -((artanh rho + arsinh A) / (vov * √T)) < z ↔ -arsinh A < vov * √T * z + artanh rho := by
    rw [← neg_div, div_lt_iff₀ hvn]
    constructor <;> intro h <;> linarith
  rw [h1, ← arsinh_neg, ← sinh_lt_sinh (x := arsinh (-A)), sinh_arsinh]
  have e5 : sinh (vov * √T * z) + rho * (cosh (vov * √T * z) - exp (vov ^ 2 * T / 2))
      = √(1 - rho ^ 2) * sinh (vov * √T * z + artanh rho) - rho * exp (vov ^ 2 * T / 2) := by rw [← e1]; ring
  rw [e5]
  have e6 : √(1 - rho ^ 2) * sinh (vov * √T * z + artanh rho) - rho * exp (vov ^ 2 * T / 2)
      = √(1 - rho ^ 2) * (sinh (vov * √T * z + artanh rho) + A) - (F - K) * vov / sigma := by rw [mul_add, e4]; ring
  rw [e6]
  have e7 : F + sigma / vov * (√(1 - rho ^ 2) * (sinh (vov * √T * z + artanh rho) + A) - (F - K) * vov / sigma)
      = K + sigma / vov * √(1 - rho ^ 2) * (sinh (vov * √T * z + artanh rho) + A) := by field_simp; ring
  rw [e7, neg_lt_iff_pos_add, ← mul_pos_iff_of_pos_left (show 0 < sigma / vov * √(1 - rho ^ 2) by positivity)]
  constructor <;> intro h <;> linarith

/-- The undiscounted price formula of `Nsvh1.price`. -/
noncomputable def pf (cp F K sigma vov rho T : ℝ) : ℝ :=
  let d := dd F K sigma vov rho T
  let vovn := vov * √T
  cp * (0.5 * (sigma * √T) / vovn * exp (0.5 * vovn ^ 2) * ((1 + rho) * ncdf (cp * (d + vovn)) - (1 - rho) * ncdf (cp * (d - vovn)) - 2 * rho * ncdf (cp * d))
    + (F - K) * ncdf (cp * d))

lemma pf_parity (F K sigma vov rho T : ℝ) : pf 1 F K sigma vov rho T - pf (-1) F K sigma vov rho T = F - K := by
  unfold pf
  simp only [one_mul, neg_mul, ncdf_neg]
  ring

lemma gaussE_johnson_call {F K sigma vov rho T : ℝ} (hs : 0 < sigma) (hv : 0 < vov) (hr : rho ∈ Ioo (-1) 1) (hT : 0 < T) :
    Spec.gaussE (fun z => Spec.payoff 1 K (Spec.johnson F sigma vov rho T z)) = pf 1 F K sigma vov rho T := by
  unfold Spec.gaussE
  rw [integral_gauss]
  set d := dd F K sigma vov rho T with hd
  have hfun : (fun z => npdf z * Spec.payoff 1 K (Spec.johnson F sigma vov rho T z))
      = (Ioi (-d)).indicator fun z => (F - K - sigma / vov * rho * exp (vov ^ 2 * T / 2)) * npdf z
        + sigma / vov * ((1 + rho) / 2) * (npdf z * exp (vov * √T * z))
        + (-(sigma / vov * ((1 - rho) / 2))) * (npdf z * exp (-(vov * √T) * z)) := by
    ext z
    by_cases hz : -d < z
    · have := (johnson_lt_iff (F := F) (K := K) hs hv hr hT z).2 hz
      rw [indicator_of_mem (mem_Ioi.2 hz)]
      unfold Spec.payoff
      rw [max_eq_left (by linarith), johnson_exp]
      ring
    · have h2 := fun h => hz ((johnson_lt_iff (F := F) (K := K) hs hv hr hT z).1 h)
      rw [indicator_of_notMem (by simpa using hz)]
      unfold Spec.payoff
      rw [max_eq_right (by linarith [not_lt.1 h2])]
      simp
  have i1 := (integrable_npdf.const_mul (F - K - sigma / vov * rho * exp (vov ^ 2 * T / 2)))
  have i2 := (integrable_npdf_mul_exp (vov * √T)).const_mul (sigma / vov * ((1 + rho) / 2))
  have i3 := (integrable_npdf_mul_exp (-(vov * √T))).const_mul (-(sigma / vov * ((1 - rho) / 2)))
  rw [hfun, integral_indicator measurableSet_Ioi, integral_add (f := fun z => (F - K - sigma / vov * rho * exp (vov ^ 2 * T / 2)) * npdf z
        + sigma / vov * ((1 + rho) / 2) * (npdf z * exp (vov * √T * z))) (i1.add i2).integrableOn i3.integrableOn,
    integral_add i1.integrableOn i2.integrableOn,
    integral_const_mul, integral_const_mul, integral_const_mul, integral_Ioi_npdf, integral_Ioi_npdf_mul_exp, integral_Ioi_npdf_mul_exp, ← ncdf_neg, neg_neg]
  unfold pf
  simp only [← hd, one_mul]
  have e2 : (vov * √T) ^ 2 = vov ^ 2 * T := by rw [mul_pow, sq_sqrt hT.le]
  have e3 : 0.5 * (sigma * √T) / (vov * √T) = sigma / vov / 2 := by
    have : 0 < √T := sqrt_pos.2 hT
    norm_num; field_simp
  rw [e3, neg_sq, e2, show (0.5 : ℝ) * (vov ^ 2 * T) = vov ^ 2 * T / 2 by norm_num; ring]
  rw [show -(vov * √T) - -d = d - vov * √T by ring, show vov * √T - -d = d + vov * √T by ring]
  ring

lemma gaussE_johnson {cp F K sigma vov rho T : ℝ} (hcp : Spec.IsCp cp) (hs : 0 < sigma) (hv : 0 < vov) (hr : rho ∈ Ioo (-1) 1) (hT : 0 < T) :
    Spec.gaussE (fun z => Spec.payoff cp K (Spec.johnson F sigma vov rho T z)) = pf cp F K sigma vov rho T := by
  rcases hcp with rfl | rfl
  · exact gaussE_johnson_call hs hv hr hT
  · have h1 := gaussE_johnson_call (F := F) (K := K) hs hv hr hT
    have h2 : Spec.gaussE (fun z => Spec.payoff 1 K (Spec.johnson F sigma vov rho T z))
        - Spec.gaussE (fun z => Spec.payoff (-1) K (Spec.johnson F sigma vov rho T z)) = F - K := by
      unfold Spec.gaussE
      rw [← integral_sub (integrable_payoff (integrable_johnson F sigma vov rho T) _ _)
        (integrable_payoff (integrable_johnson F sigma vov rho T) _ _)]
      simp_rw [payoff_parity]
      rw [integral_sub (integrable_johnson F sigma vov rho T) (integrable_const K), integral_johnson F sigma vov rho hT.le]
      simp
    have h3 := pf_parity F K sigma vov rho T
    linarith

lemma price1_eq (m : Nsvh) (h : m.isAtmvol = false) (K S T cp : ℝ) :
    m.price1 K S T cp = m.mp.df T * pf cp (m.mp.fwd S T) K m.sigma m.vov m.rho T := by
  unfold price1 pf dd
  simp only [h, Bool.false_eq_true, if_false]
  ring

/-- **C62.** `Nsvh1.price` (with `is_atmvol=False`) is the discounted expected payoff of the Johnson SU terminal price centred at the forward, for calls and
puts, every strike, spot, expiry `T > 0`, `σ, ν > 0`, `|ρ| < 1` and every convention for rates. -/
theorem nsvh1_price_correct (m : Nsvh) (hatm : m.isAtmvol = false) {cp : ℝ} (hcp : Spec.IsCp cp) (hs : 0 < m.sigma) (hv : 0 < m.vov)
    (hr : m.rho ∈ Ioo (-1) 1) (K S : ℝ) {T : ℝ} (hT : 0 < T) :
    m.price1 K S T cp = Spec.discount m.intr T *
      Spec.gaussE (fun z => Spec.payoff cp K (Spec.johnson (Spec.forward m.isFwd m.intr m.divr S T) m.sigma m.vov m.rho T z)) := by
  rw [price1_eq m hatm, gaussE_johnson hcp hs hv hr hT, m.mp.df_eq_spec, m.mp.fwd_eq_forward, m.mp.forward_eq_spec]
  rfl

/-- **C62.** The Johnson price is a martingale: its mean is the forward, so the model is calibrated to it. -/
theorem johnson_mean (F sigma vov rho : ℝ) {T : ℝ} (hT : 0 ≤ T) : Spec.gaussE (fun z => Spec.johnson F sigma vov rho T z) = F :=
  integral_johnson F sigma vov rho hT

/-- **C62.** Put-call parity of `Nsvh1.price`, without any restriction on the parameters, and for both meanings of `sigma`. -/
theorem nsvh1_parity (m : Nsvh) (K S T : ℝ) : Spec.Parity (m.price1 K S T 1) (m.price1 K S T (-1)) (m.mp.df T) (m.mp.fwd S T) K := by
  unfold Spec.Parity price1
  simp only [one_mul, neg_mul, ncdf_neg]
  ring

lemma pf_atm {F sigma vov rho T : ℝ} (hT : 0 < T) :
    pf 1 F F sigma vov rho T = sigma * pf 1 F F 1 vov rho T := by
  have : √T ≠ 0 := (sqrt_pos.2 hT).ne'
  unfold pf dd
  simp only [sub_self, zero_mul, zero_div, one_mul]
  ring

lemma pf_atm_pos {F sigma vov rho T : ℝ} (hs : 0 < sigma) (hv : 0 < vov) (hr : rho ∈ Ioo (-1) 1) (hT : 0 < T) : 0 < pf 1 F F sigma vov rho T := by
  rw [← gaussE_johnson (Or.inl rfl) hs hv hr hT]
  unfold Spec.gaussE
  have hi := integrable_payoff (integrable_johnson F sigma vov rho T) 1 F
  refine (integral_pos_iff_support_of_nonneg (f := fun z => Spec.payoff 1 F (Spec.johnson F sigma vov rho T z)) (fun z => le_max_right _ _) hi).2 ?_
  set d := dd F F sigma vov rho T
  refine lt_of_lt_of_le ?_ (measure_mono (s := Ioi (-d)) ?_)
  · have h1 : 0 < (gaussianReal 0 1).real (Ioi (-d)) := by
      have : Ioi (-d) = (Iic (-d))ᶜ := by ext; simp
      rw [this, probReal_compl_eq_one_sub measurableSet_Iic]
      have := ncdf_lt_one (-d)
      unfold ncdf at this
      linarith
    exact (ENNReal.toReal_pos_iff.1 h1).1
  · intro z hz
    have := (johnson_lt_iff (F := F) (K := F) hs hv hr hT z).2 hz
    simp only [Function.mem_support, Spec.payoff]
    rw [max_eq_left (by linarith)]
    linarith

/-- **C62.** With `is_atmvol=True`, `sigma` is the at-the-money normal (Bachelier) volatility: the at-the-money call and put both cost
`df σ √(T/2π)`, which is the Bachelier price at volatility `sigma`. -/
theorem nsvh1_atmvol_price (m : Nsvh) (hatm : m.isAtmvol = true) {cp : ℝ} (hcp : Spec.IsCp cp) (hs : 0 < m.sigma) (hv : 0 < m.vov)
    (hr : m.rho ∈ Ioo (-1) 1) (S : ℝ) {T : ℝ} (hT : 0 < T) :
    m.price1 (m.mp.fwd S T) S T cp = Spec.discount m.intr T *
      Spec.gaussE (fun z => Spec.payoff cp (m.mp.fwd S T) (Spec.abm (m.mp.fwd S T) (m.sigma * √T) z)) := by
  have hp := pf_atm_pos (F := m.mp.fwd S T) one_pos hv hr hT
  have e0 : m.sig0FromAtmvol T = m.sigma * √(T / 2 / π) / pf 1 (m.mp.fwd S T) (m.mp.fwd S T) 1 m.vov m.rho T := by
    have hsT : √T ≠ 0 := (sqrt_pos.2 hT).ne'
    unfold sig0FromAtmvol pf dd
    simp only [sub_self, zero_mul, zero_div, zero_sub, one_mul, add_zero, neg_div, arsinh_neg, ← sub_eq_add_neg]
    congr 2
    norm_num
    field_simp
  have hs0 : 0 < m.sig0FromAtmvol T := by rw [e0]; positivity
  have e1 : m.price1 (m.mp.fwd S T) S T cp = m.mp.df T * pf cp (m.mp.fwd S T) (m.mp.fwd S T) (m.sig0FromAtmvol T) m.vov m.rho T := by
    have := price1_eq { m with sigma := m.sig0FromAtmvol T, isAtmvol := false } rfl (m.mp.fwd S T) S T cp
    have e2 : m.price1 (m.mp.fwd S T) S T cp = price1 { m with sigma := m.sig0FromAtmvol T, isAtmvol := false } (m.mp.fwd S T) S T cp := by
      unfold price1
      rw [hatm]
      rfl
    rw [e2, this]
    rfl
  have e3 : pf cp (m.mp.fwd S T) (m.mp.fwd S T) (m.sig0FromAtmvol T) m.vov m.rho T = m.sigma * √(T / 2 / π) := by
    have e4 : pf 1 (m.mp.fwd S T) (m.mp.fwd S T) (m.sig0FromAtmvol T) m.vov m.rho T = m.sigma * √(T / 2 / π) := by
      rw [pf_atm hT, e0]; field_simp
    have := pf_parity (m.mp.fwd S T) (m.mp.fwd S T) (m.sig0FromAtmvol T) m.vov m.rho T
    rcases hcp with rfl | rfl
    · exact e4
    · linarith
  rw [e1, e3, m.mp.df_eq_spec, gaussE_bach hcp (by positivity)]
  congr 1
  unfold bach
  simp only [sub_self, zero_div, mul_zero, zero_mul, zero_add, npdf]
  rw [div_div, sqrt_div hT.le]
  norm_num
  ring

/-- **C62.** `Nsvh1.cdf` is the distribution function of the terminal price when `sigma` is the initial volatility: `P(S_T > K)` for `cp = 1` and
`P(S_T ≤ K)` for `cp = -1`. -/
theorem nsvh1_cdf_correct (m : Nsvh) (hs : 0 < m.sigma) (hv : 0 < m.vov) (hr : m.rho ∈ Ioo (-1) 1) (K S : ℝ) {T : ℝ} (hT : 0 < T) :
    m.cdf1 K S T 1 = Spec.gaussP {z | K < Spec.johnson (Spec.forward m.isFwd m.intr m.divr S T) m.sigma m.vov m.rho T z} ∧
    m.cdf1 K S T (-1) = Spec.gaussP {z | Spec.johnson (Spec.forward m.isFwd m.intr m.divr S T) m.sigma m.vov m.rho T z ≤ K} := by
  set F := Spec.forward m.isFwd m.intr m.divr S T with hF
  have e : ∀ cp, m.cdf1 K S T cp = ncdf (cp * dd F K m.sigma m.vov m.rho T) := by
    intro cp
    have : m.mp.forward S T = F := by rw [m.mp.forward_eq_spec]; rfl
    unfold cdf1 dd
    rw [this]
  rw [e, e]
  have h1 : {z | K < Spec.johnson F m.sigma m.vov m.rho T z} = Ioi (-dd F K m.sigma m.vov m.rho T) := by
    ext z; exact johnson_lt_iff hs hv hr hT z
  have h2 : {z | Spec.johnson F m.sigma m.vov m.rho T z ≤ K} = Iic (-dd F K m.sigma m.vov m.rho T) := by
    ext z; simpa using (johnson_lt_iff (F := F) (K := K) hs hv hr hT z).not
  constructor
  · rw [h1, one_mul]
    unfold Spec.gaussP
    have : Ioi (-dd F K m.sigma m.vov m.rho T) = (Iic (-dd F K m.sigma m.vov m.rho T))ᶜ := by ext; simp
    rw [this, probReal_compl_eq_one_sub measurableSet_Iic]
    have := ncdf_neg (dd F K m.sigma m.vov m.rho T)
    have h3 : ncdf (-dd F K m.sigma m.vov m.rho T) = (gaussianReal 0 1).real (Iic (-dd F K m.sigma m.vov m.rho T)) := rfl
    linarith
  · rw [h2, neg_one_mul]; rfl

lemma atm_strict {x : ℝ} (hx : 0 < x) : 2 * x * npdf 0 < exp (0.5 * x ^ 2) * (2 * ncdf x - 1) := by
  obtain ⟨c, hc, e⟩ := exists_hasDerivAt_eq_slope ncdf npdf hx continuous_ncdf.continuousOn fun y _ => hasDerivAt_ncdf y
  rw [ncdf_zero, sub_zero, eq_div_iff hx.ne'] at e
  have h1 : npdf x < npdf c := by
    unfold npdf
    have : c ^ 2 < x ^ 2 := by nlinarith [hc.1, hc.2]
    gcongr
  have h2 : npdf 0 = exp (0.5 * x ^ 2) * npdf x := by
    unfold npdf
    rw [mul_div_assoc', ← exp_add]
    norm_num
    ring_nf
    simp
  rw [h2]
  have h3 : 0 < exp (0.5 * x ^ 2) := exp_pos _
  have h4 : x * npdf x < ncdf x - 1 / 2 := by rw [← e]; nlinarith
  nlinarith

lemma sig0_lt {m : Nsvh} (hs : 0 < m.sigma) (hv : 0 < m.vov) (hr : m.rho = 0) {T : ℝ} (hT : 0 < T) :
    0 < m.sig0FromAtmvol T ∧ m.sig0FromAtmvol T < m.sigma := by
  have hsT : 0 < √T := sqrt_pos.2 hT
  have hx : 0 < m.vov * √T := by positivity
  have h := atm_strict hx
  have e : m.sig0FromAtmvol T = m.sigma * (2 * (m.vov * √T) * npdf 0) / (exp (0.5 * (m.vov * √T) ^ 2) * (2 * ncdf (m.vov * √T) - 1)) := by
    have h1 : 0 < exp (0.5 * (m.vov * √T) ^ 2) * (2 * ncdf (m.vov * √T) - 1) := lt_trans (by have := npdf_pos 0; positivity) h
    unfold sig0FromAtmvol
    rw [hr]
    simp only [artanh_zero, zero_mul, zero_div, arsinh_zero, sub_zero, zero_add, zero_sub, ncdf_neg, add_zero, one_mul, mul_zero]
    rw [show ncdf (m.vov * √T) - (1 - ncdf (m.vov * √T)) = 2 * ncdf (m.vov * √T) - 1 by ring, mul_assoc (0.5 / m.vov)]
    have e2 : √(T / 2 / π) = √T * npdf 0 := by
      unfold npdf
      rw [div_div, sqrt_div hT.le]
      norm_num
      ring
    rw [e2]
    generalize exp (0.5 * (m.vov * √T) ^ 2) * (2 * ncdf (m.vov * √T) - 1) = Q at h1
    norm_num
    field_simp
  have h0 := npdf_pos 0
  constructor
  · rw [e]
    have : 0 < exp (0.5 * (m.vov * √T) ^ 2) * (2 * ncdf (m.vov * √T) - 1) := lt_trans (by positivity) h
    positivity
  · rw [e, div_lt_iff₀ (lt_trans (by positivity) h)]
    exact mul_lt_mul_of_pos_left h hs

/-- **C62 (disagreement).** `Nsvh1.cdf` ignores `is_atmvol`: with `is_atmvol=True` and `ρ = 0`, at *every* strike other than the forward the value
returned by `cdf` is not the probability under the law that `price` integrates. -/
theorem nsvh1_cdf_ignores_atmvol (m : Nsvh) (hs : 0 < m.sigma) (hv : 0 < m.vov) (hr : m.rho = 0) (K S : ℝ) {T : ℝ} (hT : 0 < T)
    (hK : K ≠ Spec.forward m.isFwd m.intr m.divr S T) :
    m.cdf1 K S T (-1) ≠ Spec.gaussP {z | Spec.johnson (Spec.forward m.isFwd m.intr m.divr S T) (m.sig0FromAtmvol T) m.vov m.rho T z ≤ K} := by
  obtain ⟨h0, h1⟩ := sig0_lt hs hv hr hT
  have hr' : m.rho ∈ Ioo (-1) 1 := by rw [hr]; constructor <;> norm_num
  have e := (nsvh1_cdf_correct { m with sigma := m.sig0FromAtmvol T } h0 hv hr' K S hT).2
  have hsT : 0 < √T := sqrt_pos.2 hT
  intro h
  have h2 : m.cdf1 K S T (-1) = cdf1 { m with sigma := m.sig0FromAtmvol T } K S T (-1) := by rw [h, e]
  have hf : m.mp.forward S T - K ≠ 0 := by
    rw [m.mp.forward_eq_spec, sub_ne_zero]; exact hK.symm
  have hf' : mp { m with sigma := m.sig0FromAtmvol T } = { m.mp with sigma := m.sig0FromAtmvol T } := rfl
  unfold cdf1 at h2
  have h3 := strictMono_ncdf.injective h2
  simp only [hr, artanh_zero, zero_add, zero_mul, sub_zero] at h3
  norm_num at h3
  have h4 : m.vov * √T ≠ 0 := by positivity
  have h5 := (div_left_inj' h4).1 h3
  have h6 := arsinh_injective h5
  have h7 : (m.mp.forward S T - K) * (m.vov * √T) / (m.sigma * √T) = (m.mp.forward S T - K) * (m.vov * √T) / (m.sig0FromAtmvol T * √T) := h6
  rw [div_eq_div_iff (by positivity) (by positivity)] at h7
  have h8 := mul_left_cancel₀ (mul_ne_zero hf h4) h7
  have h9 := mul_right_cancel₀ hsT.ne' h8
  linarith

end Nsvh
end PyFENG
