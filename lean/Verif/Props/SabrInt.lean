import Verif.Model.SabrInt
import Verif.Props.SabrVol
import Verif.Props.CevLaw
import Verif.Props.DistQuad
import Verif.Props.BsmImpvol
import Verif.Props.Params

/-!
# C62, C102, C103: SABR prices as quadrature mixtures and one-dimensional integrals
-/

namespace PyFENG

open Real MeasureTheory Set ProbabilityTheory
open scoped Topology ENNReal

set_option linter.unusedSimpArgs false

namespace Sabr

lemma mp_fwd (m : Sabr) (S T : ℝ) : m.mp.forward S T = Spec.forward m.isFwd m.intr m.divr S T := by
  rw [MParams.forward_eq_spec]; rfl

/-- **C102.** Every mixture price: call minus put is the discounted (mean of the forward ratios times the forward, minus strike), whatever the nodes. -/
theorem mix_parity_defect {ι : Type*} [Fintype ι] (m : Sabr) (correct : Bool) (fr vr w : ι → ℝ) {K S T : ℝ}
    (hF : Spec.forward m.isFwd m.intr m.divr S T ≠ 0) (hw : ∑ i, w i = 1)
    (hn : ¬ npIsclose m.beta 1 → npIsclose m.beta 0 → ∀ i, eps ≤ m.sigma / Spec.forward m.isFwd m.intr m.divr S T ^ (1 - m.beta) * vr i * √T) :
    ∃ c p, m.mixPrice correct fr vr w K S T 1 = some c ∧ m.mixPrice correct fr vr w K S T (-1) = some p ∧
      c - p = Spec.discount m.intr T * (Spec.forward m.isFwd m.intr m.divr S T * (∑ i, mixFwd correct fr w i * w i) - K) := by
  classical
  unfold mixPrice
  simp only [mp_fwd, vars]
  rw [hw, if_pos (close_self 1), if_pos (close_self 1)]
  refine ⟨_, _, rfl, rfl, ?_⟩
  generalize hFd : Spec.forward m.isFwd m.intr m.divr S T = F at *
  rw [← mul_sub, ← Finset.sum_sub_distrib]
  have e : ∀ i, ({ m with isFwd := true } : Sabr).basePrice none (m.sigma / F ^ (1 - m.beta) * vr i) (K / F) (mixFwd correct fr w i) T 1 * w i
      - ({ m with isFwd := true } : Sabr).basePrice none (m.sigma / F ^ (1 - m.beta) * vr i) (K / F) (mixFwd correct fr w i) T (-1) * w i
      = Spec.discount m.intr T * (mixFwd correct fr w i * w i - K / F * w i) := by
    intro i
    have h := base_parity { m with isFwd := true } none (m.sigma / F ^ (1 - m.beta) * vr i) (K / F) (mixFwd correct fr w i) T (fun h1 h2 => hn h1 h2 i)
    unfold Spec.Parity at h
    rw [← sub_mul, h]
    simp only [Spec.forward, if_true]
    ring
  simp only [e]
  rw [← Finset.mul_sum, Finset.sum_sub_distrib, ← Finset.mul_sum, hw]
  field_simp

/-- **C102.** With `correct_fwd=True` put-call parity is exact, whatever the nodes. -/
theorem mix_parity_corrected {ι : Type*} [Fintype ι] (m : Sabr) (fr vr w : ι → ℝ) {K S T : ℝ}
    (hF : Spec.forward m.isFwd m.intr m.divr S T ≠ 0) (hw : ∑ i, w i = 1) (hr : ∑ i, fr i * w i ≠ 0)
    (hn : ¬ npIsclose m.beta 1 → npIsclose m.beta 0 → ∀ i, eps ≤ m.sigma / Spec.forward m.isFwd m.intr m.divr S T ^ (1 - m.beta) * vr i * √T) :
    ∃ c p, m.mixPrice true fr vr w K S T 1 = some c ∧ m.mixPrice true fr vr w K S T (-1) = some p ∧
      Spec.Parity c p (Spec.discount m.intr T) (Spec.forward m.isFwd m.intr m.divr S T) K := by
  obtain ⟨c, p, h1, h2, h3⟩ := m.mix_parity_defect true fr vr w hF hw hn (K := K)
  refine ⟨c, p, h1, h2, ?_⟩
  have e : ∑ i, mixFwd true fr w i * w i = 1 := by
    unfold mixFwd
    simp only [if_true, div_mul_eq_mul_div]
    rw [← Finset.sum_div, div_self hr]
  rw [e, mul_one] at h3
  exact h3

lemma avgvar_mean_pos (v : ℝ) : 0 < (avgvarMvsk v).1 := by
  unfold avgvarMvsk
  exact exprel_pos _

lemma uncorr_vr_pos {ι : Type*} [Fintype ι] (m : Sabr) (z w : ι → ℝ) (T : ℝ) (i : ι) : 0 < (m.uncorrNodes z w T).2.1 i := by
  unfold uncorrNodes
  simp only
  apply sqrt_pos.2
  unfold DistLognormal.quad DistLognormal.fromMv DistLognormal.fit2
  simp only [Option.getD_some, sub_self, zero_add, one_mul]
  exact mul_pos (avgvar_mean_pos _) (by positivity)

lemma uncorr_w {ι : Type*} [Fintype ι] [Nonempty ι] (m : Sabr) {n : ℕ} {z w : ι → ℝ} {wSum : ℝ} (h : Spec.IsHermiteRule n z w wSum) (T : ℝ) :
    (∀ i, 0 < (m.uncorrNodes z w T).2.2 i) ∧ ∑ i, (m.uncorrNodes z w T).2.2 i = 1 := by
  have := DistLognormal.quad_normalised (DistLognormal.fromMv (avgvarMvsk (m.vov * √T)).1 (avgvarMvsk (m.vov * √T)).2.1 1) n z w wSum h
  exact ⟨this.1, this.2.1⟩

lemma uncorr_mixFwd {ι : Type*} [Fintype ι] [Nonempty ι] (m : Sabr) {n : ℕ} {z w : ι → ℝ} {wSum : ℝ} (h : Spec.IsHermiteRule n z w wSum) (T : ℝ) (b : Bool) (i : ι) :
    mixFwd b (m.uncorrNodes z w T).1 (m.uncorrNodes z w T).2.2 i = 1 := by
  have h1 : (m.uncorrNodes z w T).1 = fun _ => 1 := rfl
  unfold mixFwd
  rw [h1]
  simp only [one_mul, (m.uncorr_w h T).2]
  simp

/-- **C102.** `SabrUncorrChoiWu2021`: put-call parity is exact at every quadrature order. -/
theorem uncorr_parity {ι : Type*} [Fintype ι] [Nonempty ι] (m : Sabr) (correct : Bool) {n : ℕ} {z w : ι → ℝ} {wSum : ℝ} (h : Spec.IsHermiteRule n z w wSum) {K S T : ℝ}
    (hF : Spec.forward m.isFwd m.intr m.divr S T ≠ 0)
    (hn : ¬ npIsclose m.beta 1 → npIsclose m.beta 0 → ∀ i, eps ≤ m.sigma / Spec.forward m.isFwd m.intr m.divr S T ^ (1 - m.beta) * (m.uncorrNodes z w T).2.1 i * √T) :
    ∃ c p, m.uncorrPrice correct z w K S T 1 = some c ∧ m.uncorrPrice correct z w K S T (-1) = some p ∧
      Spec.Parity c p (Spec.discount m.intr T) (Spec.forward m.isFwd m.intr m.divr S T) K := by
  obtain ⟨c, p, h1, h2, h3⟩ := m.mix_parity_defect correct (m.uncorrNodes z w T).1 (m.uncorrNodes z w T).2.1 (m.uncorrNodes z w T).2.2 hF (m.uncorr_w h T).2 hn (K := K)
  refine ⟨c, p, h1, h2, ?_⟩
  simp only [m.uncorr_mixFwd h, one_mul, (m.uncorr_w h T).2, mul_one] at h3
  exact h3

/-- **C102.** `SabrUncorrChoiWu2021` for `0 < beta < 1` is free of arbitrage at every quadrature order: all prices of one expiry are discounted expected payoffs under a
single law of `S_T / F`, a probability on `[0, ∞)` with mean one, whose atom at zero is the value of `mass_zero`. -/
theorem uncorr_law {ι : Type*} [Fintype ι] [Nonempty ι] (m : Sabr) (correct : Bool) {n : ℕ} {z w : ι → ℝ} {wSum : ℝ} (h : Spec.IsHermiteRule n z w wSum) {S T : ℝ}
    (hb : m.beta < 1) (hb1 : ¬ npIsclose m.beta 1) (hb0 : ¬ npIsclose m.beta 0) (hs : 0 < m.sigma) (hS : 0 < S) (hT : 0 < T)
    (hv : ∀ i, eps ≤ (m.sigma / Spec.forward m.isFwd m.intr m.divr S T ^ (1 - m.beta) * (m.uncorrNodes z w T).2.1 i) ^ 2 * T) :
    ∃ μ : Measure ℝ, IsProbabilityMeasure μ ∧ μ (Iio 0) = 0 ∧ Integrable (fun x => x) μ ∧ ∫ x, x ∂μ = 1 ∧ m.uncorrMass correct z w S T = (μ {0}).toReal ∧
      ∀ K > 0, ∀ cp, Spec.IsCp cp → m.uncorrPrice correct z w K S T cp
        = some (Spec.discount m.intr T * ∫ x, Spec.payoff cp K (Spec.forward m.isFwd m.intr m.divr S T * x) ∂μ) := by
  classical
  have hF : 0 < Spec.forward m.isFwd m.intr m.divr S T := by
    unfold Spec.forward; split_ifs
    · exact hS
    · positivity
  obtain ⟨w1, w2⟩ := m.uncorr_w h T
  have fr1 := m.uncorr_mixFwd h T correct
  have vp := m.uncorr_vr_pos z w T
  unfold uncorrMass uncorrPrice mixMass mixPrice basePrice
  simp only [mp_fwd, vars, fr1, w2, if_pos (close_self 1), Option.getD_none, if_neg hb1, if_neg hb0]
  generalize Spec.forward m.isFwd m.intr m.divr S T = F at *
  generalize (m.uncorrNodes z w T).2.1 = vr at *
  generalize (m.uncorrNodes z w T).2.2 = ww at *
  have al : 0 < m.sigma / F ^ (1 - m.beta) := by positivity
  have key := fun i => Cev.cev_price_eq_expectation ⟨m.sigma / F ^ (1 - m.beta) * vr i, m.beta, m.intr, m.divr, true⟩ hb (mul_pos al (vp i)) one_pos hT
    (by simpa [Spec.forward] using hv i)
  choose μ p1 p2 p3 p4 p5 p6 using key
  have fin : ∀ i, IsFiniteMeasure (μ i) := fun i => inferInstance
  have tr : ∀ i, (ENNReal.ofReal (ww i)).toReal = ww i := fun i => ENNReal.toReal_ofReal (w1 i).le
  have hint : ∀ f : ℝ → ℝ, (∀ i, Integrable f (μ i)) → Integrable f (∑ i, ENNReal.ofReal (ww i) • μ i) ∧
      ∫ x, f x ∂(∑ i, ENNReal.ofReal (ww i) • μ i) = ∑ i, ww i * ∫ x, f x ∂(μ i) := by
    intro f hf
    have hi : ∀ i, Integrable f (ENNReal.ofReal (ww i) • μ i) := fun i => (hf i).smul_measure ENNReal.ofReal_ne_top
    refine ⟨integrable_finsetSum_measure.2 fun i _ => hi i, ?_⟩
    rw [integral_finsetSum_measure fun i _ => hi i]
    refine Finset.sum_congr rfl fun i _ => ?_
    rw [integral_smul_measure, tr, smul_eq_mul]
  have happ : ∀ s : Set ℝ, (∑ i, ENNReal.ofReal (ww i) • μ i) s = ∑ i, ENNReal.ofReal (ww i) * μ i s := by
    intro s
    simp [Measure.finsetSum_apply]
  refine ⟨∑ i, ENNReal.ofReal (ww i) • μ i, ⟨?_⟩, ?_, (hint _ p3).1, ?_, ?_, ?_⟩
  · rw [happ]
    simp only [measure_univ, mul_one]
    rw [← ENNReal.ofReal_sum_of_nonneg fun i _ => (w1 i).le, w2, ENNReal.ofReal_one]
  · rw [happ]
    simp [p2]
  · rw [(hint _ p3).2]
    simp only [p4]
    simp [Spec.forward, w2]
  · rw [happ, ENNReal.toReal_sum fun i _ => ENNReal.mul_ne_top ENNReal.ofReal_ne_top (measure_ne_top _ _)]
    refine Finset.sum_congr rfl fun i _ => ?_
    rw [p5, ENNReal.toReal_mul, tr, Option.getD_some, mul_comm]
  · intro K hK cp hcp
    have hpi : ∀ i, Integrable (fun x => Spec.payoff cp K (F * x)) (μ i) := by
      intro i
      unfold Spec.payoff
      exact ((((p3 i).const_mul F).sub (integrable_const K)).const_mul cp).pos_part
    rw [(hint _ hpi).2]
    congr 1
    rw [Finset.mul_sum, Finset.mul_sum]
    refine Finset.sum_congr rfl fun i _ => ?_
    rw [p6 i (K / F) (div_pos hK hF) cp hcp]
    have e : ∀ x, Spec.payoff cp K (F * x) = F * Spec.payoff cp (K / F) x := by
      intro x
      unfold Spec.payoff
      rw [mul_max_of_nonneg _ _ hF.le, mul_zero]
      congr 1
      field_simp
    simp only [e]
    rw [integral_const_mul]
    ring

/-- **C102.** The `log=True` branch of `mass_zero` is the logarithm of the `log=False` value: the shift by the largest term is immaterial. -/
theorem mix_mass_log {ι : Type*} [Fintype ι] [Nonempty ι] (mass w : ι → ℝ) (hw : ∀ i, 0 < w i) (hm : ∀ i, 0 < mass i) :
    mixMassLog (fun i => log (mass i)) w = log (∑ i, mass i * w i) := by
  unfold mixMassLog
  simp only
  generalize Finset.univ.sup' Finset.univ_nonempty (fun i => log (w i) + log (mass i)) = L
  have e : ∀ i, exp (log (w i) + log (mass i) - L) = exp (-L) * (mass i * w i) := by
    intro i
    rw [sub_eq_add_neg, exp_add, exp_add, exp_log (hw i), exp_log (hm i)]; ring
  simp only [e]
  rw [← Finset.mul_sum, log_mul (exp_pos _).ne' (Finset.sum_pos (fun i _ => mul_pos (hm i) (hw i)) Finset.univ_nonempty).ne', log_exp]
  ring

lemma choi_w {ι κ : Type*} [Fintype ι] [Fintype κ] [Nonempty ι] [Nonempty κ] (m : Sabr) {n0 n1 : ℕ} {z0 w0 : ι → ℝ} {z1 w1 : κ → ℝ} {s0 s1 : ℝ}
    (h0 : Spec.IsHermiteRule n0 z0 w0 s0) (h1 : Spec.IsHermiteRule n1 z1 w1 s1) (F T : ℝ) :
    ∑ p, (m.choiNode z0 w0 z1 w1 F T p).2.2.2 = 1 ∧ ∑ p, (m.choiNode z0 w0 z1 w1 F T p).1 * (m.choiNode z0 w0 z1 w1 F T p).2.2.2 = 1 := by
  obtain ⟨-, a2, a3⟩ := DistLognormal.quad_normalised (⟨(m.vars F T).vovn, 1, 1⟩ : DistLognormal) n0 z0 w0 s0 h0
  have b := fun i => (DistLognormal.quad_normalised (DistLognormal.fromMv (condAvgvarMvsk (m.vars F T).vovn (z0 i)).1 (condAvgvarMvsk (m.vars F T).vovn (z0 i)).2.1 (5 / 6)) n1 z1 w1 s1 h1).2.1
  unfold choiNode
  simp only [Fintype.sum_prod_type]
  constructor
  · simp only [← Finset.mul_sum, b, mul_one]; exact a2
  · simp only [← mul_assoc, ← Finset.mul_sum, b, mul_one]
    exact Eq.trans (Finset.sum_congr rfl fun i _ => mul_comm _ _) a3

/-- **C102.** `SabrMixtureChoi` with `beta = 0`: put-call parity is exact at every pair of quadrature orders, with or without `correct_fwd`. -/
theorem choi_parity_norm {ι κ : Type*} [Fintype ι] [Fintype κ] [Nonempty ι] [Nonempty κ] (m : Sabr) (correct : Bool) {n0 n1 : ℕ} {z0 w0 : ι → ℝ} {z1 w1 : κ → ℝ} {s0 s1 : ℝ}
    (h0 : Spec.IsHermiteRule n0 z0 w0 s0) (h1 : Spec.IsHermiteRule n1 z1 w1 s1) (hb : m.beta = 0) {K S T : ℝ} (hF : Spec.forward m.isFwd m.intr m.divr S T ≠ 0)
    (hn : ∀ p, eps ≤ m.sigma / Spec.forward m.isFwd m.intr m.divr S T
      * (m.choiNode z0 w0 z1 w1 (Spec.forward m.isFwd m.intr m.divr S T) T p).2.2.1 * √T) :
    ∃ c p, m.choiPrice correct z0 w0 z1 w1 K S T 1 = some c ∧ m.choiPrice correct z0 w0 z1 w1 K S T (-1) = some p ∧
      Spec.Parity c p (Spec.discount m.intr T) (Spec.forward m.isFwd m.intr m.divr S T) K := by
  unfold choiPrice choiFwd
  have hcl : npIsclose m.beta 0 := by rw [hb]; exact close_self 0
  simp only [mp_fwd, if_pos hcl, Option.isSome_some, implies_true, if_true, Option.getD_some]
  generalize hFd : Spec.forward m.isFwd m.intr m.divr S T = F at *
  obtain ⟨c1, c2⟩ := m.choi_w h0 h1 F T
  have e : ∑ p, (1 + m.rho * (m.vars F T).alpha / m.vov * ((m.choiNode z0 w0 z1 w1 F T p).1 - 1)) * (m.choiNode z0 w0 z1 w1 F T p).2.2.2 = 1 := by
    have : ∀ p, (1 + m.rho * (m.vars F T).alpha / m.vov * ((m.choiNode z0 w0 z1 w1 F T p).1 - 1)) * (m.choiNode z0 w0 z1 w1 F T p).2.2.2
        = (1 - m.rho * (m.vars F T).alpha / m.vov) * (m.choiNode z0 w0 z1 w1 F T p).2.2.2
          + m.rho * (m.vars F T).alpha / m.vov * ((m.choiNode z0 w0 z1 w1 F T p).1 * (m.choiNode z0 w0 z1 w1 F T p).2.2.2) := fun p => by ring
    simp only [this]
    rw [Finset.sum_add_distrib, ← Finset.mul_sum, ← Finset.mul_sum, c1, c2]
    ring
  obtain ⟨c, p, g1, g2, g3⟩ := m.mix_parity_defect correct (fun p => 1 + m.rho * (m.vars F T).alpha / m.vov * ((m.choiNode z0 w0 z1 w1 F T p).1 - 1))
    (fun p => (m.choiNode z0 w0 z1 w1 F T p).2.2.1) (fun p => (m.choiNode z0 w0 z1 w1 F T p).2.2.2) (K := K) (S := S) (T := T) (by rw [hFd]; exact hF) c1
    (by intro _ _; rw [hFd, hb]; simpa using hn)
  refine ⟨c, p, g1, g2, ?_⟩
  have e2 : ∑ p, mixFwd correct (fun p => 1 + m.rho * (m.vars F T).alpha / m.vov * ((m.choiNode z0 w0 z1 w1 F T p).1 - 1)) (fun p => (m.choiNode z0 w0 z1 w1 F T p).2.2.2) p
      * (m.choiNode z0 w0 z1 w1 F T p).2.2.2 = 1 := by
    unfold mixFwd
    rw [e]
    cases correct
    · simpa using e
    · simpa using e
  rw [e2, hFd, mul_one] at g3
  exact g3

/-- The terminal price of SABR with `beta = 1` given the terminal volatility ratio `x = σ_T/σ_0` and the average variance ratio `a`, driven by an independent standard
normal value. -/
noncomputable def Spec.sabrLogn (F σ ν ρ T x a z : ℝ) : ℝ :=
  F * exp (ρ * σ / ν * (x - 1) - σ ^ 2 * T * a / 2 + √(1 - ρ ^ 2) * σ * √a * √T * z)

/-- The terminal price of SABR with `beta = 0` given the terminal volatility ratio and the average variance ratio. -/
noncomputable def Spec.sabrNorm (F σ ν ρ T x a z : ℝ) : ℝ := F + ρ * σ / ν * (x - 1) + √(1 - ρ ^ 2) * σ * √a * √T * z

/-- **C102.** `SabrMixtureChoi` with `beta = 1` (no forward correction, floor at `1e-20` not active): the price is the quadrature average of the exact conditional prices
given the terminal volatility and the average variance. -/
theorem choi_conditional_logn {ι κ : Type*} [Fintype ι] [Fintype κ] [Nonempty ι] [Nonempty κ] (m : Sabr) {n0 n1 : ℕ} {z0 w0 : ι → ℝ} {z1 w1 : κ → ℝ} {s0 s1 : ℝ}
    (h0 : Spec.IsHermiteRule n0 z0 w0 s0) (h1 : Spec.IsHermiteRule n1 z1 w1 s1) (hb : m.beta = 1) (hr : m.rho ∈ Icc (-1) 1) {K S T cp : ℝ} (hcp : Spec.IsCp cp)
    (hK : 0 < K) (hS : 0 < S) (hT : 0 ≤ T) (F : ℝ) (hF : F = Spec.forward m.isFwd m.intr m.divr S T)
    (ha : ∀ p, 0 ≤ (m.choiNode z0 w0 z1 w1 F T p).2.1)
    (hv : ∀ p, eps ≤ m.sigma * (m.choiNode z0 w0 z1 w1 F T p).2.2.1 * √T)
    (hfl : ∀ p, 1e-20 ≤ exp (m.rho * m.sigma / m.vov * ((m.choiNode z0 w0 z1 w1 F T p).1 - 1) - (m.rho * m.sigma) ^ 2 * T * (m.choiNode z0 w0 z1 w1 F T p).2.1 / 2)) :
    m.choiPrice false z0 w0 z1 w1 K S T cp = some (∑ p, (m.choiNode z0 w0 z1 w1 F T p).2.2.2 * (Spec.discount m.intr T * Spec.gaussE fun z => Spec.payoff cp K
      (Spec.sabrLogn F m.sigma m.vov m.rho T (m.choiNode z0 w0 z1 w1 F T p).1 (m.choiNode z0 w0 z1 w1 F T p).2.1 z))) := by
  classical
  have hF0 : 0 < F := by
    rw [hF]; unfold Spec.forward; split_ifs
    · exact hS
    · positivity
  have hcl : ¬ npIsclose m.beta 0 := by rw [hb]; unfold npIsclose; norm_num
  have hcl1 : npIsclose m.beta 1 := by rw [hb]; exact close_self 1
  have hbp : m.beta > 0 := by rw [hb]; norm_num
  obtain ⟨c1, -⟩ := m.choi_w h0 h1 F T
  unfold choiPrice choiFwd
  simp only [mp_fwd, ← hF, if_neg hcl, if_pos hbp, Option.isSome_some, implies_true, if_true, Option.getD_some]
  unfold mixPrice basePrice mixFwd
  simp only [mp_fwd, ← hF, c1, if_pos (close_self 1), Option.getD_none, if_pos hcl1, Bool.false_eq_true, if_false]
  congr 1
  have hal : (m.vars F T).alpha = m.sigma := by unfold vars; simp [hb]
  rw [hal, Finset.mul_sum]
  refine Finset.sum_congr rfl fun p _ => ?_
  have ha := ha p
  have hv := hv p
  have hfl := hfl p
  have hrv : (m.choiNode z0 w0 z1 w1 F T p).2.2.1 = √(1 - m.rho ^ 2) * √(m.choiNode z0 w0 z1 w1 F T p).2.1 := rfl
  rw [hrv] at hv ⊢
  generalize (m.choiNode z0 w0 z1 w1 F T p).1 = x at *
  generalize (m.choiNode z0 w0 z1 w1 F T p).2.1 = a at *
  have e1 : m.rho * m.sigma * ((x - 1) / m.vov - 0.5 * (m.rho * m.sigma) * T * a) = m.rho * m.sigma / m.vov * (x - 1) - (m.rho * m.sigma) ^ 2 * T * a / 2 := by ring
  rw [e1, max_eq_left hfl, bsm_price_eq_expectation _ hcp (div_pos hK hF0) (exp_pos _) hv]
  have e2 : ∀ z, Spec.payoff cp K (Spec.sabrLogn F m.sigma m.vov m.rho T x a z) = F * Spec.payoff cp (K / F)
      (Spec.gbm (exp (m.rho * m.sigma / m.vov * (x - 1) - (m.rho * m.sigma) ^ 2 * T * a / 2)) (m.sigma * (√(1 - m.rho ^ 2) * √a) * √T) z) := by
    intro z
    unfold Spec.payoff
    rw [mul_max_of_nonneg _ _ hF0.le, mul_zero]
    congr 1
    have h1r : (0:ℝ) ≤ 1 - m.rho ^ 2 := by nlinarith [hr.1, hr.2]
    have e3 : (m.sigma * (√(1 - m.rho ^ 2) * √a) * √T) ^ 2 = m.sigma ^ 2 * ((1 - m.rho ^ 2) * a) * T := by
      rw [mul_pow, mul_pow, mul_pow, sq_sqrt h1r, sq_sqrt ha, sq_sqrt hT]
    have e4 : Spec.sabrLogn F m.sigma m.vov m.rho T x a z
        = F * Spec.gbm (exp (m.rho * m.sigma / m.vov * (x - 1) - (m.rho * m.sigma) ^ 2 * T * a / 2)) (m.sigma * (√(1 - m.rho ^ 2) * √a) * √T) z := by
      unfold Spec.sabrLogn Spec.gbm
      rw [e3, ← exp_add]
      congr 2
      ring
    rw [e4]
    field_simp
  simp only [e2, Spec.gaussE, Spec.forward, if_true]
  rw [integral_const_mul]
  ring

/-- **C102.** `SabrMixtureChoi` with `beta = 0` (no forward correction): the price is the quadrature average of the exact conditional prices given the terminal volatility
and the average variance. -/
theorem choi_conditional_norm {ι κ : Type*} [Fintype ι] [Fintype κ] [Nonempty ι] [Nonempty κ] (m : Sabr) {n0 n1 : ℕ} {z0 w0 : ι → ℝ} {z1 w1 : κ → ℝ} {s0 s1 : ℝ}
    (h0 : Spec.IsHermiteRule n0 z0 w0 s0) (h1 : Spec.IsHermiteRule n1 z1 w1 s1) (hb : m.beta = 0) {K S T cp : ℝ} (hcp : Spec.IsCp cp)
    (F : ℝ) (hF : F = Spec.forward m.isFwd m.intr m.divr S T) (hF0 : 0 < F)
    (hv : ∀ p, eps ≤ m.sigma / F * (m.choiNode z0 w0 z1 w1 F T p).2.2.1 * √T) :
    m.choiPrice false z0 w0 z1 w1 K S T cp = some (∑ p, (m.choiNode z0 w0 z1 w1 F T p).2.2.2 * (Spec.discount m.intr T * Spec.gaussE fun z => Spec.payoff cp K
      (Spec.sabrNorm F m.sigma m.vov m.rho T (m.choiNode z0 w0 z1 w1 F T p).1 (m.choiNode z0 w0 z1 w1 F T p).2.1 z))) := by
  classical
  have hcl : npIsclose m.beta 0 := by rw [hb]; exact close_self 0
  have hcl1 : ¬ npIsclose m.beta 1 := by rw [hb]; exact not_close_zero_one
  obtain ⟨c1, -⟩ := m.choi_w h0 h1 F T
  unfold choiPrice choiFwd
  simp only [mp_fwd, ← hF, if_pos hcl, Option.isSome_some, implies_true, if_true, Option.getD_some]
  unfold mixPrice basePrice mixFwd
  simp only [mp_fwd, ← hF, c1, if_pos (close_self 1), Option.getD_none, if_neg hcl1, if_pos hcl, Bool.false_eq_true, if_false]
  congr 1
  have hal : (m.vars F T).alpha = m.sigma / F := by unfold vars; simp [hb]
  rw [hal, Finset.mul_sum]
  refine Finset.sum_congr rfl fun p _ => ?_
  have hv := hv p
  have hrv : (m.choiNode z0 w0 z1 w1 F T p).2.2.1 = √(1 - m.rho ^ 2) * √(m.choiNode z0 w0 z1 w1 F T p).2.1 := rfl
  rw [hrv] at hv ⊢
  generalize (m.choiNode z0 w0 z1 w1 F T p).1 = x at *
  generalize (m.choiNode z0 w0 z1 w1 F T p).2.1 = a at *
  rw [norm_price_eq_expectation _ hcp hv]
  have e2 : ∀ z, Spec.payoff cp K (Spec.sabrNorm F m.sigma m.vov m.rho T x a z) = F * Spec.payoff cp (K / F)
      (Spec.abm (1 + m.rho * (m.sigma / F) / m.vov * (x - 1)) (m.sigma / F * (√(1 - m.rho ^ 2) * √a) * √T) z) := by
    intro z
    unfold Spec.payoff
    rw [mul_max_of_nonneg _ _ hF0.le, mul_zero]
    congr 1
    unfold Spec.sabrNorm Spec.abm
    rw [show m.rho * (m.sigma / F) / m.vov * (x - 1) = m.rho * m.sigma / m.vov * (x - 1) / F by ring]
    field_simp
  simp only [e2, Spec.gaussE, Spec.forward, if_true]
  rw [integral_const_mul]
  ring

/-! ## One-dimensional integrals -/

/-- **C103 (disagreement).** `SabrNormAnalytic` and `SabrNormEllipeInt` cannot be constructed: the second positional argument of the inherited initialiser is `beta`, which
is also given by keyword, so every call raises `TypeError`. -/
theorem normInt_never_constructed (sigma vov rho intr divr : ℝ) (isFwd : Bool) : normIntInit sigma vov rho intr divr isFwd = .error .typeError := by
  unfold normIntInit constructPos
  simp [positionalNames, sabrParams, sabrFields, cevFields, inheritFields, baseFields, numField]

lemma arsinh_abs (x : ℝ) : arsinh |x| = |arsinh x| := by
  rcases le_total 0 x with h | h
  · rw [abs_of_nonneg h, abs_of_nonneg (arsinh_nonneg_iff.2 h)]
  · rw [abs_of_nonpos h, abs_of_nonpos (arsinh_nonpos_iff.2 h), arsinh_neg]

/-- **C103.** The lower integration limit `u0` of both formulas is the geodesic distance from the initial point to the strike line, over `vov √T`. -/
theorem normInt_u0_geodesic (m : Sabr) (hr : |m.rho| < 1) (K F : ℝ) {T : ℝ} (hv : m.vov * √T ≠ 0) :
    (m.niVars K F T).2.2.2 * (m.vov * √T) = |Spec.geo m.rho (m.vov / m.sigma * (K - F))| := by
  have hr' := abs_lt.1 hr
  unfold niVars
  simp only
  rw [geo_eq hr]
  generalize m.vov / m.sigma * (K - F) = z
  have hV : √((z + m.rho) ^ 2 + (1 - m.rho ^ 2)) = vv z m.rho := by unfold vv; congr 1; ring
  rw [hV, show 2 * (m.vov * √T / 2) = m.vov * √T by ring, div_mul_cancel₀ _ hv, arsinh_abs, ← abs_neg, ← arsinh_neg]
  congr 1
  have hvv := abs_lt.1 (vv_gt hr z)
  have hp : 0 < vv z m.rho + z + m.rho := by linarith
  have h1 : 0 < 1 + m.rho := by linarith
  have h2 : 0 < 1 - m.rho := by linarith
  have hV2 : vv z m.rho ^ 2 = 1 + z * (z + 2 * m.rho) := by
    unfold vv
    rw [sq_sqrt]
    nlinarith [sq_nonneg (z + m.rho), mul_pos h1 h2]
  rw [← sinh_inj, sinh_arsinh, sinh_eq, exp_neg, exp_log (div_pos hp h1), inv_div]
  have h12 : (1 - m.rho ^ 2) = (1 + m.rho) * (1 - m.rho) := by ring
  have e : (1 + m.rho) / (vv z m.rho + z + m.rho) = (vv z m.rho - z - m.rho) / (1 - m.rho) := by
    rw [div_eq_div_iff hp.ne' h2.ne']
    nlinarith
  rw [e, h12]
  field_simp
  ring

/-- **C103.** Put-call parity of `SabrNormAnalytic.price`, with and without the quadrature correction. -/
theorem normAnalytic_parity (m : Sabr) (corr : Bool) (vs : List (ℝ × ℝ)) (K S T : ℝ) :
    Spec.Parity (m.niPrice corr vs K S T 1) (m.niPrice corr vs K S T (-1)) (m.mp.df T) (m.mp.fwd S T) K := by
  unfold Spec.Parity niPrice
  simp only
  have h : max (1 * (m.mp.fwd S T - K)) 0 - max (-1 * (m.mp.fwd S T - K)) 0 = m.mp.fwd S T - K := by
    rw [one_mul, neg_one_mul]; exact max_zero_sub_max_neg_zero_eq_self _
  rw [← mul_sub, add_sub_add_left_eq_sub, h]

/-- **C103.** Put-call parity of `SabrNormEllipeInt.price`, whatever number the adaptive integrator returns. -/
theorem normEllipe_parity (m : Sabr) (quad : (ℝ → ℝ) → ℝ → ℝ → ℝ) (K S T : ℝ) :
    Spec.Parity (m.eiPrice quad K S T 1) (m.eiPrice quad K S T (-1)) (m.mp.df T) (m.mp.fwd S T) K := by
  unfold Spec.Parity eiPrice
  simp only
  have h : max (1 * (m.mp.fwd S T - K)) 0 - max (-1 * (m.mp.fwd S T - K)) 0 = m.mp.fwd S T - K := by
    rw [one_mul, neg_one_mul]; exact max_zero_sub_max_neg_zero_eq_self _
  rw [← mul_sub, add_sub_add_left_eq_sub, h]

lemma niVars_reflect (m : Sabr) (K F T : ℝ) :
    ({ m with rho := -m.rho } : Sabr).niVars (2 * F - K) F T = ((m.niVars K F T).1, -(m.niVars K F T).2.1, (m.niVars K F T).2.2.1, (m.niVars K F T).2.2.2) := by
  unfold niVars
  simp only
  have e : m.vov / m.sigma * (2 * F - K - F) + -m.rho = -(m.vov / m.sigma * (K - F) + m.rho) := by ring
  rw [e, neg_sq, neg_sq]
  refine Prod.ext rfl (Prod.ext rfl (Prod.ext rfl ?_))
  simp only
  congr 2
  rw [show ∀ V k : ℝ, -m.rho * V - -k = -(m.rho * V - k) from fun V k => by ring, neg_div, abs_neg]

/-- **C103.** Reflection symmetry of the normal SABR model: changing the sign of the correlation and reflecting the strike about the forward exchanges calls and puts, for
the analytic formula (with or without correction) and for the integral. -/
theorem normInt_reflection (m : Sabr) (corr : Bool) (vs : List (ℝ × ℝ)) (quad : (ℝ → ℝ) → ℝ → ℝ → ℝ) (K S T cp : ℝ) :
    ({ m with rho := -m.rho } : Sabr).niPrice corr vs (2 * m.mp.fwd S T - K) S T (-cp) = m.niPrice corr vs K S T cp ∧
    ({ m with rho := -m.rho } : Sabr).eiPrice quad (2 * m.mp.fwd S T - K) S T (-cp) = m.eiPrice quad K S T cp := by
  have hf : ({ m with rho := -m.rho } : Sabr).mp = m.mp := rfl
  have e1 : ∀ F : ℝ, -cp * (F - (2 * F - K)) = cp * (F - K) := fun F => by ring
  constructor
  · unfold niPrice
    simp only [hf, niVars_reflect, e1]
    generalize m.niVars K (m.mp.fwd S T) T = v
    obtain ⟨xi, k, V, u0⟩ := v
    simp only
    have e2 : |-m.rho - -k / V| = |m.rho - k / V| := by rw [← abs_neg]; congr 1; ring
    have e3 : (1 - -m.rho * -k / V) = 1 - m.rho * k / V := by ring
    rw [e2, e3]
    have e4 : ∀ A B, niCorr (-m.rho) xi (-k) V u0 A B vs = niCorr m.rho xi k V u0 A B vs := by
      intro A B
      unfold niCorr
      simp only [neg_sq]
      congr 1
      refine List.map_congr_left fun q _ => ?_
      have e5 : ∀ c : ℝ, (-k - -m.rho * c) ^ 2 = (k - m.rho * c) ^ 2 := fun c => by ring
      have e6 : -m.rho * -k = m.rho * k := by ring
      rw [e5, e6]
    rw [e4]
  · unfold eiPrice
    simp only [hf, niVars_reflect, e1]
    generalize m.niVars K (m.mp.fwd S T) T = v
    obtain ⟨xi, k, V, u0⟩ := v
    simp only
    have e4 : eiIntegrand (-m.rho) (-k) xi = eiIntegrand m.rho k xi := by
      ext uu
      unfold eiIntegrand hhXi
      simp only [neg_sq]
      have e5 : ∀ c : ℝ, (-k - -m.rho * c) ^ 2 = (k - m.rho * c) ^ 2 := fun c => by ring
      have e6 : -m.rho * -k = m.rho * k := by ring
      rw [e5, e6]
    rw [e4]

/-- **C103.** `SabrNormEllipeInt.price` is never below the discounted intrinsic value of the forward, whenever the integrator returns a nonnegative number for a
nonnegative integrand. -/
theorem normEllipe_ge_intrinsic (m : Sabr) (hs : 0 ≤ m.sigma) (quad : (ℝ → ℝ) → ℝ → ℝ → ℝ) (hq : ∀ f a b, (∀ x, 0 ≤ f x) → a ≤ b → 0 ≤ quad f a b) (K S T cp : ℝ) :
    m.mp.df T * max (cp * (m.mp.fwd S T - K)) 0 ≤ m.eiPrice quad K S T cp := by
  unfold eiPrice
  simp only
  refine mul_le_mul_of_nonneg_left ?_ (m.mp.df_pos T).le
  have h0 : ∀ x, 0 ≤ eiIntegrand m.rho (m.niVars K (m.mp.fwd S T) T).2.1 (m.niVars K (m.mp.fwd S T) T).1 x := by
    intro x
    unfold eiIntegrand hhXi ellipe
    simp only
    have hm : ∀ y, 0 ≤ millsRatio y := by
      intro y
      rw [mills_ratio_correct]
      unfold Spec.gaussP
      positivity
    have hi : ∀ c : ℝ, 0 ≤ ∫ t in (0:ℝ)..(π / 2), √(1 - c * sin t ^ 2) := fun c =>
      intervalIntegral.integral_nonneg (by positivity) fun t _ => sqrt_nonneg _
    exact mul_nonneg (mul_nonneg (sqrt_nonneg _) (hi _)) (mul_nonneg (npdf_pos _).le (add_nonneg (hm _) (hm _)))
  have h1 := hq _ (m.niVars K (m.mp.fwd S T) T).2.2.2 √((m.niVars K (m.mp.fwd S T) T).2.2.2 ^ 2 + 73) h0 (by
    refine le_sqrt_of_sq_le ?_; linarith)
  have h2 : 0 ≤ m.sigma * √T / π * exp (-0.5 * (m.niVars K (m.mp.fwd S T) T).1 ^ 2) := by positivity
  have := mul_nonneg h1 h2
  linarith

/-- The Gauss-Hermite rule of order two is a rule; a usable model exists. -/
example : ∃ (ι : Type) (_ : Fintype ι) (_ : Nonempty ι) (z w : ι → ℝ) (s : ℝ), Spec.IsHermiteRule 2 z w s :=
  ⟨_, _, inferInstance, _, _, _, Spec.hermite_two⟩

end Sabr
end PyFENG
