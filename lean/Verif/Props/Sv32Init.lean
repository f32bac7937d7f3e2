import Verif.Lemmas.BesselAsymp
import Verif.Props.Sv32Bessel

/-!
# C120: the conditional Laplace transform tends to one at small times
-/

namespace PyFENG

open Real MeasureTheory Filter Topology Set Spec

namespace Sv32

/-- **C120.** Initial condition of the Feynman–Kac equation: over a time step tending to zero, with fixed end points, `cond_avgvar_laplace` at `b dt` (the transform of the integral of the variance at `b`)
tends to one, because the Bessel argument `zz` tends to infinity. -/
theorem laplace_initial (m : Sv32) (hmr : 0 < m.mr) (hth : 0 < m.theta) (hv : m.vov ≠ 0) {b v0 vT : ℝ} (hb : 0 ≤ b) (h0 : 0 < v0) (hT : 0 < vT) :
    Tendsto (fun t => m.zz t v0 vT) (𝓝[>] 0) atTop ∧
    Tendsto (fun t => (m.condAvgvarLaplace Complex.Gamma besselIC besselI ((b * t : ℝ) : ℂ) t v0 vT none).re) (𝓝[>] 0) (𝓝 1) := by
  have hk : 0 < m.mr * m.theta := mul_pos hmr hth
  have hν := nu_pos hmr hth hv
  have hz : Tendsto (fun t => m.zz t v0 vT) (𝓝[>] 0) atTop := by
    have hE : Tendsto (fun t : ℝ => 1 / exp (-(m.mr * m.theta) * t / 2) - exp (-(m.mr * m.theta) * t / 2)) (𝓝[>] 0) (𝓝[>] 0) := by
      refine tendsto_nhdsWithin_iff.2 ⟨?_, ?_⟩
      · have : ContinuousAt (fun t : ℝ => 1 / exp (-(m.mr * m.theta) * t / 2) - exp (-(m.mr * m.theta) * t / 2)) 0 := by
          refine ContinuousAt.sub (ContinuousAt.div (by fun_prop) (by fun_prop) (exp_ne_zero _)) (by fun_prop)
        have h := this.tendsto
        simp only [mul_zero, zero_div, exp_zero, div_one, sub_self] at h
        exact h.mono_left nhdsWithin_le_nhds
      · filter_upwards [self_mem_nhdsWithin] with t ht
        have ht : 0 < t := ht
        have h1 : exp (-(m.mr * m.theta) * t / 2) < 1 := exp_lt_one_iff.2 (by nlinarith [mul_pos hk ht])
        have := (one_lt_div (exp_pos (-(m.mr * m.theta) * t / 2))).2 h1
        rw [mem_Ioi]
        linarith
    have h := (tendsto_inv_nhdsGT_zero.comp hE).const_mul_atTop (show 0 < 4 * (m.mr * m.theta) / m.vov ^ 2 / √(v0 * vT) by
      have := sqrt_pos.2 (mul_pos h0 hT)
      positivity)
    refine h.congr fun t => ?_
    unfold zz Cir.phiExp cir
    simp only [Function.comp]
    generalize 1 / exp (-(m.mr * m.theta) * t / 2) - exp (-(m.mr * m.theta) * t / 2) = E
    generalize √(v0 * vT) = s
    simp only [div_eq_mul_inv, mul_inv]
    ring
  refine ⟨hz, ?_⟩
  have h := (BesselAsymp.ratio (ν := m.nu) (μ := √(m.nu ^ 2 + 8 * b / m.vov ^ 2)) (by linarith) (by have := sqrt_nonneg (m.nu ^ 2 + 8 * b / m.vov ^ 2); linarith)).comp hz
  refine h.congr' ?_
  filter_upwards [self_mem_nhdsWithin] with t ht
  have ht : 0 < t := ht
  rw [laplace_none (zz_pos hmr hth hv ht h0 hT) (by positivity), Complex.ofReal_re]
  unfold lap
  rw [show m.nu ^ 2 + 8 / (m.vov ^ 2 * t) * (b * t) = m.nu ^ 2 + 8 * b / m.vov ^ 2 by field_simp]
  rfl

/-- A concrete instance. -/
example : Tendsto (fun t => ((⟨0.06, 1, -0.5, 2, 0.04, 0, 0, false⟩ : Sv32).condAvgvarLaplace Complex.Gamma besselIC besselI ((3 * t : ℝ) : ℂ) t 0.06 0.05 none).re) (𝓝[>] 0) (𝓝 1) :=
  (laplace_initial _ (by norm_num) (by norm_num) (by norm_num) (by norm_num) (by norm_num) (by norm_num)).2

end Sv32
end PyFENG
