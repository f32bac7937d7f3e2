import Verif.Model.Mgf2Mom

/-!
# Model of `OptABC.logp_cum4_numeric` (`pyfeng/opt_abc.py`) on top of `Mgf2Mom.cumulants`
-/

namespace PyFENG

namespace Cum4

/-- A `numpy` division whose result feeds the later evaluations: dividing by zero gives `inf` or `nan`, and then every value computed from it is `nan`. Used for the divisions in
`Mgf2Mom.cumulants` and `Mgf2Mom._run`, `pyfeng/mgf2mom.py` lines 83-87, 160-165. -/
noncomputable def divE (x y : ℝ) : Except String ℝ := if y = 0 then .error "nan" else .ok (x / y)

/-- `Mgf2Mom.moment_raw`, `pyfeng/mgf2mom.py` lines 40-67, with the division by `(alpha * r_n)**n` of line 66 made explicit: `nan` for `alpha = 0`. -/
noncomputable def rawE (f : ℂ → ℂ) (n : ℕ) (alpha : ℝ) (l : ℕ) : Except String ℝ :=
  if alpha = 0 then .error "nan" else .ok (Mgf2Mom.momentRaw f n alpha l)

/-- The seeds and the first scale of `Mgf2Mom.cumulants`, `pyfeng/mgf2mom.py` lines 164-165, 83, for no analytic mean or variance. -/
noncomputable def seedAlpha (cgf : ℂ → ℂ) : Except String ℝ := do
  let k1 ← rawE cgf 1 1 2
  let a0 ← divE 1.0 k1
  let k2 ← rawE cgf 2 a0 1
  divE (2.0 * k1) k2

/-- `OptABC.logp_cum4_numeric`, `pyfeng/opt_abc.py` lines 422-435, from the function `u ↦ logp_mgf(u, texp)`: `Mgf2Mom(..).cumulants(4)` with `l = 1`, `pyfeng/mgf2mom.py` lines 69-89, 137-175. -/
noncomputable def logpCum4Numeric (mgf : ℂ → ℂ) : Except String (ℝ × ℝ × ℝ × ℝ) := do
  let cgf : ℂ → ℂ := fun u => Complex.log (mgf u)
  let alpha1 ← seedAlpha cgf
  let c1 ← rawE cgf 1 alpha1 1
  let c2 ← rawE cgf 2 alpha1 1
  let alpha3 ← divE (2 * c1) c2
  let c3 ← rawE cgf 3 alpha3 1
  let alpha4 ← divE (3 * c2) c3
  let c4 ← rawE cgf 4 alpha4 1
  return (c1, c2, c3, c4)

/-- `HestonMcGlassermanKim2011.cond_avgvar_mv_numeric`, `pyfeng/heston_mc.py` lines 444-461, and `Sv32McChoiKwok2023Ig.cond_avgvar_mv_numeric`, `pyfeng/sv32_mc.py` lines 329-350, from the conditional moment
generating function of the average variance: `cumulants(2)` of it, respectively `moments(2)` of its logarithm, are the same computation (`pyfeng/mgf2mom.py` lines 69-89, 122-126, 157-165). -/
noncomputable def condAvgvarMvNumeric (mgf : ℂ → ℂ) : Except String (ℝ × ℝ) := do
  let cgf : ℂ → ℂ := fun u => Complex.log (mgf u)
  let alpha1 ← seedAlpha cgf
  let c1 ← rawE cgf 1 alpha1 1
  let c2 ← rawE cgf 2 alpha1 1
  let vs ← divE c2 (c1 ^ 2)
  return (c1, vs)

end Cum4

end PyFENG
