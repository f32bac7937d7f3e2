import Verif.Model.HestonMc
import Mathlib.Analysis.SpecialFunctions.Pow.Complex

/-!
# Model of the transform inversions in `pyfeng/heston_mc.py` (lines 506-621) and `pyfeng/sv32_mc.py` (lines 237-277, 352-397)

The tables and the root functions are modelled; `scipy.optimize.newton` (secant iterations) is represented by the equation its result solves.
-/

namespace PyFENG

open Real

namespace Heston

/-- `HestonMcGlassermanKim2011.x2_avgvar_mgf`, `pyfeng/heston_mc.py` lines 506-538, complex argument: `np.sqrt` and `np.log` are the principal branches. -/
noncomputable def x2AvgvarMgfC (m : Heston) (aa : ℂ) (dt shape : ℝ) : ℂ :=
  let mrt := m.mr * dt
  let gamma : ℂ := ((mrt : ℂ) ^ 2 - 2 * (m.vov2dt dt : ℂ) * aa) ^ (1 / 2 : ℂ)
  let phiMr := (m.cir.phiExp dt).1
  let tmp := (4 * gamma / (m.vov2dt dt : ℂ)) / (1 - Complex.exp (-gamma))
  Complex.exp ((shape : ℂ) * (Complex.log (tmp / (phiMr : ℂ)) - gamma / 2))

/-- `mean_x2` in `x2_cdf_points_aw`, `pyfeng/heston_mc.py` lines 592-593. -/
noncomputable def awMean (m : Heston) (dt shape : ℝ) : ℝ := (m.x2star dt 0).1 * shape

/-- `mu_e` in `x2_cdf_points_aw`, `pyfeng/heston_mc.py` line 595. -/
noncomputable def awMuE (m : Heston) (dt shape : ℝ) : ℝ := m.awMean dt shape * (1 + 12 * √((m.x2star dt 0).2 / shape))

/-- `x_i` in `x2_cdf_points_aw`, `pyfeng/heston_mc.py` lines 590, 600 (`ww = 0.01`, `M = 200`). -/
noncomputable def awX (m : Heston) (dt shape : ℝ) (i : ℕ) : ℝ :=
  0.01 * m.awMean dt shape + (i : ℝ) / 200 * (m.awMuE dt shape - 0.01 * m.awMean dt shape)

/-- `hh` in `x2_cdf_points_aw`, `pyfeng/heston_mc.py` line 601. -/
noncomputable def awH (m : Heston) (dt shape : ℝ) (i : ℕ) : ℝ := 2 * π / (m.awX dt shape i + m.awMuE dt shape)

open Classical in
/-- `nn` in `x2_cdf_points_aw`, `pyfeng/heston_mc.py` lines 604-607: the first of `1000, 1100, …, 5000` at which every transform is small, otherwise the last. -/
noncomputable def awNn (m : Heston) (dt shape : ℝ) : ℕ :=
  (((List.range 41).map fun j => 1000 + 100 * j).find? fun (nn : ℕ) =>
    decide (∀ i ∈ List.range 201, ‖m.x2AvgvarMgfC (Complex.I * (m.awH dt shape i : ℂ) * (nn : ℂ)) dt shape‖ / nn < π / 2 * 1e-6)).getD 5000

/-- `cdf_i` in `x2_cdf_points_aw`, `pyfeng/heston_mc.py` lines 608-610. -/
noncomputable def awCdf (m : Heston) (dt shape : ℝ) (i : ℕ) : ℝ :=
  let hh := m.awH dt shape i
  let x := m.awX dt shape i
  let s := ∑ k ∈ Finset.Icc 1 (m.awNn dt shape), sin (hh * x * k) / k * (m.x2AvgvarMgfC (Complex.I * hh * k) dt shape).re
  (hh * x + 2 * s) / π

/-- `x2_cdf_points_aw`, `pyfeng/heston_mc.py` lines 577-612, as the pairs `(x_i, cdf_i)`. -/
noncomputable def x2CdfPoints (m : Heston) (dt shape : ℝ) : List (ℝ × ℝ) := (List.range 201).map fun i => (m.awX dt shape i, m.awCdf dt shape i)

end Heston

/-- Evaluation of `scipy.interpolate.interp1d(x, y, kind='linear')` on a table of pairs `(x, y)` sorted by `x`: the segment found by `searchsorted` (side left); values outside the table raise `ValueError`
(`bounds_error` is the default). Used at `pyfeng/heston_mc.py` lines 618, 690, 693. -/
noncomputable def interp1dSorted : List (ℝ × ℝ) → ℝ → Except McErr ℝ
  | (x0, y0) :: (x1, y1) :: rest, u =>
    if u < x0 then .error .valueError
    else if u ≤ x1 then .ok ((y1 - y0) / (x1 - x0) * (u - x0) + y0)
    else interp1dSorted ((x1, y1) :: rest) u
  | _, _ => .error .valueError

open Classical in
/-- `scipy.interpolate.interp1d(x, y, kind='linear')`: the table is sorted by `x` first (`assume_sorted=False`, stable sort). -/
noncomputable def interp1d (table : List (ℝ × ℝ)) (u : ℝ) : Except McErr ℝ := interp1dSorted (table.mergeSort fun p q => decide (p.1 ≤ q.1)) u

/-- `x2_icdf_interp`, `pyfeng/heston_mc.py` lines 613-620: the points `(0, 0)` and `(cdf_i, x_i)`; the `lru_cache` (keyed by the step, the shape and the parameters) does not change values. -/
noncomputable def Heston.x2Icdf (m : Heston) (dt shape u : ℝ) : Except McErr ℝ := interp1d ((0, 0) :: (m.x2CdfPoints dt shape).map fun p => (p.2, p.1)) u

namespace Sv32Inv

/-- `m1`, `var` in `draw_cond_avgvar` and `cond_states_step_invlap`, `pyfeng/sv32_mc.py` lines 241-245, 371-375: differences of the transform `lap` of the average variance at `±1e-5`. -/
noncomputable def fdMv (lap : ℝ → ℝ) : ℝ × ℝ :=
  let eps := 1e-5
  let up := lap eps
  let dn := lap (-eps)
  let m1 := (dn - up) / (2 * eps)
  (m1, (dn + up - 2.0) / eps ^ 2 - m1 ^ 2)

/-- `u_error` in `draw_cond_avgvar`, `pyfeng/sv32_mc.py` line 248. -/
noncomputable def uError (lap : ℝ → ℝ) : ℝ := (fdMv lap).1 + 5 * √(max (fdMv lap).2 0)

/-- `u_error` in `cond_states_step_invlap`, `pyfeng/sv32_mc.py` lines 378-379. -/
noncomputable def uErrorInvlap (lap : ℝ → ℝ) : ℝ := max (fdMv lap).1 1e-6 + 5 * √(max (fdMv lap).2 0)

/-- `root`, `pyfeng/sv32_mc.py` lines 261-274 and 384-395: `h` from `u_error`, `N = 60`, `lapC` the transform at complex arguments. -/
noncomputable def root (lapC : ℂ → ℂ) (uErr uu xx : ℝ) : ℝ :=
  let h := π / uErr
  let hxx := h * xx
  hxx + 2 * (∑ j ∈ Finset.Icc (1 : ℕ) 60, (lapC (-(Complex.I * (j : ℂ) * (h : ℂ)))).re * sin (hxx * j) / j) - uu * π

end Sv32Inv

end PyFENG
