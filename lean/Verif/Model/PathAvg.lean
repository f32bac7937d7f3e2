import Verif.Model.Ousv
import Verif.Model.SabrMc

/-!
# Time averages of the simulated volatility paths

`OusvMcTimeDisc.cond_states_full` (`pyfeng/ousv.py`) and `SabrMcTimeDisc.cond_spot_sigma_volpath` (`pyfeng/sabr_mc.py`) average a path observed
at the dates of `tobs` with `scipy.integrate.simps`.  The number of intervals is the number of dates, of either parity; for an odd number scipy has two
rules, depending on its version, and both are modelled.
-/

namespace PyFENG

open Real

/-- How `scipy.integrate.simps` treats an odd number of intervals: `avg` (the default before scipy 1.11) or the corrected rule (from scipy 1.11). -/
inductive SimpsEven where
  | avg | simpson
  deriving DecidableEq

/-- `scipy`'s `_basic_simpson` with `dx = 1` on the `2 m` intervals starting at position `s`. -/
noncomputable def basicSimpson (y : ℕ → ℝ) (s m : ℕ) : ℝ :=
  ∑ i ∈ Finset.range m, 1 / 3 * (y (s + 2 * i) + 4 * y (s + 2 * i + 1) + y (s + 2 * i + 2))

/-- `scipy.integrate.simps(y, dx=1)` on the `n + 1` values `y 0, ..., y n` (library function used at `pyfeng/ousv.py` lines 550-551 and
`pyfeng/sabr_mc.py` line 222). -/
noncomputable def simps (ev : SimpsEven) (y : ℕ → ℝ) (n : ℕ) : ℝ :=
  if n % 2 = 0 then basicSimpson y 0 (n / 2)
  else if n = 1 then (y 0 + y 1) / 2
  else match ev with
    | .avg => ((y (n - 1) + y n) / 2 + (y 0 + y 1) / 2) / 2 + (basicSimpson y 0 (n / 2) + basicSimpson y 1 (n / 2)) / 2
    | .simpson => basicSimpson y 0 (n / 2) + (5 / 12 * y n + 2 / 3 * y (n - 1) - 1 / 12 * y (n - 2))

/-- `simps(path, dx=1)` of a path given as an array. -/
noncomputable def simpsList (ev : SimpsEven) (l : List ℝ) : ℝ := simps ev (fun j => l.getD j 0) (l.length - 1)

/-- The column of `OusvMcTimeDisc.vol_paths(tobs)` of one path, `pyfeng/ousv.py` lines 534-543, with the value at time zero inserted. -/
noncomputable def Ousv.volPathList (m : Ousv) (bm : ℝ → ℝ) (tobs : List ℝ) : List ℝ := m.sigma :: tobs.map (m.volPath bm)

/-- `OusvMcTimeDisc.cond_states_full(texp, sig_0)`, `pyfeng/ousv.py` lines 545-553, for one path: final volatility, average variance and average
volatility.  The argument `sig_0` is not used by the code, which starts the path at `self.sigma`. -/
noncomputable def Ousv.condStatesFull (ev : SimpsEven) (m : Ousv) (dt : Option ℝ) (texp _sig0 : ℝ) (bm : ℝ → ℝ) : ℝ × ℝ × ℝ :=
  let tobs := McState.tobs dt texp
  let nDt := tobs.length
  let path := m.volPathList bm tobs
  (path.getLastD 0, simpsList ev (path.map (· ^ 2)) / nDt, simpsList ev path / nDt)

/-- `SabrMcTimeDisc.cond_spot_sigma_volpath(texp, sigma_0, mu)`, `pyfeng/sabr_mc.py` lines 203-231, for one path whose Brownian values at the
normalised dates are `b`: `(spot_cond, vol_cond, log_rn_deriv)`. -/
noncomputable def Sabr.condSpotSigmaVolpath (ev : SimpsEven) (m : Sabr) (dt : Option ℝ) (texp sigma0 : ℝ) (b : List ℝ) (mu : ℝ) : ℝ × ℝ × ℝ :=
  let tobs := McState.tobs dt texp
  let nDt := tobs.length
  let p := m.volPathMu tobs b mu
  let sigmaFinal := p.1.getLastD 0
  let intVar := simpsList ev (p.1.map (· ^ 2)) / nDt
  let r := m.volpathResult texp sigma0 sigmaFinal intVar
  (r.1, r.2, p.2)

end PyFENG
