import Verif.Model.Core

/-!
# Model of `pyfeng/bsm.py`, class `Bsm`: price and Greeks
-/

namespace PyFENG

open Real

/-- `sigma_std = np.maximum(sigma*np.sqrt(texp), np.finfo(float).eps)`, `pyfeng/bsm.py` line 51
(and 143, 166, 194, 221, 234, 246, 382). -/
noncomputable def sigmaStd (sigma texp : ℝ) : ℝ := max (sigma * √texp) eps

namespace Bsm

/-- `Bsm.price_formula`, `pyfeng/bsm.py` lines 30-60. -/
noncomputable def priceFormula (strike spot sigma texp cp intr divr : ℝ) (isFwd : Bool) : ℝ :=
  let discFac := exp (-texp * intr)
  let fwd := spot * (if isFwd then 1 else exp (-texp * divr) / discFac)
  let std := sigmaStd sigma texp
  let d0 := log (fwd / strike) / std
  let d2 := d0 - 0.5 * std
  let d1 := d0 + 0.5 * std
  (fwd * ncdf (cp * d1) - strike * ncdf (cp * d2)) * (cp * discFac)

/-- `Bsm.price` = `OptAnalyticABC.price`, `pyfeng/opt_abc.py` lines 465-471: `price_formula` called with
`**self.params_kw()` (fields `sigma`, `intr`, `divr`, `is_fwd`). `THROW_NEGATIVE_TEXP` is `False`. -/
noncomputable def price (m : MParams) (strike spot texp cp : ℝ) : ℝ :=
  priceFormula strike spot m.sigma texp cp m.intr m.divr m.isFwd

/-- `d1` in `Bsm.vega/vega2/d2_var/d3_var/delta`, `pyfeng/bsm.py` lines 143-145, 166-169, 194-197, 221-224,
234-236. -/
noncomputable def d1 (m : MParams) (strike spot texp : ℝ) : ℝ :=
  log (m.fwd spot texp / strike) / sigmaStd m.sigma texp + 0.5 * sigmaStd m.sigma texp

/-- `d2` in `Bsm.vega2/d2_var/d3_var/cdf`, `pyfeng/bsm.py` lines 168, 196, 223, 247-248. -/
noncomputable def d2 (m : MParams) (strike spot texp : ℝ) : ℝ :=
  log (m.fwd spot texp / strike) / sigmaStd m.sigma texp - 0.5 * sigmaStd m.sigma texp

/-- `Bsm.vega`, `pyfeng/bsm.py` lines 139-149. -/
noncomputable def vega (m : MParams) (strike spot texp _cp : ℝ) : ℝ :=
  m.df texp * m.fwd spot texp * npdf (d1 m strike spot texp) * √texp

/-- `Bsm.vega2`, `pyfeng/bsm.py` lines 151-173. -/
noncomputable def vega2 (m : MParams) (strike spot texp _cp : ℝ) : ℝ :=
  m.df texp * m.fwd spot texp * npdf (d1 m strike spot texp) * √texp
    * d1 m strike spot texp * d2 m strike spot texp / sigmaStd m.sigma texp

/-- `Bsm.d2_var`, `pyfeng/bsm.py` lines 176-201.  Note `df*spot` (not `df*fwd`) on line 199. -/
noncomputable def d2Var (m : MParams) (strike spot texp _cp : ℝ) : ℝ :=
  m.df texp * spot * √texp * npdf (d1 m strike spot texp)
    * (d1 m strike spot texp * d2 m strike spot texp - 1) / (4 * m.sigma ^ 3)

/-- `Bsm.d3_var`, `pyfeng/bsm.py` lines 203-228.  Note `df*spot` (not `df*fwd`) on line 226. -/
noncomputable def d3Var (m : MParams) (strike spot texp _cp : ℝ) : ℝ :=
  m.df texp * spot * √texp * npdf (d1 m strike spot texp)
    * ((d1 m strike spot texp * d2 m strike spot texp - 1)
        * (d1 m strike spot texp * d2 m strike spot texp - 3)
      - (d1 m strike spot texp ^ 2 + d2 m strike spot texp ^ 2)) / (8 * m.sigma ^ 5)

/-- `Bsm.delta`, `pyfeng/bsm.py` lines 230-240. -/
noncomputable def delta (m : MParams) (strike spot texp cp : ℝ) : ℝ :=
  cp * ncdf (cp * d1 m strike spot texp) * (if m.isFwd then m.df texp else m.divf texp)

/-- `Bsm.cdf`, `pyfeng/bsm.py` lines 242-250. -/
noncomputable def cdf (m : MParams) (strike spot texp cp : ℝ) : ℝ :=
  ncdf (cp * d2 m strike spot texp)

/-- `Bsm.gamma`, `pyfeng/bsm.py` lines 252-263 (the floor here is `100*eps`). -/
noncomputable def gamma (m : MParams) (strike spot texp _cp : ℝ) : ℝ :=
  let std := max (m.sigma * √texp) (100 * eps)
  let d1 := log (m.fwd spot texp / strike) / std + 0.5 * std
  let g := m.df texp * npdf d1 / m.fwd spot texp / std
  if m.isFwd then g else g * (m.divf texp / m.df texp) ^ 2

/-- `Bsm.theta`, `pyfeng/bsm.py` lines 265-278, for a plain `Bsm` instance (`self.price`, `self.delta`,
`self.vega` are the methods above). -/
noncomputable def theta (m : MParams) (strike spot texp cp : ℝ) : ℝ :=
  let drift := if m.isFwd then 0 else (m.intr - m.divr) * spot * delta m strike spot texp cp
  m.intr * price m strike spot texp cp - drift
    - m.sigma / (2 * texp) * vega m strike spot texp cp

/-- `Bsm.logp_mgf`, `pyfeng/bsm.py` lines 468-481 (complex argument). -/
noncomputable def logpMgf (m : MParams) (uu : ℂ) (texp : ℝ) : ℂ :=
  Complex.exp (-0.5 * (m.sigma : ℂ) ^ 2 * texp * uu * (1 - uu))

/-- `OptABC.logp_cf`, `pyfeng/opt_abc.py` lines 418-420, for `Bsm`. -/
noncomputable def logpCf (m : MParams) (u : ℂ) (texp : ℝ) : ℂ := logpMgf m (Complex.I * u) texp

end Bsm
end PyFENG
