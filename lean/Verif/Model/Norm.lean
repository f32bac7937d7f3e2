import Verif.Model.Bsm
import Verif.Model.Util

/-!
# Model of `pyfeng/norm.py`, class `Norm` (Bachelier model)
-/

namespace PyFENG
namespace Norm

open Real

/-- `Norm.price_formula`, `pyfeng/norm.py` lines 64-90.  `sigma_std` is *not* floored, only the denominator of
`d` is. -/
noncomputable def priceFormula (strike spot sigma texp cp intr divr : ℝ) (isFwd : Bool) : ℝ :=
  let df := exp (-texp * intr)
  let fwd := spot * (if isFwd then 1 else exp (-texp * divr) / df)
  let std := sigma * √texp
  let d := (fwd - strike) / max std eps
  df * std * (cp * d * ncdf (cp * d) + npdf d)

/-- `Norm.price` = `OptAnalyticABC.price`, `pyfeng/opt_abc.py` lines 465-471. -/
noncomputable def price (m : MParams) (strike spot texp cp : ℝ) : ℝ :=
  priceFormula strike spot m.sigma texp cp m.intr m.divr m.isFwd

/-- `Norm.price_vega_std`, `pyfeng/norm.py` lines 92-116. -/
noncomputable def priceVegaStd (sigma k : ℝ) (price : Bool) : ℝ :=
  let md := k / sigma
  let p := sigma * (1 - md * millsRatio md)
  if price then p * npdf md else p

/-- `d` in `Norm.vega/delta/cdf/gamma/theta`, `pyfeng/norm.py` lines 180-181, 191-192, 201-202, 211-212, 223-224. -/
noncomputable def d (m : MParams) (strike spot texp : ℝ) : ℝ :=
  (m.fwd spot texp - strike) / sigmaStd m.sigma texp

/-- `Norm.vega`, `pyfeng/norm.py` lines 176-185. -/
noncomputable def vega (m : MParams) (strike spot texp _cp : ℝ) : ℝ :=
  m.df texp * npdf (d m strike spot texp) * √texp

/-- `Norm.delta`, `pyfeng/norm.py` lines 187-196. -/
noncomputable def delta (m : MParams) (strike spot texp cp : ℝ) : ℝ :=
  cp * ncdf (cp * d m strike spot texp) * (if m.isFwd then m.df texp else m.divf texp)

/-- `Norm.cdf`, `pyfeng/norm.py` lines 198-204 (uses `self.forward`). -/
noncomputable def cdf (m : MParams) (strike spot texp cp : ℝ) : ℝ :=
  ncdf (cp * ((m.forward spot texp - strike) / sigmaStd m.sigma texp))

/-- `Norm.gamma`, `pyfeng/norm.py` lines 206-217. -/
noncomputable def gamma (m : MParams) (strike spot texp _cp : ℝ) : ℝ :=
  let g := m.df texp * npdf (d m strike spot texp) / sigmaStd m.sigma texp
  if m.isFwd then g else g * (m.divf texp / m.df texp) ^ 2

/-- `Norm.theta`, `pyfeng/norm.py` lines 219-229. -/
noncomputable def theta (m : MParams) (strike spot texp cp : ℝ) : ℝ :=
  let th := sigmaStd m.sigma texp * npdf (d m strike spot texp)
  m.df texp * (-0.5 * th / texp + m.intr * (th - cp * strike * ncdf (cp * d m strike spot texp)))

/-- `Norm.price_binary`, `pyfeng/norm.py` lines 231-242 (`asset` is `opt_type.lower() == "asset"`; every other
string prices the cash-or-nothing option). -/
noncomputable def priceBinary (m : MParams) (strike spot texp cp : ℝ) (asset : Bool) : ℝ :=
  let std := m.sigma * √texp
  let d := (m.fwd spot texp - strike) / max std eps
  if asset then m.df texp * (cp * m.fwd spot texp * ncdf (cp * d) + std * npdf d)
  else m.df texp * ncdf (cp * d)

/-- `Norm._POLY_NU`, `pyfeng/norm.py` lines 36-45, evaluated by `np.polyval` (Horner). -/
noncomputable def polyNu (x : ℝ) : ℝ :=
  (((((((1.266458051348246e4 * x + 2.493415285349361e4) * x + 6.106322407867059e3) * x
    + 1.848489695437094e3) * x + 5.988761102690991e2) * x + 4.980340217855084e1) * x
    + 2.100960795068497e1) * x + 3.994961687345134e-1)

/-- `Norm._POLY_DE`, `pyfeng/norm.py` lines 47-58, evaluated by `np.polyval` (Horner). -/
noncomputable def polyDe (x : ℝ) : ℝ :=
  (((((((((1.174240599306013e1 * x - 2.067719486400926e2) * x + 3.608817108375034e3) * x
    + 2.392008891720782e4) * x + 1.598919697679745e4) * x + 1.323614537899738e3) * x
    + 1.495105008310999e3) * x + 3.093573936743112e1) * x + 4.990534153589422e1) * x + 1.0)

/-- `Norm.IMPVOL_TOL = 1000*eps`, `pyfeng/norm.py` line 62. -/
noncomputable def impvolTol : ℝ := 1000 * eps

/-- `one_m_v` of `_impvol_Choi2009`, `pyfeng/norm.py` lines 139-149, from time value and straddle. -/
noncomputable def ivOneMV (timeVal strd : ℝ) : ℝ := max 0 (min (2 * timeVal / strd) 1)

/-- `eta` of `_impvol_Choi2009`, `pyfeng/norm.py` lines 151-162. -/
noncomputable def ivEta (omv : ℝ) : ℝ :=
  let vsq := (1 - omv) ^ 2
  if omv < 0.995 then 2 * (1 - omv) / log ((2 - omv) / omv)
  else (1 - (3 / 5) * vsq) / (1 - (4 / 15) * vsq)

/-- `h_a` of `_impvol_Choi2009`, `pyfeng/norm.py` line 163. -/
noncomputable def ivH (eta : ℝ) : ℝ := √eta * polyNu eta / polyDe eta

open Classical in
/-- `Norm.impvol = Norm._impvol_Choi2009`, `pyfeng/norm.py` lines 119-174, 245; `none` is the `nan` written by the
`np.where` of line 165. (The code's `0/0 = nan` for a worthless at-the-money option is not modelled: there Lean's
value is `0`.) -/
noncomputable def impvol (m : MParams) (price strike spot texp cp : ℝ) : Option ℝ :=
  let priceFwd := price / m.df texp
  let strikeStd := cp * (m.fwd spot texp - strike)
  let timeVal := priceFwd - max 0 strikeStd
  let strd := 2 * priceFwd - strikeStd
  let hA := ivH (ivEta (ivOneMV timeVal strd))
  if timeVal ≥ -impvolTol then some (√(π / (2 * texp)) * strd * hA) else none

end Norm
end PyFENG
