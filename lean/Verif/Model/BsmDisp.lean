import Verif.Model.Bsm
import Verif.Model.Barrier

/-!
# Model of `pyfeng/bsm.py`, class `BsmDisp` (displaced Black-Scholes)
-/

namespace PyFENG

open Real

/-- State of a `BsmDisp` object, `pyfeng/bsm.py` lines 521-540: `sigma_disp` (the value passed as `sigma`; the
constructor's `self.sigma = sigma` goes through the property setter, lines 546-548), `beta`, `pivot` and the
inherited `intr`, `divr`, `is_fwd`. -/
structure DParams where
  sigmaDisp : ℝ
  beta : ℝ
  pivot : ℝ
  intr : ℝ
  divr : ℝ
  isFwd : Bool

namespace BsmDisp

/-- Property getter `BsmDisp.sigma`, `pyfeng/bsm.py` lines 542-544. -/
noncomputable def getSigma (d : DParams) : ℝ := d.sigmaDisp * d.beta

/-- Property setter `BsmDisp.sigma`, `pyfeng/bsm.py` lines 546-548. -/
def setSigma (sigma : ℝ) (d : DParams) : DParams := { d with sigmaDisp := sigma }

/-- What the inherited `Bsm` methods see: `self.sigma` is the *getter* `beta*sigma_disp`. -/
noncomputable def toM (d : DParams) : MParams := ⟨getSigma d, d.intr, d.divr, d.isFwd⟩

/-- `BsmDisp.disp_spot`, `pyfeng/bsm.py` lines 550-560. -/
noncomputable def dispSpot (d : DParams) (spot : ℝ) : ℝ := d.beta * spot + (1 - d.beta) * d.pivot

/-- `BsmDisp.disp_strike`, `pyfeng/bsm.py` lines 562-573. -/
noncomputable def dispStrike (d : DParams) (strike texp : ℝ) : ℝ :=
  d.beta * strike + (1 - d.beta) * (toM d).forward d.pivot texp

/-- `BsmDisp.price`, `pyfeng/bsm.py` lines 575-578. -/
noncomputable def price (d : DParams) (strike spot texp cp : ℝ) : ℝ :=
  1 / d.beta * Bsm.price (toM d) (dispStrike d strike texp) (dispSpot d spot) texp cp

/-- `BsmDisp.delta`, `pyfeng/bsm.py` lines 580-583. -/
noncomputable def delta (d : DParams) (strike spot texp cp : ℝ) : ℝ :=
  Bsm.delta (toM d) (dispStrike d strike texp) (dispSpot d spot) texp cp

/-- `BsmDisp.cdf`, `pyfeng/bsm.py` lines 585-588. -/
noncomputable def cdf (d : DParams) (strike spot texp cp : ℝ) : ℝ :=
  Bsm.cdf (toM d) (dispStrike d strike texp) (dispSpot d spot) texp cp

/-- `BsmDisp.vega`, `pyfeng/bsm.py` lines 590-593. -/
noncomputable def vega (d : DParams) (strike spot texp cp : ℝ) : ℝ :=
  Bsm.vega (toM d) (dispStrike d strike texp) (dispSpot d spot) texp cp

/-- `BsmDisp.gamma`, `pyfeng/bsm.py` lines 595-599. -/
noncomputable def gamma (d : DParams) (strike spot texp cp : ℝ) : ℝ :=
  d.beta * Bsm.gamma (toM d) (dispStrike d strike texp) (dispSpot d spot) texp cp

/-- `Bsm.theta` (`pyfeng/bsm.py` lines 265-278) executed on a `BsmDisp` object: its calls `self.price`,
`self.delta` and `self.vega` dispatch to the *overridden* methods above. -/
noncomputable def superTheta (d : DParams) (strike spot texp cp : ℝ) : ℝ :=
  let drift := if d.isFwd then 0 else (d.intr - d.divr) * spot * delta d strike spot texp cp
  d.intr * price d strike spot texp cp - drift
    - getSigma d / (2 * texp) * vega d strike spot texp cp

/-- `BsmDisp.theta`, `pyfeng/bsm.py` lines 601-604. -/
noncomputable def theta (d : DParams) (strike spot texp cp : ℝ) : ℝ :=
  1 / d.beta * superTheta d (dispStrike d strike texp) (dispSpot d spot) texp cp

/-- `BsmDisp.price_barrier`, `pyfeng/bsm.py` lines 656-659 (`_price_suboptimal` and `_barrier_params` are not
overridden and read the getter `self.sigma`). -/
noncomputable def priceBarrier (d : DParams) (strike barrier spot texp cp io : ℝ) : ℝ :=
  1 / d.beta * Bsm.priceBarrier (toM d) (dispStrike d strike texp) (dispStrike d barrier texp)
    (dispSpot d spot) texp cp io

end BsmDisp
end PyFENG
