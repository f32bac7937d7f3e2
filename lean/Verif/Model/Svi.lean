import Verif.Model.Bsm

/-!
# Model of `pyfeng/svi.py`
-/

namespace PyFENG

open Real

/-- Attributes of an `Svi` instance, `pyfeng/params.py` lines 600-612. -/
structure Svi where
  sigma : ℝ
  vov : ℝ
  rho : ℝ
  smooth : ℝ
  shift : ℝ
  intr : ℝ
  divr : ℝ
  isFwd : Bool

namespace Svi

/-- Base parameters as seen by `forward` etc. -/
def mp (m : Svi) : MParams := ⟨m.sigma, m.intr, m.divr, m.isFwd⟩

/-- `Svi.base_model`, `pyfeng/svi.py` lines 17-18. -/
def baseModel (m : Svi) (sigma : ℝ) : MParams := ⟨sigma, m.intr, m.divr, m.isFwd⟩

/-- `Svi.vol_for_price`, `pyfeng/svi.py` lines 20-24. -/
noncomputable def volForPrice (m : Svi) (strike spot texp : ℝ) : ℝ :=
  let fwd := m.mp.forward spot texp
  let money := log (strike / fwd) - m.shift
  √(m.sigma + m.vov * (m.rho * money + √(money ^ 2 + m.smooth ^ 2)))

/-- `Svi.init_from_heston`, `pyfeng/svi.py` lines 26-58.  Note `w2 = sigma / (mr * theta)` on line 53. -/
noncomputable def initFromHeston (sigma vov rho mr : ℝ) (theta : Option ℝ) (texp intr divr : ℝ) (isFwd : Bool) : Svi :=
  let theta := theta.getD sigma
  let rhoc2 := 1 - rho ^ 2
  let w1 := √((2 * mr - rho * vov) ^ 2 + vov ^ 2 * rhoc2) - (2 * mr - rho * vov)
  let w1 := w1 * ((4 * mr * theta) / (vov ^ 2 * rhoc2))
  let w2 := sigma / (mr * theta)
  let sigma_ := w1 * rhoc2 / 2
  let vov_ := (w1 * w2) / (2 * texp)
  let shift := -rho * texp / w2
  let smooth := √rhoc2 * texp / w2
  ⟨sigma_, vov_, rho, smooth, shift, intr, divr, isFwd⟩

/-- `Svi.price`, `pyfeng/svi.py` lines 60-63. -/
noncomputable def price (m : Svi) (strike spot texp cp : ℝ) : ℝ :=
  let vol := m.volForPrice strike spot texp
  Bsm.price (m.baseModel vol) strike spot texp cp

end Svi

end PyFENG
