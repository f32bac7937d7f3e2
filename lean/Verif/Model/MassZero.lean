import Verif.Model.Bsm
import Verif.Model.BsmImpvol

/-!
# Model of `pyfeng/opt_abc.py`: `MassZeroABC`

The mass at zero is a parameter: it is either the argument `mass` or the result of the abstract method `mass_zero` (lines 598-599).
-/

namespace PyFENG

open Real

namespace MassZero

/-- `MassZeroABC.vol_from_mass_zero`, `pyfeng/opt_abc.py` lines 577-609. -/
noncomputable def vol (m : MParams) (mass strike spot texp : ℝ) : ℝ :=
  let fwd := m.forward spot texp
  let kk := strike / fwd
  let tmp := √(2 * |log kk|)
  let leading := tmp / √texp
  let qq := Bsm.nppf mass
  let vol := 1 + (qq + 0.5 * ((2 + qq ^ 2) + qq / tmp) / tmp) / tmp
  vol * leading

/-- `MassZeroABC.price_from_mass_zero`, `pyfeng/opt_abc.py` lines 611-616: the price of `Bsm(vol)`, with the defaults `intr = divr = 0`, `is_fwd = False`. -/
noncomputable def price (m : MParams) (mass strike spot texp cp : ℝ) : ℝ :=
  Bsm.price ⟨vol m mass strike spot texp, 0, 0, false⟩ strike spot texp cp

end MassZero

end PyFENG
