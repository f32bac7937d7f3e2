import Verif.Model.BsmDisp

/-!
# Model of `pyfeng/bsm.py`, `BsmDisp.vol_smile` with `model` equal to 'norm-approx' or 'bsm-approx'
-/

namespace PyFENG.BsmDisp

open Real

/-- `fwdd` of `BsmDisp.vol_smile`, `pyfeng/bsm.py` lines 633, 643. -/
noncomputable def fwdD (d : DParams) (spot texp : ℝ) : ℝ := (toM d).forward (dispSpot d spot) texp

/-- `kkd` of `BsmDisp.vol_smile`, `pyfeng/bsm.py` lines 634, 644. -/
noncomputable def kkD (d : DParams) (strike spot texp : ℝ) : ℝ := dispStrike d strike texp / fwdD d spot texp

/-- `BsmDisp.vol_smile(..., model='norm-approx')`, `pyfeng/bsm.py` lines 632-637 (`self.sigma` is the getter `beta*sigma_disp`). -/
noncomputable def volNormApprox (d : DParams) (strike spot texp : ℝ) : ℝ :=
  let fwdd := fwdD d spot texp
  let kkd := kkD d strike spot texp
  let lnkd := log kkd
  d.sigmaDisp * fwdd * √kkd * (1 + lnkd ^ 2 / 24) / (1 + getSigma d ^ 2 * texp / 24)

/-- `BsmDisp.vol_smile(..., model='bsm-approx')`, `pyfeng/bsm.py` lines 638-649. -/
noncomputable def volBsmApprox (d : DParams) (strike spot texp : ℝ) : ℝ :=
  let fwd := (toM d).forward spot texp
  let kk := strike / fwd
  let lnk := log kk
  let fwdd := fwdD d spot texp
  let kkd := kkD d strike spot texp
  let lnkd := log kkd
  let vol := d.sigmaDisp * (fwdd / fwd) * √(kkd / kk)
  vol * ((1 + lnkd ^ 2 / 24) / (1 + lnk ^ 2 / 24) * (1 + vol ^ 2 * texp / 24) / (1 + getSigma d ^ 2 * texp / 24))

end PyFENG.BsmDisp
