import Verif.Model.Util
import Verif.Model.Bsm
import Verif.Model.Norm
import Verif.Model.Cev
import Mathlib.Analysis.SpecialFunctions.Arsinh
import Mathlib.Analysis.SpecialFunctions.Arcosh
import Mathlib.Analysis.SpecialFunctions.Complex.Arg

/-!
# Model of `pyfeng/sabr.py`

Scalars only (numpy broadcasting is elementwise).  `np.isclose(a, b)` is `|a - b| <= 1e-8 + 1e-5*|b|`.
-/

namespace PyFENG

open Real

/-- `np.isclose(a, b)` with the default tolerances. -/
def npIsclose (a b : ℝ) : Prop := |a - b| ≤ 1e-8 + 1e-5 * |b|

/-- `np.polyval(coef, x)` (Horner, highest power first). -/
noncomputable def polyval (coef : List ℝ) (x : ℝ) : ℝ := coef.foldl (fun acc c => acc * x + c) 0

/-- Attributes of a SABR model instance (`pyfeng/params.py` `SabrParams`), with the class attributes `approx_order`
(`pyfeng/sabr.py` line 276), `_base_beta` (line 27) and `is_atmvol` (line 433). -/
structure Sabr where
  sigma : ℝ
  vov : ℝ
  rho : ℝ
  beta : ℝ
  intr : ℝ
  divr : ℝ
  isFwd : Bool
  approxOrder : ℤ := 1
  isAtmvol : Bool := false

namespace Sabr

/-- The market-convention fields inherited from `BaseParams`. -/
def mp (m : Sabr) : MParams := ⟨m.sigma, m.intr, m.divr, m.isFwd⟩

/-- The tuple returned by `_variables`. -/
structure Vars where
  alpha : ℝ
  betac : ℝ
  rhoc : ℝ
  rho2 : ℝ
  vovn : ℝ

/-- `SabrABC._variables(fwd, texp)`, `pyfeng/sabr.py` lines 33-39. -/
noncomputable def vars (m : Sabr) (fwd texp : ℝ) : Vars :=
  let betac := 1 - m.beta
  let alpha := m.sigma / fwd ^ betac
  let rho2 := m.rho ^ 2
  let rhoc := √(1 - rho2)
  let vovn := m.vov * √(max texp 1e-64)
  ⟨alpha, betac, rhoc, rho2, vovn⟩

open Classical in
/-- The price of the object built by `SabrABC.base_model(vol)`, `pyfeng/sabr.py` lines 41-58: `Bsm`, `Norm` or `Cev` with volatility `vol`
and the rates of `m`.  `baseBeta` is the class attribute `_base_beta` (`none` for Python's `None`). -/
noncomputable def basePrice (m : Sabr) (baseBeta : Option ℝ) (vol strike spot texp cp : ℝ) : ℝ :=
  let b := baseBeta.getD m.beta
  if npIsclose b 1 then Bsm.price ⟨vol, m.intr, m.divr, m.isFwd⟩ strike spot texp cp
  else if npIsclose b 0 then Norm.price ⟨vol, m.intr, m.divr, m.isFwd⟩ strike spot texp cp
  else Cev.price ⟨vol, b, m.intr, m.divr, m.isFwd⟩ strike spot texp cp

/-- `SabrABC._vv(zz, rho)`, `pyfeng/sabr.py` lines 60-62. -/
noncomputable def vv (zz rho : ℝ) : ℝ := √(1 + zz * (zz + 2 * rho))

/-- `SabrABC._hh(zz, rho)`, `pyfeng/sabr.py` lines 64-93 (one element of the array: the `np.where`, then the overwrite for `|zz| < 1e-3`). -/
noncomputable def hh (zz rho : ℝ) : ℝ :=
  let rho2 := rho * rho
  if |zz| < 1e-3 then 1 + zz * (rho / 2 + zz * (1 / 6 - rho2 / 4 + rho * (6 * rho2 - 5) / 24 * zz))
  else if zz + rho > 0 then zz / log ((vv zz rho + zz + rho) / (1 + rho))
  else zz / log ((1 - rho) / (vv zz rho - zz - rho))

/-- `SabrABC.cond_avgvar_mfn(z, vovn_k)`, `pyfeng/sabr.py` lines 95-111 (`vovn_k >= 0` is asserted; `hermeval` of the seven coefficients, of
which the odd ones are zeroed). -/
noncomputable def condAvgvarMfn (z vovnK : ℝ) : ℝ :=
  if |vovnK| > 0.01 then
    let ncdfDiff := ncdf (-|z| + vovnK) - ncdf (-|z| - vovnK)
    √(π / 2) / vovnK * ncdfDiff * exp ((z ^ 2 + vovnK ^ 2) / 2)
  else
    (1 + vovnK ^ 2 / 6 * (z ^ 2 - 1) + vovnK ^ 4 / 120 * (z ^ 4 - 6 * z ^ 2 + 3)
      + vovnK ^ 6 / 5040 * (z ^ 6 - 15 * z ^ 4 + 45 * z ^ 2 - 15)) * exp (vovnK ^ 2 / 2)

/-- Scaled raw moments computed by `SabrABC.cond_avgvar_mvsk`, `pyfeng/sabr.py` lines 137-149 (before the multiplication by powers of `exp`). -/
noncomputable def condAvgvarRaw (vovn zhat : ℝ) : ℝ × ℝ × ℝ × ℝ :=
  let e := exp (vovn * zhat)
  let ch := (e + 1 / e) / 2
  let m1 := condAvgvarMfn zhat vovn
  let m2 := condAvgvarMfn zhat (2 * vovn)
  let m3 := condAvgvarMfn zhat (3 * vovn)
  let m4 := condAvgvarMfn zhat (4 * vovn)
  let mnc2 := (m2 - m1 * ch) / vovn ^ 2
  let mnc3 := (3 * m3 - 8 * m2 * ch + m1 * (4 * ch ^ 2 + 1)) / (8 * vovn ^ 4)
  let mnc4 := (2 * m4 - 9 * m3 * ch + m2 * (12 * ch ^ 2 + 2) - m1 * ch * (4 * ch ^ 2 + 3)) / (24 * vovn ^ 6)
  (m1, mnc2, mnc3, mnc4)

/-- `SabrABC.cond_avgvar_mvsk(vovn, zhat, mnc=True)`, `pyfeng/sabr.py` lines 137-152. -/
noncomputable def condAvgvarMnc (vovn zhat : ℝ) : ℝ × ℝ × ℝ × ℝ :=
  let e := exp (vovn * zhat)
  let r := condAvgvarRaw vovn zhat
  (r.1 * e, r.2.1 * e ^ 2, r.2.2.1 * e ^ 3, r.2.2.2 * e ^ 4)

/-- `SabrABC.cond_avgvar_mvsk(vovn, zhat)`, `pyfeng/sabr.py` lines 137-169: mean, scaled variance, skewness, excess kurtosis. -/
noncomputable def condAvgvarMvsk (vovn zhat : ℝ) : ℝ × ℝ × ℝ × ℝ :=
  let e := exp (vovn * zhat)
  let r := condAvgvarRaw vovn zhat
  let m1 := r.1
  let mc2 := r.2.1 - m1 ^ 2
  let mc3 := r.2.2.1 - (3 * m1 * mc2 + m1 ^ 3)
  let mc4 := r.2.2.2 - (4 * m1 * mc3 + 6 * m1 ^ 2 * mc2 + m1 ^ 4)
  let vovn2 := vovn ^ 2
  if vovn2 < 0.01 then
    (m1 * e, vovn2 * (1 / 3 - (6 - zhat ^ 2) / 45 * vovn2), √(vovn2 * (108 / 25 - (4 / 875) * (51 * zhat ^ 2 - 716) * vovn2)),
      vovn2 * (276 / 35 - (8 / 175) * (9 * zhat ^ 2 - 158) * vovn2))
  else (m1 * e, mc2 / m1 ^ 2, mc3 / (mc2 * √mc2), mc4 / mc2 ^ 2 - 3)

/-- `SabrABC.avgvar_mnc4(vovn)`, `pyfeng/sabr.py` lines 173-211. -/
noncomputable def avgvarMnc4 (vovn : ℝ) : ℝ × ℝ × ℝ × ℝ :=
  let vovn2 := vovn ^ 2
  let ww := exp vovn2
  let m1 := if vovn2 > 1e-6 then (ww - 1) / vovn2 else 1 + vovn2 / 2 * (1 + vovn2 / 3)
  let m2 := (ww ^ 6 - 6 * ww + 5) / 15 / vovn2 ^ 2
  let m3 := (ww ^ 15 - 7 * ww ^ 6 + 27 * ww - 21) / 315 / vovn2 ^ 3
  let m4 := (5 * ww ^ 28 - 44 * ww ^ 15 + 182 * ww ^ 6 - 572 * ww + 429) / 45045 / vovn2 ^ 4
  (m1, m2, m3, m4)

/-- `SabrABC.avgvar_mvsk(vovn)`, `pyfeng/sabr.py` lines 214-267: mean, scaled variance, skewness, excess kurtosis. -/
noncomputable def avgvarMvsk (vovn : ℝ) : ℝ × ℝ × ℝ × ℝ :=
  let vovn2 := vovn ^ 2
  let m := exprel vovn2
  let ww := m * vovn2 + 1
  let m2 := (10 + ww * (6 + ww * (3 + ww))) / 15
  let varScaled := vovn2 * m2 * m
  let coef : List ℝ := [1, 5, 15, 35, 70, 126, 210, 330, 432, 456, 336].map (· / 315)
  let s := vovn * √m * polyval coef ww / (m2 * √m2)
  let coef : List ℝ := [25, 175, 700, 2100, 5250, 11550, 23100, 42900, 75075, 125125, 200200,
    309400, 461240, 660920, 907400, 1190280, 1483482, 1735734, 1857856,
    1706848, 1246960, 583440].map (· / 225225)
  let k := vovn2 * m * polyval coef ww / m2 ^ 2
  (m, varScaled, s, k)

/-! ## Volatility approximations -/

/-- `SabrHagan2002.vol_for_price`, `pyfeng/sabr.py` lines 348-376.  Note that `_variables` receives `spot`, not the forward. -/
noncomputable def haganVol (m : Sabr) (strike spot texp : ℝ) : ℝ :=
  if texp ≤ 0 then 0
  else
    let fwd := m.mp.fwd spot texp
    let v := m.vars spot texp
    let betac2 := v.betac ^ 2
    let logKk := log (fwd / strike)
    let logKk2 := logKk * logKk
    let powKk := (strike / fwd) ^ (v.betac / 2)
    let pre1 := powKk * (1 + betac2 / 24 * logKk2 * (1 + betac2 / 80 * logKk2))
    let term02 := (2 - 3 * v.rho2) / 24 * m.vov ^ 2
    let term11 := v.alpha * m.vov * m.rho * m.beta / 4 / powKk
    let term20 := (v.betac * v.alpha / powKk) ^ 2 / 24
    let vol := if m.approxOrder = 0 then 1 else 1 + texp * (term02 + term11 + term20)
    let zz := powKk * logKk * m.vov / max v.alpha eps
    let h := hh (-zz) m.rho
    vol * (v.alpha * h / pre1)

/-- `SabrHagan2002.price`, `pyfeng/sabr.py` lines 293-297 with `_base_beta = 1` (line 346). -/
noncomputable def haganPrice (m : Sabr) (strike spot texp cp : ℝ) : ℝ :=
  m.basePrice (some 1) (m.haganVol strike spot texp) strike spot texp cp

/-- `SabrNormVolApprox.vol_for_price`, `pyfeng/sabr.py` lines 477-488. -/
noncomputable def normVol (m : Sabr) (strike spot texp : ℝ) : ℝ :=
  let fwd := m.mp.forward spot texp
  let vol := if m.approxOrder = 0 ∨ m.isAtmvol then 1 else 1 + texp * (2 - 3 * m.rho ^ 2) / 24 * m.vov ^ 2
  let zz := m.vov / m.sigma * (strike - fwd)
  let h := hh zz m.rho
  vol * (m.sigma * h)

/-- `SabrNormVolApprox.price`, `pyfeng/sabr.py` lines 293-297 with `_base_beta = 0` (line 432). -/
noncomputable def normPrice (m : Sabr) (strike spot texp cp : ℝ) : ℝ :=
  m.basePrice (some 0) (m.normVol strike spot texp) strike spot texp cp

/-- `SabrNormVolApprox.price_vsk`, `pyfeng/sabr.py` lines 453-475. -/
noncomputable def normPriceVsk (m : Sabr) (texp : ℝ) : ℝ × ℝ × ℝ :=
  let vovn := m.vov * √texp
  let wwm1 := exp (vovn ^ 2) - 1
  let ww := 1 + wwm1
  let rho2 := m.rho ^ 2
  let skew := m.rho * √wwm1 * (ww + 2)
  let exkurt := wwm1 * ((4 * rho2 + 1) / 5 * (ww * (ww * (ww + 3) + 6) + 5) + 1)
  (wwm1 * (m.sigma / m.vov) ^ 2, skew, exkurt)

open Classical in
/-- `SabrChoiWu2021H.vol_for_price`, `pyfeng/sabr.py` lines 508-556.  `powrel` raises for `strike/fwd - 1 <= -1`. -/
noncomputable def choiWuHVol (m : Sabr) (baseBeta : Option ℝ) (strike spot texp : ℝ) : Except String ℝ := do
  let volBeta := baseBeta.getD m.beta
  let volBetac := 1 - volBeta
  let fwd := m.mp.fwd spot texp
  let v := m.vars fwd texp
  let kk := strike / fwd
  let voa := m.vov / max v.alpha eps
  let tmp ← powrel (kk - 1) v.betac
  let qqRatio ← match baseBeta with
    | none => pure 1
    | some _ => do
      let t ← powrel (kk - 1) (1 - volBeta)
      pure (t / tmp)
  let qq := tmp * (kk - 1)
  let zz := voa * qq
  let h := hh zz m.rho
  let term02 := (2 - 3 * v.rho2) / 24 * m.vov ^ 2
  let pb ← powrel (kk - 1) m.beta
  let term11 := m.rho * m.beta / 4 * m.vov * v.alpha * pb
  let term20 :=
    if npIsclose m.beta volBeta then 0
    else if |qq| < 1e-6 then (v.betac ^ 2 - volBetac ^ 2) / 24 * v.alpha ^ 2
    else (0.5 * (m.beta - volBeta) * log kk - log qqRatio) * v.alpha ^ 2 / qq
  let vol := if m.approxOrder = 0 then 1 else 1 + texp * (term20 + term11 + term02)
  let preFac := v.alpha * fwd ^ volBetac * qqRatio
  pure (vol * (preFac * h))

/-- `SabrChoiWu2021H.price`, `pyfeng/sabr.py` lines 293-297. -/
noncomputable def choiWuHPrice (m : Sabr) (baseBeta : Option ℝ) (strike spot texp cp : ℝ) : Except String ℝ := do
  let vol ← m.choiWuHVol baseBeta strike spot texp
  pure (m.basePrice baseBeta vol strike spot texp cp)

/-- `SabrChoiWu2021H.mass_zero(spot, texp)`, `pyfeng/sabr.py` lines 558-563, with `_base_beta = None`: the volatility at strike 0, then
`Cev.mass_zero` of a `Cev` object with default rates. -/
noncomputable def choiWuHMassZero (m : Sabr) (spot texp : ℝ) : Except String (Option ℝ) := do
  let vol ← m.choiWuHVol none 0 spot texp
  pure (Cev.massZero ⟨vol, m.beta, 0, 0, false⟩ spot texp)

/-- `SabrChoiWu2021H.mass_zero_t0`, `pyfeng/sabr.py` lines 565-580. -/
noncomputable def choiWuHMassZeroT0 (m : Sabr) (spot texp : ℝ) : ℝ :=
  let fwd := m.mp.forward spot texp
  let v := m.vars fwd texp
  let h := hh (-m.vov / (v.alpha * v.betac)) m.rho
  0.5 / (v.betac * v.alpha * h) ^ 2

/-- `np.arctan2(y, x)`. -/
noncomputable def arctan2 (y x : ℝ) : ℝ := Complex.arg ⟨x, y⟩

/-- The local variable `gg_diff` of `SabrChoiWu2021P.vol_for_price`, `pyfeng/sabr.py` lines 626-690 (one element). -/
noncomputable def choiWuPGg (m : Sabr) (v : Vars) (kk zz vm : ℝ) : ℝ :=
  if |v.betac| < 0.001 then 0.5 * m.beta * m.rho / (1 - v.rho2) * (vm - 1 - m.rho * zz)
  else
    let t1 := (vm + m.rho + zz) / v.rhoc
    let t2 := (1 + m.rho) / v.rhoc
    let eta := m.vov / (v.betac * v.alpha) * kk ^ v.betac * (v.rhoc / vm)
    let e2 := eta * eta - 1
    let sq := √|e2|
    let num1 := m.rho + (eta - v.rhoc) * t1
    let num2 := m.rho + (eta - v.rhoc) * t2
    let ep : ℝ := 1e-6
    let gg1 := arctan t1 +
      (if e2 > ep then eta / sq * arctan2 sq num1
       else if e2 < -ep then eta / sq * 0.5 * log |(num1 + sq) / (num1 - sq)|
       else eta / num1 * (1 - e2 / num1 ^ 2 / 3))
    let gg2 := arctan t2 +
      (if e2 > ep then eta / sq * arctan2 sq num2
       else if e2 < -ep then (if eta > ep then eta / sq * 0.5 * log |(num2 + sq) / (num2 - sq)| else 0)
       else eta / num2 * (1 - e2 / num2 ^ 2 / 3))
    m.rho * m.beta / (v.rhoc * v.betac) * (gg2 - gg1)

open Classical in
/-- `SabrChoiWu2021P.vol_for_price`, `pyfeng/sabr.py` lines 600-726 (one element). -/
noncomputable def choiWuPVol (m : Sabr) (baseBeta : Option ℝ) (strike spot texp : ℝ) : Except String ℝ := do
  let volBeta := baseBeta.getD m.beta
  let volBetac := 1 - volBeta
  let fwd := m.mp.fwd spot texp
  let v := m.vars fwd texp
  let kk := strike / fwd
  let voa := m.vov / max v.alpha eps
  let tmp ← powrel (kk - 1) v.betac
  let qqRatio ← match baseBeta with
    | none => pure 1
    | some _ => do
      let t ← powrel (kk - 1) (1 - volBeta)
      pure (t / tmp)
  let zz := voa * tmp * (kk - 1)
  let h := hh zz m.rho
  let vm := vv zz m.rho
  let gg := m.choiWuPGg v kk zz vm
  let zz2 := max (zz ^ 2) eps
  let tmp2 := if npIsclose m.beta volBeta then 0 else 0.5 * (m.beta - volBeta) * log kk - log qqRatio
  let order1 :=
    if |zz| < 1e-6 then (v.betac ^ 2 - volBetac ^ 2) / 24 * v.alpha ^ 2
      + ((m.rho * m.beta / 4) * v.alpha + (2 - 3 * v.rho2) / 24 * m.vov) * m.vov
    else (m.vov * h) ^ 2 / zz2 * (tmp2 + 0.5 * log (vm / h ^ 2) + gg)
  let vol := if m.approxOrder = 0 then 1 else 1 + order1 * texp
  pure (vol * (v.alpha * fwd ^ volBetac * qqRatio * h))

/-- `SabrChoiWu2021P.price`, `pyfeng/sabr.py` lines 293-297. -/
noncomputable def choiWuPPrice (m : Sabr) (baseBeta : Option ℝ) (strike spot texp cp : ℝ) : Except String ℝ := do
  let vol ← m.choiWuPVol baseBeta strike spot texp
  pure (m.basePrice baseBeta vol strike spot texp cp)

/-- `SabrLorig2017.vol_for_price`, `pyfeng/sabr.py` lines 743-853, with `lv_factor = 1` (line 740); the class default of `approx_order` is 3. -/
noncomputable def lorigVol (m : Sabr) (strike spot texp : ℝ) : ℝ :=
  let fwd := m.mp.fwd spot texp
  let v := m.vars fwd texp
  let kk := strike / fwd
  let kmx := log kk
  let kmx2 := kmx * kmx
  let kmx3 := kmx * kmx2
  let t2 := if m.approxOrder > 1 then texp * texp else 0
  let t3 := if m.approxOrder > 2 then texp * t2 else 0
  let betac := v.betac
  let betac2 := betac * betac
  let betac3 := betac * betac2
  let rho := m.rho
  let rho2 := v.rho2
  let vov := m.vov
  let vov2 := vov * vov
  let vov3 := vov * vov2
  let s0 := v.alpha
  let s02' := s0 * s0
  let s03' := s0 * s02'
  let s04' := s0 * s03'
  let s05' := s0 * s04'
  let s10 := s0 / 2 * (-betac) * kmx
  let s01 := vov / 4 * (2 * kmx * rho + texp * s0 * (-vov + rho * s0))
  let s20 := s0 * betac2 * (texp / 24 * s02' - t2 / 96 * s04' + kmx2 / 12) * 1
  let s11 := -betac * vov * (texp / 4 * rho * s02' - t2 / 48 * rho * s04' - texp / 24 * s0 * (3 * vov - 5 * rho * s0) * kmx)
  let s02 := vov2 * (texp / 24 * (8 - 3 * rho2) * s0 + t2 / 96 * s0 * (5 * vov2 + 2 * s0 * ((6 * rho2 - 2) * s0 - 7 * vov * rho))
    - texp / 24 * rho * (vov - 3 * rho * s0) * kmx + (2 - 3 * rho2) / (12 * s0) * kmx2)
  let s30 := -betac3 * s03' * kmx * (texp / 16 - 5 / 192 * t2 * s02')
  let s21 := betac2 * vov * (t2 / 96 * s03' * (7 * rho * s0 - 3 * vov) + t3 / 384 * s05' * (5 * vov - 7 * rho * s0)
    + 13 / 48 * texp * rho * s02' * kmx - 13 / 192 * t2 * rho * s04' * kmx - texp / 48 * s0 * (vov - 3 * rho * s0) * kmx2)
  let s12 := -betac * vov2 * (t2 / 48 * rho * s02' * (13 * rho * s0 - 7 * vov) + t3 / 192 * rho * s04' * (5 * vov - 7 * rho * s0)
    + texp / 48 * (3 * rho2 + 8) * s0 * kmx + t2 / 192 * s0 * (5 * vov2 - 22 * vov * rho * s0 + 4 * (5 * rho2 - 3) * s02') * kmx
    + texp / 24 * rho2 * s0 * kmx2 + (3 * rho2 - 2) / (24 * s0) * kmx3)
  let s03 := vov3 * (t2 / 96 * s0 * (3 * vov * (rho2 - 4) + rho * (26 - 9 * rho2) * s0)
    + t3 / 384 * s0 * (s0 * (19 * vov2 * rho + 2 * s0 * (vov * (8 - 21 * rho2) + rho * (15 * rho2 - 11) * s0)) - 3 * vov3)
    + texp / 48 * rho * (3 * rho2 - 2) * kmx + t2 / 192 * rho * (vov2 + 6 * s0 * (vov * rho + (1 - 2 * rho2) * s0)) * kmx
    - texp / 16 * rho * (rho2 - 1) * kmx2 + rho * (6 * rho2 - 5) / (24 * s02') * kmx3)
  s0 + (s10 + s01) + (s20 + s11 + s02) + (s30 + s21 + s12 + s03)

/-- `SabrLorig2017.price`, `pyfeng/sabr.py` lines 293-297 with `_base_beta = 1` (line 739). -/
noncomputable def lorigPrice (m : Sabr) (strike spot texp cp : ℝ) : ℝ :=
  m.basePrice (some 1) (m.lorigVol strike spot texp) strike spot texp cp

end Sabr

end PyFENG
