import Verif.Model.Core
import Verif.Model.Ncx2

/-!
# Model of `pyfeng/gamma.py`: `InvGam` and `InvGauss`
-/

namespace PyFENG

open Real

/-- `spst.gamma._cdf(x, a)`. -/
noncomputable def gammaCdf (x a : ℝ) : ℝ := gammaInc a x

/-- `spst.invgauss(mu=mu, scale=scale).cdf(x)`: scipy's density `1/sqrt(2 pi t^3) exp(-(t-mu)^2/(2 t mu^2))` integrated up to `x/scale`. -/
noncomputable def invgaussCdf (mu scale x : ℝ) : ℝ :=
  ∫ t in (0 : ℝ)..(x / scale), 1 / √(2 * π * t ^ 3) * exp (-(1 / (2 * t)) * ((t - mu) / mu) ^ 2)

/-- `spst.invgauss(mu=mu, scale=scale).sf(x)`. -/
noncomputable def invgaussSf (mu scale x : ℝ) : ℝ := 1 - invgaussCdf mu scale x

/-- `InvGam`, parameters as in `pyfeng/params.py` `InvGamParams` (only the base fields). -/
structure InvGam where
  mp : MParams

namespace InvGam

/-- `InvGam.price_formula`, `pyfeng/gamma.py` lines 24-39. -/
noncomputable def priceFormula (strike spot texp alpha beta cp intr divr : ℝ) (isFwd : Bool) : ℝ :=
  let discFac := exp (-texp * intr)
  let fwdScale := spot * (if isFwd then 1 else exp (-texp * divr) / discFac) / beta
  let kk := strike / beta
  let price :=
    if cp > 0 then fwdScale * gammaCdf (1 / kk) (alpha - 1) - kk * gammaCdf (1 / kk) alpha
    else kk * gammaSf (1 / kk) alpha - fwdScale * gammaSf (1 / kk) (alpha - 1)
  discFac * beta * price

/-- `InvGam.alpha_beta`, `pyfeng/gamma.py` lines 41-59. -/
noncomputable def alphaBeta (m : InvGam) (spot texp : ℝ) : ℝ × ℝ :=
  let fwd := m.mp.forward spot texp
  let alpha := 1 / (exp (m.mp.sigma ^ 2 * texp) - 1) + 2
  let beta := (alpha - 1) * fwd
  (alpha, beta)

/-- `InvGam.price`, `pyfeng/gamma.py` lines 61-65.  `is_fwd` is not passed on, so `price_formula` runs with its default `False`. -/
noncomputable def price (m : InvGam) (strike spot texp cp : ℝ) : ℝ :=
  let ab := m.alphaBeta spot texp
  priceFormula strike spot texp ab.1 ab.2 cp m.mp.intr m.mp.divr false

/-- `InvGam.cdf`, `pyfeng/gamma.py` lines 67-73. -/
noncomputable def cdf (m : InvGam) (strike spot texp cp : ℝ) : ℝ :=
  let ab := m.alphaBeta spot texp
  let x := strike / ab.2
  if cp > 0 then gammaCdf (1 / x) ab.1 else gammaSf (1 / x) ab.1

end InvGam

/-- `InvGauss`, parameters as in `pyfeng/params.py` `InvGaussParams` (only the base fields). -/
structure InvGauss where
  mp : MParams

namespace InvGauss

/-- `InvGauss.price`, `pyfeng/gamma.py` lines 94-104. -/
noncomputable def price (m : InvGauss) (strike spot texp cp : ℝ) : ℝ :=
  let fwd := m.mp.fwd spot texp
  let df := m.mp.df texp
  let sig2Inv := exp (m.mp.sigma ^ 2 * texp) - 1
  let kk := strike / fwd
  let price :=
    if cp > 0 then invgaussCdf sig2Inv (1 / sig2Inv) (1 / kk) - kk * invgaussSf sig2Inv (1 / sig2Inv) kk
    else kk * invgaussCdf sig2Inv (1 / sig2Inv) kk - invgaussSf sig2Inv (1 / sig2Inv) (1 / kk)
  df * fwd * price

/-- `InvGauss.cdf`, `pyfeng/gamma.py` lines 106-112. -/
noncomputable def cdf (m : InvGauss) (strike spot texp cp : ℝ) : ℝ :=
  let fwd := m.mp.fwd spot texp
  let sig2Inv := exp (m.mp.sigma ^ 2 * texp) - 1
  let x := strike / fwd
  if cp > 0 then invgaussSf sig2Inv (1 / sig2Inv) x else invgaussCdf sig2Inv (1 / sig2Inv) x

end InvGauss

end PyFENG
