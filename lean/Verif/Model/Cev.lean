import Verif.Model.Core
import Verif.Model.Ncx2

/-!
# Model of `pyfeng/cev.py`
-/

namespace PyFENG

open Real

/-- `scipy.special.exprel(x) = (exp(x) - 1)/x`, with value 1 at 0. -/
noncomputable def exprel (x : ℝ) : ℝ := if x = 0 then 1 else (exp x - 1) / x

/-- Parameters of `Cev`/`CevMc`: `pyfeng/params.py` `CevParams` (validated: `beta > 0`, `beta != 1`; see C28). -/
structure Cev where
  sigma : ℝ
  beta : ℝ
  intr : ℝ
  divr : ℝ
  isFwd : Bool

namespace Cev

/-- The market-convention fields inherited from `BaseParams`. -/
def mp (m : Cev) : MParams := ⟨m.sigma, m.intr, m.divr, m.isFwd⟩

/-- The tuple returned by `_variables`. -/
structure Vars where
  alpha : ℝ
  betac : ℝ
  z0 : ℝ
  zK : ℝ

/-- `Cev._variables(fwd, strike, texp)`, `pyfeng/cev.py` lines 26-32. -/
noncomputable def vars (m : Cev) (fwd strike texp : ℝ) : Vars :=
  let betac := 1 - m.beta
  let alpha := m.sigma / fwd ^ betac
  let var := (betac * alpha) ^ 2 * texp * exprel (2 * (m.intr - m.divr) * betac * texp)
  let z0 := 1 / var
  let zK := (strike / fwd) ^ (2 * betac) * z0
  ⟨alpha, betac, z0, zK⟩

/-- `Cev.mass_zero(spot, texp)` with `log=False`, `pyfeng/cev.py` lines 34-50.  For `beta > 1` the shape parameter is negative and
`gamma._sf` returns NaN (`none`).  The `log=True` branch (an asymptotic series for large arguments) is not modelled. -/
noncomputable def massZero (m : Cev) (spot texp : ℝ) : Option ℝ :=
  let fwd := m.mp.forward spot texp
  let betac := 1 - m.beta
  let a := 0.5 / betac
  let alpha := m.sigma / fwd ^ betac
  let var := (betac * alpha) ^ 2 * texp * exprel (2 * (m.intr - m.divr) * betac * texp)
  let x := 0.5 / var
  if a ≤ 0 then none else some (gammaSf x a)

/-- `Cev.mass_zero_t0(spot, texp)`, `pyfeng/cev.py` lines 52-68. -/
noncomputable def massZeroT0 (m : Cev) (spot texp : ℝ) : ℝ :=
  let fwd := m.mp.forward spot texp
  let betac := 1 - m.beta
  let alpha := m.sigma / fwd ^ betac
  let varT0 := (betac * alpha) ^ 2 * exprel (2 * (m.intr - m.divr) * betac * texp)
  0.5 / varT0

/-- `Cev.price`, through the static `price_formula`, `pyfeng/cev.py` lines 70-119. -/
noncomputable def price (m : Cev) (strike spot texp cp : ℝ) : ℝ :=
  let df := exp (-texp * m.intr)
  let fwd := spot * (if m.isFwd then 1 else exp (-texp * m.divr) / df)
  let betac := 1 - m.beta
  let betacInv := 1 / betac
  let alpha := m.sigma / fwd ^ betac
  let var := max (alpha ^ 2 * texp) eps * betac ^ 2 * exprel (2 * (m.intr - m.divr) * betac * texp)
  let z0 := 1 / var
  let zK := (strike / fwd) ^ (2 * betac) * z0
  let price :=
    if m.beta < 1 then
      if cp > 0 then fwd * ncx2Sf zK (2 + betacInv) z0 - strike * ncx2Cdf z0 betacInv zK
      else strike * ncx2Sf z0 betacInv zK - fwd * ncx2Cdf zK (2 + betacInv) z0
    else
      if cp > 0 then fwd * ncx2Sf z0 (-betacInv) zK - strike * ncx2Cdf zK (2 - betacInv) z0
      else strike * ncx2Sf zK (2 - betacInv) z0 - fwd * ncx2Cdf z0 (-betacInv) zK
  df * price

/-- `Cev.price_std(sigma, k, beta, sign, type)`, `pyfeng/cev.py` lines 121-178. -/
noncomputable def priceStd (sigma k beta sign : ℝ) (type : ℤ) : ℝ :=
  let betac := 1 - beta
  let betacInv := 1 / betac
  let var := betac ^ 2 * sigma ^ 2
  let z0 := 1 / var
  let zK := k ^ (2 * betac) * z0
  if beta < 1 then
    let f1 := ncx2Pdf zK (2 + betacInv) z0
    if type = -1 then 2 / (sigma * betac) * f1
    else
      let num := if sign > 0 then ncx2Sf zK (2 + betacInv) z0 - k * ncx2Cdf z0 betacInv zK
        else ncx2Cdf zK (2 + betacInv) z0 + k * ncx2Cdf z0 betacInv zK
      let coeff := sigma * betac / 2
      if type = 0 then num else num * coeff / f1
  else
    let f1 := ncx2Pdf z0 (2 - betacInv) zK
    if type = -1 then -2 / (sigma * betac) * f1
    else
      let num := if sign > 0 then ncx2Sf z0 (-betacInv) zK - k * ncx2Cdf zK (2 - betacInv) z0
        else ncx2Cdf z0 (-betacInv) zK + k * ncx2Cdf zK (2 - betacInv) z0
      let coeff := -sigma * betac / 2
      if type = 0 then num else num * coeff / f1

/-- `Cev.delta`, `pyfeng/cev.py` lines 180-201. -/
noncomputable def delta (m : Cev) (strike spot texp cp : ℝ) : ℝ :=
  let fwd := m.mp.fwd spot texp
  let v := m.vars fwd strike texp
  let betacInv := 1 / v.betac
  let d :=
    if m.beta < 1 then 0.5 * (cp - 1) + ncx2Sf v.zK betacInv v.z0
    else 0.5 * (cp - 1) + ncx2Sf v.z0 (2 - betacInv) v.zK
  d * (if m.isFwd then m.mp.df texp else m.mp.divf texp)

/-- `Cev.cdf`, `pyfeng/cev.py` lines 203-209.  For `beta > 1` the degrees of freedom are negative and `ncx2` returns NaN
(`none`). -/
noncomputable def cdf (m : Cev) (strike spot texp cp : ℝ) : Option ℝ :=
  let fwd := m.mp.forward spot texp
  let v := m.vars fwd strike texp
  let betacInv := 1 / v.betac
  if betacInv ≤ 0 then none
  else some (if cp > 0 then ncx2Cdf v.z0 betacInv v.zK else ncx2Sf v.z0 betacInv v.zK)

/-- `Cev.gamma`, `pyfeng/cev.py` lines 211-237. -/
noncomputable def gamma (m : Cev) (strike spot texp : ℝ) : ℝ :=
  let fwd := m.mp.fwd spot texp
  let df := m.mp.df texp
  let divf := m.mp.divf texp
  let v := m.vars fwd strike texp
  let betacInv := 1 / v.betac
  let g :=
    if m.beta < 1 then 2 * v.betac * v.z0 * ncx2Pdf v.zK (2 + betacInv) v.z0
    else -2 * v.betac * v.z0 * ncx2Pdf v.z0 (2 - betacInv) v.zK
  let g := g * (divf ^ 2 / (df * fwd))
  if m.isFwd then g * (df / divf) ^ 2 else g

/-- `Cev.vega`, `pyfeng/cev.py` lines 239-260. -/
noncomputable def vega (m : Cev) (strike spot texp : ℝ) : ℝ :=
  let fwd := m.mp.fwd spot texp
  let v := m.vars fwd strike texp
  let betacInv := 1 / v.betac
  let x :=
    if m.beta < 1 then 2 * fwd ^ m.beta / (v.alpha * v.betac) * ncx2Pdf v.zK (2 + betacInv) v.z0
    else -2 * fwd ^ m.beta / (v.alpha * v.betac) * ncx2Pdf v.z0 (2 - betacInv) v.zK
  m.mp.df texp * x

/-- `Cev.theta`, `pyfeng/cev.py` lines 262-293. -/
noncomputable def theta (m : Cev) (strike spot texp cp : ℝ) : ℝ :=
  let betac := 1 - m.beta
  let rhoT := 2 * betac * (m.intr - m.divr) * texp
  let sigmaCoeff := m.sigma * exp rhoT / (2 * texp * exprel rhoT)
  let price := m.price strike spot texp cp
  let vega := m.vega strike spot texp
  let drift := if m.isFwd then 0 else (m.intr - m.divr) * spot * m.delta strike spot texp cp
  let theta := drift + sigmaCoeff * vega - m.intr * price
  0 - theta

/-! ### Monte Carlo -/

/-- One path of `CevMc.price_step(spot, dt)`, `pyfeng/cev.py` lines 352-387, over any monad `M` that provides the generator's draws
`gam a` (`standard_gamma(a)`) and `pois lam` (`poisson(lam)`).  The code works on arrays; each path goes through these steps
independently.  For `beta > 1` numpy refuses the negative shape (ValueError, `none`).  `is_fwd` is not consulted by the code. -/
noncomputable def priceStep {M : Type → Type} [Monad M] (gam : ℝ → M ℝ) (pois : ℝ → M ℕ) (m : Cev) (spot dt : ℝ) :
    M (Option ℝ) :=
  let betac := 1 - m.beta
  let st := exp ((m.intr - m.divr) * dt) * spot
  let var := (betac * m.sigma) ^ 2 * dt * exprel (2 * (m.intr - m.divr) * betac * dt)
  if 1 / (2 * betac) < 0 then pure none
  else if ¬ spot > 0 then pure (some st)
  else do
    let z0 := st ^ (2 * betac) / var
    let g ← gam (1 / (2 * betac))
    let rvGam := 2 * g
    let poisLam := (z0 - rvGam) / 2
    if poisLam ≤ 0 then pure (some 0)
    else do
      let n ← pois poisLam
      let x ← gam (n + 1)
      let zt := 2 * x
      pure (some ((var * zt) ^ (1 / (2 * betac))))

end Cev

/-- Interpretation of random draws by their expectations: `Ex α` is the type of expectation operators on functions of `α`. -/
def Ex (α : Type) : Type := (α → ℝ) → ℝ

instance : Monad Ex where
  pure a := fun φ => φ a
  bind x f := fun φ => x fun a => f a φ

/-- `standard_gamma(a)`. -/
noncomputable def Ex.gamma (a : ℝ) : Ex ℝ := fun φ => ∫ g in Set.Ioi 0, gammaPdf a g * φ g

/-- `poisson(lam)`. -/
noncomputable def Ex.poisson (lam : ℝ) : Ex ℕ := fun φ => poisMix φ lam

end PyFENG
