import Verif.Model.Bsm

/-!
# Model of the barrier-option pricers: `pyfeng/bsm.py` lines 378-466 (shared by `Norm`, `pyfeng/norm.py` lines
278-307)
-/

namespace PyFENG

open Real

/-- `Bsm.price_barrier`, `pyfeng/bsm.py` lines 408-466, as a function of the two helper methods it calls on
`self` (`_price_suboptimal(strike, spot, texp, cp, strike2)` and the pair returned by `_barrier_params`).
`Norm` reuses this very function object (`price_barrier = bsm.Bsm.price_barrier`, `pyfeng/norm.py` line 307) with
its own helpers.  `sub strike spot cp strike2`; the default `strike2=None` means `strike`. -/
noncomputable def priceBarrierWith (sub : ℝ → ℝ → ℝ → ℝ → ℝ) (psi spotReflected : ℝ)
    (strike barrier spot cp io : ℝ) : ℝ :=
  let mirrorSign := (if barrier < spot then 1 else -1) * cp
  let barrier' := if mirrorSign > 0 then barrier else cp * max (cp * strike) (cp * barrier)
  let pEuro1 := if mirrorSign > 0 then 0 else sub strike spot cp barrier'
  let pEuro2 := sub strike spotReflected (mirrorSign * cp) strike
    - (if mirrorSign > 0 then 0 else sub strike spotReflected (mirrorSign * cp) barrier')
  let p := pEuro1 + psi * pEuro2
  if io > 0 then p else sub strike spot cp strike - p

namespace Bsm

/-- `Bsm._price_suboptimal`, `pyfeng/bsm.py` lines 378-389: option to receive `cp (S_T - strike)` exercised when
`cp (S_T - strike2) > 0`. -/
noncomputable def priceSuboptimal (m : MParams) (texp strike spot cp strike2 : ℝ) : ℝ :=
  let fwd := m.fwd spot texp
  let std := sigmaStd m.sigma texp
  let d := log (fwd / strike2) / std
  let d2 := d - 0.5 * std
  let d1 := d + 0.5 * std
  (fwd * ncdf (cp * d1) - strike * ncdf (cp * d2)) * (cp * m.df texp)

/-- `psi` of `Bsm._barrier_params`, `pyfeng/bsm.py` lines 402-404. -/
noncomputable def barrierPsi (m : MParams) (barrier spot : ℝ) : ℝ :=
  (barrier / spot) ^ (2 * (m.intr - m.divr) / m.sigma ^ 2 - 1)

/-- `spot_reflected` of `Bsm._barrier_params`, `pyfeng/bsm.py` line 405. -/
noncomputable def spotReflected (barrier spot : ℝ) : ℝ := barrier ^ 2 / spot

/-- `Bsm.price_barrier`, `pyfeng/bsm.py` lines 408-466. -/
noncomputable def priceBarrier (m : MParams) (strike barrier spot texp cp io : ℝ) : ℝ :=
  priceBarrierWith (priceSuboptimal m texp) (barrierPsi m barrier spot) (spotReflected barrier spot)
    strike barrier spot cp io

end Bsm

namespace Norm

/-- `Norm._price_suboptimal`, `pyfeng/norm.py` lines 278-287. -/
noncomputable def priceSuboptimal (m : MParams) (texp strike spot cp strike2 : ℝ) : ℝ :=
  let fwd := m.fwd spot texp
  let std := sigmaStd m.sigma texp
  let d2 := (fwd - strike2) / std
  (cp * (fwd - strike) * ncdf (cp * d2) + std * npdf d2) * m.df texp

/-- `Norm.price_barrier`, `pyfeng/norm.py` lines 289-307 (`psi = 1`, `spot_mirror = 2*barrier - spot`). -/
noncomputable def priceBarrier (m : MParams) (strike barrier spot texp cp io : ℝ) : ℝ :=
  priceBarrierWith (priceSuboptimal m texp) 1 (2 * barrier - spot) strike barrier spot cp io

end Norm
end PyFENG
