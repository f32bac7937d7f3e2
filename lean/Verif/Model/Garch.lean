import Verif.Model.Bsm
import Verif.Model.Sv32

/-!
# Model of `pyfeng/garch.py`: the GARCH diffusion model

The simulation is modelled one path at a time, over an arbitrary monad of random draws (see `Rng`).  A reciprocal that is infinite in floating point is `none`.
-/

namespace PyFENG

open Real

/-- Attributes of a GARCH diffusion model instance (`pyfeng/params.py` `GarchParams`); `sigma` is the initial variance. -/
structure GarchDiff where
  sigma : ℝ
  vov : ℝ
  rho : ℝ
  mr : ℝ
  theta : ℝ
  intr : ℝ
  divr : ℝ
  isFwd : Bool

namespace GarchDiff

/-- The market parameters with a volatility. -/
def mp (m : GarchDiff) (sigma : ℝ) : MParams := ⟨sigma, m.intr, m.divr, m.isFwd⟩

/-- `GarchUncorrBaroneAdesi2004.avgvar_mv`, `pyfeng/garch.py` lines 27-65. -/
noncomputable def avgvarMv (m : GarchDiff) (texp var0 : ℝ) : ℝ × ℝ :=
  let mr2 := m.mr * m.mr
  let vov2 := m.vov * m.vov
  let theta2 := m.theta * m.theta
  let mrT := m.mr * texp
  let eMr := exp (-mrT)
  let M1 := m.theta + (var0 - m.theta) * exprel (-mrT)
  let term1 := vov2 - m.mr
  let term2 := vov2 - 2 * m.mr
  let M2c1 := -(eMr * (var0 - m.theta)) ^ 2
  let M2c2 := 2 * exp (term2 * texp) * (2 * m.mr * m.theta * (m.mr * m.theta + term2 * var0) + term1 * term2 * var0 ^ 2)
  let M2c3 := -vov2 * (theta2 * (4 * m.mr * (3 - mrT) + (2 * mrT - 5) * vov2) + term2 * var0 * (2 * m.theta + var0))
  let M2c4 := 2 * eMr * vov2
  let M2c4 := M2c4 * (2 * theta2 * (mrT * m.mr - (1 + mrT) * vov2) + var0 * (2 * m.mr * m.theta * (1 + texp * term1) + term1 * var0))
  let M2c := M2c1 / mr2 + M2c2 / (term1 * term2) ^ 2 + M2c3 / mr2 / term2 ^ 2 + M2c4 / mr2 / term1 ^ 2
  (M1, M2c / texp ^ 2)

/-- `GarchUncorrBaroneAdesi2004.price`, `pyfeng/garch.py` lines 67-82; `order` is the class attribute (2 by default).  The Bsm model is built without `is_fwd`;
the warning for a nonzero correlation is not modelled. -/
noncomputable def price (m : GarchDiff) (order : ℤ) (strike spot texp cp : ℝ) : Except McErr ℝ :=
  let r := m.avgvarMv texp m.sigma
  let bs : MParams := ⟨√r.1, m.intr, m.divr, false⟩
  let price := Bsm.price bs strike spot texp cp
  if order = 2 then .ok (price + 0.5 * r.2 * Bsm.d2Var bs strike spot texp cp)
  else if order > 2 then .error .valueError
  else .ok price

variable {M : Type → Type} [Monad M]

/-- `GarchMcTimeDisc.vol_step_euler`, `pyfeng/garch.py` lines 116-136. -/
noncomputable def volStepEuler (R : Rng M) (m : GarchDiff) (dt var0 : ℝ) (milstein : Bool) : M ℝ := do
  let zz ← R.normal
  let varT := var0 + m.mr * (m.theta - var0) * dt + m.vov * var0 * √dt * zz
  let varT := if milstein then varT + (m.vov ^ 2 / 2) * var0 * dt * (zz ^ 2 - 1) else varT
  pure (if varT < 0 then 0 else varT)

/-- `GarchMcTimeDisc.var_step_log`, `pyfeng/garch.py` lines 138-155. -/
noncomputable def varStepLog (R : Rng M) (m : GarchDiff) (logVar0 dt : ℝ) : M ℝ := do
  let zz ← R.normal
  pure (logVar0 + (m.mr * m.theta * exp (-logVar0) - m.mr - m.vov ^ 2 / 2) * dt + m.vov * √dt * zz)

/-- The reciprocal of a nonnegative number; `none` is the infinity of floating point division by zero. -/
noncomputable def recip (x : ℝ) : Option ℝ := if x = 0 then none else some (1 / x)

/-- `GarchMcTimeDisc.cond_states_step`, `pyfeng/garch.py` lines 157-183: the new variance and the averages of the variance, the volatility and the inverse volatility. -/
noncomputable def stepTd (R : Rng M) (m : GarchDiff) (scheme : ℤ) (dt var0 : ℝ) : Except McErr (M (ℝ × ℝ × ℝ × Option ℝ)) :=
  if scheme < 2 then .ok (do
    let varT ← volStepEuler R m dt var0 (scheme == 1)
    let meanVar := (var0 + varT) / 2
    let vol0 := √var0
    let volT := √varT
    let meanVol := (vol0 + volT) / 2
    let meanInvVol := do
      let a ← recip vol0
      let b ← recip volT
      some ((a + b) / 2)
    pure (varT, meanVar, meanVol, meanInvVol))
  else if scheme = 2 then .ok (do
    let logVarT ← varStepLog R m (log var0) dt
    let vol0 := √var0
    let volT := exp (logVarT / 2)
    let varT := volT ^ 2
    let meanVar := (var0 + varT) / 2
    let meanVol := (vol0 + volT) / 2
    let meanInvVol := do
      let a ← recip vol0
      let b ← recip volT
      some ((a + b) / 2)
    pure (varT, meanVar, meanVol, meanInvVol))
  else .error .valueError

/-- The loop of `GarchMcTimeDisc.cond_spot_sigma`, `pyfeng/garch.py` lines 195-199; the state is `(var_t, avgvar, avgvol, avgivol)`. -/
noncomputable def condLoop (step : ℝ → ℝ → M (ℝ × ℝ × ℝ × Option ℝ)) : List ℝ → ℝ × ℝ × ℝ × Option ℝ → M (ℝ × ℝ × ℝ × Option ℝ)
  | [], s => pure s
  | dt :: dts, s => do
    let r ← step dt s.1
    condLoop step dts (r.1, s.2.1 + r.2.1 * dt, s.2.2.1 + r.2.2.1 * dt, do
      let a ← s.2.2.2
      let b ← r.2.2.2
      some (a + b * dt))

/-- The value returned from the final state, `pyfeng/garch.py` lines 201-212; `none` when the conditional spot is not a finite positive number because `avgivol` is infinite. -/
noncomputable def condResult (m : GarchDiff) (texp var0 : ℝ) (s : ℝ × ℝ × ℝ × Option ℝ) : Option ℝ × ℝ :=
  let avgvar := s.2.1 / texp
  let avgvol := s.2.2.1 / texp
  let spotCond := do
    let avgivol ← s.2.2.2
    let avgivol := avgivol / texp
    let spotCond := 2 * (√s.1 - √var0) / m.vov + (-m.mr * m.theta * avgivol / m.vov + (m.mr / m.vov + m.vov / 4) * avgvol - m.rho * avgvar / 2) * texp
    some (exp (m.rho * spotCond))
  (spotCond, √((1.0 - m.rho ^ 2) / var0 * avgvar))

/-- `GarchMcTimeDisc.cond_spot_sigma`, `pyfeng/garch.py` lines 185-212; `step dt var_t` is `cond_states_step(dt, var_t)`. -/
noncomputable def condSpotSigma (m : GarchDiff) (step : ℝ → ℝ → M (ℝ × ℝ × ℝ × Option ℝ)) (tobs : List ℝ) (texp var0 : ℝ) : M (Option ℝ × ℝ) := do
  let s ← condLoop step (Heston.dts tobs) (var0, 0, 0, some 0)
  pure (m.condResult texp var0 s)

end GarchDiff

end PyFENG
