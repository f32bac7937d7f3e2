import Verif.Model.HestonMc

/-!
# Model of the variance paths of `pyfeng/heston_mc.py`

`HestonMcAndersen2008.vol_paths` and `HestonMcChoiKwok2023PoisTd.vol_paths`, one path (one column of the array) at a time.
-/

namespace PyFENG

namespace Heston

variable {M : Type → Type} [Monad M]

/-- The loop `for i in range(n_dt)` of both `vol_paths`, `pyfeng/heston_mc.py` lines 790-792 and 861-868: `prev` is the date before the
first of `tobs` (`np.diff(tobs, prepend=0)`), `v` the current `var_t`; the rows written, in order. -/
noncomputable def volLoop (step : ℝ → ℝ → M ℝ) : ℝ → ℝ → List ℝ → M (List ℝ)
  | _, _, [] => pure []
  | prev, v, t :: ts => do
    let v' ← step (t - prev) v
    let r ← volLoop step t v' ts
    pure (v' :: r)

/-- A value written into `var_path`, which `np.full` gives the type of `var_0` (`pyfeng/heston_mc.py` lines 788 and 863): an array of
integers when `sigma` is a Python `int` (`isInt`), and then numpy drops the fractional part. -/
noncomputable def storeVar (isInt : Bool) (x : ℝ) : ℝ := if isInt then (if 0 ≤ x then (⌊x⌋ : ℝ) else (⌈x⌉ : ℝ)) else x

/-- `HestonMcChoiKwok2023PoisTd.vol_paths`, `pyfeng/heston_mc.py` lines 858-870, one column. -/
noncomputable def volPathsPoisTd (m : Heston) (R : Rng M) (isInt : Bool) (tobs : List ℝ) : M (List ℝ) := do
  let r ← volLoop (fun dt v => do
    let x ← Cir.drawPoisGamma R.gamma R.poisson m.cir dt v
    pure x.1) 0 m.sigma tobs
  pure ((m.sigma :: r).map (storeVar isInt))

/-- `HestonMcAndersen2008.vol_paths`, `pyfeng/heston_mc.py` lines 783-812, one column. -/
noncomputable def volPathsAndersen (m : Heston) (R : Rng M) (scheme : ℤ) (isInt : Bool) (tobs : List ℝ) : Except SchemeErr (M (List ℝ)) :=
  let run := fun (step : ℝ → ℝ → M ℝ) => do
    let r ← volLoop step 0 m.sigma tobs
    pure ((m.sigma :: r).map (storeVar isInt))
  if scheme < 2 then .ok (run fun dt v => Cir.drawEuler R.normal m.cir dt v (decide (scheme = 1)))
  else if scheme = 2 then .ok (run fun dt v => Cir.drawNcx2 R.ncx2 m.cir dt v)
  else if scheme = 3 then .ok (run fun dt v => do
    let x ← Cir.drawPoisGamma R.gamma R.poisson m.cir dt v
    pure x.1)
  else if scheme = 4 then .ok (run fun dt v => do
    let x ← m.varStepQe R dt v
    pure x.1)
  else .error .valueError

end Heston

end PyFENG
