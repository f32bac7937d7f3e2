import Verif.Model.Bsm
import Verif.Model.Util

/-!
# Model of `pyfeng/bsm.py`: `Bsm.d1sigma`, `Bsm.price_std`, `Bsm.impvol`
-/

namespace PyFENG
namespace Bsm

open Real

/-- `scipy.stats.norm._ppf(p)`: the quantile, i.e. a point with `ncdf x = p` (meaningless outside `(0,1)`,
where scipy returns `±inf`/`nan`). -/
noncomputable def nppf (p : ℝ) : ℝ := Function.invFun ncdf p

/-- `Bsm.d1sigma`, `pyfeng/bsm.py` lines 62-66. -/
noncomputable def d1sigma (d1 logk : ℝ) : ℝ :=
  let sig := √(d1 ^ 2 + 2 * logk) + |d1|
  if d1 < 0 then 2 * logk / sig else sig

/-- `d0` of `Bsm.price_std`, `pyfeng/bsm.py` lines 104-105: `-logk`, divided by `sigma` where non-zero. -/
noncomputable def stdD0 (sigma logk : ℝ) : ℝ := if -logk ≠ 0 then -logk / sigma else -logk

/-- The mask `idx` of `Bsm.price_std`, `pyfeng/bsm.py` line 114: where the small-volatility series is used. -/
def stdSmall (sigma logk sign : ℝ) : Prop :=
  sigma > 0 ∧ sigma / max 1 (-stdD0 sigma logk) < 1e-3 ∧ sign > 0

open Classical in
/-- `Bsm.price_std`, `pyfeng/bsm.py` lines 68-137. -/
noncomputable def priceStd (sigma logk sign : ℝ) (type : ℤ) : ℝ :=
  let d0 := stdD0 sigma logk
  if type = -1 then npdf (d0 + sigma / 2)
  else
    let rLeft := millsRatio (-sign * (d0 + 0.5 * sigma))
    let rv := rLeft - sign * millsRatio (-d0 + 0.5 * sigma)
    let rv :=
      if stdSmall sigma logk sign then
        let rD1 := 1 + d0 * millsRatio (-d0)
        let rD3 := (d0 ^ 2 + 3) * rD1 - 1
        (rD1 + sigma ^ 2 / 24 * rD3) * sigma
      else rv
    if type = 0 then rv * npdf (d0 + sigma / 2)
    else if type = 2 then rv / rLeft
    else rv

/-- Standardised strike of `Bsm.impvol`, `pyfeng/bsm.py` lines 307-308: `K/F`, inverted when below one. -/
noncomputable def stdStrike (fwd strike : ℝ) : ℝ :=
  let kk := strike / fwd
  if kk < 1 then 1 / kk else kk

/-- Standardised price of `Bsm.impvol`, `pyfeng/bsm.py` line 309. -/
noncomputable def stdPrice (price df fwd strike cp : ℝ) : ℝ :=
  (price / df - max (cp * (fwd - strike)) 0) / min fwd strike

/-- Initial guess of `Bsm.impvol`, `pyfeng/bsm.py` lines 315-319. -/
noncomputable def ivGuess (kk p : ℝ) : ℝ :=
  if log kk = 0 ∧ p < 1e-4 then √(2 * π) * p * (1 + π * p ^ 2 / 12)
  else d1sigma (nppf (p * (kk + p) / (2 * p + (kk - 1)))) (log kk)

/-- Log-price residual of one Newton iteration, `pyfeng/bsm.py` lines 321-326. -/
noncomputable def ivErr (logk p sigma : ℝ) : ℝ :=
  let pv := priceStd sigma logk 1 1
  let d1 := (if logk = 0 then 0 else -logk / sigma) + 0.5 * sigma
  log pv - 0.5 * d1 ^ 2 - (log p + log (2 * π) / 2)

/-- One Newton update, `pyfeng/bsm.py` line 330: `sigma -= p_log_err * pv`. -/
noncomputable def ivStep (logk p sigma : ℝ) : ℝ := sigma - ivErr logk p sigma * priceStd sigma logk 1 1

/-- `OptABC.IMPVOL_TOL = 1e-10`, `pyfeng/opt_abc.py` line 26. -/
noncomputable def impvolTol : ℝ := 1e-10

open Classical in
/-- The loop of `Bsm.impvol`, `pyfeng/bsm.py` lines 323-334, on an array of options indexed by `ι`: stop as soon
as the largest residual is below the tolerance, otherwise update *all* elements.  Returns the final iterate and
whether the loop converged (no warning). -/
noncomputable def ivLoop {ι : Type*} (logk p : ι → ℝ) : ℕ → (ι → ℝ) → (ι → ℝ) × Bool
  | 0, sigma => (sigma, false)
  | n + 1, sigma =>
    if ∀ i, |ivErr (logk i) (p i) (sigma i)| < impvolTol then (sigma, true)
    else ivLoop logk p n fun i => ivStep (logk i) (p i) (sigma i)

/-- `Bsm.impvol` on arrays, `pyfeng/bsm.py` lines 280-344.  `n_iter = 0` leaves `p_log_err_max` unbound
(`NameError` on line 332). The second component is `False` when the convergence warning is issued. -/
noncomputable def impvol {ι : Type*} (m : MParams) (price strike spot texp cp : ι → ℝ) (nIter : ℕ) :
    Except String ((ι → ℝ) × Bool) :=
  if nIter = 0 then .error "UnboundLocalError: p_log_err_max"
  else
    let kk := fun i => stdStrike (m.fwd (spot i) (texp i)) (strike i)
    let p := fun i => stdPrice (price i) (m.df (texp i)) (m.fwd (spot i) (texp i)) (strike i) (cp i)
    let r := ivLoop (fun i => log (kk i)) p nIter fun i => ivGuess (kk i) (p i)
    .ok (fun i => r.1 i / √(texp i), r.2)

end Bsm
end PyFENG
