import Verif.Model.Cir
import Verif.Model.Bsm
import Mathlib.Analysis.SpecialFunctions.Pow.Complex

/-!
# Model of `pyfeng/heston.py`: `HestonABC` and `HestonUncorrBallRoma1994`
-/

namespace PyFENG

open Real

/-- Attributes of a Heston model instance (`pyfeng/params.py` `HestonParams`); `sigma` is the initial variance. -/
structure Heston where
  sigma : ℝ
  vov : ℝ
  rho : ℝ
  mr : ℝ
  theta : ℝ
  intr : ℝ
  divr : ℝ
  isFwd : Bool

namespace Heston

/-- `HestonABC.cir`, `pyfeng/heston.py` lines 257-260. -/
def cir (m : Heston) : Cir := ⟨m.vov, m.mr, m.theta⟩

/-- `HestonABC.var_mv`, `pyfeng/heston.py` lines 263-279 (`none` is the default argument). -/
noncomputable def varMv (m : Heston) (dt : ℝ) (var0 : Option ℝ) : ℝ × ℝ := m.cir.mv dt (var0.getD m.sigma)

/-- `HestonABC.avgvar_mv`, `pyfeng/heston.py` lines 281-295. -/
noncomputable def avgvarMv (m : Heston) (texp : ℝ) (var0 : Option ℝ) : ℝ × ℝ × ℝ := m.cir.avgMv texp (var0.getD m.sigma)

/-- `HestonABC.strike_var_swap_analytic`, `pyfeng/heston.py` lines 297-333.  `np.isclose(dt, 0)` is `|dt| <= 1e-8`. -/
noncomputable def strikeVarSwap (m : Heston) (texp dt : ℝ) : ℝ :=
  let var0 := m.sigma
  let mrT := m.mr * texp
  let x0 := var0 - m.theta
  let strike := m.theta + x0 * exprel (-mrT)
  if ¬ (|dt| ≤ 1e-8) then
    let mrH := m.mr * dt
    let eMrH := exp (-mrH)
    let tmp := m.theta - 2 * (m.intr - m.divr)
    let strike := strike + tmp * dt / 4 * (tmp + 2 * x0 * exprel (-mrT))
    let tmp := m.vov / m.mr
    let strike := strike + m.theta * tmp * (tmp / 4 - m.rho) * (1 - exprel (-mrH))
    let strike := strike + x0 * tmp * (tmp / 2 - m.rho) * exprel (-mrT) * (1 + mrH / (1 - 1 / eMrH))
    strike + (tmp ^ 2 * (m.theta - 2 * var0) + 2 * x0 ^ 2 / m.mr) * exprel (-2 * mrT) / 4 * (1 - eMrH) / (1 + eMrH)
  else strike

/-- The exponent of `HestonABC.logp_mgf` times `vov^2`: local variable `mgf`, `pyfeng/heston.py` lines 351-360.  Complex square root and
logarithm are the principal branches, as in numpy. -/
noncomputable def logpMgfExpo (m : Heston) (uu : ℂ) (texp : ℝ) : ℂ :=
  let var0 : ℂ := m.sigma
  let vov2 : ℂ := (m.vov : ℂ) ^ 2
  let beta := (m.mr : ℂ) - m.vov * m.rho * uu
  let dd := (beta ^ 2 + vov2 * uu * (1 - uu)) ^ (1 / 2 : ℂ)
  let gg := (beta - dd) / (beta + dd)
  let exp := Complex.exp (-dd * texp)
  let tmp1 := 1 - gg * exp
  m.mr * m.theta * ((beta - dd) * texp - 2 * Complex.log (tmp1 / (1 - gg))) + var0 * (beta - dd) * (1 - exp) / tmp1

/-- `HestonABC.logp_mgf`, `pyfeng/heston.py` lines 335-361. -/
noncomputable def logpMgf (m : Heston) (uu : ℂ) (texp : ℝ) : ℂ := Complex.exp (m.logpMgfExpo uu texp / (m.vov : ℂ) ^ 2)

/-- `HestonABC.logp_mv`, `pyfeng/heston.py` lines 363-406. -/
noncomputable def logpMv (m : Heston) (texp : ℝ) : ℝ × ℝ :=
  let mi := m.avgvarMv texp none
  let muI := mi.1
  let varI := mi.2.1
  let mean := -0.5 * texp * muI
  let mrT := m.mr * texp
  let eMr := exp (-mrT)
  let phi := exprel (-mrT)
  let x0 := m.sigma - m.theta
  let covYi := m.vov ^ 2 / m.mr * (m.theta * (1 - phi) + x0 * (phi - eMr))
  let var := texp * muI + texp ^ 2 / 4 * varI - m.rho * texp / m.vov * covYi
  (mean, var)

/-- `HestonUncorrBallRoma1994.price`, `pyfeng/heston.py` lines 434-455 (warnings not modelled).  The Bsm model is built without `is_fwd`. -/
noncomputable def priceBallRoma (m : Heston) (order : ℕ) (strike spot texp cp : ℝ) : ℝ :=
  let a := m.avgvarMv texp none
  let bs : MParams := ⟨√a.1, m.intr, m.divr, false⟩
  let price := Bsm.price bs strike spot texp cp
  let price := if order ≥ 2 then price + 0.5 * a.2.1 * Bsm.d2Var bs strike spot texp cp else price
  if order ≥ 3 then price + (1 / 6) * a.2.2 * Bsm.d3Var bs strike spot texp cp else price

end Heston

end PyFENG
