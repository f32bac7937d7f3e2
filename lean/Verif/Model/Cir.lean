import Verif.Model.Cev
import Verif.Spec

/-!
# Model of `pyfeng/heston.py`: class `CirModel`
-/

namespace PyFENG

open Real

/-- `CirModel`, fields as in `pyfeng/heston.py` lines 29-36. -/
structure Cir where
  sigma : ℝ
  mr : ℝ
  theta : ℝ

/-- `rng.standard_normal()`: expectation under the standard normal law. -/
noncomputable def Ex.normal : Ex ℝ := fun φ => Spec.gaussE φ

/-- `rng.noncentral_chisquare(df, nonc)`: the Poisson mixture of chi-square laws. -/
noncomputable def Ex.ncx2 (df nonc : ℝ) : Ex ℝ := do
  let n ← Ex.poisson (nonc / 2)
  let g ← Ex.gamma (df / 2 + n)
  pure (2 * g)

namespace Cir

/-- `CirModel.log_mgf`, `pyfeng/heston.py` lines 38-67 (real argument). -/
noncomputable def logMgf (c : Cir) (uu texp v0 : ℝ) : ℝ :=
  let gamma := √(c.mr ^ 2 - 2 * uu * c.sigma ^ 2)
  let expm1gT := exp (gamma * texp) - 1
  let Delta := 2 * gamma + (c.mr + gamma) * expm1gT
  let B := 2 * uu * expm1gT / Delta
  let A := c.mr * c.theta / c.sigma ^ 2 * ((c.mr + gamma) * texp - 2 * log (1 + (c.mr + gamma) / (2 * gamma) * expm1gT))
  A + B * v0

/-- `CirModel.mgf`, `pyfeng/heston.py` lines 69-85. -/
noncomputable def mgf (c : Cir) (uu texp v0 : ℝ) : ℝ := exp (c.logMgf uu texp v0)

/-- `mgf_vt` inside `CirModel.cum4_numeric`, `pyfeng/heston.py` lines 105-115 (real argument). -/
noncomputable def mgfVt (c : Cir) (texp v0 u : ℝ) : ℝ :=
  let mrT := c.mr * texp
  let alpha := c.sigma ^ 2 * (-(exp (-mrT) - 1)) / (4 * c.mr)
  let d := 4 * c.mr * c.theta / c.sigma ^ 2
  let lam := v0 * exp (-mrT) / alpha
  exp (-(d / 2) * log (1 + -2 * alpha * u) + lam * alpha * u / (1 - 2 * alpha * u))

/-- `CirModel.mv`, `pyfeng/heston.py` lines 120-148. -/
noncomputable def mv (c : Cir) (dt v0 : ℝ) : ℝ × ℝ :=
  let mrT := c.mr * dt
  let eMr := exp (-mrT)
  let mean := c.theta + (v0 - c.theta) * eMr
  let avg := exprel (-mrT)
  let var := c.sigma ^ 2 * dt * avg * (v0 * eMr + c.theta * mrT * avg / 2)
  (mean, var)

/-- `CirModel.chi_dim`, `pyfeng/heston.py` lines 150-152. -/
noncomputable def chiDim (c : Cir) : ℝ := 4 * c.theta * c.mr / c.sigma ^ 2

/-- `CirModel.avg_mv`, `pyfeng/heston.py` lines 154-188. -/
noncomputable def avgMv (c : Cir) (texp v0 : ℝ) : ℝ × ℝ × ℝ :=
  let mrT := c.mr * texp
  let eMr := exp (-mrT)
  let phi := exprel (-mrT)
  let x0 := v0 - c.theta
  let mean := c.theta + x0 * phi
  let var0 := (c.theta - 2 * x0 * eMr) + (v0 - 2.5 * c.theta + (v0 - c.theta / 2) * eMr) * phi
  let var := var0 * ((c.sigma / mrT) ^ 2 * texp)
  let fac := (c.sigma / c.mr) ^ 4 / c.mr
  let b3 := 3 * fac * ((1 + 0.5 * eMr * (1 - eMr * (2 + eMr))) - mrT * eMr * (1 + mrT + 2 * eMr))
  let intB3 := fac * texp * ((3 - 11 * phi + eMr * (9 - 3.5 * phi + eMr * (3 - 0.5 * phi))) + 3 * mrT * eMr)
  let a3 := c.mr * c.theta * intB3
  let c3Small := (c.sigma ^ 2 * texp) ^ 2 *
    (v0 / 5 + mrT * (c.theta / 30 - 17 * v0 / 60) + mrT ^ 2 * (3 * v0 / 14 - 17 * c.theta / 420))
  let c3Full := (a3 + b3 * v0) / texp ^ 3
  let c3 := if mrT < 0.1 then c3Small else c3Full
  (mean, var, c3)

/-- `CirModel.phi_exp`, `pyfeng/heston.py` lines 190-194. -/
noncomputable def phiExp (c : Cir) (dt : ℝ) : ℝ × ℝ :=
  let expH := exp (-c.mr * dt / 2)
  let phi := 4 * c.mr / c.sigma ^ 2 / (1 / expH - expH)
  (phi, expH)

/-- `CirModel.draw_euler`, `pyfeng/heston.py` lines 196-213, for one path; `normal` draws a standard normal. -/
noncomputable def drawEuler {m : Type → Type} [Monad m] (normal : m ℝ) (c : Cir) (dt v0 : ℝ) (milstein : Bool) : m ℝ := do
  let zz ← normal
  let vt := v0 + c.mr * (c.theta - v0) * dt + √v0 * c.sigma * zz
  let vt := if milstein then vt + 0.25 * c.sigma ^ 2 * (zz ^ 2 - dt) else vt
  pure (max vt 0)

/-- `CirModel.draw_ncx2`, `pyfeng/heston.py` lines 215-231, for one path. -/
noncomputable def drawNcx2 {m : Type → Type} [Monad m] (ncx2 : ℝ → ℝ → m ℝ) (c : Cir) (dt v0 : ℝ) : m ℝ := do
  let chiDf := 4 * c.mr * c.theta / c.sigma ^ 2
  let pe := c.phiExp dt
  let x ← ncx2 chiDf (v0 * pe.2 * pe.1)
  pure (pe.2 / pe.1 * x)

/-- `CirModel.draw_pois_gamma`, `pyfeng/heston.py` lines 233-252, for one path; returns the new variance and the Poisson draw. -/
noncomputable def drawPoisGamma {m : Type → Type} [Monad m] (gamma : ℝ → m ℝ) (poisson : ℝ → m ℕ) (c : Cir) (dt v0 : ℝ) : m (ℝ × ℕ) := do
  let chiDf := 4 * c.mr * c.theta / c.sigma ^ 2
  let pe := c.phiExp dt
  let chiNonc := v0 * pe.2 * pe.1
  let pois ← poisson (chiNonc / 2)
  let g ← gamma (chiDf / 2 + pois)
  pure (pe.2 / pe.1 * 2 * g, pois)

end Cir

end PyFENG
