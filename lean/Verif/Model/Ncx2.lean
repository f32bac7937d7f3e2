import Mathlib.Analysis.SpecialFunctions.Gamma.Basic
import Mathlib.MeasureTheory.Integral.IntervalIntegral.Basic

/-!
# scipy's gamma and noncentral chi-squared functions

`spst.gamma._sf`, `spst.ncx2._cdf`, `_sf`, `_pdf` (used by `pyfeng/cev.py`) are modelled by the exact functions: the regularised
incomplete gamma function and the Poisson mixture of chi-squared distributions.
-/

namespace PyFENG

open Real

/-- `scipy.special.gammainc(a, y)`: regularised lower incomplete gamma function, the CDF of the standard gamma law. -/
noncomputable def gammaInc (a y : ℝ) : ℝ := (∫ t in (0 : ℝ)..y, t ^ (a - 1) * exp (-t)) / Real.Gamma a

/-- `spst.gamma._sf(y, a)`. -/
noncomputable def gammaSf (y a : ℝ) : ℝ := 1 - gammaInc a y

/-- The standard gamma density. -/
noncomputable def gammaPdf (a y : ℝ) : ℝ := y ^ (a - 1) * exp (-y) / Real.Gamma a

/-- Mixture of the values `c 0, c 1, …` with Poisson(`mu`) weights. -/
noncomputable def poisMix (c : ℕ → ℝ) (mu : ℝ) : ℝ := exp (-mu) * ∑' j : ℕ, mu ^ j / j.factorial * c j

/-- `spst.ncx2._cdf(x, df, nc)`: chi-squared with `df + 2J` degrees of freedom, `J` Poisson with mean `nc/2`. -/
noncomputable def ncx2Cdf (x df nc : ℝ) : ℝ := poisMix (fun j => gammaInc (df / 2 + j) (x / 2)) (nc / 2)

/-- `spst.ncx2._sf(x, df, nc)`. -/
noncomputable def ncx2Sf (x df nc : ℝ) : ℝ := 1 - ncx2Cdf x df nc

/-- `spst.ncx2._pdf(x, df, nc)`. -/
noncomputable def ncx2Pdf (x df nc : ℝ) : ℝ := poisMix (fun j => gammaPdf (df / 2 + j) (x / 2) / 2) (nc / 2)

end PyFENG
