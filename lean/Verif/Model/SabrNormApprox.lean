import Verif.Model.SabrInt

/-! # Model of `SabrNormEllipeInt.hh_xi_approx`, `pyfeng/sabr_int.py` -/

namespace PyFENG

open Real

namespace Sabr

/-- `SabrNormEllipeInt.hh_xi_approx`, `pyfeng/sabr_int.py` lines 296-320. -/
noncomputable def hhXiApprox (uu k xi rho : ℝ) : ℝ :=
  let rhoc2 := 1 - rho ^ 2
  let V := √(k ^ 2 + rhoc2)
  let u0 := arsinh |(rho * V - k) / rhoc2| / (2 * xi)
  let tmp1 := |rho - k / V|
  let tmp2 := 1 - rho * k / V
  let A := 0.75 * tmp1
  let B := 0.75 * (tmp2 - 5 / 16 * tmp1 ^ 2)
  √V * π / 2 * (1 + xi * (uu - u0) * (A + B * xi * (uu - u0)))

end Sabr

end PyFENG
