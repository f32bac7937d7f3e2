import Mathlib.Analysis.Complex.Exponential
import Mathlib.Analysis.SpecialFunctions.Pow.Real
import Mathlib.Analysis.SpecialFunctions.Complex.Log
import Mathlib.Algebra.BigOperators.Intervals

/-!
# Model of `pyfeng/mgf2mom.py`: `Mgf2Mom`
-/

namespace PyFENG

open Real

/-- `Mgf2Mom`: the transform, the quadrature parameter `l` and the optional analytic mean and variance, `pyfeng/mgf2mom.py` lines 22-34. -/
structure Mgf2Mom where
  mgf : ℂ → ℂ
  l : ℕ
  mean : Option ℝ
  var : Option ℝ

namespace Mgf2Mom

/-- `Mgf2Mom.radius`, `pyfeng/mgf2mom.py` lines 35-38. -/
noncomputable def radius (n l : ℕ) (gamma : ℝ := 11) : ℝ := (10 : ℝ) ^ (-gamma / (2 * n * l))

/-- `Mgf2Mom.moment_raw`, `pyfeng/mgf2mom.py` lines 40-67.  `kk` runs over `1, .., n*l - 1`. -/
noncomputable def momentRaw (f : ℂ → ℂ) (n : ℕ) (alpha : ℝ) (l : ℕ) : ℝ :=
  let rn := radius n l
  let mgf0 := (f ((alpha * rn * 1.0 : ℝ) : ℂ)).re
  let mgf1 := (f ((alpha * rn * -1.0 : ℝ) : ℂ)).re
  let part3 := ∑ kk ∈ Finset.Ico 1 (n * l),
    (f ((alpha * rn : ℝ) * Complex.exp (π * kk * Complex.I / (n * l))) * Complex.exp (-π * kk * Complex.I / l)).re
  (n.factorial : ℝ) / (2 * n * l * (alpha * rn) ^ n) * (mgf0 + (-1) ^ n * mgf1 + 2.0 * part3)

/-- The loop of `Mgf2Mom._run`, `pyfeng/mgf2mom.py` lines 86-88: `out` holds the values of orders `1, .., i-1`, latest first; `k` more
orders are computed. -/
noncomputable def runLoop (f : ℂ → ℂ) (l : ℕ) : ℕ → ℕ → List ℝ → List ℝ
  | 0, _, out => out
  | k + 1, i, out =>
    let alpha := ((i : ℝ) - 1) * out.getD 1 0 / out.getD 0 0
    runLoop f l k (i + 1) (momentRaw f i alpha l :: out)

/-- `Mgf2Mom._run`, `pyfeng/mgf2mom.py` lines 69-89 (`n >= 2`). -/
noncomputable def run (f : ℂ → ℂ) (l n : ℕ) (m1 m2 : ℝ) : List ℝ :=
  let alpha1 := 2.0 * m1 / m2
  (runLoop f l (n - 2) 3 [momentRaw f 2 alpha1 l, momentRaw f 1 alpha1 l]).reverse

/-- `Mgf2Mom.moments`, `pyfeng/mgf2mom.py` lines 101-135 (warnings not modelled; `_check_replace` always replaces). -/
noncomputable def moments (m : Mgf2Mom) (n : ℕ) : List ℝ :=
  let n := if n < 2 then 2 else n
  let m1 := match m.mean with
    | some mu => mu
    | none => momentRaw m.mgf 1 1 2
  let m2 := match m.var with
    | some v => v + m1 ^ 2
    | none => momentRaw m.mgf 2 (1.0 / m1) 1
  let out := run m.mgf m.l n m1 m2
  let out := match m.mean with
    | some mu => out.set 0 mu
    | none => out
  match m.var with
    | some v => out.set 1 (v + (out.getD 0 0) ^ 2)
    | none => out

/-- `Mgf2Mom.cumulants`, `pyfeng/mgf2mom.py` lines 137-175. -/
noncomputable def cumulants (m : Mgf2Mom) (n : ℕ) : List ℝ :=
  let n := if n < 2 then 2 else n
  let cgf : ℂ → ℂ := fun u => Complex.log (m.mgf u)
  let k1 := match m.mean with
    | some mu => mu
    | none => momentRaw cgf 1 1 2
  let k2 := match m.var with
    | some v => v
    | none => momentRaw cgf 2 (1.0 / k1) 1
  let out := run cgf m.l n k1 k2
  let out := match m.mean with
    | some mu => out.set 0 mu
    | none => out
  match m.var with
    | some v => out.set 1 v
    | none => out

end Mgf2Mom

end PyFENG
