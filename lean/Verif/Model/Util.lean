import Verif.Model.Core
import Mathlib.MeasureTheory.Integral.Bochner.Set
import Mathlib.Data.Nat.Choose.Basic

/-!
# Model of `pyfeng/util.py`

The decimal constants of `MathConsts` (lines 5-30) are modelled by the exact reals they denote.
-/

namespace PyFENG

open MeasureTheory Set Real

/-- `scipy.special.erfcx(x) = exp(x²) erfc(x)` with `erfc(x) = 2/√π ∫_x^∞ e^{-t²} dt`. -/
noncomputable def erfcx (x : ℝ) : ℝ := exp (x ^ 2) * (2 / √π * ∫ t in Ioi x, exp (-t ^ 2))

/-- `MathFuncs.mills_ratio`, `pyfeng/util.py` lines 35-46. -/
noncomputable def millsRatio (x : ℝ) : ℝ := √(π / 2) * erfcx (x * (1 / √2))

/-- `MathFuncs.logrel`, `pyfeng/util.py` lines 48-83. -/
noncomputable def logrel (x : ℝ) : Except String ℝ :=
  if ¬ x > -1 then .error "ValueError: x must be greater than -1.0."
  else .ok (if x ≠ 0 then log (1 + x) / x else 1)

/-- `MathFuncs.powrel`, `pyfeng/util.py` lines 85-126 (the two masked divisions, in order). -/
noncomputable def powrel (x a : ℝ) : Except String ℝ :=
  if ¬ x > -1 then .error "ValueError: x must be greater than -1.0."
  else
    let rv : ℝ := 1
    let rv := if x ≠ 0 ∧ a ≠ 0 then (exp (a * log (1 + x)) - 1) / (a * x) else rv
    let rv := if x ≠ 0 ∧ a = 0 then log (1 + x) / x else rv
    .ok rv

/-- `mc` inside `statsmodels.stats.moment_helpers.cum2mc(kappa)` (imported in `pyfeng/util.py` line 3, not part of /repo), with `kappa n` the cumulant of order `n`: the list starts as `[1, 0.0]` and then
`mc[n] = sum(comb(n-1, k) * kappa[n-k] * mc[k] for k in range(n-1))`. -/
noncomputable def cum2mcAux (kappa : ℕ → ℝ) : ℕ → ℝ
  | 0 => 1
  | 1 => 0
  | n + 2 => ∑ k : Fin (n + 1), ((n + 1).choose k : ℝ) * kappa (n + 2 - k) * cum2mcAux kappa k
decreasing_by exact Nat.lt_trans k.2 (Nat.lt_succ_self _)

/-- `statsmodels.stats.moment_helpers.cum2mc` at order `n ≥ 1` (entry `n - 1` of the result): the central moment, with the mean in the first place. -/
noncomputable def cum2mc (kappa : ℕ → ℝ) (n : ℕ) : ℝ := if n = 1 then kappa 1 else cum2mcAux kappa n

/-- Errors of `gramcharA_coefs`. -/
inductive GcErr
  | valueError
  | indexError

/-- `StatFuncs.gramcharA_coefs`, `pyfeng/util.py` lines 131-192. `cumul_std[k]` is the product of `k + 1` factors `1/sigma`, set to zero for `k < 2` and multiplied by `cumuls[k]` for the others. -/
noncomputable def gramcharA (cumuls : List ℝ) (sigma : Option ℝ) : Except GcErr (List ℝ × ℝ) := do
  let m := cumuls.length
  let sigma ← match sigma with
    | some s => .ok s
    | none => match cumuls[1]? with
      | none => .error .indexError
      | some c => if c ≤ 0 then .error .valueError else .ok (√c)
  let cumulStd := fun k => if k < 2 then 0 else (1 / sigma) ^ (k + 1) * cumuls.getD k 0
  if m = 0 then .error .indexError
  else .ok ((List.range m).map fun k => 1.0 / ((k + 1).factorial : ℝ) * cum2mc (fun n => cumulStd (n - 1)) (k + 1), sigma)

end PyFENG
