import Verif.Model.Cos
import Verif.Model.Levy

/-!
# Model of `pyfeng/sv_cos.py`, `CgmyCos._truncation_range` and `HestonCos._truncation_range`
-/

namespace PyFENG.Cos

open Real

/-- `np.isclose(Y, 1.98)` with the default tolerances, `pyfeng/sv_cos.py` line 541. -/
noncomputable def isClose198 (Y : ℝ) : Prop := |Y - 1.98| ≤ 1e-8 + 1e-5 * |(1.98 : ℝ)|

open Classical in
/-- `CgmyCos._truncation_range`, mode `'fang-oosterlee'`, `pyfeng/sv_cos.py` lines 524-543 (the mode `'junike'` is `c1 ∓ junikeHalfWidth`). The maturity is not used. -/
noncomputable def cgmyRange (L Y : ℝ) : ℝ × ℝ :=
  if isClose198 Y then (-100, 20) else (-L * Y, L * Y)

/-- `HestonCos._truncation_range`, mode `'fang-oosterlee'`, `pyfeng/sv_cos.py` lines 616-641: the generic interval with the adaptive `L`. -/
noncomputable def hestonTruncRange (L : Option ℝ) (texp : ℝ) (cum : ℝ × ℝ × ℝ × ℝ) : ℝ × ℝ :=
  let half := hestonL L texp * √(|cum.2.1| + √|cum.2.2.2|)
  (cum.1 - half, cum.1 + half)

end PyFENG.Cos
