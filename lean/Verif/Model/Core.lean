import Verif.Gauss

/-!
# Model of `pyfeng/opt_abc.py` (market conventions) and the shared parameter record
-/

namespace PyFENG

/-- `np.finfo(float).eps`, the literal `2**-52`. -/
noncomputable def eps : ℝ := 1 / 2 ^ 52

lemma eps_pos : 0 < eps := by unfold eps; positivity

/-- The fields shared by every model: `pyfeng/params.py` `BaseParams` (lines 67-90: `sigma`, and
keyword-only `intr`, `divr`, `is_fwd`); `BsmParams` and `NormParams` add nothing.
Simplification: fields are scalars (numpy broadcasting is elementwise). -/
structure MParams where
  sigma : ℝ
  intr : ℝ
  divr : ℝ
  isFwd : Bool

/-- `OptABC.forward`, `pyfeng/opt_abc.py` lines 29-43. -/
noncomputable def MParams.forward (m : MParams) (spot texp : ℝ) : ℝ :=
  if m.isFwd then spot else spot * Real.exp ((m.intr - m.divr) * texp)

/-- Discount factor of `OptABC._fwd_df_divf`, `pyfeng/opt_abc.py` line 56. -/
noncomputable def MParams.df (m : MParams) (texp : ℝ) : ℝ := Real.exp (-m.intr * texp)

/-- Dividend factor of `OptABC._fwd_df_divf`, `pyfeng/opt_abc.py` lines 57-61. -/
noncomputable def MParams.divf (m : MParams) (texp : ℝ) : ℝ :=
  if m.isFwd then 1 else Real.exp (-m.divr * texp)

/-- Forward of `OptABC._fwd_df_divf`, `pyfeng/opt_abc.py` lines 57-62. -/
noncomputable def MParams.fwd (m : MParams) (spot texp : ℝ) : ℝ :=
  if m.isFwd then spot else spot * m.divf texp / m.df texp

end PyFENG
