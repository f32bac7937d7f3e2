import Mathlib.Analysis.SpecialFunctions.Sqrt
import Mathlib.Analysis.Real.Pi.Bounds

/-!
# Model of `pyfeng/quad.py`: `GHQ` and `NdGHQ`

numpy arrays are lists; `scipy.special.roots_hermitenorm` is a parameter (the raw nodes and weights it returned).
-/

namespace PyFENG

open Real

/-- `np.repeat(a, n)`: every element `n` times in a row. -/
def npRepeat {α : Type*} (a : List α) (n : ℕ) : List α := a.flatMap (List.replicate n)

/-- `np.tile(a, m)`: the whole array `m` times. -/
def npTile {α : Type*} (a : List α) (m : ℕ) : List α := (List.replicate m a).flatten

/-- `np.cumprod`. -/
def npCumprod (a : List ℕ) : List ℕ := (a.scanl (· * ·) 1).tail

/-- `GHQ(n_quad, loc, scale)`, `pyfeng/quad.py` lines 5-9; `z, w, wSum` are the values returned by
`roots_hermitenorm(n_quad, mu=True)`. -/
noncomputable def ghq (z w : List ℝ) (wSum loc scale : ℝ) : List ℝ × List ℝ :=
  (z.map fun x => scale * x + loc, w.map fun x => x / wSum)

namespace NdGHQ

/-- `self.powers`, `pyfeng/quad.py` lines 22-23: reversed cumulative products of the reversed sizes, with a 1 appended. -/
def powers (sizes : List ℕ) : List ℕ := (npCumprod sizes.reverse).reverse ++ [1]

/-- `self.total = self.powers[0]`, `pyfeng/quad.py` line 24. -/
def total (sizes : List ℕ) : ℕ := (powers sizes).headD 1

/-- `self.w_list`, `pyfeng/quad.py` lines 28-32: `roots_hermitenorm` weights over `sqrt(2 pi)`. -/
noncomputable def wList (rawW : List (List ℝ)) : List (List ℝ) := rawW.map fun w => w.map fun x => x / √(2 * π)

/-- `NdGHQ.index_n`, `pyfeng/quad.py` lines 35-37:
`floor_divide(remainder(ind, powers[:-1]), powers[1:])`. -/
def indexN (sizes : List ℕ) (ind : ℕ) : List ℕ :=
  List.zipWith (fun p q => ind % p / q) (powers sizes).dropLast (powers sizes).tail

/-- `NdGHQ.indeces`, `pyfeng/quad.py` lines 39-41. -/
def indeces (sizes : List ℕ) : List (List ℕ) := (List.range (total sizes)).map (indexN sizes)

/-- One pass of the loop for `z_vec` in `z_vec_weight(None)`, `pyfeng/quad.py` lines 49-51: the columns of the stacked array. -/
def zStep (zk : List ℝ) (zVec : List (List ℝ)) : List (List ℝ) :=
  List.zipWith List.cons (npRepeat zk zVec.length) (npTile zVec zk.length)

/-- One pass of the loop for `weight`, `pyfeng/quad.py` lines 53-55. -/
noncomputable def wStep (wk : List ℝ) (weight : List ℝ) : List ℝ :=
  List.zipWith (· * ·) (npRepeat wk weight.length) (npTile weight wk.length)

/-- `NdGHQ.z_vec_weight()` (all nodes), `pyfeng/quad.py` lines 44-57: rows of `z_vec` and the weights.  The loop
`for k in range(dim-2, -1, -1)` is a right fold over all but the last dimension; an empty `sizes` raises `IndexError`
(`z_list[-1]`), here `none`. -/
noncomputable def zVecWeight (zList wList : List (List ℝ)) : Option (List (List ℝ) × List ℝ) :=
  match zList.getLast?, wList.getLast? with
  | some zl, some wl => some (zList.dropLast.foldr zStep (zl.map fun x => [x]), wList.dropLast.foldr wStep wl)
  | _, _ => none

/-- `NdGHQ.z_vec_weight(ind)` for one index, `pyfeng/quad.py` lines 59-63. -/
noncomputable def zVecWeightAt (sizes : List ℕ) (zList wList : List (List ℝ)) (ind : ℕ) : List ℝ × ℝ :=
  let indN := indexN sizes ind
  (List.zipWith (fun z i => z.getD i 0) zList indN, (List.zipWith (fun w i => w.getD i 0) wList indN).prod)

end NdGHQ

end PyFENG
