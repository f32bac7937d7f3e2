import Verif.Model.MultiAsset
import Verif.Model.OptAbc

/-!
# Model of `pyfeng/multiasset.py`: `BsmBasket1Bm` (root search and one-factor price) and `BsmBasketChoi2018`

Simplification: one strike at a time.  (The numpy root search runs all strikes in one loop and stops when every strike has
converged, so with several strikes a strike may get extra Newton steps; the facts proved here about the returned point hold
after any number of further steps.)
-/

open scoped Matrix
open Real

namespace PyFENG

/-- The normal distribution function on the extended line, as `spst.norm._cdf` evaluates it at `-inf`, a number, or `inf`. -/
noncomputable def ncdfE (x : EReal) : ℝ := if x = ⊤ then 1 else if x = ⊥ then 0 else ncdf x.toReal

namespace Basket1Bm

variable {n : ℕ}

/-- `y_vec`, line 524 of `pyfeng/multiasset.py`. -/
noncomputable def yVec (fac std : Fin n → ℝ) (x : ℝ) (i : Fin n) : ℝ := fac i * exp (std i * x)

/-- `y`, lines 525-529: logarithmic for baskets, plain for spreads.  `log_k` is `1` when the strike is not positive (line 505). -/
noncomputable def resid (lg : Bool) (fac std : Fin n → ℝ) (strike x : ℝ) : ℝ :=
  if lg then log (∑ i, yVec fac std x i) - (if 0 < strike then log strike else 1) else ∑ i, yVec fac std x i - strike

/-- `dy`, lines 530-534. -/
noncomputable def slope (lg : Bool) (fac std : Fin n → ℝ) (x : ℝ) : ℝ :=
  if lg then (∑ i, std i * yVec fac std x i) / ∑ i, yVec fac std x i else ∑ i, std i * yVec fac std x i

/-- The Newton loop, lines 523-543: the update is made before the test, so the residual tested (and returned here as the second
component, `y_err_max` with its sign) is the one at the previous point.  The first argument is the number of passes left. -/
noncomputable def loop (lg : Bool) (fac std : Fin n → ℝ) (strike : ℝ) : ℕ → ℝ → ℝ × ℝ
  | 0, x => (x, 0)
  | k + 1, x =>
    let y := resid lg fac std strike x
    let x' := x - y / slope lg fac std x
    if |y| < OptABC.impvolTol ∨ k = 0 then (x', y) else loop lg fac std strike k x'

/-- The starting point, lines 507-512. -/
noncomputable def guess (lg : Bool) (fac std : Fin n → ℝ) (strike : ℝ) : ℝ :=
  let x := (strike - ∑ i, fac i) / ∑ i, fac i * std i
  if lg then min x (⨅ i, log (strike / fac i) / std i) else max (-3) (min x 3)

/-- `np.min(fac) > 0`, line 500. -/
noncomputable def isLog (fac : Fin n → ℝ) : Bool := @decide (∀ i, 0 < fac i) (Classical.dec _)

/-- `BsmBasket1Bm.root`, `pyfeng/multiasset.py` lines 486-552.  `none` is the `ValueError` of lines 498-499; the warning of lines
545-549 is not part of the result. -/
noncomputable def root (fac std : Fin n → ℝ) (strike : ℝ) : Option EReal :=
  open Classical in
  if ¬ ∀ i, 0 ≤ fac i * std i then none
  else
    let yMin := ∑ i, fac i / exp (9 * std i) - strike
    let yMax := ∑ i, fac i * exp (9 * std i) - strike
    if yMax ≤ 0 then some ⊤
    else if 0 ≤ yMin then some ⊥
    else some ((loop (isLog fac) fac std strike 32 (guess (isLog fac) fac std strike)).1 : ℝ)

/-- `root` issues its "did not converge" warning, lines 514-521, 545-549. -/
noncomputable def warns (fac std : Fin n → ℝ) (strike : ℝ) : Prop :=
  0 < ∑ i, fac i * exp (9 * std i) - strike ∧ ∑ i, fac i / exp (9 * std i) - strike < 0 ∧
    OptABC.impvolTol < |(loop (isLog fac) fac std strike 32 (guess (isLog fac) fac std strike)).2|

/-- Lines 559-573 for a given exercise boundary `x` (the value of `root`): `d2 = -cp*x`, `d1 = d2 + cp*sigma_std`. -/
noncomputable def priceAt (fb std : Fin n → ℝ) (strike cp : ℝ) (x : EReal) : ℝ :=
  let d2 : EReal := -(cp : EReal) * x
  (∑ i, fb i * ncdfE (d2 + ((cp * std i : ℝ) : EReal)) - strike * ncdfE d2) * cp

/-- The factors passed to `root`, lines 559-564. -/
noncomputable def facOf (o : Ma n) (spot : Fin n → ℝ) (texp : ℝ) (i : Fin n) : ℝ :=
  o.fwd spot texp i * o.weight i * exp (-((o.sigma i * √texp) ^ 2) / 2)

/-- `BsmBasket1Bm.price`, `pyfeng/multiasset.py` lines 554-573. -/
noncomputable def price (o : Ma n) (strike : ℝ) (spot : Fin n → ℝ) (texp cp : ℝ) : Option ℝ :=
  let fb : Fin n → ℝ := fun i => o.fwd spot texp i * o.weight i
  let std : Fin n → ℝ := fun i => o.sigma i * √texp
  (root (facOf o spot texp) std strike).map fun x => o.mp.df texp * priceAt fb std strike cp x

end Basket1Bm

namespace Choi2018

variable {n : ℕ}

/-- Euclidean norm, `np.linalg.norm` of a vector. -/
noncomputable def norm2 {ι : Type*} [Fintype ι] (v : ι → ℝ) : ℝ := √(∑ i, v i ^ 2)

/-- `BsmBasketChoi2018.householder`, `pyfeng/multiasset.py` lines 635-654 (`n + 1` components). -/
noncomputable def householder (v : Fin (n + 1) → ℝ) : Matrix (Fin (n + 1)) (Fin (n + 1)) ℝ :=
  open Classical in
  let u : Fin (n + 1) → ℝ := fun i => v i / norm2 v - if i = 0 then 1 else 0
  if |u 0| < eps * 100 then 1 else Matrix.of fun i j => (if i = j then 1 else 0) + u i * u j / u 0

/-- `fwd_wts_unit`, lines 667-668. -/
noncomputable def unit (fwd weight : Fin n → ℝ) : Fin n → ℝ :=
  fun i => fwd i * weight i / norm2 fun j => fwd j * weight j

/-- `v1` before the threshold, lines 670-671. -/
noncomputable def v1Raw (o : Ma n) (g : Fin n → ℝ) : Fin n → ℝ :=
  fun i => (o.cov *ᵥ g) i / √(∑ j, (o.cov *ᵥ g) j * g j)

/-- `np.sign`. -/
noncomputable def npSign (x : ℝ) : ℝ := if 0 < x then 1 else if x < 0 then -1 else 0

/-- `idx`, line 674. -/
noncomputable def low (o : Ma n) (g v1 : Fin n → ℝ) (i : Fin n) : Prop := npSign (g i) * v1 i < 0.01 * o.sigma i

/-- `v1` after line 677. -/
noncomputable def v1Clip (o : Ma n) (g v1 : Fin n → ℝ) : Fin n → ℝ :=
  open Classical in fun i => if low o g v1 i then npSign (g i) * (0.01 * o.sigma i) else v1 i

/-- `v1, q1` of `v_mat`, lines 667-684; `solve` stands for `np.linalg.solve(self.chol_m, ·)`. -/
noncomputable def v1q1 (o : Ma n) (solve : (Fin n → ℝ) → Fin n → ℝ) (fwd : Fin n → ℝ) : (Fin n → ℝ) × (Fin n → ℝ) :=
  open Classical in
  let g := unit fwd o.weight
  let v1 := v1Raw o g
  if ∃ i, low o g v1 i then
    let v1 := v1Clip o g v1
    let q1 := solve v1
    (fun i => v1 i / norm2 q1, fun i => q1 i / norm2 q1)
  else
    let q1 := o.cholᵀ *ᵥ g
    (v1, fun i => q1 i / norm2 q1)

/-- `chol_r_mat`, lines 686-688. -/
noncomputable def cholR (o : Ma (n + 1)) (q1 : Fin (n + 1) → ℝ) : Matrix (Fin (n + 1)) (Fin n) ℝ :=
  o.chol * (Matrix.of fun i j => householder q1 i j.succ)

/-- `v_mat`, lines 689-691: `v1` followed by the columns `svd_u @ diag(svd_d)`, here `svd` applied to `chol_r_mat`. -/
noncomputable def vMat (o : Ma (n + 1)) (solve : (Fin (n + 1) → ℝ) → Fin (n + 1) → ℝ)
    (svd : Matrix (Fin (n + 1)) (Fin n) ℝ → Matrix (Fin (n + 1)) (Fin n) ℝ) (fwd : Fin (n + 1) → ℝ) : Matrix (Fin (n + 1)) (Fin (n + 1)) ℝ :=
  let vq := v1q1 o solve fwd
  Matrix.of fun i => Fin.cons (vq.1 i) (svd (cholR o vq.2) i)

/-- `f_k` and `ww` of `v1_fwd_weight`, lines 716-729, for columns `cols` (already multiplied by `sqrt(texp)`) and the nodes and weights
`quad` of `NdGHQ.z_vec_weight()`; each entry is a row `f_k_row` with its weight. -/
noncomputable def fRows {m : ℕ} (cols : Matrix (Fin n) (Fin m) ℝ) (rows : List (List ℝ)) (ww : List ℝ) : List ((Fin n → ℝ) × ℝ) :=
  List.zip (rows.map fun z k => exp (∑ j : Fin m, z.getD j 0 * cols k j - 0.5 * ∑ j : Fin m, cols k j ^ 2)) ww

/-- The rows when `n_quad == 0`, lines 719-722. -/
def lbRows : List ((Fin n → ℝ) × ℝ) := [(fun _ => 1, 1)]

/-- `d_m`, line 748, with the `ValueError` of `root` as `none`. -/
noncomputable def dm (fw v1 : Fin n → ℝ) (strike : ℝ) (f : Fin n → ℝ) : Option EReal :=
  (Basket1Bm.root (fun k => f k * fw k * exp (-(0.5 * v1 k ^ 2))) v1 strike).map fun x => -x

/-- `nd1`, line 750. -/
noncomputable def nd1 (v1 : Fin n → ℝ) (d : EReal) (k : Fin n) : ℝ := ncdfE (d + (v1 k : EReal))

/-- The price contribution of one node, lines 751-755. -/
noncomputable def contrib (fw v1 : Fin n → ℝ) (strike cp : ℝ) (f : Fin n → ℝ) (d : EReal) : ℝ :=
  cp * (∑ k, f k * fw k * (if cp = 1 then nd1 v1 d k else 1 - nd1 v1 d k) - strike * ncdfE ((cp : EReal) * d))

/-- Lines 733-771, undiscounted, for rows paired with their exercise points `d_m`. -/
noncomputable def priceRows (fwd weight v1 : Fin n → ℝ) (strike cp : ℝ) (rows : List (((Fin n → ℝ) × ℝ) × EReal)) : ℝ :=
  let fw : Fin n → ℝ := fun k => fwd k * weight k
  let price := (rows.map fun r => r.1.2 * contrib fw v1 strike cp r.1.1 r.2).sum
  let delta : Fin n → ℝ := fun k => (rows.map fun r => r.1.2 * r.1.1 k * weight k * nd1 v1 r.2 k).sum
  let fTilde : Fin n → ℝ := fun k => (rows.map fun r => r.1.2 * r.1.1 k).sum
  let fwdErr : Fin n → ℝ := fun k => fwd k * (fTilde k - 1)
  if cp = 1 then price - ∑ k, delta k * fwdErr k else price - ∑ k, (delta k - weight k) * fwdErr k

/-- `BsmBasketChoi2018.price`, `pyfeng/multiasset.py` lines 730-771, for the first column `v1` (times `sqrt(texp)`) and the rows of
`v1_fwd_weight`. -/
noncomputable def priceWith (o : Ma n) (v1 : Fin n → ℝ) (rows : List ((Fin n → ℝ) × ℝ)) (strike : ℝ) (spot : Fin n → ℝ) (texp cp : ℝ) : Option ℝ := do
  let fwd := o.fwd spot texp
  let ds ← rows.mapM fun r => dm (fun k => fwd k * o.weight k) v1 strike r.1
  return o.mp.df texp * priceRows fwd o.weight v1 strike cp (rows.zip ds)

/-- `price` of the model made by `init_lowerbound` (`n_quad = 0`), `pyfeng/multiasset.py` lines 619-623, 716-775. -/
noncomputable def priceLowerBound (o : Ma n) (solve : (Fin n → ℝ) → Fin n → ℝ) (strike : ℝ) (spot : Fin n → ℝ) (texp cp : ℝ) : Option ℝ :=
  priceWith o (fun k => (v1q1 o solve (o.fwd spot texp)).1 k * √texp) lbRows strike spot texp cp

/-- `price` with a list `n_quad` (given, or derived from `lam`), `pyfeng/multiasset.py` lines 716-775; `zz, ww` come from `NdGHQ(n_quad)`
and only the first `m = len(n_quad)` of the remaining columns are used. -/
noncomputable def priceQuad {m : ℕ} (o : Ma (n + 1)) (solve : (Fin (n + 1) → ℝ) → Fin (n + 1) → ℝ)
    (svd : Matrix (Fin (n + 1)) (Fin n) ℝ → Matrix (Fin (n + 1)) (Fin n) ℝ) (hm : m ≤ n) (zz : List (List ℝ)) (ww : List ℝ)
    (strike : ℝ) (spot : Fin (n + 1) → ℝ) (texp cp : ℝ) : Option ℝ :=
  let v := vMat o solve svd (o.fwd spot texp)
  priceWith o (fun k => v k 0 * √texp)
    (fRows (Matrix.of fun k (j : Fin m) => v k (Fin.castLE hm j).succ * √texp) zz ww) strike spot texp cp

end Choi2018

end PyFENG
