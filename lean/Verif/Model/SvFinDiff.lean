import Verif.Model.Core
import Verif.Model.Heston

/-!
# Model of `pyfeng/sv_fin_diff.py`: Thomas solver, bilinear interpolation, Douglas ADI engine, SABR / Heston / CEV-Heston pricers

Grids are functions of the node indices; array updates are modelled functionally.  `M` and `L` are the numbers of intervals in the price and
volatility directions, so indices run over `0..M` and `0..L`.
-/

namespace PyFENG

open Real

namespace Thomas

/-- Forward sweep coefficients `cp`, `pyfeng/sv_fin_diff.py` lines 60, 63-64 (one column). -/
noncomputable def cp (sub mid sup : ℕ → ℝ) : ℕ → ℝ
  | 0 => sup 0 / mid 0
  | i + 1 => sup (i + 1) / (mid (i + 1) - sub (i + 1) * cp sub mid sup i)

/-- The pivot `mid[0]`, then `denom`, `pyfeng/sv_fin_diff.py` lines 60-63. -/
noncomputable def denom (sub mid sup : ℕ → ℝ) : ℕ → ℝ
  | 0 => mid 0
  | i + 1 => mid (i + 1) - sub (i + 1) * cp sub mid sup i

/-- Forward sweep right-hand sides `dp`, `pyfeng/sv_fin_diff.py` lines 61, 65. -/
noncomputable def dp (sub mid sup rhs : ℕ → ℝ) : ℕ → ℝ
  | 0 => rhs 0 / mid 0
  | i + 1 => (rhs (i + 1) - sub (i + 1) * dp sub mid sup rhs i) / (mid (i + 1) - sub (i + 1) * cp sub mid sup i)

/-- Back substitution, `pyfeng/sv_fin_diff.py` lines 67-70: value at row `n - 1 - k`. -/
noncomputable def back (sub mid sup rhs : ℕ → ℝ) (n : ℕ) : ℕ → ℝ
  | 0 => dp sub mid sup rhs (n - 1)
  | k + 1 => dp sub mid sup rhs (n - 1 - (k + 1)) - cp sub mid sup (n - 1 - (k + 1)) * back sub mid sup rhs n k

/-- `_thomas_batch`, `pyfeng/sv_fin_diff.py` lines 45-71, for one column of a system of `n` rows. -/
noncomputable def solve (n : ℕ) (sub mid sup rhs : ℕ → ℝ) (i : ℕ) : ℝ := back sub mid sup rhs n (n - 1 - i)

end Thomas

/-- `np.searchsorted(S, x)` for an array of length `n` (left side): the number of leading entries below `x`. -/
noncomputable def searchsorted (S : ℕ → ℝ) (x : ℝ) : ℕ → ℕ
  | 0 => 0
  | n + 1 => if searchsorted S x n = n ∧ S n < x then n + 1 else searchsorted S x n

/-- `np.clip(x, 0.0, 1.0)`. -/
noncomputable def clip01 (x : ℝ) : ℝ := min (max x 0) 1

/-- `_bilinear`, `pyfeng/sv_fin_diff.py` lines 74-94; `nS`, `nv` are the lengths of the coordinate arrays. -/
noncomputable def bilinear (V : ℕ → ℕ → ℝ) (S v : ℕ → ℝ) (nS nv : ℕ) (S0 v0 : ℝ) : ℝ :=
  let i := max 1 (min (searchsorted S S0 nS) (nS - 1))
  let j := max 1 (min (searchsorted v v0 nv) (nv - 1))
  let wS := clip01 ((S0 - S (i - 1)) / (S i - S (i - 1)))
  let wv := clip01 ((v0 - v (j - 1)) / (v j - v (j - 1)))
  (1 - wS) * (1 - wv) * V (i - 1) (j - 1) + wS * (1 - wv) * V i (j - 1) + (1 - wS) * wv * V (i - 1) j + wS * wv * V i j

/-- `_standard_bc`, `pyfeng/sv_fin_diff.py` lines 97-117; the four assignments in program order. -/
noncomputable def standardBc (M L : ℕ) (V : ℕ → ℕ → ℝ) (kk : ℝ) (X : ℕ → ℝ) (cp : ℝ) : ℕ → ℕ → ℝ :=
  let V1 : ℕ → ℕ → ℝ := fun i j => if i = 0 then (if cp > 0 then 0 else kk) else V i j
  let V2 : ℕ → ℕ → ℝ := fun i j => if i = M then (if cp > 0 then max (X M - kk) 0 else 0) else V1 i j
  let V3 : ℕ → ℕ → ℝ := fun i j => if j = 0 then (if cp > 0 then max (X i - kk) 0 else max (kk - X i) 0) else V2 i j
  fun i j => if j = L then V3 i (L - 1) else V3 i j

/-- What a concrete pricer plugs into `SvFinDiffABC`, `pyfeng/sv_fin_diff.py` lines 168-219, 251-259. In all concrete classes `aV` and `bV`
have shape `(1, L+1)`, i.e. depend on `v` only. -/
structure FdModel where
  getV0 : ℝ → ℝ → ℝ
  gridBounds : ℝ → ℝ → ℝ → ℝ × ℝ × ℝ
  aS : ℝ → ℝ → ℝ
  bS : ℝ → ℝ → ℝ
  aV : ℝ → ℝ
  bV : ℝ → ℝ
  gamma : ℝ → ℝ → ℝ
  bdd : ℕ → ℕ → (ℕ → ℕ → ℝ) → ℝ → (ℕ → ℝ) → ℝ → ℕ → ℕ → ℝ
  preStep : ℕ → ℕ → (ℕ → ℕ → ℝ) → (ℕ → ℝ) → ℝ → ℝ → ℝ → ℝ → ℕ → ℕ → ℝ

/-- Numerical parameters, `pyfeng/sv_fin_diff.py` lines 140-143. -/
structure FdGrid where
  N : ℕ
  M : ℕ
  L : ℕ
  adiTheta : ℝ

namespace Fd

/-- `_F0`, `pyfeng/sv_fin_diff.py` lines 302-311. -/
noncomputable def F0 (M L : ℕ) (V g : ℕ → ℕ → ℝ) (dX dv : ℝ) : ℕ → ℕ → ℝ := fun i j =>
  if 1 ≤ i ∧ i < M ∧ 1 ≤ j ∧ j < L then
    g i j * (V (i + 1) (j + 1) - V (i + 1) (j - 1) - V (i - 1) (j + 1) + V (i - 1) (j - 1)) / (4 * dX * dv)
  else 0

/-- `_F1`, `pyfeng/sv_fin_diff.py` lines 313-323. -/
noncomputable def F1 (M : ℕ) (V aS bS : ℕ → ℕ → ℝ) (dX : ℝ) : ℕ → ℕ → ℝ := fun i j =>
  if 1 ≤ i ∧ i < M then
    let a := aS i j / dX ^ 2
    let b := bS i j / (2 * dX)
    a * (V (i + 1) j - 2 * V i j + V (i - 1) j) + b * (V (i + 1) j - V (i - 1) j)
  else 0

/-- `_F2`, `pyfeng/sv_fin_diff.py` lines 325-335. -/
noncomputable def F2 (L : ℕ) (V : ℕ → ℕ → ℝ) (aV bV : ℕ → ℝ) (dv : ℝ) : ℕ → ℕ → ℝ := fun i j =>
  if 1 ≤ j ∧ j < L then
    let c := aV j / dv ^ 2
    let d := bV j / (2 * dv)
    c * (V i (j + 1) - 2 * V i j + V i (j - 1)) + d * (V i (j + 1) - V i (j - 1))
  else 0

/-- `_solve_S_implicit`, `pyfeng/sv_fin_diff.py` lines 339-356.  Row `r` of the tridiagonal system is the node `r + 1`. -/
noncomputable def solveS (m : FdModel) (G : FdGrid) (rhs : ℕ → ℕ → ℝ) (adt : ℝ) (aS bS : ℕ → ℕ → ℝ) (dX : ℝ) (X : ℕ → ℝ) (kk cp : ℝ) :
    ℕ → ℕ → ℝ :=
  let Y := m.bdd G.M G.L rhs kk X cp
  let a := fun r j => aS (r + 1) j / dX ^ 2
  let b := fun r j => bS (r + 1) j / (2 * dX)
  let sub := fun r j => -adt * (a r j - b r j)
  let mid := fun r j => 1 + adt * 2 * a r j
  let sup := fun r j => -adt * (a r j + b r j)
  let rhsInt := fun r j =>
    let x := rhs (r + 1) j
    let x := if r = 0 then x - sub 0 j * Y 0 j else x
    if r = G.M - 2 then x - sup (G.M - 2) j * Y G.M j else x
  let Y' : ℕ → ℕ → ℝ := fun i j =>
    if 1 ≤ i ∧ i < G.M ∧ 1 ≤ j ∧ j < G.L then
      Thomas.solve (G.M - 1) (fun r => sub r j) (fun r => mid r j) (fun r => sup r j) (fun r => rhsInt r j) (i - 1)
    else Y i j
  m.bdd G.M G.L Y' kk X cp

/-- `_solve_v_implicit`, `pyfeng/sv_fin_diff.py` lines 358-382. -/
noncomputable def solveV (m : FdModel) (G : FdGrid) (rhs : ℕ → ℕ → ℝ) (adt : ℝ) (aV bV : ℕ → ℝ) (dv : ℝ) (X : ℕ → ℝ) (kk cp : ℝ) :
    ℕ → ℕ → ℝ :=
  let Y := m.bdd G.M G.L rhs kk X cp
  let c := fun r => aV (r + 1) / dv ^ 2
  let d := fun r => bV (r + 1) / (2 * dv)
  let sub := fun r => -adt * (c r - d r)
  let mid := fun r => 1 + adt * 2 * c r
  let sup := fun r => -adt * (c r + d r)
  let midEff := fun r => if r = G.L - 2 then mid r + sup r else mid r
  let rhsInt := fun i r => if r = 0 then rhs i (r + 1) - sub 0 * Y i 0 else rhs i (r + 1)
  let Y1 : ℕ → ℕ → ℝ := fun i j => if 1 ≤ j ∧ j < G.L then Thomas.solve (G.L - 1) sub midEff sup (rhsInt i) (j - 1) else Y i j
  let Y2 : ℕ → ℕ → ℝ := fun i j => if j = G.L then Y1 i (G.L - 1) else Y1 i j
  m.bdd G.M G.L Y2 kk X cp

/-- `_step`, `pyfeng/sv_fin_diff.py` lines 283-298. -/
noncomputable def step (m : FdModel) (G : FdGrid) (V : ℕ → ℕ → ℝ) (X v : ℕ → ℝ) (dX dv dt kk cp : ℝ) : ℕ → ℕ → ℝ :=
  let adt := G.adiTheta * dt
  let aS := fun i j => m.aS (X i) (v j)
  let bS := fun i j => m.bS (X i) (v j)
  let aV := fun j => m.aV (v j)
  let bV := fun j => m.bV (v j)
  let g := fun i j => m.gamma (X i) (v j)
  let F0V := F0 G.M G.L V g dX dv
  let F1V := F1 G.M V aS bS dX
  let F2V := F2 G.L V aV bV dv
  let Y0 := fun i j => V i j + dt * (F0V i j + F1V i j + F2V i j)
  let Y0 := m.bdd G.M G.L Y0 kk X cp
  let Y1 := solveS m G (fun i j => Y0 i j - adt * F1V i j) adt aS bS dX X kk cp
  solveV m G (fun i j => Y1 i j - adt * F2V i j) adt aV bV dv X kk cp

/-- `N` repetitions of the loop body, `pyfeng/sv_fin_diff.py` lines 277-279. -/
noncomputable def loop (m : FdModel) (G : FdGrid) (X v : ℕ → ℝ) (dX dv dt kk cp : ℝ) : ℕ → (ℕ → ℕ → ℝ) → ℕ → ℕ → ℝ
  | 0, V => V
  | n + 1, V => loop m G X v dX dv dt kk cp n (step m G (m.preStep G.M G.L V X dv dt kk cp) X v dX dv dt kk cp)

/-- `np.linspace(lo, hi, n + 1)[i]`. -/
noncomputable def linspace (lo hi : ℝ) (n i : ℕ) : ℝ := lo + i * ((hi - lo) / n)

/-- `_solve_one`, `pyfeng/sv_fin_diff.py` lines 261-281. -/
noncomputable def solveOne (m : FdModel) (G : FdGrid) (kk v0 texp cp : ℝ) : ℝ :=
  let b := m.gridBounds v0 kk texp
  let X := linspace b.1 b.2.1 G.M
  let v := linspace 0 b.2.2 G.L
  let dX := (b.2.1 - b.1) / G.M
  let dv := b.2.2 / G.L
  let dt := texp / G.N
  let V : ℕ → ℕ → ℝ := fun i _ => max (cp * (X i - kk)) 0
  let V := m.bdd G.M G.L V kk X cp
  let V := loop m G X v dX dv dt kk cp G.N V
  bilinear V X v (G.M + 1) (G.L + 1) 1 v0

/-- `SvFinDiffABC.price`, `pyfeng/sv_fin_diff.py` lines 224-247 (one strike). -/
noncomputable def price (m : FdModel) (G : FdGrid) (mp : MParams) (strike spot texp cp : ℝ) : ℝ :=
  let fwd := mp.fwd spot texp
  let df := mp.df texp
  let v0 := m.getV0 fwd texp
  df * fwd * solveOne m G (strike / fwd) v0 texp cp

/-- `SabrFinDiff`, `pyfeng/sv_fin_diff.py` lines 397-437 (`_get_v0` through `SabrABC._variables`, `pyfeng/sabr.py` lines 33-39). -/
noncomputable def sabr (sigma vov rho beta : ℝ) : FdModel where
  getV0 fwd _ := sigma / fwd ^ (1 - beta)
  gridBounds v0 kk texp :=
    let sq := √(max texp 0)
    let xRef := max 1 kk
    let xMax := max (4 * xRef) (xRef + 5 * v0 * (xRef ^ beta) * sq)
    let vMax := max (max 1 (5 * v0)) (v0 * (1 + 4 * vov * sq))
    let xMin := if beta > 0 then 0 else min 0 (1 - 5 * v0 * sq)
    (xMin, xMax, vMax)
  aS X v := 0.5 * v ^ 2 * X ^ (2 * beta)
  bS _ _ := 0
  aV v := 0.5 * vov ^ 2 * v ^ 2
  bV _ := 0
  gamma X v := rho * vov * v ^ 2 * X ^ beta
  bdd M L V kk X cp := standardBc M L V kk X cp
  preStep _ _ V _ _ _ _ _ := V

/-- `HestonFinDiff._apply_bdd_cond`, `pyfeng/sv_fin_diff.py` lines 486-504. -/
noncomputable def hestonBc (M L : ℕ) (V : ℕ → ℕ → ℝ) (kk : ℝ) (X : ℕ → ℝ) (cp : ℝ) : ℕ → ℕ → ℝ :=
  let V1 : ℕ → ℕ → ℝ := fun i j => if i = 0 then (if cp > 0 then 0 else kk) else V i j
  let V2 : ℕ → ℕ → ℝ := fun i j => if i = M then (if cp > 0 then max (X M - kk) 0 else 0) else V1 i j
  fun i j => if j = L then V2 i (L - 1) else V2 i j

/-- `HestonCevFinDiff`, `pyfeng/sv_fin_diff.py` lines 529-554; everything but `_coefficients` is inherited from `HestonFinDiff`, lines
444-522. -/
noncomputable def hestonCev (h : Heston) (beta : ℝ) : FdModel where
  getV0 _ _ := h.sigma
  gridBounds v0 kk texp :=
    let xMax := max (4 * max 1 kk) (1 + 5 * √(v0 * max texp 0))
    let cirStd := h.vov * √(max h.theta 1e-8 / (2 * max h.mr 1e-8))
    let vMax := max (5 * v0) (h.theta + 5 * cirStd)
    (0, xMax, vMax)
  aS X v := 0.5 * v * X ^ (2 * beta)
  bS _ _ := 0
  aV v := 0.5 * h.vov ^ 2 * v
  bV v := h.mr * (h.theta - v)
  gamma X v := h.rho * h.vov * v * X ^ beta
  bdd M L V kk X cp := hestonBc M L V kk X cp
  preStep M L V X dv dt kk cp :=
    let V' : ℕ → ℕ → ℝ := fun i j =>
      if j = 0 then
        if 2 * h.mr * h.theta < h.vov ^ 2 then V i 0 + dt * h.mr * h.theta * (V i 1 - V i 0) / dv
        else max (cp * (X i - kk)) 0
      else V i j
    hestonBc M L V' kk X cp

/-- `HestonFinDiff`, `pyfeng/sv_fin_diff.py` lines 444-522: `_coefficients` (lines 476-484) use `X**2` and `X`, the case `beta = 1`. -/
noncomputable def heston (h : Heston) : FdModel :=
  { hestonCev h 1 with
    aS := fun X v => 0.5 * v * X ^ 2
    gamma := fun X v => h.rho * h.vov * v * X }

end Fd

end PyFENG
