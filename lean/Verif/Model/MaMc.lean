import Verif.Model.MultiAsset
import Verif.Model.SvMc

/-!
# Model of `pyfeng/multiasset_mc.py`: multi-asset Monte-Carlo

A generator is an infinite stream `rng` of standard normals with a position; `standard_normal(shape)` reads the next entries in C order.
-/

open scoped Matrix
open Real

namespace PyFENG

/-- `np.mean` of a one-dimensional sample; `none` is the NaN of an empty sample. -/
noncomputable def npMean (l : List ℝ) : Option ℝ := if l = [] then none else some (l.sum / l.length)

namespace BasketMc

variable {n : ℕ}

/-- The number of generated rows, `pyfeng/multiasset_mc.py` lines 235, 410, 477. -/
def nGen (nPath : ℕ) (antithetic : Bool) : ℕ := if antithetic then nPath / 2 else nPath

/-- Row `p` of `standard_normal((n_gen, n_asset))` read from position `pos`. -/
def draw (rng : ℕ → ℝ) (pos p : ℕ) (a : Fin n) : ℝ := rng (pos + p * n + a)

/-- Rows of `z`, `pyfeng/multiasset_mc.py` lines 236-238: `draws @ chol_m.T * sqrt(texp)`, then the negated rows appended. -/
noncomputable def zRows (o : Ma n) (nPath : ℕ) (antithetic : Bool) (rng : ℕ → ℝ) (pos : ℕ) (texp : ℝ) : List (Fin n → ℝ) :=
  let z := (List.range (nGen nPath antithetic)).map fun p i => (o.chol *ᵥ draw rng pos p) i * √texp
  if antithetic then z ++ z.map (fun r i => -r i) else z

/-- `S_T @ weight`, `pyfeng/multiasset_mc.py` lines 239-240. -/
noncomputable def bsmBasket (o : Ma n) (fwd : Fin n → ℝ) (texp : ℝ) (z : Fin n → ℝ) : ℝ :=
  ∑ i, fwd i * exp (-0.5 * o.sigma i ^ 2 * texp + z i) * o.weight i

/-- `G_T`, `pyfeng/multiasset_mc.py` lines 473-483. -/
noncomputable def geoBasket (o : Ma n) (fwd : Fin n → ℝ) (texp : ℝ) (z : Fin n → ℝ) : ℝ :=
  (fwd ⬝ᵥ o.weight) * exp (-0.5 * √(o.weight ⬝ᵥ o.cov *ᵥ o.weight) ^ 2 * texp + z ⬝ᵥ o.weight)

/-- `B_T` of `NormBasketMc`, `pyfeng/multiasset_mc.py` lines 414-415. -/
noncomputable def normBasket (o : Ma n) (fwd : Fin n → ℝ) (z : Fin n → ℝ) : ℝ := ∑ i, (fwd i + z i) * o.weight i

/-- `df * np.maximum(cp * (B_T - k), 0).mean()`, lines 277, 420, 488. -/
noncomputable def mcPrice (df K cp : ℝ) (basket : List ℝ) : Option ℝ :=
  (npMean (basket.map fun b => max (cp * (b - K)) 0)).map fun x => df * x

/-- `NormBasketMc.price`, `pyfeng/multiasset_mc.py` lines 391-422, with the position of the generator afterwards. `none` is the
`ValueError` for an unset number of paths, or NaN for an empty sample. -/
noncomputable def normPrice (o : Ma n) (nPath : ℕ) (antithetic : Bool) (rng : ℕ → ℝ) (pos : ℕ) (strike : ℝ) (spot : Fin n → ℝ) (texp cp : ℝ) :
    Option ℝ × ℕ :=
  if nPath = 0 then (none, pos)
  else
    (mcPrice (o.mp.df texp) strike cp ((zRows o nPath antithetic rng pos texp).map (normBasket o (o.fwd spot texp))),
      pos + nGen nPath antithetic * n)

/-- `BsmBasketGeoApproxMc.price`, `pyfeng/multiasset_mc.py` lines 456-490. -/
noncomputable def geoPrice (o : Ma n) (nPath : ℕ) (antithetic : Bool) (rng : ℕ → ℝ) (pos : ℕ) (strike : ℝ) (spot : Fin n → ℝ) (texp cp : ℝ) :
    Option ℝ × ℕ :=
  if nPath = 0 then (none, pos)
  else
    (mcPrice (o.mp.df texp) strike cp ((zRows o nPath antithetic rng pos texp).map (geoBasket o (o.fwd spot texp) texp)),
      pos + nGen nPath antithetic * n)

/-- The `cv` argument. -/
inductive Cv where
  | none | geo | norm
  deriving DecidableEq

/-- The control model for `cv='geo'`, `pyfeng/multiasset_mc.py` lines 243-255: the same parameters with `is_fwd=True`. -/
def geoModel (o : Ma n) : Ma n := { o with isFwd := true }

/-- The control model for `cv='norm'`, `pyfeng/multiasset_mc.py` lines 256-270: volatilities `fwd * sigma`.  `chol_m` is the Cholesky factor of
the scaled covariance, which for positive forwards is the scaled Cholesky factor. -/
def normModel (o : Ma n) (fwd : Fin n → ℝ) : Ma n :=
  { o with
    sigma := fun i => fwd i * o.sigma i
    cov := Matrix.of fun i j => fwd i * o.cov i j * fwd j
    chol := Matrix.of fun i j => fwd i * o.chol i j
    isFwd := true }

/-- `BsmBasketMc.price` for one strike, `pyfeng/multiasset_mc.py` lines 211-292.  The control variates run their own generator set to the state
saved before the draw (lines 231-232), i.e. they read the same stream from the same position. -/
noncomputable def price (o : Ma n) (nPath : ℕ) (antithetic : Bool) (rng : ℕ → ℝ) (pos : ℕ) (strike : ℝ) (spot : Fin n → ℝ) (texp cp : ℝ) (cv : Cv) :
    Option ℝ × ℕ :=
  if nPath = 0 then (none, pos)
  else
    let fwd := o.fwd spot texp
    let df := o.mp.df texp
    let bsm := mcPrice df strike cp ((zRows o nPath antithetic rng pos texp).map (bsmBasket o fwd texp))
    let out := match cv with
      | .none => bsm
      | .geo => do
        let b ← bsm
        let g ← (geoPrice (geoModel o) nPath antithetic rng pos strike fwd texp cp).1
        return b - (g - GeoApprox.price (geoModel o) strike fwd texp cp)
      | .norm => do
        let b ← bsm
        let g ← (normPrice (normModel o fwd) nPath antithetic rng pos strike fwd texp cp).1
        return b - (g - NormBasket.price (normModel o fwd) strike fwd texp cp)
    (out, pos + nGen nPath antithetic * n)

end BasketMc

/-- A three-dimensional array `(time, path, asset)`. -/
structure Arr3 (n : ℕ) where
  times : ℕ
  paths : ℕ
  at' : ℕ → ℕ → Fin n → ℝ

namespace NdMc

variable {n : ℕ}

/-- `_bm_incr`, `pyfeng/multiasset_mc.py` lines 59-85.  The draws have shape `(n_path_gen, n_t, n_asset)`; with antithetic paths the stacked array
`(n_t, n_gen, 2, n_asset)` is reshaped to `(n_t, n_path, n_asset)`, which numpy refuses when the sizes differ. -/
noncomputable def bmIncr (o : Ma n) (antithetic : Bool) (rng : ℕ → ℝ) (pos : ℕ) (tobs : List ℝ) (nPath : ℕ) : Except McErr (Arr3 n) :=
  let nT := tobs.length
  let gen := if antithetic then nPath / 2 else nPath
  let b : ℕ → ℕ → Fin n → ℝ := fun t p => o.chol *ᵥ fun a => rng (pos + (p * nT + t) * n + a) * √(McState.diff0 tobs t)
  if antithetic then
    if nT * (gen * 2) * n ≠ nT * nPath * n then .error .valueError
    else .ok ⟨nT, nPath, fun t p i => if p % 2 = 0 then b t (p / 2) i else -b t (p / 2) i⟩
  else .ok ⟨nT, nPath, b⟩

/-- `BsmNdMc.simulate`, `pyfeng/multiasset_mc.py` lines 87-123 (the stored `path`). -/
noncomputable def simulate (o : Ma n) (antithetic : Bool) (rng : ℕ → ℝ) (pos : ℕ) (tobs : List ℝ) (nPath : ℕ) : Except McErr (Arr3 n) :=
  if nPath = 0 then .error .valueError
  else
    (bmIncr o antithetic rng pos tobs nPath).map fun a =>
      { a with
        at' := fun t p i => exp (∑ s ∈ Finset.range (t + 1), (a.at' s p i + (o.intr - o.divr - 0.5 * o.sigma i ^ 2) * McState.diff0 tobs s)) }

/-- `NormNdMc.simulate`, `pyfeng/multiasset_mc.py` lines 312-340: no drift is added. -/
noncomputable def simulateNorm (o : Ma n) (antithetic : Bool) (rng : ℕ → ℝ) (pos : ℕ) (tobs : List ℝ) (nPath : ℕ) : Except McErr (Arr3 n) :=
  if nPath = 0 then .error .valueError
  else
    (bmIncr o antithetic rng pos tobs nPath).map fun a => { a with at' := fun t p i => ∑ s ∈ Finset.range (t + 1), a.at' s p i }

/-- `np.isclose(t, texp)`. -/
noncomputable def isclose (t texp : ℝ) : Bool := @decide (|t - texp| ≤ 1e-8 + 1e-5 * |texp|) (Classical.dec _)

/-- `ind[0]`, the first stored observation time close to `texp`; `none` is the `ValueError` of lines 141-143, 358-360. -/
noncomputable def findTime (tobs : List ℝ) (texp : ℝ) : Option ℕ := tobs.findIdx? fun t => isclose t texp

/-- `BsmNdMc.price_european`, `pyfeng/multiasset_mc.py` lines 125-146, on the stored paths. -/
noncomputable def priceEuropean (o : Ma n) (tobs : List ℝ) (path : Arr3 n) (spot : Fin n → ℝ) (texp : ℝ) (payoff : (Fin n → ℝ) → ℝ) :
    Except McErr (Option ℝ) :=
  match findTime tobs texp with
  | none => .error .valueError
  | some t => .ok ((npMean ((List.range path.paths).map fun p => payoff fun i => path.at' t p i * spot i)).map fun x => exp (-o.intr * texp) * x)

/-- `NormNdMc.price_european`, `pyfeng/multiasset_mc.py` lines 342-363. -/
noncomputable def priceEuropeanNorm (o : Ma n) (tobs : List ℝ) (path : Arr3 n) (spot : Fin n → ℝ) (texp : ℝ) (payoff : (Fin n → ℝ) → ℝ) :
    Except McErr (Option ℝ) :=
  match findTime tobs texp with
  | none => .error .valueError
  | some t => .ok ((npMean ((List.range path.paths).map fun p => payoff fun i => path.at' t p i + spot i)).map fun x => exp (-o.intr * texp) * x)

end NdMc

end PyFENG
