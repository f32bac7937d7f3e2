import Verif.Model.MaMc
import Verif.Model.SabrMc

/-!
# Configuration and life cycle of the simulation objects

The `configure` methods of the classes that do not simply inherit `CondMcBsmABC.configure`, and the multi-asset simulators as objects with a history.
A generator is a stream of draws with a position; `R seed` is the stream of `np.random.default_rng(seed)`.  Arguments `None` are `none`.
-/

namespace PyFENG

open Real

/-- Python's `int(x)` of a non-negative number (`int(n_path)`; callers write `n_path=1e5`). -/
noncomputable def pyInt (x : ℝ) : ℕ := ⌊x⌋₊

/-! ## Multi-asset simulators -/

/-- The attributes of a `BsmNdMc` object that change, `pyfeng/multiasset_mc.py` lines 28-36: settings, generator, stored paths. -/
structure NdObj (n : ℕ) where
  nPath : ℕ
  rnSeed : Option ℕ
  antithetic : Bool
  rng : ℕ → ℝ
  pos : ℕ
  path : Option (Arr3 n)
  tobs : List ℝ

namespace NdObj

variable {n : ℕ}

/-- `BsmNdMc.__init__`, `pyfeng/multiasset_mc.py` lines 28-36; `ent` is the stream drawn when there is no seed. -/
def init (R : ℕ → ℕ → ℝ) (ent : ℕ → ℝ) (rnSeed : Option ℕ) (antithetic : Bool) : NdObj n :=
  ⟨0, rnSeed, antithetic, rnSeed.elim ent R, 0, none, []⟩

/-- `BsmNdMc.configure`, `pyfeng/multiasset_mc.py` lines 38-57. -/
noncomputable def configure (R : ℕ → ℕ → ℝ) (s : NdObj n) (nPath : Option ℝ) (rnSeed : Option ℕ) (antithetic : Option Bool) : NdObj n :=
  let s := match nPath with | some x => { s with nPath := pyInt x } | none => s
  let s := match rnSeed with | some k => { s with rnSeed := some k, rng := R k, pos := 0 } | none => s
  match antithetic with | some a => { s with antithetic := a } | none => s

/-- `BsmNdMc.simulate(tobs, store)`, `pyfeng/multiasset_mc.py` lines 87-123: the array returned with `store=False` (`none` when `self` is returned),
and the object afterwards.  The generator has advanced even when the `reshape` of `_bm_incr` (lines 80-83) fails. -/
noncomputable def simulate (o : Ma n) (s : NdObj n) (tobs : List ℝ) (store : Bool) : Except McErr (Option (Arr3 n)) × NdObj n :=
  if s.nPath = 0 then (.error .valueError, s)
  else
    let gen := if s.antithetic then s.nPath / 2 else s.nPath
    let s' := { s with pos := s.pos + gen * tobs.length * n }
    match NdMc.simulate o s.antithetic s.rng s.pos tobs s.nPath with
    | .error e => (.error e, s')
    | .ok a => if store then (.ok none, { s' with path := some a, tobs := tobs }) else (.ok (some a), s')

/-- `BsmNdMc.price_european`, `pyfeng/multiasset_mc.py` lines 125-146. -/
noncomputable def priceEuropean (o : Ma n) (s : NdObj n) (spot : Fin n → ℝ) (texp : ℝ) (payoff : (Fin n → ℝ) → ℝ) : Except McErr (Option ℝ) :=
  match s.path with
  | none => .error .valueError
  | some a => NdMc.priceEuropean o s.tobs a spot texp payoff

/-- A public call on the object that can change it. -/
inductive Op where
  | configure (nPath : Option ℝ) (rnSeed : Option ℕ) (antithetic : Option Bool)
  | simulate (tobs : List ℝ) (store : Bool)

/-- The object after a call (an exception is caught by the caller). -/
noncomputable def step (R : ℕ → ℕ → ℝ) (o : Ma n) (s : NdObj n) : Op → NdObj n
  | .configure a b c => s.configure R a b c
  | .simulate t st => (s.simulate o t st).2

/-- The object after a history of calls. -/
noncomputable def run (R : ℕ → ℕ → ℝ) (o : Ma n) (s : NdObj n) (l : List Op) : NdObj n := l.foldl (step R o) s

end NdObj

/-- The changing attributes of a `BsmBasketMc` object, `pyfeng/multiasset_mc.py` lines 180-188. -/
structure BasketObj where
  nPath : ℕ
  rnSeed : Option ℕ
  antithetic : Bool
  rng : ℕ → ℝ
  pos : ℕ

namespace BasketObj

/-- `BsmBasketMc.__init__`, `pyfeng/multiasset_mc.py` lines 180-188. -/
def init (R : ℕ → ℕ → ℝ) (ent : ℕ → ℝ) (rnSeed : Option ℕ) (antithetic : Bool) : BasketObj := ⟨0, rnSeed, antithetic, rnSeed.elim ent R, 0⟩

/-- `BsmBasketMc.configure`, `pyfeng/multiasset_mc.py` lines 190-209. -/
noncomputable def configure (R : ℕ → ℕ → ℝ) (s : BasketObj) (nPath : Option ℝ) (rnSeed : Option ℕ) (antithetic : Option Bool) : BasketObj :=
  let s := match nPath with | some x => { s with nPath := pyInt x } | none => s
  let s := match rnSeed with | some k => { s with rnSeed := some k, rng := R k, pos := 0 } | none => s
  match antithetic with | some a => { s with antithetic := a } | none => s

/-- `BsmBasketMc.price` as a call on the object, `pyfeng/multiasset_mc.py` lines 211-292. -/
noncomputable def price {n : ℕ} (o : Ma n) (s : BasketObj) (strike : ℝ) (spot : Fin n → ℝ) (texp cp : ℝ) (cv : BasketMc.Cv) : Option ℝ × BasketObj :=
  let r := BasketMc.price o s.nPath s.antithetic s.rng s.pos strike spot texp cp cv
  (r.1, { s with pos := r.2 })

/-- A public call on the object. -/
inductive Op (n : ℕ) where
  | configure (nPath : Option ℝ) (rnSeed : Option ℕ) (antithetic : Option Bool)
  | price (strike : ℝ) (spot : Fin n → ℝ) (texp cp : ℝ) (cv : BasketMc.Cv)

/-- The object after a call. -/
noncomputable def step {n : ℕ} (R : ℕ → ℕ → ℝ) (o : Ma n) (s : BasketObj) : Op n → BasketObj
  | .configure a b c => s.configure R a b c
  | .price K S T cp cv => (s.price o K S T cp cv).2

/-- The object after a history of calls. -/
noncomputable def run {n : ℕ} (R : ℕ → ℕ → ℝ) (o : Ma n) (s : BasketObj) (l : List (Op n)) : BasketObj := l.foldl (step R o) s

end BasketObj

/-! ## Extensions of `CondMcBsmABC.configure` -/

/-- A conditional Monte-Carlo object with one more numerical field: `scheme` of `GarchMcTimeDisc` (`pyfeng/garch.py` line 92) or the truncation index
`kk` of `HestonMcGlassermanKim2011` and `HestonMcChoiKwok2023PoisGe` (`pyfeng/heston_mc.py` lines 380, 959). -/
structure McExt where
  mc : McState
  ext : ℕ

/-- `configure(n_path, dt, rn_seed, antithetic, ext)`: `GarchMcTimeDisc` (`pyfeng/garch.py` lines 97-114), `HestonMcGlassermanKim2011` and
`HestonMcChoiKwok2023PoisGe` (`pyfeng/heston_mc.py` lines 385-399, 964-977). -/
noncomputable def McExt.configure (s : McExt) (nPath dt : Option ℝ) (rnSeed : Option ℕ) (antithetic : Option Bool) (ext : Option ℕ) : McExt :=
  let s := { s with mc := s.mc.configure (nPath.map pyInt) dt rnSeed antithetic }
  match ext with | some e => { s with ext := e } | none => s

/-- A `SabrMcCai2017Exact` object, `pyfeng/sabr_mc.py` lines 279-290: settings and the arrays derived from them. -/
structure CaiObj where
  mc : McState
  mInv : ℕ
  mEuler : ℕ
  nEuler : ℕ
  combCoef : List ℝ
  nn : List ℝ

namespace CaiObj

/-- `_init_euler_coefs`, `pyfeng/sabr_mc.py` lines 283-286; the assertion of line 285 fails as `none`. -/
noncomputable def initEuler (s : CaiObj) : Option CaiObj :=
  let comb := (List.range (s.mEuler + 1)).map fun j => (s.mEuler.choose j : ℝ) * 0.5 ^ s.mEuler
  if |comb.sum - 1| < 1e-8 then some { s with combCoef := comb, nn := (List.range (s.mEuler + s.nEuler + 1)).map fun (j : ℕ) => (j : ℝ) } else none

/-- `__post_init__`, `pyfeng/sabr_mc.py` lines 288-290. -/
noncomputable def postInit (s : CaiObj) : Option CaiObj := initEuler { s with mc := s.mc.postInit }

/-- `configure`, `pyfeng/sabr_mc.py` lines 292-313.  `super().configure` (line 311) ends in `self.__post_init__()`, the one of this class. -/
noncomputable def configure (s : CaiObj) (nPath dt : Option ℝ) (rnSeed : Option ℕ) (antithetic : Option Bool) (mInv mEuler nEuler : Option ℕ) : Option CaiObj := do
  let s := match mInv with | some x => { s with mInv := x } | none => s
  let s := match mEuler with | some x => { s with mEuler := x } | none => s
  let s := match nEuler with | some x => { s with nEuler := x } | none => s
  let s ← initEuler { s with mc := s.mc.configure (nPath.map pyInt) dt rnSeed antithetic }
  initEuler s

end CaiObj

/-- `CevMc.configure`, `pyfeng/cev.py` lines 333-349, with `__post_init__` (lines 323-327): no antithetic setting. -/
noncomputable def McState.cevConfigure (s : McState) (nPath dt : Option ℝ) (rnSeed : Option ℕ) : McState :=
  let s := match nPath with | some x => { s with nPath := pyInt x } | none => s
  let s := match dt with | some d => { s with dt := some d } | none => s
  let s := match rnSeed with | some r => { s with rnSeed := some r } | none => s
  s.postInit

/-- `NsvhMc.configure`, `pyfeng/nsvh.py` lines 266-274, with `__post_init__` (lines 258-260): no time step. -/
noncomputable def McState.nsvhConfigure (s : McState) (nPath : Option ℝ) (rnSeed : Option ℕ) (antithetic : Option Bool) : McState :=
  let s := match nPath with | some x => { s with nPath := pyInt x } | none => s
  let s := match rnSeed with | some r => { s with rnSeed := some r } | none => s
  let s := match antithetic with | some a => { s with antithetic := a } | none => s
  s.postInit

/-- A `RoughHestonMcABC` object, `pyfeng/heston_rough_mc.py` lines 39-53: settings and the time grid set by `configure`. -/
structure RoughObj where
  mc : McState
  nTs : ℕ
  texp : ℝ
  tgrid : List ℝ

/-- `RoughHestonMcABC.configure(texp, n_ts, n_path, rn_seed, antithetic)`, `pyfeng/heston_rough_mc.py` lines 59-84.  The division by `n_ts = 0`
(line 82) is a `ZeroDivisionError`, `none`. -/
noncomputable def RoughObj.configure (s : RoughObj) (texp : ℝ) (nTs nPath : Option ℝ) (rnSeed : Option ℕ) (antithetic : Option Bool) : Option RoughObj :=
  let s := match nTs with | some x => { s with nTs := pyInt x } | none => s
  let s := match nPath with | some x => { s with mc := { s.mc with nPath := pyInt x } } | none => s
  let s := match rnSeed with | some r => { s with mc := { s.mc with rnSeed := some r } } | none => s
  let s := match antithetic with | some a => { s with mc := { s.mc with antithetic := a } } | none => s
  let s := { s with mc := s.mc.postInit }
  if s.nTs = 0 then none
  else some { s with
    texp := texp
    mc := { s.mc with dt := some (texp / s.nTs) }
    tgrid := (List.range (s.nTs + 1)).map fun (i : ℕ) => texp * i / s.nTs }

/-- The settings of `SvFinDiffABC`, `pyfeng/sv_fin_diff.py` lines 142-143. -/
structure FdCfg where
  nGrid : List ℕ
  adiTheta : ℝ

/-- `SvFinDiffABC.configure` with `__post_init__`, `pyfeng/sv_fin_diff.py` lines 145-164: the grid sizes are truncated to integers. -/
noncomputable def FdCfg.configure (s : FdCfg) (nGrid : Option (List ℝ)) (adiTheta : Option ℝ) : FdCfg :=
  let g : List ℝ := match nGrid with | some g => g | none => s.nGrid.map fun (k : ℕ) => (k : ℝ)
  let t := match adiTheta with | some t => t | none => s.adiTheta
  ⟨g.map pyInt, t⟩

end PyFENG
