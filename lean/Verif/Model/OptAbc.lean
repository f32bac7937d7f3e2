import Verif.Model.Bsm
import Verif.Model.BsmDisp
import Verif.Model.BsmImpvol
import Verif.Model.Norm

/-!
# Model of `pyfeng/opt_abc.py`: generic numerical methods of `OptABC`

Model objects live in a heap (a list; the address of an object is its index), because these methods copy the
model object and assign to the attribute `sigma` of the copy.
-/

namespace PyFENG

open Real

/-- What `OptABC` needs from a concrete class: the constructor state `M`, the `price` method, reading the
attribute `sigma`, assigning it, and the market conventions (`intr`, `divr`, `is_fwd`) of
`pyfeng/opt_abc.py` lines 29-62. -/
structure OptClass (M : Type) where
  price : M → ℝ → ℝ → ℝ → ℝ → ℝ
  getSigma : M → ℝ
  setSigma : ℝ → M → M
  conv : M → MParams

/-- `Bsm`: `sigma` is a plain dataclass field (`pyfeng/params.py` lines 67-90). -/
noncomputable def Bsm.cls : OptClass MParams :=
  ⟨Bsm.price, MParams.sigma, fun s m => { m with sigma := s }, id⟩

/-- `Norm`: `sigma` is a plain dataclass field. -/
noncomputable def Norm.cls : OptClass MParams :=
  ⟨Norm.price, MParams.sigma, fun s m => { m with sigma := s }, id⟩

/-- `BsmDisp`: `sigma` is the property of `pyfeng/bsm.py` lines 542-548. -/
noncomputable def BsmDisp.cls : OptClass DParams :=
  ⟨BsmDisp.price, BsmDisp.getSigma, BsmDisp.setSigma, BsmDisp.toM⟩

namespace OptABC

/-- The heap of model objects. -/
abbrev Heap (M : Type) := List M

/-- A Python computation that reads and writes model objects. -/
abbrev Prog (M : Type) := StateM (Heap M)

variable {M : Type} [Inhabited M] (c : OptClass M)

/-- Dereference. -/
def deref (a : ℕ) : Prog M M := fun h => (h.getD a default, h)

/-- `copy.copy(obj)`: a new object with the same fields. -/
def pyCopy (a : ℕ) : Prog M ℕ := fun h => (h.length, h ++ [h.getD a default])

/-- `obj.sigma`. -/
def getSigma (a : ℕ) : Prog M ℝ := do return c.getSigma (← deref a)

/-- `obj.sigma = s`. -/
def setSigma (a : ℕ) (s : ℝ) : Prog M Unit := fun h => ((), h.modify a (c.setSigma s))

/-- `obj.price(...)`. -/
def callPrice (a : ℕ) (strike spot texp cp : ℝ) : Prog M ℝ := do
  return c.price (← deref a) strike spot texp cp

/-- `OptABC._delta_shock`, `pyfeng/opt_abc.py` lines 153-166. -/
noncomputable def deltaShock (spot : ℝ) : ℝ := spot * 0.001

/-- `OptABC._vega_shock`, `pyfeng/opt_abc.py` lines 208-221. -/
noncomputable def vegaShock : ℝ := 0.001

/-- `OptABC._theta_shock`, `pyfeng/opt_abc.py` lines 291-304. -/
noncomputable def thetaShock (texp : ℝ) : ℝ := min (1 / 3652.5) texp

/-- `OptABC.delta_numeric`, `pyfeng/opt_abc.py` lines 167-185. -/
noncomputable def deltaNumeric (self : ℕ) (strike spot texp cp : ℝ) : Prog M ℝ := do
  let h := deltaShock spot
  let pu ← callPrice c self strike (spot + h) texp cp
  let pd ← callPrice c self strike (spot - h) texp cp
  return (pu - pd) / (2 * h)

/-- `OptABC.gamma_numeric`, `pyfeng/opt_abc.py` lines 187-206. -/
noncomputable def gammaNumeric (self : ℕ) (strike spot texp cp : ℝ) : Prog M ℝ := do
  let h := deltaShock spot
  let pu ← callPrice c self strike (spot + h) texp cp
  let p0 ← callPrice c self strike spot texp cp
  let pd ← callPrice c self strike (spot - h) texp cp
  return (pu - 2 * p0 + pd) / (h * h)

/-- `OptABC.vega_numeric`, `pyfeng/opt_abc.py` lines 223-244.  `model.sigma += h` reads the attribute and
assigns it. -/
noncomputable def vegaNumeric (self : ℕ) (strike spot texp cp : ℝ) : Prog M ℝ := do
  let h := vegaShock
  let model ← pyCopy self
  setSigma c model ((← getSigma c model) + h)
  let pUp ← callPrice c model strike spot texp cp
  setSigma c model ((← getSigma c model) - 2 * h)
  let pDn ← callPrice c model strike spot texp cp
  return (pUp - pDn) / (2 * h)

/-- `OptABC.volga_numeric`, `pyfeng/opt_abc.py` lines 246-269. -/
noncomputable def volgaNumeric (self : ℕ) (strike spot texp cp : ℝ) : Prog M ℝ := do
  let h := vegaShock
  let model ← pyCopy self
  let p0 ← callPrice c model strike spot texp cp
  setSigma c model ((← getSigma c model) + h)
  let pUp ← callPrice c model strike spot texp cp
  setSigma c model ((← getSigma c model) - 2 * h)
  let pDn ← callPrice c model strike spot texp cp
  return (pUp + pDn - 2 * p0) / (h * h)

/-- `OptABC.vanna_numeric`, `pyfeng/opt_abc.py` lines 271-289. -/
noncomputable def vannaNumeric (self : ℕ) (strike spot texp cp : ℝ) : Prog M ℝ := do
  let h := deltaShock spot
  let vu ← vegaNumeric c self strike (spot + h) texp cp
  let vd ← vegaNumeric c self strike (spot - h) texp cp
  return (vu - vd) / (2 * h)

/-- `OptABC.theta_numeric`, `pyfeng/opt_abc.py` lines 306-322. -/
noncomputable def thetaNumeric (self : ℕ) (strike spot texp cp : ℝ) : Prog M ℝ := do
  let dt := thetaShock texp
  let pd ← callPrice c self strike spot (texp - dt) cp
  let pu ← callPrice c self strike spot (texp + dt) cp
  return (pd - pu) / (2 * dt)

/-- `OptABC.pdf_numeric`, `pyfeng/opt_abc.py` lines 324-343. -/
noncomputable def pdfNumeric (self : ℕ) (strike spot texp cp h : ℝ) : Prog M ℝ := do
  let m ← deref self
  let kk := strike / (c.conv m).forward spot texp
  let p0 ← callPrice c self (kk - h) 1 texp cp
  let p1 ← callPrice c self kk 1 texp cp
  let p2 ← callPrice c self (kk + h) 1 texp cp
  return (p2 + p0 - 2 * p1) / (h * h)

/-- `OptABC.cdf_numeric`, `pyfeng/opt_abc.py` lines 345-364 (`np.sign` is `SignType.sign`). -/
noncomputable def cdfNumeric (self : ℕ) (strike spot texp cp h : ℝ) : Prog M ℝ := do
  let m ← deref self
  let fwd := (c.conv m).forward spot texp
  let p0 ← callPrice c self (strike - h) fwd texp cp
  let p1 ← callPrice c self (strike + h) fwd texp cp
  return (SignType.sign cp : ℝ) * (p0 - p1) / (2 * h)

/-- `OptABC.IMPVOL_TOL` and `OptABC.IMPVOL_MAXVOL`, `pyfeng/opt_abc.py` lines 26-27. -/
noncomputable def impvolTol : ℝ := 1e-10
/-- `OptABC.IMPVOL_MAXVOL`, `pyfeng/opt_abc.py` line 27. -/
noncomputable def impvolMaxvol : ℝ := 99.99

/-- The outcome of one element of `impvol_brentq`: a number, `nan`, or the exception of `sopt.brentq` (its
end points do not bracket a root). -/
inductive IvRes where
  | val (s : ℝ)
  | nan
  | raise

open Classical in
/-- The case distinction of `OptABC.impvol_brentq` for one element, `pyfeng/opt_abc.py` lines 127-134; `f` is
`iv_func` (the model price minus the target). -/
noncomputable def ivDecide (brentq : (ℝ → ℝ) → ℝ → ℝ → Option ℝ) (f : ℝ → ℝ) (pStd pMin pMax : ℝ) : IvRes :=
  if |pStd - pMin| < impvolTol then .val 0
  else if |pStd - pMax| < impvolTol then .val impvolMaxvol
  else if pStd < pMin ∨ pMax < pStd then .nan
  else match brentq f 0 10 with
    | some s => .val s
    | none => .raise

/-- `OptABC.impvol_brentq`, `pyfeng/opt_abc.py` lines 81-147, for one option (the loop of lines 121-133 treats
elements independently).  `brentq f a b` is SciPy's root finder: `none` models its `ValueError`.  The calls
of `iv_func` made by the root finder leave `model.sigma` (of the copy) at an unspecified value, modelled as
`IMPVOL_MAXVOL` (nobody can read the copy afterwards). -/
noncomputable def impvolBrentq (brentq : (ℝ → ℝ) → ℝ → ℝ → Option ℝ) (self : ℕ)
    (price strike spot texp cp : ℝ) (setval : Bool) : Prog M IvRes := do
  let m ← deref self
  let fwd := (c.conv m).fwd spot texp
  let df := (c.conv m).df texp
  let kk := strike / fwd
  let pStd := price / df / fwd
  let model ← pyCopy self
  setSigma c model 1e-64
  let pMin ← callPrice c model kk 1 texp cp
  setSigma c model impvolMaxvol
  let pMax ← callPrice c model kk 1 texp cp
  let m0 ← deref model
  let res := ivDecide brentq (fun s => c.price (c.setSigma s m0) kk 1 texp cp - pStd) pStd pMin pMax
  match setval, res with
  | true, .val s => do setSigma c self s; return res
  | _, _ => return res

/-- The base models of `OptABC._m_smile`, `pyfeng/opt_abc.py` lines 366-385. -/
inductive Base where
  | bsm
  | norm
  deriving DecidableEq

/-- Python's `str.lower` on ASCII names. -/
def pyLower (s : String) : String := String.ofList (s.toList.map Char.toLower)

/-- `OptABC._m_smile`, `pyfeng/opt_abc.py` lines 366-385: case-insensitive dispatch on the model name. -/
def mSmile (model : String) : Option Base :=
  if pyLower model = "bsm" then some .bsm
  else if pyLower model = "norm" then some .norm
  else none

/-- Result of an implied-volatility call: `Bsm.impvol` (value and "converged" flag) or `Norm.impvol`
(`none` for nan). -/
inductive SmileVal where
  | bsm (r : Except String ((Unit → ℝ) × Bool))
  | norm (r : Option ℝ)
  | flat (sigma : ℝ)

/-- `base_model.impvol(price, strike, spot, texp, cp=cp)` with the base model's rates copied from `self`
(`pyfeng/opt_abc.py` lines 394, 396); `n_iter` defaults to 8 (`pyfeng/bsm.py` line 280). -/
noncomputable def baseImpvol (b : Base) (m : MParams) (price strike spot texp cp : ℝ) : SmileVal :=
  match b with
  | .bsm => .bsm (Bsm.impvol m (fun _ => price) (fun _ => strike) (fun _ => spot) (fun _ => texp)
      (fun _ => cp) 8)
  | .norm => .norm (Norm.impvol m price strike spot texp cp)

open Classical in
/-- `OptABC.vol_smile`, `pyfeng/opt_abc.py` lines 401-416 (`model` already resolved, scalars). -/
noncomputable def volSmile (m : M) (strike spot texp : ℝ) (cp : Option ℝ) (model : String) :
    Except String SmileVal :=
  match mSmile model with
  | none => .error s!"Unknown model: {model}"
  | some b =>
    let cp := cp.getD (if strike > (c.conv m).forward spot texp then 1 else -1)
    .ok (baseImpvol b (c.conv m) (c.price m strike spot texp cp) strike spot texp cp)

end OptABC

/-- `Bsm.vol_smile`, `pyfeng/bsm.py` lines 346-376 (scalars; `model=None` is `_smile_model = "bsm"`). -/
noncomputable def Bsm.volSmile (m : MParams) (strike spot texp : ℝ) (cp : Option ℝ)
    (model : Option String) : Except String OptABC.SmileVal :=
  let model := model.getD "bsm"
  if OptABC.pyLower model = "bsm" then .ok (.flat m.sigma)
  else if OptABC.pyLower model = "norm-approx" then
    let fwd := m.fwd spot texp
    let kk := strike / fwd
    .ok (.flat (m.sigma * fwd * √kk * (1 + log kk ^ 2 / 24) / (1 + m.sigma ^ 2 * texp / 24)))
  else if OptABC.pyLower model = "norm-grunspan" then
    let fwd := m.fwd spot texp
    let kk := strike / fwd
    let lnk := log kk
    let term1 := if |lnk| > 1e-8 then (kk - 1) / lnk else 2 / (3 - kk)
    let term2 := if |lnk| > 1e-8 then (log term1 - lnk / 2) / lnk ^ 2 else 1 / 24
    .ok (.flat (m.sigma * fwd * term1 * (1 - term2 * m.sigma ^ 2 * texp)))
  else OptABC.volSmile Bsm.cls m strike spot texp cp model

/-- `Norm.vol_smile`, `pyfeng/norm.py` lines 249-276 (scalars; `model=None` is `"norm"`). -/
noncomputable def Norm.volSmile (m : MParams) (strike spot texp : ℝ) (cp : Option ℝ)
    (model : Option String) : Except String OptABC.SmileVal :=
  let model := model.getD "norm"
  if OptABC.pyLower model = "norm" then .ok (.flat m.sigma)
  else if OptABC.pyLower model = "bsm-approx" then
    let fwd := m.forward spot texp
    let kk := strike / fwd
    let vol := m.sigma / fwd / √kk
    .ok (.flat (vol * ((1 + vol ^ 2 * texp / 24) / (1 + log kk ^ 2 / 24))))
  else OptABC.volSmile Norm.cls m strike spot texp cp model

/-- `BsmDisp.impvol`, `pyfeng/bsm.py` lines 606-614, on arrays, returning the implied `sigma_disp` and the
convergence flag of the underlying Newton loop (`n_iter = 8`). -/
noncomputable def BsmDisp.impvol {ι : Type*} (d : DParams) (price strike spot texp cp : ι → ℝ) :
    Except String ((ι → ℝ) × Bool) :=
  match Bsm.impvol (BsmDisp.toM d) (fun i => d.beta * price i)
      (fun i => BsmDisp.dispStrike d (strike i) (texp i)) (fun i => BsmDisp.dispSpot d (spot i)) texp cp 8 with
  | .error e => .error e
  | .ok (s, b) => .ok (fun i => 1 / d.beta * s i, b)

end PyFENG
