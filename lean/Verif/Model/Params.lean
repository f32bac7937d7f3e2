import Verif.Model.Core
import Mathlib.Analysis.SpecialFunctions.Log.Basic
import Mathlib.Data.Finset.Image
import Mathlib.LinearAlgebra.Matrix.PosDef

/-!
# Model of `pyfeng/params.py`: dataclass constructors, `params_kw`, `from_model`, `params_hash`, `MaParams`

Python dataclasses are modelled as: an ordered list of fields (with default, `init`, `kw_only` and
`metadata={'kind': 'numerical'}` flags), a generated `__init__` binding positional and keyword arguments, and a
`__post_init__` acting on the attribute dictionary.
-/

namespace PyFENG

open Real

/-- Exceptions observed by the caller. -/
inductive PyErr where
  | valueError
  | typeError
  deriving DecidableEq, Repr

/-- Attribute values of the single-asset parameter classes: a number, `None` or a boolean. -/
inductive Val where
  | num (r : ℝ)
  | none
  | bool (b : Bool)

/-- `__dict__` of an instance. -/
abbrev Attrs := String → Option Val

/-- Attribute assignment `obj.n = v`. -/
def Attrs.set (a : Attrs) (n : String) (v : Val) : Attrs := fun k => if k = n then some v else a k

/-- Reading an attribute that is then compared or used in arithmetic: `TypeError` if it is not a number
(`None <= 0.0` raises).  A missing attribute (`AttributeError`) is merged with this case. -/
def Attrs.num (a : Attrs) (n : String) : Except PyErr ℝ :=
  match a n with
  | some (.num r) => .ok r
  | some (.bool b) => .ok (if b then 1 else 0)
  | _ => .error .typeError

/-- One `dataclasses.Field`. -/
structure PyField where
  name : String
  dflt : Option Val
  init : Bool := true
  kwOnly : Bool := false
  numerical : Bool := false

/-- A dataclass: its `model_type` class attribute, ordered fields and `__post_init__`. -/
structure PyClass where
  modelType : String
  fields : List PyField
  postInit : Attrs → Except PyErr Attrs

/-- An instance. -/
structure PyObj where
  cls : PyClass
  attrs : Attrs

/-- Field inheritance of `@dataclass`: a redeclared field keeps its place, new fields are appended. -/
def inheritFields (base new : List PyField) : List PyField :=
  (base.map fun f => (new.find? fun g => g.name == f.name).getD f)
    ++ new.filter fun g => !(base.any fun f => f.name == g.name)

/-- The attribute dictionary after the generated `__init__` has stored its arguments, before `__post_init__`:
keyword value if given, default otherwise. -/
def bindArgs (fs : List PyField) (kw : List (String × Val)) : Attrs := fun n =>
  match fs.find? fun f => f.name == n with
  | some f => if f.init then (kw.lookup n).orElse (fun _ => f.dflt) else f.dflt
  | .none => .none

/-- `cls(**kw)`: unexpected or missing keyword arguments raise `TypeError`; then the fields are stored and
`__post_init__` runs. -/
def construct (c : PyClass) (kw : List (String × Val)) : Except PyErr PyObj :=
  if kw.any (fun p => !(c.fields.any fun f => f.init && f.name == p.1)) then .error .typeError
  else if c.fields.any (fun f => f.init && f.dflt.isNone && !(kw.any fun p => p.1 == f.name)) then .error .typeError
  else match c.postInit (bindArgs c.fields kw) with
    | .error e => .error e
    | .ok a => .ok ⟨c, a⟩

/-- Names of the positional parameters of the generated `__init__`, in order. -/
def positionalNames (c : PyClass) : List String :=
  (c.fields.filter fun f => f.init && !f.kwOnly).map (·.name)

/-- `cls(*args, **kw)`: positional values are bound in field order; too many, or a value given both by position and by
keyword, is a `TypeError`. -/
def constructPos (c : PyClass) (args : List Val) (kw : List (String × Val)) : Except PyErr PyObj :=
  if (positionalNames c).length < args.length then .error .typeError
  else if ((positionalNames c).take args.length).any (fun n => kw.any fun p => p.1 == n) then .error .typeError
  else construct c ((positionalNames c).zip args ++ kw)

/-- `_params_kw._is_model`, `pyfeng/params.py` lines 58-59. -/
def PyField.isModel (f : PyField) : Bool := f.init && !f.numerical

/-- `_params_kw`, `pyfeng/params.py` lines 50-62: model fields, keyword-only ones last. -/
def paramsKw (o : PyObj) : List (String × Val) :=
  let item := fun f : PyField => (o.attrs f.name).map fun v => (f.name, v)
  ((o.cls.fields.filter fun f => f.isModel && !f.kwOnly).filterMap item)
    ++ ((o.cls.fields.filter fun f => f.isModel && f.kwOnly).filterMap item)

/-- `BaseParams.from_model`, `pyfeng/params.py` lines 151-180, for classes that declare a `model_type`
(all classes of this file; `MaParams` has none and is treated separately). -/
def fromModel (c : PyClass) (o : PyObj) : Except PyErr PyObj :=
  if c.modelType ≠ o.cls.modelType then .error .typeError
  else construct c (paramsKw o)

/-! ## The parameter classes -/

/-- `BaseParams` fields, `pyfeng/params.py` lines 77-81. -/
def baseFields : List PyField :=
  [⟨"sigma", none, true, false, false⟩, ⟨"intr", some (.num 0), true, true, false⟩,
   ⟨"divr", some (.num 0), true, true, false⟩, ⟨"is_fwd", some (.bool false), true, true, false⟩]

/-- A plain field with a numeric default. -/
def numField (n : String) (d : ℝ) : PyField := ⟨n, some (.num d), true, false, false⟩

/-- `BaseParams.__post_init__`, `pyfeng/params.py` lines 88-92 (the cooperative chain ends there for these classes;
the simulation mixins' `__post_init__` are not modelled). -/
def basePost (a : Attrs) : Except PyErr Attrs := .ok a

/-- `BsmParams`, `pyfeng/params.py` lines 186-189. -/
def bsmParams : PyClass := ⟨"Bsm", baseFields, basePost⟩

/-- `CevParams.__post_init__`, `pyfeng/params.py` lines 222-227. -/
noncomputable def cevPost (a : Attrs) : Except PyErr Attrs :=
  match a.num "beta" with
  | .error e => .error e
  | .ok b => if ¬ (0 < b) then .error .valueError else if b = 1 then .error .valueError else basePost a

/-- `CevParams` fields, `pyfeng/params.py` line 220. -/
noncomputable def cevFields : List PyField := inheritFields baseFields [numField "beta" 0.5]

/-- `CevParams`, `pyfeng/params.py` lines 211-227. -/
noncomputable def cevParams : PyClass := ⟨"Cev", cevFields, cevPost⟩

/-- `SabrParams` fields, `pyfeng/params.py` lines 248-249. -/
noncomputable def sabrFields : List PyField := inheritFields cevFields [numField "vov" 0.1, numField "rho" 0]

/-- `SabrParams`, `pyfeng/params.py` lines 234-254 (`__post_init__` deliberately skips the CEV validation). -/
noncomputable def sabrParams : PyClass := ⟨"SABR", sabrFields, basePost⟩

/-- `NsvhParams`, `pyfeng/params.py` lines 574-593: `beta` becomes an `init=False` field fixed at 0. -/
noncomputable def nsvhParams : PyClass :=
  ⟨"Nsvh", inheritFields sabrFields [⟨"beta", some (.num 0), false, false, false⟩, numField "lam" 0], basePost⟩

/-- `SvParams` fields, `pyfeng/params.py` lines 270-273. -/
noncomputable def svFields : List PyField :=
  inheritFields baseFields [numField "vov" 0.01, numField "rho" 0, numField "mr" 0.01,
    ⟨"theta", some .none, true, false, false⟩]

/-- `SvParams.__post_init__`, `pyfeng/params.py` lines 275-278. -/
def svPost (a : Attrs) : Except PyErr Attrs :=
  match a "theta", a "sigma" with
  | some .none, some s => basePost (a.set "theta" s)
  | _, _ => basePost a

/-- `GarchParams`, `OusvParams`, `Sv32Params`, `pyfeng/params.py` lines 339-357. -/
noncomputable def garchParams : PyClass := ⟨"GarchDiff", svFields, svPost⟩
/-- See `garchParams`. -/
noncomputable def ousvParams : PyClass := ⟨"OUSV", svFields, svPost⟩
/-- See `garchParams`. -/
noncomputable def sv32Params : PyClass := ⟨"3/2", svFields, svPost⟩

/-- `HestonParams.__post_init__`, `pyfeng/params.py` lines 299-310. -/
noncomputable def hestonPost (a0 : Attrs) : Except PyErr Attrs := do
  let a ← svPost a0
  if (← a.num "sigma") ≤ 0 then throw .valueError
  if (← a.num "vov") ≤ 0 then throw .valueError
  if (← a.num "mr") ≤ 0 then throw .valueError
  if (← a.num "theta") ≤ 0 then throw .valueError
  let r ← a.num "rho"
  if ¬ (-1 < r ∧ r < 1) then throw .valueError
  return a

/-- `HestonParams`, `pyfeng/params.py` lines 286-310. -/
noncomputable def hestonParams : PyClass := ⟨"Heston", svFields, hestonPost⟩

/-- `RoughHestonParams`, `pyfeng/params.py` lines 360-370. -/
noncomputable def roughHestonParams : PyClass :=
  ⟨"rHeston", inheritFields svFields [numField "alpha" 0.62], hestonPost⟩

/-- `HestonCevParams.__post_init__`, `pyfeng/params.py` lines 333-336. -/
noncomputable def hestonCevPost (a0 : Attrs) : Except PyErr Attrs := do
  let a ← hestonPost a0
  if ¬ (0 < (← a.num "beta")) then throw .valueError
  return a

/-- `HestonCevParams`, `pyfeng/params.py` lines 313-336. -/
noncomputable def hestonCevParams : PyClass :=
  ⟨"HestonCev", inheritFields svFields [numField "beta" 1], hestonCevPost⟩

/-- Fields of `VarGammaParams` and `NigParams`, `pyfeng/params.py` lines 409-411, 511-513. -/
noncomputable def subFields : List PyField :=
  inheritFields baseFields [numField "nu" 0.01, numField "theta" 0, ⟨"_mgf1_correction", none, false, false, false⟩]

/-- `VarGammaParams.__post_init__`, `pyfeng/params.py` lines 413-422. -/
noncomputable def vgPost (a : Attrs) : Except PyErr Attrs := do
  let arg := 1 - (← a.num "theta") * (← a.num "nu") - 0.5 * (← a.num "sigma") ^ 2 * (← a.num "nu")
  if arg ≤ 0 then throw .valueError
  return a.set "_mgf1_correction" (.num (-log arg))

/-- `VarGammaParams`, `pyfeng/params.py` lines 379-422. -/
noncomputable def vgParams : PyClass := ⟨"VarGamma", subFields, vgPost⟩

/-- `NigParams.__post_init__`, `pyfeng/params.py` lines 515-524. -/
noncomputable def nigPost (a : Attrs) : Except PyErr Attrs := do
  let arg := 1 - 2 * (← a.num "theta") * (← a.num "nu") - (← a.num "sigma") ^ 2 * (← a.num "nu")
  if arg ≤ 0 then throw .valueError
  return a.set "_mgf1_correction" (.num (1 - √arg))

/-- `NigParams`, `pyfeng/params.py` lines 481-524. -/
noncomputable def nigParams : PyClass := ⟨"NIG", subFields, nigPost⟩

/-- A pricing class that adds keyword-only numerical fields (`n_path`, `dt`, `rn_seed`, `antithetic`, `kk`, `scheme`, …)
to a parameter class: e.g. `pyfeng/sv_abc.py` lines 15-18, `pyfeng/heston_mc.py` line 380, `pyfeng/garch.py` line 92.
`extra` lists (name, default). -/
def withNumerical (c : PyClass) (extra : List (String × Val)) : PyClass :=
  { c with fields := c.fields ++ extra.map fun p => ⟨p.1, some p.2, true, true, true⟩ }

/-! ## `params_hash` -/

/-- Python equality classes of hashable parameter values: `0 == 0.0 == False`. -/
def Val.key : Val → Option ℝ
  | .num r => some r
  | .none => Option.none
  | .bool b => some (if b then 1 else 0)

open Classical in
/-- The argument of `hash` in `BaseParams.params_hash`, `pyfeng/params.py` lines 98-101:
`(frozenset(keys), frozenset(values))`. -/
noncomputable def paramsHashArg (o : PyObj) : Finset String × Finset (Option ℝ) :=
  (((paramsKw o).map (·.1)).toFinset, ((paramsKw o).map fun p => p.2.key).toFinset)

/-! ## `MaParams` -/

/-- Constructor arguments of `MaParams` (`pyfeng/params.py` lines 739-744); `none` is Python `None`; a matrix argument
carries its shape.  `n` is the number of assets when `sigma` is given. -/
structure MaArgs where
  sigma : Option (Σ n : ℕ, (Fin n → ℝ))
  rho : Option ℝ
  corM : Option (Σ s : ℕ × ℕ, Matrix (Fin s.1) (Fin s.2) ℝ)
  covM : Option (Σ s : ℕ × ℕ, Matrix (Fin s.1) (Fin s.2) ℝ)
  /-- `None`, a scalar, or an array -/
  weight : Option (ℝ ⊕ (Σ n : ℕ, (Fin n → ℝ)))
  intr : ℝ := 0
  divr : ℝ := 0
  isFwd : Bool := false

/-- Attributes of a constructed `MaParams` (`chol_m` is not part of this record: it is
`np.linalg.cholesky(cov_m)`, whose success condition is `Matrix.PosDef`; see `MaArgs.init`). -/
structure MaObj (n : ℕ) where
  sigma : Fin n → ℝ
  rho : Option ℝ
  corM : Matrix (Fin n) (Fin n) ℝ
  covM : Matrix (Fin n) (Fin n) ℝ
  weight : Fin n → ℝ
  intr : ℝ
  divr : ℝ
  isFwd : Bool

/-- `self.rho = self.cor_m[0, 1] if self.n_asset == 2 else None`, `pyfeng/params.py` lines 777, 786. -/
def maRho {n : ℕ} (cor : Matrix (Fin n) (Fin n) ℝ) : Option ℝ :=
  if h : n = 2 then some (cor ⟨0, by omega⟩ ⟨1, by omega⟩) else none

/-- `sigma` resolution, `pyfeng/params.py` lines 757-764 (`np.diag` of a non-square matrix is its main diagonal). -/
noncomputable def maSigma (a : MaArgs) : Except PyErr (Σ n : ℕ, (Fin n → ℝ)) :=
  match a.sigma, a.covM with
  | some s, _ => .ok s
  | none, some ⟨(r, c), m⟩ =>
      .ok ⟨min r c, fun i => √(m ⟨i, lt_of_lt_of_le i.2 (min_le_left r c)⟩ ⟨i, lt_of_lt_of_le i.2 (min_le_right r c)⟩)⟩
  | none, none => .error .valueError

/-- Resolution of `cor_m`, `cov_m`, `sigma`, `rho`, `pyfeng/params.py` lines 767-794.  Result: `(sigma, rho, cor_m, cov_m)`. -/
noncomputable def maCov (a : MaArgs) {n : ℕ} (sigma : Fin n → ℝ) :
    Except PyErr ((Fin n → ℝ) × Option ℝ × Matrix (Fin n) (Fin n) ℝ × Matrix (Fin n) (Fin n) ℝ) :=
  match a.covM, a.corM with
  | some ⟨(r, c), m⟩, _ =>
      if h : r = n ∧ c = n then
        let cov : Matrix (Fin n) (Fin n) ℝ := fun i j => m (Fin.cast h.1.symm i) (Fin.cast h.2.symm j)
        let s : Fin n → ℝ := fun i => √(cov i i)
        let cor : Matrix (Fin n) (Fin n) ℝ := fun i j => cov i j / (s i * s j)
        .ok (s, maRho cor, cor, cov)
      else .error .valueError
  | none, some ⟨(r, c), m⟩ =>
      if h : r = n ∧ c = n then
        let cor : Matrix (Fin n) (Fin n) ℝ := fun i j => m (Fin.cast h.1.symm i) (Fin.cast h.2.symm j)
        .ok (sigma, maRho cor, cor, fun i j => sigma j * cor i j * sigma i)
      else .error .valueError
  | none, none =>
      let rho := a.rho.getD 0
      let cor : Matrix (Fin n) (Fin n) ℝ := fun i j => rho * 1 + (1 - rho) * (if i = j then 1 else 0)
      .ok (sigma, a.rho, cor, fun i j => sigma j * cor i j * sigma i)

/-- `weight` resolution, `pyfeng/params.py` lines 799-808. -/
noncomputable def maWeight (a : MaArgs) (n : ℕ) : Except PyErr (Fin n → ℝ) :=
  match a.weight with
  | none => .ok fun _ => 1 / n
  | some (.inl w) => .ok fun _ => w
  | some (.inr ⟨k, w⟩) => if h : k = n then .ok fun i => w (Fin.cast h.symm i) else .error .valueError

/-- `n_given`, `pyfeng/params.py` line 752. -/
def MaArgs.nGiven (a : MaArgs) : ℕ :=
  (if a.rho.isSome then 1 else 0) + (if a.corM.isSome then 1 else 0) + (if a.covM.isSome then 1 else 0)

/-- The symmetric matrix `np.linalg.cholesky` actually factorises (`pyfeng/params.py` line 796): numpy reads only the lower
triangle of its argument. -/
def choleskyArg {n : ℕ} (cov : Matrix (Fin n) (Fin n) ℝ) : Matrix (Fin n) (Fin n) ℝ :=
  fun i j => if j ≤ i then cov i j else cov j i

open Classical in
/-- `MaParams.__post_init__`, `pyfeng/params.py` lines 750-808.  `np.linalg.cholesky` (line 796) reads only the lower
triangle and raises `LinAlgError` (a `ValueError` subclass) unless that symmetric completion is positive definite. -/
noncomputable def MaArgs.init (a : MaArgs) : Except PyErr (Σ n : ℕ, MaObj n) :=
  if a.nGiven > 1 then .error .valueError
  else match maSigma a with
    | .error e => .error e
    | .ok ⟨n, sigma⟩ =>
      match maCov a sigma with
      | .error e => .error e
      | .ok (s, rho, cor, cov) =>
        if ¬ (choleskyArg cov).PosDef then .error .valueError
        else match maWeight a n with
          | .error e => .error e
          | .ok w => .ok ⟨n, ⟨s, rho, cor, cov, w, a.intr, a.divr, a.isFwd⟩⟩

/-- `MaParams.params_kw` followed by `cls(**kw)` (`from_model`), `pyfeng/params.py` lines 810-821, 151-180: `rho` and
`cor_m` are dropped, `sigma`, `cov_m`, `weight`, `intr`, `divr`, `is_fwd` are passed. -/
noncomputable def MaObj.fromModelArgs {n : ℕ} (o : MaObj n) : MaArgs :=
  { sigma := some ⟨n, o.sigma⟩, rho := none, corM := none, covM := some ⟨(n, n), o.covM⟩,
    weight := some (.inr ⟨n, o.weight⟩), intr := o.intr, divr := o.divr, isFwd := o.isFwd }

/-- `SpreadParams.__post_init__`, `pyfeng/params.py` lines 695-698. -/
def spreadInit (sigma : List ℝ) (rho : ℝ) : Except PyErr ((ℝ × ℝ) × ℝ) :=
  match sigma with
  | [a, b] => .ok ((a, b), rho)
  | _ => .error .valueError

end PyFENG
