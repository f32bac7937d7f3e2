import Verif.Model.Bsm
import Mathlib.Algebra.Order.Floor.Ring

/-!
# Model of `pyfeng/sv_abc.py`: Monte-Carlo configuration, random numbers, conditional Monte-Carlo and mixture pricing

Random generators are infinite streams of draws, chosen by the seed, with a position; `np.random.SeedSequence(seed).spawn(7)`
gives seven streams.  All draws of one kind from one generator come from one stream (the model does not mix normal and uniform
draws on one generator; numpy's generators do not share state across spawned children).
-/

namespace PyFENG

open Real

/-- A two-dimensional numpy array. -/
structure Arr2 where
  rows : ℕ
  cols : ℕ
  at' : ℕ → ℕ → ℝ

/-- The exceptions raised by the modelled functions. -/
inductive McErr where
  | typeError | valueError | assertionError
  deriving DecidableEq, Repr

/-- The random source: for a seed (`none`: operating-system entropy, numbered by `fresh`) and a child index, the stream of
standard normals and the stream of uniforms.  `np.random.SeedSequence`, `default_rng`, `pyfeng/sv_abc.py` lines 22-23. -/
structure RngSource where
  normal : Option ℕ → ℕ → ℕ → ℕ → ℝ
  uniform : Option ℕ → ℕ → ℕ → ℕ → ℝ
  /-- explicit seeds ignore the entropy counter -/
  normal_seed : ∀ s e e' c i, normal (some s) e c i = normal (some s) e' c i
  uniform_seed : ∀ s e e' c i, uniform (some s) e c i = uniform (some s) e' c i

/-- The Monte-Carlo object: the numerical fields of `CondMcBsmABC` (lines 15-18) and the state of its generators
(`self.rngs`, lines 22-23; positions in the streams).  `entropy` counts how often operating-system entropy was taken. -/
structure McState where
  nPath : ℕ
  dt : Option ℝ
  rnSeed : Option ℕ
  antithetic : Bool
  entropy : ℕ
  posN : ℕ → ℕ
  posU : ℕ → ℕ

namespace McState

/-- `__post_init__`, `pyfeng/sv_abc.py` lines 21-24: fresh generators from the stored seed. -/
def postInit (s : McState) : McState :=
  { s with entropy := s.entropy + 1, posN := fun _ => 0, posU := fun _ => 0 }

/-- `configure(n_path, dt, rn_seed, antithetic)`, `pyfeng/sv_abc.py` lines 30-51. -/
def configure (s : McState) (nPath : Option ℕ) (dt : Option ℝ) (rnSeed : Option ℕ) (antithetic : Option Bool) : McState :=
  let s := match nPath with | some n => { s with nPath := n } | none => s
  let s := match dt with | some d => { s with dt := some d } | none => s
  let s := match rnSeed with | some r => { s with rnSeed := some r } | none => s
  let s := match antithetic with | some a => { s with antithetic := a } | none => s
  s.postInit

/-- `rv_normal(spawn)`, `pyfeng/sv_abc.py` lines 73-79 (`np.stack([zz, -zz], axis=1).flatten()` interleaves). -/
def rvNormal (R : RngSource) (s : McState) (spawn : ℕ) : List ℝ × McState :=
  let z := fun i => R.normal s.rnSeed s.entropy spawn (s.posN spawn + i)
  if s.antithetic then
    ((List.range (s.nPath / 2)).flatMap fun i => [z i, -z i],
      { s with posN := Function.update s.posN spawn (s.posN spawn + s.nPath / 2) })
  else
    ((List.range s.nPath).map z, { s with posN := Function.update s.posN spawn (s.posN spawn + s.nPath) })

/-- `rv_uniform(spawn)`, `pyfeng/sv_abc.py` lines 81-87. -/
def rvUniform (R : RngSource) (s : McState) (spawn : ℕ) : List ℝ × McState :=
  let z := fun i => R.uniform s.rnSeed s.entropy spawn (s.posU spawn + i)
  if s.antithetic then
    ((List.range (s.nPath / 2)).flatMap fun i => [z i, 1 - z i],
      { s with posU := Function.update s.posU spawn (s.posU spawn + s.nPath / 2) })
  else
    ((List.range s.nPath).map z, { s with posU := Function.update s.posU spawn (s.posU spawn + s.nPath) })

/-- `np.diff(np.atleast_1d(tobs), prepend=0)`, entry `k`, used on `pyfeng/sv_abc.py` lines 101 and 201. -/
noncomputable def diff0 (tobs : List ℝ) (k : ℕ) : ℝ := tobs.getD k 0 - (if k = 0 then 0 else tobs.getD (k - 1) 0)

/-- `np.stack([b, -b], axis=1).reshape((-1, n_path))` for `b` of shape `(n_dt, h)`, `pyfeng/sv_abc.py` line 112: the stacked
array has shape `(n_dt, 2, h)`; in C order its flat entry `e` is `±b[e/(2h), (e % (2h)) % h]`.  numpy refuses (ValueError) when
`n_path` does not divide the size. -/
noncomputable def stackReshape (b : ℕ → ℕ → ℝ) (nDt h nPath : ℕ) : Except McErr Arr2 :=
  let size := nDt * (2 * h)
  let flat := fun e => (if e % (2 * h) / h = 0 then 1 else -1) * b (e / (2 * h)) (e % (2 * h) % h)
  if nPath = 0 then .error .valueError
  else if size % nPath ≠ 0 then .error .valueError
  else .ok ⟨size / nPath, nPath, fun r c => flat (r * nPath + c)⟩

/-- `np.cumsum(a, axis=0)`, `pyfeng/sv_abc.py` lines 115-116. -/
noncomputable def cumsum0 (a : Arr2) : Arr2 := { a with at' := fun t j => ∑ i ∈ Finset.range (t + 1), a.at' i j }

/-- `_bm_incr(tobs, cum, n_path)`, `pyfeng/sv_abc.py` lines 89-118.  `standard_normal((n_path//2, n_dt))` fills row by row, so
path `j`, time `t` is draw `j*n_dt + t`.  The non-antithetic branch calls `standard_normal(n_path, n_dt)`, whose second
positional argument is the dtype: numpy raises TypeError. -/
noncomputable def bmIncr (R : RngSource) (s : McState) (tobs : List ℝ) (cum : Bool) (nPath : Option ℕ) :
    Except McErr (Arr2 × McState) :=
  let nDt := tobs.length
  let n := nPath.getD s.nPath
  let z := fun i => R.normal s.rnSeed s.entropy 0 (s.posN 0 + i)
  if s.antithetic then
    match stackReshape (fun t j => z (j * nDt + t) * √(diff0 tobs t)) nDt (n / 2) n with
    | .error e => .error e
    | .ok a => .ok (if cum then cumsum0 a else a, { s with posN := Function.update s.posN 0 (s.posN 0 + n / 2 * nDt) })
  else .error .typeError

/-- `tobs(texp)`, `pyfeng/sv_abc.py` lines 56-71. -/
noncomputable def tobs (dt : Option ℝ) (texp : ℝ) : List ℝ :=
  match dt with
  | none => [texp]
  | some dt =>
    if dt ≥ texp then [texp]
    else
      let nDt := ⌈texp / dt⌉₊
      (List.range nDt).map fun (k : ℕ) => ((k : ℝ) + 1) / nDt * texp

end McState

/-! ### Pricing -/

/-- Parameters and rates seen by `price`: the volatility (already the square root for variance processes, lines 151 and 260),
rates, and the class flag `correct_fwd`. -/
structure CondMc where
  sigma : ℝ
  varProcess : Bool
  intr : ℝ
  divr : ℝ
  isFwd : Bool
  correctFwd : Bool

namespace CondMc

/-- `sigma = np.sqrt(self.sigma) if self.var_process else self.sigma`, `pyfeng/sv_abc.py` lines 151 and 260. -/
noncomputable def vol (m : CondMc) : ℝ := if m.varProcess then √m.sigma else m.sigma

/-- `base_model(sigma * sigma_cond)`, `pyfeng/sv_abc.py` lines 53-54, 152. -/
noncomputable def base (m : CondMc) (sigmaCond : ℝ) : MParams := ⟨m.vol * sigmaCond, m.intr, m.divr, m.isFwd⟩

/-- `CondMcBsmABC.price`, `pyfeng/sv_abc.py` lines 137-156, given the arrays returned by `cond_spot_sigma` (paths `i : ι`).
Also returns `result['spot error']` (line 147). -/
noncomputable def price {ι : Type*} [Fintype ι] (m : CondMc) (fwdCond sigmaCond : ι → ℝ) (strike spot texp cp : ℝ) : ℝ × ℝ :=
  let kk := strike / spot
  let n : ℝ := Fintype.card ι
  let fwdMean := (∑ i, fwdCond i) / n
  let fwdCond' := fun i => if m.correctFwd then fwdCond i / fwdMean else fwdCond i
  (spot * ((∑ i, Bsm.price (m.base (sigmaCond i)) kk (fwdCond' i) texp cp) / n), fwdMean - 1)

/-- `price_var_opt`, `pyfeng/sv_abc.py` lines 162-183, one strike; `var i` is the realised variance of path `i`. -/
noncomputable def priceVarOpt {ι : Type*} [Fintype ι] (m : CondMc) (var : ι → ℝ) (strike texp cp : ℝ) : ℝ :=
  (∑ i, max (SignType.sign cp * (var i - strike)) 0) / Fintype.card ι * exp (-m.intr * texp)

/-- `strike_var_swap`, `pyfeng/sv_abc.py` lines 185-197. -/
noncomputable def strikeVarSwap {ι : Type*} [Fintype ι] (var : ι → ℝ) : ℝ := (∑ i, var i) / Fintype.card ι

/-- One path of `price_paths`, `pyfeng/sv_abc.py` lines 199-214: the value at observation `k` is the running product of
`spot * exp(sigma*sqrt(dt)*xx)`.  `cond i` is the pair returned by `cond_spot_sigma(dt_i, s_0)` for this path and `xx i` the
normal draw. -/
noncomputable def pathValue (tobs : List ℝ) (cond : ℕ → ℝ × ℝ) (xx : ℕ → ℝ) (k : ℕ) : ℝ :=
  ∏ i ∈ Finset.range k, (cond i).1 * exp ((cond i).2 * √(McState.diff0 tobs i) * xx i)

/-- `SvMixtureABC.price`, `pyfeng/sv_abc.py` lines 242-265, given the nodes and weights returned by `cond_spot_sigma`.
`np.isclose(sum(ww), 1)` is `|sum - 1| ≤ 1e-8 + 1e-5`. -/
noncomputable def priceMixture {ι : Type*} [Fintype ι] (m : CondMc) (spotCond sigmaCond ww : ι → ℝ)
    (strike spot texp cp : ℝ) : Except McErr (ℝ × ℝ) :=
  let kk := strike / spot
  let spotMean := ∑ i, spotCond i * ww i
  let spotCond' := fun i => if m.correctFwd then spotCond i / spotMean else spotCond i
  if |(∑ i, ww i) - 1| ≤ 1e-8 + 1e-5 then
    .ok (spot * ∑ i, Bsm.price (m.base (sigmaCond i)) kk (spotCond' i) texp cp * ww i, spotMean - 1)
  else .error .assertionError

end CondMc

/-! ### The shared result dictionary -/

/-- `SvMixtureABC.result = {}` is a class attribute (`pyfeng/sv_abc.py` line 222): one dictionary shared by all instances.
Operations on the instances: price an option (which stores `'spot error'`, line 251) or read `obj.result['spot error']`. -/
inductive MixOp (ι : Type*) where
  | price (obj : ι) (spotMean : ℝ)
  | read (obj : ι)

/-- The stored value of the shared `result['spot error']` (`none` before any pricing). -/
def mixStep {ι : Type*} (st : Option ℝ) : MixOp ι → Option ℝ × Option (Option ℝ)
  | .price _ sm => (some (sm - 1), none)
  | .read _ => (st, some st)

/-- Replay a history of operations on the shared dictionary. -/
def mixRun {ι : Type*} (st : Option ℝ) (ops : List (MixOp ι)) : Option ℝ := ops.foldl (fun s o => (mixStep s o).1) st

/-- In `CondMcBsmABC` the dictionary is created per instance (`pyfeng/sv_abc.py` line 24), written at line 147. -/
def condStep {ι : Type*} [DecidableEq ι] (st : ι → Option ℝ) : MixOp ι → (ι → Option ℝ)
  | .price o sm => Function.update st o (some (sm - 1))
  | .read _ => st

end PyFENG
