import Verif.Model.Bsm
import Verif.Model.Params

/-!
# Model of `pyfeng/american.py`

Scalar arguments.  The Newton iteration of `exer_bdd` is represented by the boundary it returns.
-/

namespace PyFENG

open Real

namespace Amer

/-- `object.__init__(self, *args, **kw)`, reached by `super().__init__(sigma, *args, **kwargs)` because neither `OptABC` nor `abc.ABC` defines an initialiser: any argument is a `TypeError`. -/
def objectInit (args : List Val) (kw : List (String × Val)) : Except PyErr Unit :=
  if args = [] ∧ kw = [] then .ok () else .error .typeError

/-- `AmerLi2010QdPlus(*args, **kw)`, `pyfeng/american.py` lines 21-23: `sigma` is the first positional argument or a keyword. -/
def init (args : List Val) (kw : List (String × Val)) : Except PyErr Unit :=
  match args with
  | s :: rest => if kw.any fun p => p.1 == "sigma" then .error .typeError else objectInit (s :: rest) kw
  | [] => match kw.find? fun p => p.1 == "sigma" with
    | none => .error .typeError
    | some s => objectInit [s.2] (kw.filter fun p => p.1 != "sigma")

/-- `nn_m1`, `pyfeng/american.py` lines 39, 85, 140. -/
noncomputable def nnM1 (m : MParams) : ℝ := 2 * (m.intr - m.divr) / m.sigma ^ 2 - 1

/-- `mm`, `pyfeng/american.py` lines 38, 86, 141. -/
noncomputable def mm (m : MParams) : ℝ := 2 * m.intr / m.sigma ^ 2

/-- `q_inf`, `pyfeng/american.py` line 40. -/
noncomputable def qInf (m : MParams) : ℝ := -0.5 * (nnM1 m + √(nnM1 m ^ 2 + 4 * mm m))

/-- `s_inf`, `pyfeng/american.py` line 41. -/
noncomputable def sInf (m : MParams) (strike : ℝ) : ℝ := strike / (1 - 1 / qInf m)

/-- `s0`, `pyfeng/american.py` line 37. -/
noncomputable def s0 (m : MParams) (strike : ℝ) : ℝ := strike * min 1 (m.intr / max m.divr eps)

/-- `AmerLi2010QdPlus.exer_bdd_ig`, `pyfeng/american.py` lines 25-47. -/
noncomputable def exerBddIg (m : MParams) (strike texp _cp : ℝ) : ℝ :=
  let theta := strike / (sInf m strike - strike) * ((m.intr - m.divr) * texp - 2 * m.sigma * √texp)
  sInf m strike + (s0 m strike - sInf m strike) * exp (-theta)

/-- `hh`, `pyfeng/american.py` lines 87, 142. -/
noncomputable def hh (m : MParams) (texp : ℝ) : ℝ := 1 - m.df texp

/-- `qqd_sqrt`, `pyfeng/american.py` lines 89, 144. -/
noncomputable def qqdSqrt (m : MParams) (texp : ℝ) : ℝ := √(nnM1 m ^ 2 + 4 * mm m / hh m texp)

/-- `qqd_prime`, `pyfeng/american.py` lines 90, 145. -/
noncomputable def qqdPrime (m : MParams) (texp : ℝ) : ℝ := mm m / (hh m texp ^ 2 * qqdSqrt m texp)

/-- `AmerLi2010QdPlus.zero_func`, `pyfeng/american.py` lines 64-99. -/
noncomputable def zeroFunc (m : MParams) (spotBdd strike texp cp : ℝ) : ℝ :=
  let fwd := m.fwd spotBdd texp
  let df := m.df texp
  let divf := m.divf texp
  let std := sigmaStd m.sigma texp
  let d1 := log (fwd / strike) / std + 0.5 * std
  let pEuro := Bsm.price m strike spotBdd texp cp
  let theta := Bsm.theta m strike spotBdd texp cp
  let c0 := mm m / qqdSqrt m texp * (df / hh m texp - theta / m.intr / (strike - spotBdd - pEuro) - df * qqdPrime m texp / qqdSqrt m texp)
  let qqdC0 := c0 - 0.5 * (nnM1 m + qqdSqrt m texp)
  (1 - divf * ncdf (-d1)) * spotBdd + qqdC0 * (strike - spotBdd - pEuro)

/-- `c0` in `price`, `pyfeng/american.py` line 147. -/
noncomputable def c0 (m : MParams) (spotBdd strike texp cp : ℝ) : ℝ :=
  let pEuro := Bsm.price m strike spotBdd texp cp
  let theta := Bsm.theta m strike spotBdd texp cp
  mm m / qqdSqrt m texp * (m.df texp / hh m texp - theta / m.intr / (strike - spotBdd - pEuro) - m.df texp * qqdPrime m texp / qqdSqrt m texp)

/-- `qqd` in `price`, `pyfeng/american.py` line 146. -/
noncomputable def qqd (m : MParams) (texp : ℝ) : ℝ := -0.5 * (nnM1 m + qqdSqrt m texp)

/-- `b` in `price`, `pyfeng/american.py` line 148. -/
noncomputable def bCoef (m : MParams) (texp : ℝ) : ℝ := -m.df texp * mm m * qqdPrime m texp / (2 * qqdSqrt m texp)

/-- The value of the continuation region in `price`, `pyfeng/american.py` lines 150-152. -/
noncomputable def continuation (m : MParams) (bdd strike spot texp cp : ℝ) : ℝ :=
  let pEuro := Bsm.price m strike bdd texp cp
  let l := log (spot / bdd)
  Bsm.price m strike spot texp cp
    + (strike - bdd - pEuro) / (1 - l * (c0 m bdd strike texp cp + bCoef m texp * l)) * exp (qqd m texp * l)

/-- `AmerLi2010QdPlus.price`, `pyfeng/american.py` lines 116-155, on an object with attributes `m`; `bdd` is the value of `exer_bdd`. -/
noncomputable def price (m : MParams) (bdd strike spot texp cp : ℝ) : Except String ℝ :=
  if cp < 0 then
    if spot ≤ bdd then .ok (strike - spot)
    else .ok (if spot > bdd then continuation m bdd strike spot texp cp else strike - spot)
  else .error "AssertionError"

/-- `AmerLi2010QdPlus.integrand`, `pyfeng/american.py` lines 101-114, one entry `u` of the array; `bdd` is the value of `exer_bdd(strike, u, cp)`.
A negative time `texp - u` gives `nan` (`none`).  The European price computed at line 105 is not used. -/
noncomputable def integrandAt (m : MParams) (bdd strike spot texp u : ℝ) : Option ℝ :=
  if u ≤ texp then
    let fwd := m.fwd spot (texp - u)
    let df := m.df (texp - u)
    let divf := m.divf (texp - u)
    let std := sigmaStd m.sigma (texp - u)
    let d := log (fwd / bdd) / std
    let d2 := d - 0.5 * std
    let d1 := d + 0.5 * std
    some (m.intr * strike * df * ncdf (-d2) - m.divr * spot * divf * ncdf (-d1))
  else none

/-- `AmerLi2010QdPlus.integrand`, `pyfeng/american.py` lines 101-114, on an array `us`: the assertion (line 103) is `np.any(u <= texp)`. -/
noncomputable def integrand (m : MParams) (bdd : ℝ → ℝ) (strike spot texp : ℝ) (us : List ℝ) : Except String (List (Option ℝ)) :=
  if ∃ u ∈ us, u ≤ texp then .ok (us.map fun u => integrandAt m (bdd u) strike spot texp u) else .error "AssertionError"

end Amer

end PyFENG
