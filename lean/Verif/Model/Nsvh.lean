import Verif.Model.Util
import Verif.Model.Core
import Verif.Model.Norm
import Mathlib.Analysis.SpecialFunctions.Arsinh
import Mathlib.Analysis.SpecialFunctions.Arcosh
import Mathlib.Analysis.SpecialFunctions.Artanh

/-!
# Model of `pyfeng/nsvh.py`

One strike, spot and expiry at a time (numpy broadcasting is elementwise), except where the shape of the arguments matters (`NsvhMc.price`,
`NsvhGaussQuad.price`).
-/

namespace PyFENG

open Real

/-- Attributes of an NSVh model (`pyfeng/params.py` `NsvhParams`, lines 575-592, and `is_atmvol`, `pyfeng/nsvh.py` line 71). -/
structure Nsvh where
  sigma : ℝ
  vov : ℝ
  rho : ℝ
  lam : ℝ
  intr : ℝ
  divr : ℝ
  isFwd : Bool
  isAtmvol : Bool := false

namespace Nsvh

/-- The market-convention fields inherited from `BaseParams`. -/
def mp (m : Nsvh) : MParams := ⟨m.sigma, m.intr, m.divr, m.isFwd⟩

/-- `NsvhABC.price_vsk(texp)`, `pyfeng/nsvh.py` lines 15-54. -/
noncomputable def priceVsk (m : Nsvh) (texp : ℝ) : Except String (ℝ × ℝ × ℝ) := do
  let vovn := m.vov * √texp
  let wwm1 := exp (vovn ^ 2) - 1
  let ww := 1 + wwm1
  let wlam := exp (m.lam * vovn ^ 2)
  let rho2 := m.rho ^ 2
  let rhoc2 := 1 - rho2
  let wf1 ← powrel wwm1 (1 + m.lam)
  let wf3 ← powrel wwm1 (3 + m.lam)
  let wf5 ← powrel wwm1 (5 + m.lam)
  let m2base := rho2 * wlam + rhoc2 * wf1
  let m2 := wwm1 * m2base
  let m4 := (rho2 * wlam * wwm1) ^ 2 * (ww ^ 2 * (ww ^ 2 + 2 * ww + 3) - 3)
    + 6 * rho2 * rhoc2 * wlam * wwm1 * (ww * wf5 - 2 * wf3 + wf1)
    + 1.5 * rhoc2 ^ 2 * wwm1 * (-wlam * ww * wf5 + (wlam * ww ^ 3 + 1) * wf3 - wf1)
  let skew := m.rho * √wlam * (rho2 * wlam * wwm1 * (ww + 2) + 3 * rhoc2 * (wf3 - wf1)) / (√wwm1 * m2base ^ (3 / 2 : ℝ))
  let exkurt := m4 / (wwm1 * m2base) ^ 2 - 3
  pure (m2 * (m.sigma / m.vov) ^ 2, skew, exkurt)

/-- `Nsvh1._sig0_from_atmvol(texp)`, `pyfeng/nsvh.py` lines 73-85. -/
noncomputable def sig0FromAtmvol (m : Nsvh) (texp : ℝ) : ℝ :=
  let vovn := m.vov * √texp
  let vovVar := exp (0.5 * vovn ^ 2)
  let rhoc := √(1 - m.rho ^ 2)
  let d := (artanh m.rho - arsinh (m.rho * vovVar / rhoc)) / vovn
  let ncdfP := ncdf (d + vovn)
  let ncdfM := ncdf (d - vovn)
  let ncdf0 := ncdf d
  let price := 0.5 / m.vov * vovVar * ((1 + m.rho) * ncdfP - (1 - m.rho) * ncdfM - 2 * m.rho * ncdf0)
  m.sigma * √(texp / 2 / π) / price

/-- `Nsvh1.price`, `pyfeng/nsvh.py` lines 102-121. -/
noncomputable def price1 (m : Nsvh) (strike spot texp cp : ℝ) : ℝ :=
  let fwd := m.mp.fwd spot texp
  let df := m.mp.df texp
  let vovn := m.vov * √texp
  let sig0 := if m.isAtmvol then m.sig0FromAtmvol texp else m.sigma
  let sigSqrt := sig0 * √texp
  let vovVar := exp (0.5 * vovn ^ 2)
  let rhoc := √(1 - m.rho ^ 2)
  let d := (artanh m.rho + arsinh (((fwd - strike) * vovn / sigSqrt - m.rho * vovVar) / rhoc)) / vovn
  let ncdfP := ncdf (cp * (d + vovn))
  let ncdfM := ncdf (cp * (d - vovn))
  let ncdf0 := ncdf (cp * d)
  let price := 0.5 * sigSqrt / vovn * vovVar * ((1 + m.rho) * ncdfP - (1 - m.rho) * ncdfM - 2 * m.rho * ncdf0) + (fwd - strike) * ncdf0
  price * (cp * df)

/-- `Nsvh1.cdf`, `pyfeng/nsvh.py` lines 123-132. -/
noncomputable def cdf1 (m : Nsvh) (strike spot texp cp : ℝ) : ℝ :=
  let fwd := m.mp.forward spot texp
  let vovn := m.vov * √texp
  let sigSqrt := m.sigma * √texp
  let vovVar := exp (0.5 * vovn ^ 2)
  let rhoc := √(1 - m.rho ^ 2)
  let d := (artanh m.rho + arsinh (((fwd - strike) * vovn / sigSqrt - m.rho * vovVar) / rhoc)) / vovn
  ncdf (cp * d)

/-- `Nsvh1.price_vsk(texp)`, `pyfeng/nsvh.py` lines 134-163. -/
noncomputable def priceVsk1 (m : Nsvh) (texp : ℝ) : ℝ × ℝ × ℝ :=
  let vovn := m.vov * √texp
  let wwm1 := exp (vovn ^ 2) - 1
  let ww := 1 + wwm1
  let rho2 := m.rho ^ 2
  let m2base := ww + 1 + rho2 * wwm1
  let m2 := wwm1 / 2 * m2base
  let c31 := 3 * (ww + 1) ^ 2
  let c33 := wwm1 * (ww + 3)
  let k0 := (ww + 1) ^ 3 * (ww ^ 2 + 3)
  let k2 := 2 * c31 * (ww * (ww * (ww + 1) + 3) - 1)
  let k4 := wwm1 * (ww * (ww * (ww * (ww + 4) + 10) + 12) - 3)
  let skew := m.rho * √(wwm1 * ww / 2) * (c31 + rho2 * c33) / √(m2base ^ 3)
  let exkurt := wwm1 / 2 * (k0 + rho2 * (k2 + rho2 * k4)) / m2base ^ 2
  (m2 * (m.sigma / m.vov) ^ 2, skew, exkurt)

/-- The upper end of the search bracket in `Nsvh1.fit`, `pyfeng/nsvh.py` line 205 (`beta2 = exkurt + 3`). -/
noncomputable def fitMax (exkurt : ℝ) : ℝ := √(-1 + √(2 * (exkurt + 3 - 1)))

/-- `w` is the lower end of the search bracket in `Nsvh1.fit`, `pyfeng/nsvh.py` lines 200-204: `np.roots` of the quartic, of which the positive real
root is kept. -/
def IsFitMin (exkurt w : ℝ) : Prop := 0 < w ∧ w ^ 4 + 2 * w ^ 3 + 3 * w ^ 2 + 0 * w + (-3 - (exkurt + 3)) = 0

/-- The function `f_beta1` whose root `Nsvh1.fit` searches, `pyfeng/nsvh.py` lines 207-209. -/
noncomputable def fBeta1 (skew exkurt w : ℝ) : ℝ :=
  let beta1 := skew ^ 2
  let beta2 := exkurt + 3
  let term1 := √(4 + 2 * (w * w - (beta2 + 3) / (w * w + 2 * w + 3)))
  (w + 1 - term1) * (w + 1 + 0.5 * term1) ^ 2 - beta1

/-- `np.sign`. -/
noncomputable def npSign (x : ℝ) : ℝ := if 0 < x then 1 else if x < 0 then -1 else 0

/-- The parameters assigned by `Nsvh1.fit`, `pyfeng/nsvh.py` lines 217-224, once `brentq` has returned `w`. -/
noncomputable def fitWith (m : Nsvh) (var skew exkurt texp w : ℝ) : Nsvh :=
  let beta2 := exkurt + 3
  let x := 2 * (w ^ 2 - (beta2 + 3) / (w ^ 2 + 2 * w + 3))
  let mm := x / (2 + √(4 + x))
  let rho2 := (w + 1) * (w - 1 - mm) / ((w - 1) * (w + 1 + mm))
  let rho := npSign skew * √(max rho2 0)
  let vov := √(log w / texp)
  let m2base := (w + 1) + rho ^ 2 * (w - 1)
  { m with rho := rho, vov := vov, sigma := √(2 * var / ((w - 1) * m2base)) * vov }

/-! ## Quadrature: `NsvhGaussQuad` -/

/-- `g_vec` at node `z`, `pyfeng/nsvh.py` lines 406-407 and 412 (and 461-462, 467). -/
noncomputable def gqG (m : Nsvh) (vovn k z : ℝ) : ℝ :=
  let uHat := z + 0.5 * m.lam * vovn
  let expPlus := exp (vovn * uHat / 2)
  m.rho * expPlus - (m.rho * exp (0.5 * m.lam * vovn ^ 2) + k) / expPlus

/-- `v_0` at node `z`, lines 408 and 414-415 (and 463, 468-469). -/
noncomputable def gqV0 (m : Nsvh) (vovn k z : ℝ) : ℝ :=
  let uHat := z + 0.5 * m.lam * vovn
  let expPlus := exp (vovn * uHat / 2)
  let zStarCosh := (expPlus ^ 2 + 1 / expPlus ^ 2) / 2
  let temp1 := zStarCosh + 0.5 * m.gqG vovn k z ^ 2 / (1 - m.rho ^ 2)
  (arcosh temp1 / vovn) ^ 2 - uHat ^ 2

/-- `h_mat` at nodes `(v, z)`, line 417 (and 470-471). -/
noncomputable def gqH (m : Nsvh) (vovn k v z : ℝ) : ℝ :=
  let uHat := z + 0.5 * m.lam * vovn
  √(1 - m.rho ^ 2) * √(2 * cosh (vovn * √(uHat ^ 2 + m.gqV0 vovn k z + v)) - 2 * cosh (vovn * uHat))

/-- The scaled Hermite weights, line 385 (and 441-442, where a common factor `1/√(2π)` is cancelled by the normalization): `zs` lists the nodes and
weights of `roots_hermitenorm`. -/
noncomputable def gqWeight (vovn : ℝ) (zs : List (ℝ × ℝ)) (w : ℝ) : ℝ :=
  w / ((zs.map fun q => exp (vovn / 2 * q.1) * q.2).sum / exp (vovn ^ 2 / 8))

/-- `NsvhGaussQuad.price`, `pyfeng/nsvh.py` lines 376-431, one strike of an array argument.  `zs` are the nodes and weights of `roots_hermitenorm`,
`vs` those of `roots_genlaguerre(n, 0.5)`; the weights of the latter are divided by `pi sqrt(v)` and its nodes doubled (lines 388-392). -/
noncomputable def gqPrice (m : Nsvh) (zs vs : List (ℝ × ℝ)) (strike spot texp cp : ℝ) : ℝ :=
  let fwd := m.mp.fwd spot texp
  let df := m.mp.df texp
  let vovn := m.vov * √(max texp eps)
  let k := m.vov / m.sigma * (strike - fwd)
  let intZ (z : ℝ) : ℝ :=
    let g := m.gqG vovn k z
    let s := (vs.map fun q =>
      let h := m.gqH vovn k (2 * q.1) z
      (√(h ^ 2 - g ^ 2) - |g| * arccos (|g| / h)) * (q.2 / (π * √q.1))).sum
    s * exp (-m.gqV0 vovn k z / 2) + max (cp * g) 0
  let price := (zs.map fun q => intZ q.1 * gqWeight vovn zs q.2).sum
  price * (exp ((2 * m.lam - 1) / 8 * vovn ^ 2) * (m.sigma / m.vov) * df)

/-- `NsvhGaussQuad.cdf`, `pyfeng/nsvh.py` lines 433-482, one strike of an array argument.  `vs` are the nodes and weights of
`roots_genlaguerre(n, 0.0)`. -/
noncomputable def gqCdf (m : Nsvh) (zs vs : List (ℝ × ℝ)) (strike spot texp cp : ℝ) : ℝ :=
  let fwd := m.mp.forward spot texp
  let vovn := m.vov * √(max texp 1e-64)
  let k := m.vov / m.sigma * (strike - fwd)
  let intZ (z : ℝ) : ℝ :=
    let g := m.gqG vovn k z
    let s := (vs.map fun q => arccos (|g| / m.gqH vovn k (2 * q.1) z) * exp (-m.gqV0 vovn k z / 2) * (q.2 / π)).sum
    let s := if cp * g > 0 then 1 - s else s
    s * exp (-z * vovn / 2 - vovn ^ 2 / 8)
  (zs.map fun q => intZ q.1 * gqWeight vovn zs q.2).sum

/-! ## Monte Carlo: `NsvhMc` -/

/-- One row of `NsvhMc.mc_vol_price`, `pyfeng/nsvh.py` lines 277-311: the volatility factor and the two simulated (centred) prices made from one triple
of normal draws. -/
noncomputable def mcVolPrice (m : Nsvh) (texp z0 z1 z2 : ℝ) : ℝ × ℝ × ℝ :=
  let rhoc := √(1 - m.rho ^ 2)
  let volVar := m.vov ^ 2 * texp
  let volStd := √volVar
  let z2 := z2 + 0.5 * (m.lam - 1) * volStd
  let r2 := z0 ^ 2 + z1 ^ 2
  let expPlus := exp (0.5 * volStd * z2)
  let phi := √(2 / r2) * √(cosh (√(r2 + z2 ^ 2) * volStd) - cosh (z2 * volStd))
  let dfZ := expPlus ^ 2
  let row (z : ℝ) : ℝ := m.sigma / m.vov * (m.rho * (dfZ - exp (0.5 * m.lam * volVar)) + rhoc * (expPlus * z * phi))
  (dfZ, row z0, row z1)

/-! ## Shapes: scalar strikes -/

/-- The strike argument: a Python/numpy scalar (`np.ndim == 0`) or a one-dimensional array. -/
inductive Strike where
  | scalar (k : ℝ)
  | array (k : List ℝ)

/-- Python's `len` of the effective strike (`strike - fwd`): it raises for a scalar. -/
def Strike.len : Strike → Except String ℕ
  | .scalar _ => .error "TypeError: object of type 'float' has no len()"
  | .array k => .ok k.length

/-- Indexing `x[i]` of the effective strike. -/
def Strike.get : Strike → ℕ → Except String ℝ
  | .scalar _, _ => .error "IndexError: invalid index to scalar variable."
  | .array k, i => match k[i]? with
    | some x => .ok x
    | none => .error "IndexError: index out of bounds"

/-- `np.atleast_1d`. -/
def Strike.atleast1d : Strike → List ℝ
  | .scalar k => [k]
  | .array k => k

/-- `np.zeros_like(strike, dtype=float)`. -/
def Strike.zerosLike : Strike → Strike
  | .scalar _ => .scalar 0
  | .array k => .array (k.map fun _ => 0)

/-- `x[i] = v`: a zero-dimensional array does not accept an index. -/
def Strike.set : Strike → ℕ → ℝ → Except String Strike
  | .scalar _, _, _ => .error "IndexError: too many indices for array: array is 0-dimensional, but 1 were indexed"
  | .array k, i, v => if i < k.length then .ok (.array (k.set i v)) else .error "IndexError: index out of bounds"

/-- `NsvhMc.price`, `pyfeng/nsvh.py` lines 313-336, given the simulated prices `mc_path[1]` (flattened).  The list comprehension over `range(len(strike_std))` runs before
the `scalar_output` branch. -/
noncomputable def mcPrice (m : Nsvh) (paths : List ℝ) (strike : Strike) (spot texp cp : ℝ) : Except String (List ℝ) := do
  let fwd := m.mp.fwd spot texp
  let df := m.mp.df texp
  let n ← strike.len
  (List.range n).mapM fun i => do
    let k ← strike.get i
    pure (df * ((paths.map fun x => max (cp * (x - (k - fwd))) 0).sum / paths.length))

/-- The loop of `NsvhGaussQuad.price` over `np.atleast_1d(strike_eff)` writing into `price = np.zeros_like(strike)`, `pyfeng/nsvh.py` lines 401-404, 409-424. -/
noncomputable def gqLoop (m : Nsvh) (zs vs : List (ℝ × ℝ)) (spot texp cp : ℝ) : List ℝ → ℕ → Strike → Except String Strike
  | [], _, out => .ok out
  | k :: ks, i, out => do
    let out ← out.set i (m.gqPrice zs vs k spot texp cp)
    gqLoop m zs vs spot texp cp ks (i + 1) out

/-- `NsvhGaussQuad.price`, `pyfeng/nsvh.py` lines 376-431, for a scalar or array strike. -/
noncomputable def gqPriceShape (m : Nsvh) (zs vs : List (ℝ × ℝ)) (strike : Strike) (spot texp cp : ℝ) : Except String Strike :=
  m.gqLoop zs vs spot texp cp strike.atleast1d 0 strike.zerosLike

end Nsvh

end PyFENG
