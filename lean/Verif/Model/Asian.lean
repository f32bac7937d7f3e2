import Verif.Model.Core
import Verif.Model.Cev
import Verif.Model.Nsvh
import Verif.Model.Params
import Mathlib.Data.Nat.Factorial.Basic
import Mathlib.Data.Complex.Basic

/-!
# Model of `pyfeng/asian.py`

One strike, spot and expiry at a time.  Model parameters are Python floats, so that a division by an exact zero between them raises `ZeroDivisionError`.
-/

namespace PyFENG

open Real

namespace Asian

/-- One entry of `ds` in `BsmAsianJsu.price_mnc`, `pyfeng/asian.py` lines 70-76: the inner loop over `i`. -/
noncomputable def dsItem (beta : ℝ) (n j : ℕ) : Except String ℝ :=
  (List.range (n + 1)).foldlM (fun item0 i =>
    if i ≠ j then
      let x := (beta + j) ^ 2 - (beta + i) ^ 2
      if x = 0 then .error "ZeroDivisionError" else pure (item0 * x⁻¹)
    else pure item0) (2 ^ n)

/-- `BsmAsianJsu.price_mnc(texp, n)`, `pyfeng/asian.py` lines 36-84. -/
noncomputable def priceMnc (m : MParams) (texp : ℝ) (n : ℕ) : Except String ℝ := do
  let lam := m.sigma
  if lam = 0 then throw "ZeroDivisionError"
  let v := (m.intr - m.divr - lam ^ 2 / 2) / lam
  let beta := v / lam
  let ds ← (List.range (n + 1)).mapM (dsItem beta n)
  let item1 := ((List.range (n + 1)).zip ds).foldl (fun acc x => acc + x.2 * exp ((lam ^ 2 * (x.1:ℝ) ^ 2 / 2 + lam * x.1 * v) * texp)) 0
  if texp = 0 then throw "ZeroDivisionError"
  pure ((1 / texp) ^ n * n.factorial / lam ^ (2 * n) * item1)

/-- The quantities `v, u, A, B, p` of `price_mnc4` and `price_mvsk`, `pyfeng/asian.py` lines 126-130 and 190-194. -/
structure Base where
  v : ℝ
  u : ℝ
  A : ℝ
  B : ℝ
  p : ℝ

/-- `pyfeng/asian.py` lines 126-130 and 190-194. -/
noncomputable def base (m : MParams) (texp : ℝ) : Base :=
  let v := m.sigma ^ 2 * texp
  let u := (m.intr - m.divr) * texp
  ⟨v, u, exp u, exp v, 2.0 * (m.intr - m.divr) / m.sigma ^ 2⟩

/-- `BsmAsianJsu.price_mnc4(texp)`, `pyfeng/asian.py` lines 86-155 (the same expressions are repeated in `price_mvsk`, lines 190-217).  The numpy
divisions by zero at `p = 0, -1, ..., -6` (NaN) are outside the model: the theorems exclude them. -/
noncomputable def priceMnc4 (m : MParams) (texp : ℝ) : ℝ × ℝ × ℝ × ℝ :=
  let b := base m texp
  let A := b.A
  let B := b.B
  let p := b.p
  let v := b.v
  let A2B := A * A * B
  let A3B3 := A2B * A * B * B
  let A4B6 := A3B3 * A * B * B * B
  let m1 := exprel b.u
  let m2 := (4.0 / v ^ 2) * ((p + 2) - 2 * (p + 1) * A + p * A2B) / (p * (p + 1) * (p + 2))
  let m3 := (8.0 / v ^ 3) * (-(p + 3) * (p + 4) + 3 * (p + 1) * (p + 4) * A - 3 * p * (p + 3) * A2B + p * (p + 1) * A3B3) / (p * (p + 1) * (p + 2) * (p + 3) * (p + 4))
  let m4 := (16.0 / v ^ 4) * ((p + 4) * (p + 5) * (p + 6) - 4 * (p + 1) * (p + 5) * (p + 6) * A + 6 * p * (p + 3) * (p + 6) * A2B
    - 4 * p * (p + 1) * (p + 5) * A3B3 + p * (p + 1) * (p + 2) * A4B6) / (p * (p + 1) * (p + 2) * (p + 3) * (p + 4) * (p + 5) * (p + 6))
  (m1, m2, m3, m4)

/-- `mu2` in `BsmAsianJsu.price_mvsk`, `pyfeng/asian.py` lines 221-223. -/
noncomputable def mu2 (m : MParams) (texp : ℝ) : ℝ :=
  let b := base m texp
  let m1 := exprel b.u
  let bb := exprel b.v
  let diffOverV := if b.v < 0.01 then (2 - b.p) / 4 + b.v * (4 - b.p ^ 2) / 24 else (bb - m1) / b.v
  (4 * diffOverV + 4 * b.p * m1 * bb + m1 ^ 2 * (b.p ^ 2 * bb * b.v - 3 * b.p - 2)) / ((b.p + 1) * (b.p + 2))

/-- `BsmAsianJsu.price_mvsk(texp)`, `pyfeng/asian.py` lines 157-233: mean, scaled variance, skewness and raw kurtosis. -/
noncomputable def priceMvsk (m : MParams) (texp : ℝ) : ℝ × ℝ × ℝ × ℝ :=
  let b := base m texp
  let q := priceMnc4 m texp
  let m1 := q.1
  let m2 := q.2.1
  let m3 := q.2.2.1
  let m4 := q.2.2.2
  let mu2 := mu2 m texp
  let mu3 := if b.v < 0.01 then 2 * b.v ^ 2 / 5 else m3 - 3 * m2 * m1 + 2 * m1 ^ 3
  let mu4 := if b.v < 0.01 then b.v ^ 2 / 3 else m4 - 4 * m3 * m1 + 6 * m2 * m1 ^ 2 - 3 * m1 ^ 4
  (m1, mu2 / m1 ^ 2, mu3 / (mu2 * √mu2), mu4 / mu2 ^ 2)

/-- The object returned by `Nsvh1.from_vsk(..., intr, divr, is_fwd)` inside `BsmAsianJsu.price`, `pyfeng/asian.py` lines 249-253; `w` is the root
returned by the solver in `Nsvh1.fit`. -/
noncomputable def fitted (m : MParams) (spot texp w : ℝ) : Nsvh :=
  let q := priceMvsk m texp
  let mu := q.1 * spot
  (⟨1, 0.1, 0, 1, m.intr, m.divr, m.isFwd, false⟩ : Nsvh).fitWith (q.2.1 * mu ^ 2) q.2.2.1 (q.2.2.2 - 3) texp w

/-- `BsmAsianJsu.price`, `pyfeng/asian.py` lines 235-255. -/
noncomputable def priceJsu (m : MParams) (w strike spot texp cp : ℝ) : ℝ :=
  let df := exp (-texp * m.intr)
  let mu := (priceMvsk m texp).1 * spot
  let price := (fitted m spot texp w).price1 strike mu texp cp
  df * price

/-! ## `BsmAsianLinetsky2004` -/

/-- The mpmath and sympy functions used by `BsmAsianLinetsky2004`: `whitw`, `whitm`, `gamma` (raises at its poles) and the positive roots found by
`sympy.solve` for `nu` and `n`. -/
structure Mp where
  whitw : ℝ → ℂ → ℝ → ℂ
  whitm : ℝ → ℂ → ℝ → ℂ
  gamma : ℂ → Except String ℂ
  zerosImag : ℝ → ℕ → List ℝ

/-- Attributes of `BsmAsianLinetsky2004`, `pyfeng/asian.py` lines 258-261. -/
structure Linetsky where
  mp : MParams
  b : ℝ := 1.0
  nEig : ℕ := 50

namespace Linetsky

variable (L : Linetsky) (M : Mp)

/-- `nu`, `pyfeng/asian.py` lines 263-265. -/
noncomputable def nu : ℝ := 2 * (L.mp.intr - L.mp.divr) / (L.mp.sigma ^ 2) - 1

/-- `find_zeros_real`, `pyfeng/asian.py` lines 267-277: `n` from 2 to `floor(|nu|/2)+1`. -/
noncomputable def zerosReal : List ℝ :=
  if L.nu ≤ -2 then (List.range ⌊|L.nu| / 2⌋₊).map fun (k : ℕ) => |L.nu| - 2 * ((k:ℝ) + 2) + 2 else []

/-- `eta_q`, `pyfeng/asian.py` lines 304-308. -/
noncomputable def etaQ (x : ℝ) : ℂ :=
  let f := fun x : ℝ => M.whitw ((1 - L.nu) / 2) ((x / 2 : ℝ) : ℂ) (1 / (2 * L.b))
  (f (x - 1e-8) - f (x - 1e-8)) / 2e-8

/-- `xi_p`, `pyfeng/asian.py` lines 310-313. -/
noncomputable def xiP (x : ℝ) : ℂ :=
  let f := fun x : ℝ => M.whitw ((1 - L.nu) / 2) ⟨0, x / 2⟩ (1 / (2 * L.b))
  (f (x + 1e-8) - f (x - 1e-8)) / 2e-8

/-- An mpmath division, which raises at a zero denominator. -/
noncomputable def mpDiv (x y : ℂ) : Except String ℂ := if y = 0 then .error "ZeroDivisionError" else pure (x / y)

/-- `price_element_imag`, `pyfeng/asian.py` lines 315-327. -/
noncomputable def elementImag (tau p k : ℝ) : Except String ℂ := do
  let nu := L.nu
  let p1 : ℝ := exp (-(nu ^ 2 + p ^ 2) * tau / 2)
  let g ← M.gamma ⟨nu / 2, p / 2⟩
  let g1 ← M.gamma ⟨1, p⟩
  let p2 ← mpDiv (p * g) (4 * L.xiP M p * g1)
  let c : ℝ := (2 * k) ^ ((nu + 3) / 2) * exp (-1 / (4 * k))
  let w1 := M.whitw (-(nu + 3) / 2) ⟨0, p / 2⟩ (1 / (2 * k))
  let m1 := M.whitm ((1 - nu) / 2) ⟨0, p / 2⟩ (1 / (2 * L.b))
  pure (p1 * p2 * c * w1 * m1)

/-- `price_element_real`, `pyfeng/asian.py` lines 329-339. -/
noncomputable def elementReal (tau q k : ℝ) : Except String ℂ := do
  let nu := L.nu
  let p1 : ℝ := exp (-(nu ^ 2 - q ^ 2) * tau / 2)
  let g ← M.gamma (((nu + q) / 2 : ℝ) : ℂ)
  let g1 ← M.gamma ((1 + q : ℝ) : ℂ)
  let p2 ← mpDiv (q * g) (4 * L.etaQ M q * g1)
  let c : ℝ := (2 * k) ^ ((nu + 3) / 2) * exp (-1 / (4 * k))
  let w1 := M.whitw (-(nu + 3) / 2) ((q / 2 : ℝ) : ℂ) (1 / (2 * k))
  let m1 := M.whitm ((1 - nu) / 2) ((q / 2 : ℝ) : ℂ) (1 / (2 * L.b))
  pure (p1 * p2 * c * w1 * m1)

/-- `BsmAsianLinetsky2004.price`, `pyfeng/asian.py` lines 341-373 (`_fwd_df_divf` gives `divf = 1` when `is_fwd`). -/
noncomputable def price (strike spot texp cp : ℝ) : Except String ℝ := do
  let tau := L.mp.sigma ^ 2 * texp / 4
  let k := tau * strike / spot
  let im ← (M.zerosImag L.nu (L.nEig + 1)).mapM fun p => L.elementImag M tau p k
  let re ← L.zerosReal.mapM fun q => L.elementReal M tau q k
  let P := im.sum + re.sum
  let df := L.mp.df texp
  let divf := L.mp.divf texp
  let price := (spot / tau) * P.re
  if cp > 0 then
    let x := (L.mp.intr - L.mp.divr) * texp
    let fac := if |x| < 1e-8 then 1 + x / 2 else (divf / df - 1) / x
    pure (df * (price + (spot * fac - strike)))
  else pure (df * price)

end Linetsky

/-! ## `BsmContinuousAsianJu2002` -/

namespace Ju

/-- `gt`, `pyfeng/asian.py` lines 385-386. -/
noncomputable def gt (m : MParams) (texp : ℝ) : ℝ := (m.intr - m.divr) * texp

/-- `u1`, `pyfeng/asian.py` lines 385-387. -/
noncomputable def u1 (m : MParams) (spot texp : ℝ) : ℝ := spot * exprel ((m.intr - m.divr) * texp)

/-- `u2`, `pyfeng/asian.py` lines 388-394. -/
noncomputable def u2 (m : MParams) (spot texp : ℝ) : ℝ :=
  let g := m.intr - m.divr
  let g2 := 2 * g + m.sigma ^ 2
  2 * spot ^ 2 * (exprel (g2 * texp) - exprel (g * texp)) / texp / (g + m.sigma ^ 2)

/-- `z1`, `pyfeng/asian.py` lines 395-407. -/
noncomputable def z1 (m : MParams) (texp : ℝ) : ℝ :=
  -m.sigma ^ 4 * texp ^ 2 * (1 / 45 + gt m texp / 180 - 11 * gt m texp ^ 2 / 15120 - gt m texp ^ 3 / 2520 + gt m texp ^ 4 / 113400)
    - m.sigma ^ 6 * texp ^ 3 * (1 / 11340 - 13 * gt m texp / 30480 - 17 * gt m texp ^ 2 / 226800 + 23 * gt m texp ^ 3 / 453600 + 59 * gt m texp ^ 4 / 5987520)

/-- `z2`, `pyfeng/asian.py` lines 408-420. -/
noncomputable def z2 (m : MParams) (texp : ℝ) : ℝ :=
  -m.sigma ^ 4 * texp ^ 2 * (1 / 90 + gt m texp / 360 - 11 * gt m texp ^ 2 / 30240 - gt m texp ^ 3 / 5040 + gt m texp ^ 4 / 226800)
    - m.sigma ^ 6 * texp ^ 3 * (31 / 22680 - 11 * gt m texp / 60480 - 37 * gt m texp ^ 2 / 151200 - 19 * gt m texp ^ 3 / 302400 + 953 * gt m texp ^ 4 / 59875200)

/-- `z3`, `pyfeng/asian.py` lines 421-431. -/
noncomputable def z3 (m : MParams) (texp : ℝ) : ℝ :=
  m.sigma ^ 6 * texp ^ 3 * (2 / 2835 - gt m texp / 60480 - 2 * gt m texp ^ 2 / 14175 - 17 * gt m texp ^ 3 / 907200 + 13 * gt m texp ^ 4 / 1247400)

/-- The local variable `bc`, `pyfeng/asian.py` lines 432-450. -/
noncomputable def bc (m : MParams) (strike spot texp : ℝ) : ℝ :=
  let u1 := u1 m spot texp
  let u2 := u2 m spot texp
  let m1 := 2 * log u1 - 0.5 * log u2
  let v1 := log u2 - 2 * log u1
  let sqrtv1 := √v1
  let y := log strike
  let y1 := (m1 - y) / √v1 + sqrtv1
  let y2 := y1 - sqrtv1
  u1 * exp (-m.intr * texp) * ncdf y1 - strike * exp (-m.intr * texp) * ncdf y2
    + exp (-m.intr * texp) * strike * (z1 m texp * npdf ((y - m1) / sqrtv1) / sqrtv1
      + z2 m texp * npdf ((y - m1) / sqrtv1) / sqrtv1 * (m1 - y) / v1
      + z3 m texp * ((y - m1) * (y - m1) / v1 / v1 - 1 / v1) * npdf ((y - m1) / sqrtv1) / sqrtv1)

/-- `BsmContinuousAsianJu2002.price` on an object whose attributes `sigma, intr, divr` have been set, `pyfeng/asian.py` lines 377-456 (scalar
arguments). -/
noncomputable def price (m : MParams) (strike spot texp cp : ℝ) : ℝ :=
  if cp = 1 then bc m strike spot texp
  else if cp = -1 then exp (-m.intr * texp) * (strike - u1 m spot texp) + bc m strike spot texp
  else -1

/-- The class `BsmContinuousAsianJu2002(OptABC)`, `pyfeng/asian.py` line 376: it is not a dataclass and inherits no fields, so its initialiser is `object.__init__`. -/
def cls : PyClass := { modelType := "", fields := [], postInit := .ok }

end Ju

end Asian

end PyFENG
