import Verif.Model.Core
import Verif.Model.Bsm
import Verif.Model.Levy

/-!
# Model of `pyfeng/sv_cos.py`: the COS pricers

`logp_cf` of the concrete model is a parameter `cf : ℝ → ℂ` (at the maturity priced); prices are modelled for a scalar
strike and option type, as the vectorised code acts elementwise.
-/

namespace PyFENG

open Real

namespace Cos

/-- `CosABC._chi`, `pyfeng/sv_cos.py` lines 190-206 (`k` is unused by the code). -/
noncomputable def chi (u a c d : ℝ) : ℝ :=
  let expD := exp d
  let expC := exp c
  let cosD := cos (u * (d - a))
  let cosC := cos (u * (c - a))
  let sinD := sin (u * (d - a))
  let sinC := sin (u * (c - a))
  let num := cosD * expD - cosC * expC
  let num := num + u * (sinD * expD - sinC * expC)
  num / (1 + u ^ 2)

/-- `CosABC._psi`, `pyfeng/sv_cos.py` lines 209-223. -/
noncomputable def psi (k : ℕ) (u a c d : ℝ) : ℝ :=
  let safeU := if k = 0 then 1 else u
  if k = 0 then d - c else (sin (u * (d - a)) - sin (u * (c - a))) / safeU

/-- `CosABC._cos_grid`, `pyfeng/sv_cos.py` lines 225-229: the frequency `u_k`. -/
noncomputable def freq (a b : ℝ) (k : ℕ) : ℝ := k * π / (b - a)

/-- `CosABC._density_coefficients`, `pyfeng/sv_cos.py` lines 231-241. -/
noncomputable def densityCoef (cf : ℝ → ℂ) (a b : ℝ) (k : ℕ) : ℝ :=
  let coeff := cf (freq a b k) * Complex.exp (-1 * Complex.I * (freq a b k : ℝ) * a)
  (if k = 0 then coeff * 0.5 else coeff).re

/-- `np.clip(x, a, b) = min(max(x, a), b)`. -/
noncomputable def clip (x a b : ℝ) : ℝ := min (max x a) b

/-- `w_call` of `CosABC._vanilla_payoff_coefficients`, `pyfeng/sv_cos.py` lines 257-271. -/
noncomputable def callCoef (kk a b : ℝ) (k : ℕ) : ℝ :=
  let logKk := clip (log kk) a b
  let u := freq a b k
  2 / (b - a) * (chi u a logKk b - kk * psi k u a logKk b)

/-- `w_put` of `CosABC._vanilla_payoff_coefficients`, `pyfeng/sv_cos.py` lines 257-275. -/
noncomputable def putCoef (kk a b : ℝ) (k : ℕ) : ℝ :=
  let logKk := clip (log kk) a b
  let u := freq a b k
  2 / (b - a) * (kk * psi k u a a logKk - chi u a a logKk)

/-- `CosABC._vanilla_payoff_coefficients`, `pyfeng/sv_cos.py` lines 243-276. -/
noncomputable def payoffCoef (kk a b cp : ℝ) (k : ℕ) : ℝ := if cp > 0 then callCoef kk a b k else putCoef kk a b k

/-- `CosABC.price`, mode `'fang-oosterlee'`, `pyfeng/sv_cos.py` lines 380-386, on the interval `[a, b]`. -/
noncomputable def priceFO (cf : ℝ → ℂ) (a b : ℝ) (n : ℕ) (mp : MParams) (strike spot texp cp : ℝ) : ℝ :=
  let fwd := mp.fwd spot texp
  let df := mp.df texp
  df * fwd * ∑ k ∈ Finset.range n, payoffCoef (strike / fwd) a b cp k * densityCoef cf a b k

/-- `CosABC._price_lefloch`, `pyfeng/sv_cos.py` lines 305-343, on the interval `[a, b]`. -/
noncomputable def priceLefloch (cf : ℝ → ℂ) (a b : ℝ) (n : ℕ) (mp : MParams) (strike spot texp cp : ℝ) : ℝ :=
  let fwd := mp.fwd spot texp
  let df := mp.df texp
  let logKk := log (strike / fwd)
  let putCos := df * fwd * ∑ k ∈ Finset.range n, putCoef (strike / fwd) a b k * densityCoef cf a b k
  let putPrice := if logKk < a then 0 else if logKk > b then df * max (strike - fwd) 0 else putCos
  let callPrice := putPrice + df * (fwd - strike)
  if cp > 0 then callPrice else putPrice

/-- `CosABC._truncation_range`, mode `'fang-oosterlee'`, `pyfeng/sv_cos.py` lines 171-174. -/
noncomputable def truncRange (L : ℝ) (cum : ℝ × ℝ × ℝ × ℝ) : ℝ × ℝ :=
  let half := L * √(|cum.2.1| + √|cum.2.2.2|)
  (cum.1 - half, cum.1 + half)

/-- `BsmCos.logp_cum4`, `pyfeng/sv_cos.py` lines 419-422. -/
noncomputable def bsmCum4 (m : MParams) (texp : ℝ) : ℝ × ℝ × ℝ × ℝ :=
  let s2t := m.sigma ^ 2 * texp
  (-0.5 * s2t, s2t, 0, 0)

/-- `VarGammaCos.logp_cum4`, `pyfeng/sv_cos.py` lines 447-469. -/
noncomputable def vgCum4 (m : SubParams) (texp : ℝ) : ℝ × ℝ × ℝ × ℝ :=
  let nu := m.nu
  let th := m.theta
  let sig2 := m.sigma ^ 2
  let th2 := m.theta ^ 2
  let omega := log (1 - th * nu - 0.5 * sig2 * nu) / nu
  let c1 := texp * (omega + th)
  let c2 := texp * (sig2 + nu * th2)
  let c3 := texp * nu * th * (3 * sig2 + 2 * nu * th2)
  let c4 := 3 * texp * nu * (sig2 ^ 2 + 2 * th2 ^ 2 * nu ^ 2 + 4 * sig2 * th2 * nu)
  (c1, c2, c3, c4)

/-! ### Junike truncation -/

/-- `np.exp(np.min(np.log(mgf[ok]) + shift))` over the grid points with a positive finite MGF, or 1 when there is none;
`pyfeng/sv_cos.py` lines 137-151.  `grid` lists the triples `(s, ok, M)`; `sgn = -1` gives the upper tail at `x = c1 + w`,
`sgn = 1` the lower tail at `x = c1 - w`.  Finiteness is the flag `ok`. -/
noncomputable def tailBound (grid : List (ℝ × Bool × ℝ)) (sgn x : ℝ) : ℝ :=
  match (grid.filter fun p => p.2.1).map fun p => log p.2.2 + sgn * p.1 * x with
  | [] => 1
  | e :: l => exp (l.foldl min e)

/-- The loop of `CosABC._junike_half_width`, `pyfeng/sv_cos.py` lines 130-156.  `fuel` is the number of remaining
iterations (15 at the start); the result is the half-width together with whether the loop was left by `break`. -/
noncomputable def junikeLoop (gridPos gridNeg : List (ℝ × Bool × ℝ)) (c1 scale eps : ℝ) :
    ℕ → ℝ → ℝ → ℝ × Bool
  | 0, _, w => (w, false)
  | fuel + 1, L, _ =>
    let w := L * scale
    let upper := tailBound gridPos (-1) (c1 + w)
    let lower := tailBound gridNeg 1 (c1 - w)
    if max 0 (upper + lower) ≤ eps then (w, true)
    else junikeLoop gridPos gridNeg c1 scale eps fuel (min (L * 1.25) 30) w

/-- `CosABC._junike_half_width`, `pyfeng/sv_cos.py` lines 112-156. -/
noncomputable def junikeHalfWidth (gridPos gridNeg : List (ℝ × Bool × ℝ)) (cum : ℝ × ℝ × ℝ × ℝ) (eps : ℝ) : ℝ × Bool :=
  junikeLoop gridPos gridNeg cum.1 (√(|cum.2.1| + √|cum.2.2.2|)) eps 15 12 0

/-! ### Heston -/

/-- `HestonCos._resolve_L`, `pyfeng/sv_cos.py` lines 596-603. -/
noncomputable def hestonL (L : Option ℝ) (texp : ℝ) : ℝ := L.getD (max 10 (3 * texp + 2))

/-- `HestonCos._sigma_h`, `pyfeng/sv_cos.py` lines 605-614. -/
noncomputable def hestonSigmaH (theta sigma vov : ℝ) : ℝ := √(theta + sigma * vov)

/-- `HestonCos._integration_range`, mode `'fang-oosterlee'`, `pyfeng/sv_cos.py` lines 643-661: centred at
`log(F/K) + c1`. -/
noncomputable def hestonRange (c1 half strike fwd : ℝ) : ℝ × ℝ :=
  let x := log (fwd / strike)
  (x + c1 - half, x + c1 + half)

/-- `HestonCos.price`, default mode, `pyfeng/sv_cos.py` lines 707-742, for one strike: the per-strike interval has constant
width `2*half`. -/
noncomputable def hestonPriceFO (cf : ℝ → ℂ) (c1 half : ℝ) (n : ℕ) (mp : MParams) (strike spot texp cp : ℝ) : ℝ :=
  let fwd := mp.fwd spot texp
  let df := mp.df texp
  let ab := hestonRange c1 half strike fwd
  let width := 2 * half
  let kk := strike / fwd
  let logKk := clip (log kk) ab.1 ab.2
  let u := fun k : ℕ => k * π / width
  let cfRe := fun k : ℕ =>
    let c := cf (u k) * Complex.exp (-1 * Complex.I * (u k : ℝ) * ab.1)
    (if k = 0 then c * 0.5 else c).re
  let wCall := fun k : ℕ => 2 / width * (chi (u k) ab.1 logKk ab.2 - kk * psi k (u k) ab.1 logKk ab.2)
  let wPut := fun k : ℕ => 2 / width * (kk * psi k (u k) ab.1 ab.1 logKk - chi (u k) ab.1 ab.1 logKk)
  df * fwd * ∑ k ∈ Finset.range n, (if cp > 0 then wCall k else wPut k) * cfRe k

end Cos

end PyFENG
