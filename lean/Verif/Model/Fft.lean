import Verif.Model.Params
import Verif.Model.Bsm
import Mathlib.Analysis.SpecialFunctions.Complex.Circle

/-!
# Model of `pyfeng/sv_fft.py` `FftABC`: Lewis-integral pricing by Simpson's rule and by FFT with a cached interpolant

The moment generating function `logp_mgf` of the concrete model is a parameter `mgf : ℂ → ℂ` (at the maturity priced).
-/

namespace PyFENG

open Real

namespace Fft

/-- `np.where(cp > 0, 1, kk) - ...`: the common last step of both pricers, `pyfeng/sv_fft.py` lines 46-47, 88-89, with
`integral` standing for `np.sqrt(kk)/np.pi*int_val` resp. `np.sqrt(kk)*spline_cub(-log_kk)`. -/
noncomputable def assemble (df fwd kk cp integral : ℝ) : ℝ :=
  df * fwd * ((if cp > 0 then 1 else kk) - integral)

/-- The integrand of `price_simpson`, `pyfeng/sv_fft.py` line 42. -/
noncomputable def lewisIntegrand (mgf : ℂ → ℂ) (logKk x : ℝ) : ℝ :=
  (Complex.exp (-(logKk : ℂ) * x * Complex.I) * mgf (x * Complex.I + 0.5)).re / (x ^ 2 + 0.25)

/-- `scipy.integrate.simpson(y, dx=dx)` on `2m + 1` equally spaced values: the composite Simpson rule. -/
noncomputable def simpson (f : ℕ → ℝ) (m : ℕ) (dx : ℝ) : ℝ :=
  ∑ i ∈ Finset.range m, dx / 3 * (f (2 * i) + 4 * f (2 * i + 1) + f (2 * i + 2))

/-- `FftABC.price_simpson`, `pyfeng/sv_fft.py` lines 34-47, for an even number `n_x = 2m` of intervals (the class default
is `2**12`). -/
noncomputable def priceSimpson (mgf : ℂ → ℂ) (m : ℕ) (xLim : ℝ) (mp : MParams) (strike spot texp cp : ℝ) : ℝ :=
  let fwd := mp.fwd spot texp
  let df := mp.df texp
  let kk := strike / fwd
  let logKk := log kk
  let dx := xLim / (2 * m : ℕ)
  let intVal := simpson (fun j => lewisIntegrand mgf logKk (j * dx)) m dx
  assemble df fwd kk cp (√kk / π * intVal)

/-- Simpson weights of `fft_interp`, `pyfeng/sv_fft.py` lines 65-68: ones, `[1:-1:2] = 4`, `[2:-1:2] = 2`, times `dx/3`. -/
noncomputable def weight (n : ℕ) (dx : ℝ) (j : ℕ) : ℝ :=
  (if 1 ≤ j ∧ j < n - 1 then (if j % 2 = 1 then 4 else 2) else 1) * (dx / 3)

/-- Log-moneyness grid `ks`, `pyfeng/sv_fft.py` lines 70-72. -/
noncomputable def knot (n : ℕ) (xLim : ℝ) (k : ℕ) : ℝ :=
  -(n * (2 * π / xLim) / 2) + 2 * π / xLim * k

/-- `scipy.fft.ifft(a)[k] = (1/n) Σ_j a_j e^{2πi jk/n}`. -/
noncomputable def ifft (n : ℕ) (a : ℕ → ℂ) (k : ℕ) : ℂ :=
  1 / n * ∑ j ∈ Finset.range n, a j * Complex.exp (2 * π * Complex.I * j * k / n)

/-- `integral_value[k]` of `fft_interp`, `pyfeng/sv_fft.py` lines 62-76. -/
noncomputable def gridValue (mgf : ℂ → ℂ) (n : ℕ) (xLim : ℝ) (k : ℕ) : ℝ :=
  let dx := xLim / n
  let dk := 2 * π / xLim
  let b := n * dk / 2
  let integrand : ℕ → ℂ := fun j =>
    let x : ℝ := j * dx
    Complex.exp (-1 * Complex.I * b * x) * mgf (x * Complex.I + 0.5) / (x ^ 2 + 0.25) * weight n dx j
  n / π * (ifft n integrand k).re

/-- The interpolation routine `scipy.interpolate.interp1d(ks, vals, kind='cubic')`, `pyfeng/sv_fft.py` line 78, as a
parameter: from `n`, knots and values to a function.  Only its interpolation property is ever used. -/
abbrev Interp := (n : ℕ) → (ℕ → ℝ) → (ℕ → ℝ) → ℝ → ℝ

/-- An interpolation routine passes through its data. -/
def Interp.Exact (I : Interp) : Prop := ∀ n ks vs k, k < n → I n ks vs (ks k) = vs k

/-- The spline built by `fft_interp` on a cache miss, `pyfeng/sv_fft.py` lines 62-79. -/
noncomputable def buildInterp (I : Interp) (mgf : ℂ → ℂ) (n : ℕ) (xLim : ℝ) : ℝ → ℝ :=
  I n (knot n xLim) (gridValue mgf n xLim)

/-- `FftABC.price` given the spline in use, `pyfeng/sv_fft.py` lines 83-90. -/
noncomputable def priceWith (spline : ℝ → ℝ) (mp : MParams) (strike spot texp cp : ℝ) : ℝ :=
  let fwd := mp.fwd spot texp
  let df := mp.df texp
  let kk := strike / fwd
  assemble df fwd kk cp (√kk * spline (-log kk))

/-! ### The cache -/

/-- Cache key `(texp, params_hash, n_x, x_lim)`, `pyfeng/sv_fft.py` line 55. -/
abbrev Key := ℝ × ℤ × ℕ × ℝ

/-- A pricing object: attribute dictionary, grid settings and `_fft_cache`. -/
structure State where
  attrs : Attrs
  nX : ℕ
  xLim : ℝ
  cache : Key → Option (ℝ → ℝ)

/-- What a user can do to the object between prices. -/
inductive Op where
  /-- `m.name = v` -/
  | set (name : String) (v : Val)
  /-- `m.n_x = n` -/
  | setN (n : ℕ)
  /-- `m.x_lim = x` -/
  | setX (x : ℝ)
  /-- `m.price(…, texp)` -/
  | price (texp : ℝ)

/-- The environment the cache mechanism depends on: the class (for `params_kw`), Python's `hash` on the pair of frozensets,
the model's `logp_mgf` as a function of attributes and maturity, and the spline routine. -/
structure Env where
  cls : PyClass
  hash : Finset String × Finset (Option ℝ) → ℤ
  mgf : Attrs → ℝ → ℂ → ℂ
  interp : Interp

/-- `params_hash()` on the current attributes, `pyfeng/params.py` lines 98-101. -/
noncomputable def Env.hashOf (E : Env) (a : Attrs) : ℤ := E.hash (paramsHashArg ⟨E.cls, a⟩)

open Classical in
/-- `fft_interp`, `pyfeng/sv_fft.py` lines 49-80: look up, or build and store. -/
noncomputable def fftInterp (E : Env) (s : State) (texp : ℝ) : (ℝ → ℝ) × State :=
  let key : Key := (texp, E.hashOf s.attrs, s.nX, s.xLim)
  match s.cache key with
  | some f => (f, s)
  | none =>
    let f := buildInterp E.interp (E.mgf s.attrs texp) s.nX s.xLim
    (f, { s with cache := fun k => if k = key then some f else s.cache k })

/-- One user action. -/
noncomputable def step (E : Env) (s : State) : Op → State
  | .set n v => { s with attrs := s.attrs.set n v }
  | .setN n => { s with nX := n }
  | .setX x => { s with xLim := x }
  | .price t => (fftInterp E s t).2

/-- A history. -/
noncomputable def run (E : Env) (s : State) (ops : List Op) : State := ops.foldl (step E) s

/-- A new object: attributes set by the constructor, no `_fft_cache` yet. -/
def fresh (a : Attrs) (n : ℕ) (x : ℝ) : State := ⟨a, n, x, fun _ => none⟩

/-- The shared parameters read from the attributes (`sigma`, `intr`, `divr`, `is_fwd`). -/
noncomputable def mparams (a : Attrs) : MParams where
  sigma := match a "sigma" with | some (.num r) => r | _ => 0
  intr := match a "intr" with | some (.num r) => r | _ => 0
  divr := match a "divr" with | some (.num r) => r | _ => 0
  isFwd := match a "is_fwd" with | some (.bool b) => b | _ => false

/-- `FftABC.price`, `pyfeng/sv_fft.py` lines 83-90, with the cache. -/
noncomputable def price (E : Env) (s : State) (strike spot texp cp : ℝ) : ℝ :=
  priceWith (fftInterp E s texp).1 (mparams s.attrs) strike spot texp cp

/-- The price a newly constructed object with the same attributes would give. -/
noncomputable def priceFresh (E : Env) (s : State) (strike spot texp cp : ℝ) : ℝ :=
  priceWith (buildInterp E.interp (E.mgf s.attrs texp) s.nX s.xLim) (mparams s.attrs) strike spot texp cp

end Fft

end PyFENG
