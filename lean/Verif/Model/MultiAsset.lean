import Verif.Model.Bsm
import Verif.Model.Norm
import Verif.Model.InvDist
import Verif.Lemmas.MvGauss

/-!
# Model of `pyfeng/multiasset.py`: spread options, Bachelier and lognormal baskets, moment matching, best-of-two

Simplifications: one strike at a time (numpy broadcasting over strikes is elementwise in all these functions, except that
`BsmMax2` picks `parity = 0` only when *every* `cp` is positive, which is irrelevant to the calls in a mixed batch because
only `cp < 0` entries use it).  The `ValueError` for a wrong number of spots is excluded by the types.
-/

open scoped Matrix
open Real

namespace PyFENG

/-- `SpreadParams`, `pyfeng/params.py` lines 677-698 (`sigma` is the pair `sig1, sig2`). -/
structure Spread where
  sig1 : ℝ
  sig2 : ℝ
  rho : ℝ
  intr : ℝ
  divr : ℝ
  isFwd : Bool

/-- The market-convention part (`OptABC._fwd_df_divf` does not read `sigma`), `pyfeng/opt_abc.py` lines 45-63. -/
def Spread.mp (o : Spread) : MParams := ⟨0, o.intr, o.divr, o.isFwd⟩

namespace SpreadKirk

/-- `fwd1`, `pyfeng/multiasset.py` line 34. -/
noncomputable def fwd1 (f1 strike : ℝ) : ℝ := f1 - min strike 0

/-- `fwd2`, `pyfeng/multiasset.py` line 35. -/
noncomputable def fwd2 (f2 strike : ℝ) : ℝ := f2 + max strike 0

/-- `sig_spd`, `pyfeng/multiasset.py` lines 37-39. -/
noncomputable def sigSpd (o : Spread) (f1 f2 strike : ℝ) : ℝ :=
  let s1 := o.sig1 * f1 / fwd1 f1 strike
  let s2 := o.sig2 * f2 / fwd2 f2 strike
  √(s1 * (s1 - 2 * o.rho * s2) + s2 ^ 2)

/-- `BsmSpreadKirk.price`, `pyfeng/multiasset.py` lines 31-41. -/
noncomputable def price (o : Spread) (strike spot1 spot2 texp cp : ℝ) : ℝ :=
  let f1 := o.mp.fwd spot1 texp
  let f2 := o.mp.fwd spot2 texp
  o.mp.df texp * Bsm.priceFormula (fwd2 f2 strike) (fwd1 f1 strike) (sigSpd o f1 f2 strike) texp cp 0 0 true

end SpreadKirk

namespace SpreadBjerksund

/-- `aa`, `bb`, `pyfeng/multiasset.py` lines 69-70. -/
noncomputable def aa (f2 strike : ℝ) : ℝ := f2 + strike
noncomputable def bb (f2 strike : ℝ) : ℝ := f2 / aa f2 strike

/-- `std`, `pyfeng/multiasset.py` lines 65-71. -/
noncomputable def std (o : Spread) (f2 strike texp : ℝ) : ℝ :=
  let b := bb f2 strike
  √(o.sig1 ^ 2 * texp - 2 * b * o.rho * (o.sig1 * o.sig2 * texp) + b ^ 2 * (o.sig2 ^ 2 * texp))

/-- `BsmSpreadBjerksund2014.price`, `pyfeng/multiasset.py` lines 59-84. -/
noncomputable def price (o : Spread) (strike spot1 spot2 texp cp : ℝ) : ℝ :=
  let f1 := o.mp.fwd spot1 texp
  let f2 := o.mp.fwd spot2 texp
  let std11 := o.sig1 ^ 2 * texp
  let std12 := o.sig1 * o.sig2 * texp
  let std22 := o.sig2 ^ 2 * texp
  let b := bb f2 strike
  let s := std o f2 strike texp
  let d3' := log (f1 / aa f2 strike)
  let d1 := (d3' + 0.5 * std11 - b * (o.rho * std12 - 0.5 * b * std22)) / s
  let d2 := (d3' - 0.5 * std11 + o.rho * std12 + b * (0.5 * b - 1) * std22) / s
  let d3 := (d3' - 0.5 * std11 + 0.5 * b ^ 2 * std22) / s
  o.mp.df texp * (cp * (f1 * ncdf (cp * d1) - f2 * ncdf (cp * d2) - strike * ncdf (cp * d3)))

end SpreadBjerksund

/-- `scipy.stats.multivariate_normal.cdf` of a bivariate normal with unit variances and correlation `rho`. -/
noncomputable def binormCdf (x y rho : ℝ) : ℝ := (Spec.mvn !![1, rho; rho, 1]).real {z | z 0 ≤ x ∧ z 1 ≤ y}

namespace BsmMax2

/-- `BsmMax2.price` for one strike, `pyfeng/multiasset.py` lines 420-475; the `ValueError` of lines 467-468 is the `none`
branch.  `self.m_switch` (line 418) is a `BsmSpreadKirk` with the same volatilities and correlation, `is_fwd=True` and zero
rates, so its price is undiscounted. -/
noncomputable def price (o : Spread) (strike spot1 spot2 texp cp : ℝ) : Option ℝ :=
  let f1 := o.mp.fwd spot1 texp
  let f2 := o.mp.fwd spot2 texp
  let std1 := o.sig1 * √texp
  let std2 := o.sig2 * √texp
  let spdRho := √(o.sig1 * o.sig1 + o.sig2 * o.sig2 - 2 * o.rho * o.sig1 * o.sig2)
  let spdStd := spdRho * √texp
  let xx1 := -log f1 / std1 - 0.5 * std1 + log strike / std1
  let xx2 := -log f2 / std2 - 0.5 * std2 + log strike / std2
  let ratio := f1 / f2
  let yy1 := log ratio / spdStd + 0.5 * spdStd
  let yy2 := log (1 / ratio) / spdStd + 0.5 * spdStd
  let rho1 := (o.rho * o.sig2 - o.sig1) / spdRho
  let rho2 := (o.rho * o.sig1 - o.sig2) / spdRho
  let parity := SpreadKirk.price ⟨o.sig1, o.sig2, o.rho, 0, 0, true⟩ 0 f1 f2 texp 1 + f2
  let term1 := f1 * (ncdf yy1 - binormCdf xx1 yy1 rho1)
  let term2 := f2 * (ncdf yy2 - binormCdf xx2 yy2 rho2)
  let term3 := strike * binormCdf (xx1 + std1) (xx2 + std2) o.rho
  if term1 + term2 + term3 < strike then none
  else
    let p := term1 + term2 + term3 - strike
    some (o.mp.df texp * (if cp < 0 then p + (strike - parity) else p))

end BsmMax2

/-- The attributes of a constructed `MaParams` that the basket pricers read, `pyfeng/params.py` lines 705-808
(`chol_m` is `chol`, the lower-triangular Cholesky factor of `cov_m`; only `chol cholᵀ = cov` is used here). -/
structure Ma (n : ℕ) where
  sigma : Fin n → ℝ
  cov : Matrix (Fin n) (Fin n) ℝ
  chol : Matrix (Fin n) (Fin n) ℝ
  weight : Fin n → ℝ
  intr : ℝ
  divr : ℝ
  isFwd : Bool

namespace Ma

variable {n : ℕ} (o : Ma n)

/-- What the constructor guarantees (`pyfeng/params.py` lines 767-796): `cov_m` has diagonal `sigma**2` and `chol_m` is its
Cholesky factor. -/
structure Valid : Prop where
  diag : ∀ i, o.cov i i = o.sigma i ^ 2
  chol : o.chol * o.cholᵀ = o.cov

/-- Market conventions, `pyfeng/opt_abc.py` lines 45-63 (elementwise on the spot vector). -/
def mp : MParams := ⟨0, o.intr, o.divr, o.isFwd⟩

/-- `fwd`, `pyfeng/opt_abc.py` lines 45-63. -/
noncomputable def fwd (spot : Fin n → ℝ) (texp : ℝ) (i : Fin n) : ℝ := o.mp.fwd (spot i) texp

end Ma

/-- `NormBasket.price`, `pyfeng/multiasset.py` lines 108-119. -/
noncomputable def NormBasket.price {n : ℕ} (o : Ma n) (strike : ℝ) (spot : Fin n → ℝ) (texp cp : ℝ) : ℝ :=
  o.mp.df texp * Norm.priceFormula strike (o.fwd spot texp ⬝ᵥ o.weight) (√(o.weight ⬝ᵥ o.cov *ᵥ o.weight)) texp cp 0 0 true

/-- `BsmBasketGeoApprox.price`, `pyfeng/multiasset.py` lines 152-163. -/
noncomputable def GeoApprox.price {n : ℕ} (o : Ma n) (strike : ℝ) (spot : Fin n → ℝ) (texp cp : ℝ) : ℝ :=
  o.mp.df texp * Bsm.priceFormula strike (o.fwd spot texp ⬝ᵥ o.weight) (√(o.weight ⬝ᵥ o.cov *ᵥ o.weight)) texp cp 0 0 true

namespace BasketABC

variable {n : ℕ} (o : Ma n)

/-- `P`, `pyfeng/multiasset.py` line 213. -/
noncomputable def P (texp : ℝ) : Matrix (Fin n) (Fin n) ℝ := fun i j => exp (o.cov i j * texp)

/-- `v`, line 214. -/
def v (fwd : Fin n → ℝ) : Fin n → ℝ := fun i => fwd i * o.weight i

/-- `m1`, line 216. -/
def m1 (fwd : Fin n → ℝ) : ℝ := ∑ i, v o fwd i

/-- `M2`, line 217. -/
noncomputable def M2 (fwd : Fin n → ℝ) (texp : ℝ) : Matrix (Fin n) (Fin n) ℝ := fun i j => v o fwd i * v o fwd j * P o texp i j

/-- `m2`, line 218. -/
noncomputable def m2 (fwd : Fin n → ℝ) (texp : ℝ) : ℝ := ∑ i, ∑ j, M2 o fwd texp i j

/-- `var_scaled`, line 219. -/
noncomputable def varScaled (fwd : Fin n → ℝ) (texp : ℝ) : ℝ := m2 o fwd texp / m1 o fwd ^ 2 - 1

/-- `m3 = np.sum((P * v) * (M2 @ P))`, line 228 (`P * v` scales column `j` by `v_j`). -/
noncomputable def m3 (fwd : Fin n → ℝ) (texp : ℝ) : ℝ :=
  ∑ i, ∑ j, (P o texp i j * v o fwd j) * (M2 o fwd texp * P o texp) i j

/-- `N[i,j,k] = P_ik P_jk`, line 233. -/
noncomputable def N (texp : ℝ) (i j k : Fin n) : ℝ := P o texp i k * P o texp j k

/-- `H`, line 234: `(N * (N.reshape(n*n, n) @ M2).reshape(n, n, n)).sum(-1)`. -/
noncomputable def H (fwd : Fin n → ℝ) (texp : ℝ) (i j : Fin n) : ℝ :=
  ∑ k, N o texp i j k * ∑ l, N o texp i j l * M2 o fwd texp l k

/-- `m4`, line 235. -/
noncomputable def m4 (fwd : Fin n → ℝ) (texp : ℝ) : ℝ := ∑ i, ∑ j, M2 o fwd texp i j * H o fwd texp i j

/-- `BsmBasketABC.price_mvsk(order=4)`, `pyfeng/multiasset.py` lines 174-240. -/
noncomputable def priceMvsk (fwd : Fin n → ℝ) (texp : ℝ) : ℝ × ℝ × ℝ × ℝ :=
  let m1 := m1 o fwd
  let m2 := m2 o fwd texp
  let m3 := m3 o fwd texp
  let m4 := m4 o fwd texp
  let varScaled := varScaled o fwd texp
  let var := varScaled * m1 ^ 2
  let skew := (m3 - m1 ^ 3 - 3 * m2 * m1 + 3 * m1 ^ 3) / var ^ (1.5 : ℝ)
  let exkurt := (m4 - 3 * m1 ^ 4 - 4 * m3 * m1 + 6 * m2 * m1 ^ 2) / var ^ 2 - 3
  (m1, varScaled, skew, exkurt)

end BasketABC

namespace BasketLevy

variable {n : ℕ} (o : Ma n)

/-- `std`, `pyfeng/multiasset.py` line 279. -/
noncomputable def std (fwd : Fin n → ℝ) (texp : ℝ) : ℝ := √(log (1 + BasketABC.varScaled o fwd texp))

/-- `BsmBasketLevy1992.price` = `base` of `BsmBasketJu2002.price`, `pyfeng/multiasset.py` lines 270-283, 360. -/
noncomputable def price (strike : ℝ) (spot : Fin n → ℝ) (texp cp : ℝ) : ℝ :=
  o.mp.df texp * Bsm.priceFormula strike (BasketABC.m1 o (o.fwd spot texp)) (std o (o.fwd spot texp) texp) 1 cp 0 0 true

end BasketLevy

namespace BasketJu

/-- The Taylor coefficients `a1, a2, a3`, `pyfeng/multiasset.py` lines 288-296, from `m1`, `u2_1`, `u2_2`, `u2_3`. -/
noncomputable def a1 (m1 u21 : ℝ) : ℝ := -u21 / (2 * m1 ^ 2)
noncomputable def a2 (m1 u21 u22 : ℝ) : ℝ := 2 * a1 m1 u21 ^ 2 - u22 / (2 * m1 ^ 2)
noncomputable def a3 (m1 u21 u22 u23 : ℝ) : ℝ :=
  6 * a1 m1 u21 * a2 m1 u21 u22 - 4 * a1 m1 u21 ^ 3 - u23 / (2 * m1 ^ 2)

variable {n : ℕ}

/-- The sums over assets used by the correction, `pyfeng/multiasset.py` lines 286-305.  `temp` is
`sqrt(fw_i) cov_ij sqrt(fw_j)` and `e_a23 = 8 tr(temp^3)`. -/
structure Sums where
  m1 : ℝ
  u21 : ℝ
  u22 : ℝ
  u23 : ℝ
  a12a2 : ℝ
  a13a3 : ℝ
  a12a22 : ℝ
  a1a2a3 : ℝ
  a23 : ℝ

/-- Lines 273-275, 286-305 of `pyfeng/multiasset.py` (`fw @ cov_t` contracts the first index of `cov_t`). -/
noncomputable def sums (o : Ma n) (fwd : Fin n → ℝ) (texp : ℝ) : Sums :=
  let fw : Fin n → ℝ := fun i => fwd i * o.weight i
  let cov : Matrix (Fin n) (Fin n) ℝ := fun i j => o.cov i j * texp
  let av : Fin n → ℝ := fw ᵥ* cov
  let u21 := ∑ i, av i * fw i
  let u22 := ∑ i, (fw ᵥ* (Matrix.of fun i j => cov i j ^ 2)) i * fw i
  let u23 := ∑ i, (fw ᵥ* (Matrix.of fun i j => cov i j ^ 3)) i * fw i
  let temp : Matrix (Fin n) (Fin n) ℝ := fun i j => √(fw i) * cov i j * √(fw j)
  { m1 := BasketABC.m1 o fwd
    u21 := u21
    u22 := u22
    u23 := u23
    a12a2 := 2 * ∑ i, fw i * av i ^ 2
    a13a3 := 6 * ∑ i, fw i * av i ^ 3
    a12a22 := 8 * ∑ i, ((fun i => av i * fw i) ᵥ* cov) i * (av i * fw i) + 2 * u21 * u22
    a1a2a3 := 6 * ∑ i, (fw ᵥ* (Matrix.of fun i j => cov i j ^ 2)) i * (av i * fw i)
    a23 := 8 * ∑ i, ∑ j, ∑ k, temp i j * temp j k * temp k i }

/-- `jd2, jd3, jd4`, `pyfeng/multiasset.py` lines 307-324. -/
noncomputable def jd (s : Sums) : ℝ × ℝ × ℝ :=
  let a1 := a1 s.m1 s.u21
  let a2 := a2 s.m1 s.u21 s.u22
  let a3 := a3 s.m1 s.u21 s.u22 s.u23
  let b1 := s.a12a2 / (4 * s.m1 ^ 3)
  let b2 := a1 ^ 2 - a2 / 2
  let c1 := -a1 * b1
  let c2 := (9 * s.a12a22 + 4 * s.a13a3) / (144 * s.m1 ^ 4)
  let c3 := (4 * s.a1a2a3 + s.a23) / (48 * s.m1 ^ 3)
  let c4 := a1 * a2 - 2 * a1 ^ 3 / 3 - a3 / 6
  let jd2 := 0.5 * (10 * a1 ^ 2 + a2 - 6 * b1 + 2 * b2)
    - (128 * a1 ^ 3 / 3 - a3 / 6 + 2 * a1 * b1 - a1 * b2 + 50 * c1 - 11 * c2 + 3 * c3 - c4)
  let jd3 := 2 * a1 ^ 2 - b1 - (88 * a1 ^ 3 + 3 * a1 * (5 * b1 - 2 * b2) + 3 * (35 * c1 - 6 * c2 + c3)) / 3
  let jd4 := -20 * a1 ^ 3 / 3 + a1 * (-4 * b1 + b2) - 10 * c1 + c2
  (jd2, jd3, jd4)

/-- The correction term, `pyfeng/multiasset.py` lines 326-335. -/
noncomputable def correction (o : Ma n) (strike : ℝ) (fwd : Fin n → ℝ) (texp : ℝ) : ℝ :=
  let m1 := BasketABC.m1 o fwd
  let std := BasketLevy.std o fwd texp
  let j := jd (sums o fwd texp)
  let z1 := j.1 - j.2.1 + j.2.2
  let z2 := j.2.1 - j.2.2
  let z3 := j.2.2
  let d2 := log (m1 / strike) / std - 0.5 * std
  let py := npdf d2 / std
  let dpy := py * d2 / std
  let d2py := py * (d2 ^ 2 - 1) / std ^ 2
  strike * (z1 * py + z2 * dpy + z3 * d2py)

/-- `BsmBasketJu2002.price`, `pyfeng/multiasset.py` lines 270-335. -/
noncomputable def price (o : Ma n) (strike : ℝ) (spot : Fin n → ℝ) (texp cp : ℝ) : ℝ :=
  BasketLevy.price o strike spot texp cp + o.mp.df texp * correction o strike (o.fwd spot texp) texp

end BasketJu

namespace BasketMilevsky

variable {n : ℕ} (o : Ma n)

/-- `alpha`, `pyfeng/multiasset.py` line 389. -/
noncomputable def alpha (fwd : Fin n → ℝ) (texp : ℝ) : ℝ := 1 / BasketABC.varScaled o fwd texp + 2

/-- `beta`, `pyfeng/multiasset.py` line 390. -/
noncomputable def beta (fwd : Fin n → ℝ) (texp : ℝ) : ℝ := (alpha o fwd texp - 1) * BasketABC.m1 o fwd

/-- `BsmBasketMilevsky1998.price`, `pyfeng/multiasset.py` lines 382-395. -/
noncomputable def price (strike : ℝ) (spot : Fin n → ℝ) (texp cp : ℝ) : ℝ :=
  let fwd := o.fwd spot texp
  o.mp.df texp * InvGam.priceFormula strike (BasketABC.m1 o fwd) texp (alpha o fwd texp) (beta o fwd texp) cp 0 0 true

end BasketMilevsky

end PyFENG
