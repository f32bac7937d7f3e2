import Verif.Model.Bsm
import Verif.Model.BsmDisp
import Mathlib.Analysis.SpecialFunctions.Arcosh
import Mathlib.Analysis.SpecialFunctions.Pow.Real

/-!
# Model of `pyfeng/disthelper.py` (distribution helpers) and of `price_vsk`

`spsp.roots_hermitenorm` / `roots_genlaguerre` are parameters: nodes `z`, weights `w` (and the sum of weights), indexed
by a finite type. `spsp.kve` is a parameter.
-/

namespace PyFENG

open Real Finset

/-- The quadruple returned by the `mvsk` methods: mean, scaled variance (or variance for `DistGh`), skewness,
excess kurtosis. -/
structure Mvsk where
  mean : ℝ
  var : ℝ
  skew : ℝ
  exkurt : ℝ

/-- The quadruple returned by the `mc4` methods: mean and central moments 2-4. -/
structure Mc4 where
  m1 : ℝ
  mc2 : ℝ
  mc3 : ℝ
  mc4 : ℝ

/-- `mc4` of `DistLognormal`/`DistGamma`/`DistInvGauss`/`DistGig`, `pyfeng/disthelper.py` lines 54-65, 238-249, 396-407,
563-574 (identical bodies). -/
noncomputable def mc4OfMvsk (x : Mvsk) : Mc4 :=
  let mc2 := x.var * x.mean ^ 2
  ⟨x.mean, mc2, x.skew * (mc2 * √mc2), (x.exkurt + 3) * mc2 ^ 2⟩

/-! ## Lognormal -/

/-- Fields of `DistLognormal`, `pyfeng/disthelper.py` lines 13-22. -/
structure DistLognormal where
  sig : ℝ
  lam : ℝ
  mu : ℝ

namespace DistLognormal

/-- `DistLognormal.mvsk`, `pyfeng/disthelper.py` lines 41-52. -/
noncomputable def mvsk (d : DistLognormal) : Mvsk :=
  let ww := exp (d.sig ^ 2) - 1
  ⟨d.mu, d.lam ^ 2 * ww, √ww * (ww + 3), ww * (16 + ww * (15 + ww * (6 + ww)))⟩

/-- `DistLognormal.mc4`, `pyfeng/disthelper.py` lines 54-65. -/
noncomputable def mc4 (d : DistLognormal) : Mc4 := mc4OfMvsk d.mvsk

/-- `DistLognormal.fit([mean, var_scaled], lam)`, `pyfeng/disthelper.py` lines 78-89 (two moments; `lam=None` keeps
`self.lam`). -/
noncomputable def fit2 (d : DistLognormal) (mean varScaled : ℝ) (lam : Option ℝ) : DistLognormal :=
  let lam := lam.getD d.lam
  { mu := mean, lam := lam, sig := √(log (1 + varScaled / lam ^ 2)) }

/-- `DistLognormal.fit([mean, var_scaled, skew])`, `pyfeng/disthelper.py` lines 81, 90-94 (three moments, `lam=None`). -/
noncomputable def fit3 (mean varScaled s : ℝ) : DistLognormal :=
  let sqrtW := 2 * sinh (arcosh (1 + 0.5 * s ^ 2) / 6)
  { mu := mean, lam := √varScaled / sqrtW, sig := √(log (1 + sqrtW ^ 2)) }

/-- `DistLognormal.from_mv`, `pyfeng/disthelper.py` lines 24-39: a default object, then `fit`. -/
noncomputable def fromMv (mean varScaled lam : ℝ) : DistLognormal :=
  fit2 ⟨1, 1, 1⟩ mean varScaled (some lam)

/-- `DistLognormal.quad`, `pyfeng/disthelper.py` lines 148-161: nodes and weights from the Hermite rule `(zhat, w)`. -/
noncomputable def quad {ι : Type*} [Fintype ι] (d : DistLognormal) (zhat w : ι → ℝ) : (ι → ℝ) × (ι → ℝ) :=
  let tmp := fun i => exp (0.5 * d.sig * zhat i)
  let w1 := fun i => w i * (exp (-d.sig ^ 2 / 8) / tmp i)
  let w2 := fun i => w1 i / ∑ j, w1 j
  (fun i => d.mu * (1 - d.lam + d.lam * tmp i ^ 2), w2)

/-- One draw, `DistLognormal.draw`, `pyfeng/disthelper.py` lines 178-181, from the standard normal value `z`. -/
noncomputable def draw (d : DistLognormal) (z : ℝ) : ℝ :=
  d.mu * (1 - d.lam + d.lam * exp (d.sig * z - 0.5 * d.sig ^ 2))

end DistLognormal

/-! ## Gamma -/

/-- Fields of `DistGamma`, `pyfeng/disthelper.py` lines 198-203. -/
structure DistGamma where
  shape : ℝ
  rate : ℝ

namespace DistGamma

/-- `DistGamma.mvsk`, `pyfeng/disthelper.py` lines 225-236. -/
noncomputable def mvsk (d : DistGamma) : Mvsk :=
  ⟨d.shape / d.rate, 1 / d.shape, 2 / √d.shape, 6 / d.shape⟩

/-- `DistGamma.mc4`, `pyfeng/disthelper.py` lines 238-249. -/
noncomputable def mc4 (d : DistGamma) : Mc4 := mc4OfMvsk d.mvsk

/-- `DistGamma.fit` / `from_mv`, `pyfeng/disthelper.py` lines 205-219, 251-260. -/
noncomputable def fromMv (mean varScaled : ℝ) : DistGamma := ⟨1 / varScaled, 1 / (varScaled * mean)⟩

/-- `DistGamma.quad`, `pyfeng/disthelper.py` lines 291-295, from the generalized Laguerre rule `(x, w, w_sum)`. -/
noncomputable def quad {ι : Type*} (d : DistGamma) (x w : ι → ℝ) (wSum : ℝ) : (ι → ℝ) × (ι → ℝ) :=
  (fun i => x i / d.rate, fun i => w i / wSum)

end DistGamma

/-! ## Inverse Gaussian -/

/-- Fields of `DistInvGauss`, `pyfeng/disthelper.py` lines 335-340. -/
structure DistInvGauss where
  mu : ℝ
  lam : ℝ

namespace DistInvGauss

/-- `DistInvGauss.mvsk`, `pyfeng/disthelper.py` lines 383-394. -/
noncomputable def mvsk (d : DistInvGauss) : Mvsk :=
  ⟨d.mu, d.mu / d.lam, 3 * √(d.mu / d.lam), 15 * d.mu / d.lam⟩

/-- `DistInvGauss.mc4`, `pyfeng/disthelper.py` lines 396-407. -/
noncomputable def mc4 (d : DistInvGauss) : Mc4 := mc4OfMvsk d.mvsk

/-- `DistInvGauss.fit` / `from_mv`, `pyfeng/disthelper.py` lines 342-356, 409-418. -/
noncomputable def fromMv (mean varScaled : ℝ) : DistInvGauss := ⟨mean, mean / varScaled⟩

/-- `DistInvGauss.from_gig`, `pyfeng/disthelper.py` lines 358-381. -/
noncomputable def fromGig (gamma delta : ℝ) : DistInvGauss := ⟨delta / gamma, delta ^ 2⟩

/-- Standardised node of `DistInvGauss.quad`, `pyfeng/disthelper.py` lines 450-460. -/
noncomputable def quadRoot (fac z : ℝ) : ℝ :=
  let y := z ^ 2 * fac
  let x := 1 + y + |z| * √(fac * (2 + y))
  if z < 0 then 1 / x else x

/-- `DistInvGauss.quad`, `pyfeng/disthelper.py` lines 448-465. -/
noncomputable def quad {ι : Type*} (d : DistInvGauss) (z w : ι → ℝ) (wSum : ℝ) : (ι → ℝ) × (ι → ℝ) :=
  let fac := 0.5 * d.mu / d.lam
  let x := fun i => quadRoot fac (z i)
  (fun i => x i * d.mu, fun i => w i * (2 / (wSum * (1 + x i))))

end DistInvGauss

/-! ## Generalized inverse Gaussian -/

/-- Fields of `DistGig`, `pyfeng/disthelper.py` lines 511-518. -/
structure DistGig where
  gamma : ℝ
  delta : ℝ
  p : ℝ

namespace DistGig

variable (kve : ℝ → ℝ → ℝ)

/-- `DistGig.mnc`, `pyfeng/disthelper.py` lines 537-545 (`r` an integer order). -/
noncomputable def mnc (d : DistGig) (r : ℕ) : ℝ :=
  let q := d.gamma * d.delta
  (d.delta / d.gamma) ^ r * kve (d.p + r) q / kve d.p q

/-- The raw-to-standardised conversion inside `DistGig.mvsk`, `pyfeng/disthelper.py` lines 554-560. -/
noncomputable def mvskOfRaw (m1 m2 m3 m4 : ℝ) : Mvsk :=
  let var := m2 - m1 ^ 2
  let mc3 := m3 - 3 * m2 * m1 + 2 * m1 ^ 3
  let mc4 := m4 - 4 * m3 * m1 + 6 * m2 * m1 ^ 2 - 3 * m1 ^ 4
  ⟨m1, var / m1 ^ 2, mc3 / (var * √var), mc4 / var ^ 2 - 3⟩

/-- `DistGig.mvsk`, `pyfeng/disthelper.py` lines 547-561. -/
noncomputable def mvsk (d : DistGig) : Mvsk :=
  mvskOfRaw (mnc kve d 1) (mnc kve d 2) (mnc kve d 3) (mnc kve d 4)

/-- The objective `cv2_err` of `DistGig.fit`, `pyfeng/disthelper.py` lines 588-593. -/
noncomputable def cv2Err (p varScaled eta : ℝ) : ℝ :=
  let r1 := kve (p + 1) eta / kve p eta
  let r2 := kve (p + 2) eta / kve p eta
  (r2 - r1 ^ 2) / r1 ^ 2 - varScaled

/-- `DistGig.fit` after the root search returned `eta`, `pyfeng/disthelper.py` lines 598-602. -/
noncomputable def fitWith (p mean eta : ℝ) : DistGig :=
  let r1 := kve (p + 1) eta / kve p eta
  let rho := mean / r1
  ⟨√(eta / rho), √(eta * rho), p⟩

/-- `DistGig.quad`, `pyfeng/disthelper.py` lines 639-655. -/
noncomputable def quad {ι : Type*} [Fintype ι] (d : DistGig) (z w : ι → ℝ) (wSum : ℝ) (correct : Bool) :
    (ι → ℝ) × (ι → ℝ) :=
  let (x, w0) := DistInvGauss.quad ⟨d.delta / d.gamma, d.delta ^ 2⟩ z w wSum
  let w1 := fun i => w0 i * x i ^ (d.p + 0.5)
  if correct then (x, fun i => w1 i / ∑ j, w1 j)
  else
    let ratio := (d.gamma / d.delta) ^ d.p / d.delta / √(2 / π) / kve d.p (d.gamma * d.delta)
    (x, fun i => w1 i * ratio)

end DistGig

/-! ## Generalized hyperbolic / normal inverse Gaussian -/

/-- The parameters of `DistGh`, `pyfeng/disthelper.py` lines 680-707 (without the cached quadrature). -/
structure DistGh where
  mu : ℝ
  beta : ℝ
  gamma : ℝ
  delta : ℝ
  p : ℝ

namespace DistGh

/-- `DistGh.mvsk`, `pyfeng/disthelper.py` lines 766-779, as a function of the four raw moments of the mixer. -/
noncomputable def mvskOfMixer (d : DistGh) (m1 m2 m3 m4 : ℝ) : Mvsk :=
  let mc2W := m2 - m1 ^ 2
  let mc3W := m3 - 3 * m2 * m1 + 2 * m1 ^ 3
  let mc4W := m4 - 4 * m3 * m1 + 6 * m2 * m1 ^ 2 - 3 * m1 ^ 4
  let mean := d.mu + d.beta * m1
  let mc2 := m1 + d.beta ^ 2 * mc2W
  let mc3 := 3 * d.beta * mc2W + d.beta ^ 3 * mc3W
  let mc4 := 3 * m2 + 6 * d.beta ^ 2 * (m3 - 2 * m1 * m2 + m1 ^ 3) + d.beta ^ 4 * mc4W
  ⟨mean, mc2, mc3 / (mc2 * √mc2), mc4 / mc2 ^ 2 - 3⟩

/-- `DistGh.mvsk_quad`, `pyfeng/disthelper.py` lines 794-804. -/
noncomputable def mvskQuad {ι : Type*} [Fintype ι] (d : DistGh) (xw ww : ι → ℝ) : Mvsk :=
  let a := fun i => d.mu + d.beta * xw i
  let mean := ∑ i, ww i * a i
  let c := fun i => a i - mean
  let mc2 := ∑ i, ww i * (c i ^ 2 + xw i)
  let mc3 := ∑ i, ww i * (c i ^ 3 + 3 * c i * xw i)
  let mc4 := ∑ i, ww i * (c i ^ 4 + 6 * c i ^ 2 * xw i + 3 * xw i ^ 2)
  ⟨mean, mc2, mc3 / (mc2 * √mc2), mc4 / mc2 ^ 2 - 3⟩

/-- `DistGh.mc4`, `pyfeng/disthelper.py` lines 806-814 (the variance is not scaled here). -/
noncomputable def mc4OfMvsk (x : Mvsk) : Mc4 :=
  ⟨x.mean, x.var, x.skew * (x.var * √x.var), (x.exkurt + 3) * x.var ^ 2⟩

/-- `DistGh.cdf`, `pyfeng/disthelper.py` lines 816-832. -/
noncomputable def cdf {ι : Type*} [Fintype ι] (d : DistGh) (x w : ι → ℝ) (y : ℝ) : ℝ :=
  ∑ i, ncdf ((y - d.mu - d.beta * x i) / √(x i)) * w i

/-- `DistNig.mvsk`, `pyfeng/disthelper.py` lines 888-911 (`alpha` of lines 709-712). -/
noncomputable def nigMvsk (d : DistGh) : Mvsk :=
  let alpha := √(d.gamma ^ 2 + d.beta ^ 2)
  ⟨d.mu + d.delta * d.beta / d.gamma, d.delta * alpha ^ 2 / d.gamma ^ 3,
    3 * d.beta / (alpha * √(d.delta * d.gamma)),
    3 * (1 + 4 * d.beta ^ 2 / alpha ^ 2) / (d.delta * d.gamma)⟩

end DistGh

/-! ## `price_vsk` -/

/-- `Bsm.price_vsk`, `pyfeng/bsm.py` lines 483-494. -/
noncomputable def Bsm.priceVsk (m : MParams) (texp : ℝ) : ℝ × ℝ × ℝ :=
  let r := DistLognormal.mvsk ⟨m.sigma * √texp, 1, 1⟩
  (r.var, r.skew, r.exkurt)

/-- `BsmDisp.price_vsk`, `pyfeng/bsm.py` lines 661-663. -/
noncomputable def BsmDisp.priceVsk (d : DParams) (texp : ℝ) : ℝ × ℝ × ℝ :=
  let r := Bsm.priceVsk (BsmDisp.toM d) texp
  (r.1 / d.beta, r.2.1 / d.beta ^ 3, r.2.2 / d.beta ^ 4)

end PyFENG
