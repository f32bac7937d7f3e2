import Verif.Model.Bsm
import Verif.Model.Dist
import Mathlib.Analysis.SpecialFunctions.Pow.Complex
import Mathlib.Analysis.SpecialFunctions.Complex.Log
import Mathlib.Analysis.SpecialFunctions.Gamma.Basic

/-!
# Model of the subordinated Brownian motions (`pyfeng/subord_bm.py`, `pyfeng/params.py`) and of CGMY and
GARCH moment generating functions (`pyfeng/sv_fft.py`)

`logp_mgf` is called with complex arguments by the FFT and COS pricers; `np.log1p`, `np.sqrt`, `np.power` of complex
arguments are the principal branches.
-/

namespace PyFENG

open Real

/-- Attributes of a `VarGammaParams`/`NigParams` object, `pyfeng/params.py` lines 408-411, 510-513, including the
precomputed `_mgf1_correction`. -/
structure SubParams where
  sigma : ℝ
  nu : ℝ
  theta : ℝ
  mgf1 : ℝ
  intr : ℝ
  divr : ℝ
  isFwd : Bool

/-- The constructor arguments of `VarGammaParams`/`NigParams`. -/
structure SubArgs where
  sigma : ℝ
  nu : ℝ
  theta : ℝ
  intr : ℝ
  divr : ℝ
  isFwd : Bool

namespace VarGamma

/-- `VarGammaParams.__post_init__`, `pyfeng/params.py` lines 413-422. -/
noncomputable def init (a : SubArgs) : Except String SubParams :=
  let arg := 1 - a.theta * a.nu - 0.5 * a.sigma ^ 2 * a.nu
  if arg ≤ 0 then .error "ValueError: VarGamma constraint violated"
  else .ok ⟨a.sigma, a.nu, a.theta, -log arg, a.intr, a.divr, a.isFwd⟩

/-- `VarGammaABC.logp_mgf`, `pyfeng/subord_bm.py` lines 51-54. -/
noncomputable def logpMgf (m : SubParams) (uu : ℂ) (texp : ℝ) : ℂ :=
  let volvar : ℂ := m.nu * m.sigma ^ 2
  let rv := -(m.mgf1 : ℂ) * uu - Complex.log (1 + (-(m.theta : ℂ) * m.nu - 0.5 * volvar * uu) * uu)
  Complex.exp (texp / m.nu * rv)

/-- The same method on a real argument. -/
noncomputable def logpMgfR (m : SubParams) (uu texp : ℝ) : ℝ :=
  let volvar := m.nu * m.sigma ^ 2
  let rv := -m.mgf1 * uu - log (1 + (-m.theta * m.nu - 0.5 * volvar * uu) * uu)
  exp (texp / m.nu * rv)

/-- `VarGammaABC.logp_cum4`, `pyfeng/subord_bm.py` lines 82-89. -/
noncomputable def logpCum4 (m : SubParams) (texp : ℝ) : ℝ × ℝ × ℝ × ℝ :=
  let sig2 := m.sigma ^ 2
  let nth2 := m.nu * m.theta ^ 2
  let omega := -m.mgf1 / m.nu
  let c2 := texp * (sig2 + nth2)
  let c3 := texp * m.nu * m.theta * (3 * sig2 + 2 * nth2)
  let c4 := 3 * texp * m.nu * (sig2 ^ 2 + 4 * nth2 * sig2 + 2 * nth2 ^ 2)
  let c1 := texp * (omega + m.theta)
  (c1, c2, c3, c4)

/-- `VarGammaParams.to_sv_param`, `pyfeng/params.py` lines 449-463 (and `sv_params_dict`, lines 424-446). -/
noncomputable def toSvParam (sigma theta nu : ℝ) : Except String (ℝ × ℝ × ℝ) :=
  let cond := nu * (2 * theta + sigma ^ 2)
  if cond > 1 then .error "ValueError: Cannot convert to SV parametrization"
  else
    let vov := √nu
    let c := 1 - √(1 - cond)
    let denom := √(c ^ 2 + sigma ^ 2 * nu)
    .ok (denom / vov, c / denom, vov)

/-- `VarGammaParams.to_orig_param` and `NigParams.to_orig_param`, `pyfeng/params.py` lines 467-472, 556-561:
`(sigma, theta, nu)`. -/
noncomputable def toOrigParam (sigmaBs rho vov : ℝ) : ℝ × ℝ × ℝ :=
  let nu := vov ^ 2
  let sigma := √(1 - rho ^ 2) * sigmaBs
  let theta := rho * sigmaBs / vov - 0.5 * sigmaBs ^ 2
  (sigma, theta, nu)

end VarGamma

namespace Nig

/-- `NigParams.__post_init__`, `pyfeng/params.py` lines 515-524. -/
noncomputable def init (a : SubArgs) : Except String SubParams :=
  let arg := 1 - 2 * a.theta * a.nu - a.sigma ^ 2 * a.nu
  if arg ≤ 0 then .error "ValueError: NIG constraint violated"
  else .ok ⟨a.sigma, a.nu, a.theta, 1 - √arg, a.intr, a.divr, a.isFwd⟩

/-- `NigABC.logp_mgf`, `pyfeng/subord_bm.py` lines 136-139; `np.sqrt` of a complex number is the principal root
`z^(1/2)`. -/
noncomputable def logpMgf (m : SubParams) (uu : ℂ) (texp : ℝ) : ℂ :=
  let volvar : ℂ := m.nu * m.sigma ^ 2
  let rv := -(m.mgf1 : ℂ) * uu + 1 - (1 + (-2 * (m.theta : ℂ) * m.nu - volvar * uu) * uu) ^ (1 / 2 : ℂ)
  Complex.exp (texp / m.nu * rv)

/-- The same method on a real argument. -/
noncomputable def logpMgfR (m : SubParams) (uu texp : ℝ) : ℝ :=
  let volvar := m.nu * m.sigma ^ 2
  let rv := -m.mgf1 * uu + 1 - √(1 + (-2 * m.theta * m.nu - volvar * uu) * uu)
  exp (texp / m.nu * rv)

/-- `NigABC.logp_cum4`, `pyfeng/subord_bm.py` lines 163-170. -/
noncomputable def logpCum4 (m : SubParams) (texp : ℝ) : ℝ × ℝ × ℝ × ℝ :=
  let sig2 := m.sigma ^ 2
  let nth2 := m.nu * m.theta ^ 2
  let omega := -m.mgf1 / m.nu
  let c2 := texp * (sig2 + nth2)
  let c3 := 3 * m.nu * m.theta * c2
  let c4 := 3 * m.nu * c2 * (sig2 + 5 * nth2)
  let c1 := texp * (omega + m.theta)
  (c1, c2, c3, c4)

/-- `NigParams.to_sv_param`, `pyfeng/params.py` lines 543-553 (and `sv_params_dict`, lines 526-540). -/
noncomputable def toSvParam (sigma theta nu : ℝ) : ℝ × ℝ × ℝ :=
  let vov := √nu
  let cond := nu * (2 * theta + sigma ^ 2)
  let c := 1 - √(1 - cond)
  let denom := √(c ^ 2 + sigma ^ 2 * nu)
  (denom / vov, c / denom, vov)

end Nig

/-! ## Quadrature pricer shared by `VarGammaQuad` and `ExpNigQuad` -/

/-- `VarGammaQuad.price`/`ExpNigQuad.price`, `pyfeng/subord_bm.py` lines 206-234, for a scalar strike; `(var, w)` is the
result of `self.quad(texp, self.nu)`. -/
noncomputable def SubParams.priceQuad {ι : Type*} [Fintype ι] (m : SubParams) (var w : ι → ℝ)
    (strike spot texp cp : ℝ) : ℝ :=
  let mp : MParams := ⟨m.sigma, m.intr, m.divr, m.isFwd⟩
  let fwd := mp.fwd spot texp
  let df := mp.df texp
  let omegaT := -texp / m.nu * m.mgf1
  let r0 := fun k => exp (omegaT + (m.theta + 0.5 * m.sigma ^ 2) * var k)
  let ratio := fun k => r0 k / ∑ j, w j * r0 j
  let volBsm := fun k => m.sigma * √(var k / texp)
  let kf := strike / fwd
  df * ∑ k, w k * (fwd * Bsm.priceFormula kf (ratio k) (volBsm k) texp cp 0 0 false)

/-- `VarGammaQuad.price` with `VarGammaQuad.quad`, `pyfeng/subord_bm.py` lines 202-204, on top of the generalized Laguerre
rule `(x, w, w_sum)` for `alpha = texp/nu - 1`. -/
noncomputable def VarGamma.quadPrice {ι : Type*} [Fintype ι] (m : SubParams) (x w : ι → ℝ) (wSum : ℝ)
    (strike spot texp cp : ℝ) : ℝ :=
  let q := DistGamma.quad ⟨texp / m.nu, 1 / m.nu⟩ x w wSum
  m.priceQuad q.1 q.2 strike spot texp cp

/-- `ExpNigQuad.price` (an alias of `VarGammaQuad.price`, line 262) with `ExpNigQuad.quad`, `pyfeng/subord_bm.py` lines 257-259,
on top of the Hermite rule `(z, w, w_sum)`. -/
noncomputable def Nig.quadPrice {ι : Type*} [Fintype ι] (m : SubParams) (z w : ι → ℝ) (wSum : ℝ)
    (strike spot texp cp : ℝ) : ℝ :=
  let q := DistInvGauss.quad ⟨texp, texp ^ 2 / m.nu⟩ z w wSum
  m.priceQuad q.1 q.2 strike spot texp cp

/-! ## CGMY -/

/-- Attributes of a `CgmyParams` object, `pyfeng/params.py` lines 640-649. -/
structure CgmyParams where
  C : ℝ
  G : ℝ
  M : ℝ
  Y : ℝ
  gamYC : ℝ
  MpowY : ℝ
  GpowY : ℝ
  mgf1 : ℝ

namespace Cgmy

/-- `CgmyParams.__post_init__`, `pyfeng/params.py` lines 651-670. -/
noncomputable def init (C G M Y : ℝ) : Except String CgmyParams :=
  if C ≤ 0 then .error "ValueError: C must be positive."
  else if G ≤ 0 then .error "ValueError: G must be positive."
  else if M ≤ 1 then .error "ValueError: M must be greater than 1"
  else if Y ≥ 2 then .error "ValueError: Y must be less than 2."
  else .ok ⟨C, G, M, Y, Real.Gamma (-Y) * C, M ^ Y, G ^ Y, (M - 1) ^ Y - M ^ Y + (G + 1) ^ Y - G ^ Y⟩

/-- `CgmyABC.logp_mgf`, `pyfeng/sv_fft.py` lines 286-288. -/
noncomputable def logpMgf (m : CgmyParams) (uu : ℂ) (texp : ℝ) : ℂ :=
  let rv := ((m.M : ℂ) - uu) ^ (m.Y : ℂ) - m.MpowY + ((m.G : ℂ) + uu) ^ (m.Y : ℂ) - m.GpowY
  Complex.exp (m.gamYC * texp * (-(m.mgf1 : ℂ) * uu + rv))

end Cgmy

/-! ## GARCH diffusion -/

/-- Parameters of `GarchParams`, `pyfeng/params.py` lines 340-343. -/
structure GarchParams where
  sigma : ℝ
  vov : ℝ
  rho : ℝ
  mr : ℝ
  theta : ℝ

namespace Garch

/-- `GarchFftWuMaWang2012.logp_mgf`, `pyfeng/sv_fft.py` lines 384-405, on a real argument. -/
noncomputable def logpMgfR (m : GarchParams) (uu texp : ℝ) : ℝ :=
  let zeta := uu - uu ^ 2
  let uuEtc := m.rho * m.vov * √m.theta * uu
  let gg := m.mr - 3 / 2 * uuEtc
  let dd := √(gg ^ 2 + 2 * m.vov ^ 2 * m.theta * zeta)
  let ddmgg := 2 * m.vov ^ 2 * m.theta * zeta / (dd + gg)
  let avgexp := -(exp (-dd * texp) - 1) / dd
  let tmp := 1 - 0.5 * ddmgg * avgexp
  let logTmp := log tmp
  let C := -(m.mr - 0.5 * uuEtc) * ddmgg * texp - (m.mr + 0.5 * uuEtc) * logTmp
  let term3 := 2 * m.vov ^ 2 * m.theta * zeta + ddmgg ^ 2 * exp (-dd * texp) - 4 * dd ^ 2 * avgexp
  let C := C - (term3 * ddmgg * texp / (2 * dd) / tmp) / 4
  let D := 0.5 * avgexp / tmp * zeta
  exp (C * (0.5 / m.vov ^ 2) - D * m.sigma)

/-- `GarchFftWuMaWang2012.logp_mgf_old`, `pyfeng/sv_fft.py` lines 339-365, on a real argument. -/
noncomputable def logpMgfOldR (m : GarchParams) (uu texp : ℝ) : ℝ :=
  let zeta := -0.5 * (uu - uu ^ 2)
  let gg := m.mr - 3 / 2 * m.rho * m.vov * √m.theta * uu
  let dd := √(gg ^ 2 - 4 * m.vov ^ 2 * zeta * m.theta)
  let num2 := 2 * dd - (dd - gg) * (1 - exp (-dd * texp))
  let den2 := 2 * dd
  let term2Log := 2 * log (num2 / den2)
  let term2 := -(1 / (2 * m.theta * m.vov ^ 2)) *
    (m.mr * m.theta - 1 / 2 * m.rho * m.vov * uu * m.theta ^ (3 / 2 : ℝ)) * (term2Log + (dd - gg) * texp)
  let num3 := (dd ^ 2 - gg ^ 2) * (dd - gg) * texp + (dd - gg) ^ 3 * exp (-dd * texp) * texp
    - 4 * dd * (dd - gg) * (1 - exp (-dd * texp))
  let den3 := 2 * dd - (dd - gg) * (1 - exp (-dd * texp))
  let term3Log := -4 * gg * log (num2 / den2)
  let term3 := -(1 / (8 * m.vov ^ 2)) * (term3Log + num3 / den3)
  let C := term2 + term3
  let num := 2 * zeta * (1 - exp (-dd * texp))
  let den := 2 * dd - (dd - gg) * (1 - exp (-dd * texp))
  let D := num / den
  exp (C + D * m.sigma)

end Garch

end PyFENG
