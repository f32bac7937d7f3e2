import Verif.Model.Sabr
import Verif.Model.Dist
import Verif.Model.Params
import Verif.Model.Norm

/-!
# `pyfeng/sabr_int.py`: SABR prices as quadrature mixtures and one-dimensional integrals
-/

namespace PyFENG

open Real

namespace Sabr

/-- `SabrMixtureABC.correct_fwd`, `pyfeng/sabr_int.py` lines 33-34: `fwd_ratio /= np.sum(fwd_ratio*ww)` when the switch is on. -/
noncomputable def mixFwd {ι : Type*} [Fintype ι] (correct : Bool) (fr w : ι → ℝ) (i : ι) : ℝ :=
  if correct then fr i / ∑ j, fr j * w j else fr i

open Classical in
/-- `SabrMixtureABC.price`, `pyfeng/sabr_int.py` lines 22-54, from the nodes `(fwd_ratio, vol_ratio, ww)` returned by `cond_spot_sigma`; `none` stands for the failing
`assert np.isclose(np.sum(ww), 1)`. -/
noncomputable def mixPrice {ι : Type*} [Fintype ι] (m : Sabr) (correct : Bool) (fr vr w : ι → ℝ) (strike spot texp cp : ℝ) : Option ℝ :=
  let fwd := m.mp.forward spot texp
  let alpha := (m.vars fwd texp).alpha
  let kk := strike / fwd
  if npIsclose (∑ i, w i) 1 then
    some (fwd * ∑ i, ({ m with isFwd := true } : Sabr).basePrice none (alpha * vr i) kk (mixFwd correct fr w i) texp cp * w i)
  else none

/-- `SabrMixtureABC.mass_zero(spot, texp)` with `log=False`, `pyfeng/sabr_int.py` lines 56-66, 74-77, for a CEV base model (`Bsm` and `Norm` have no `mass_zero`): the
mixture of the CEV masses. -/
noncomputable def mixMass {ι : Type*} [Fintype ι] (m : Sabr) (correct : Bool) (fr vr w : ι → ℝ) (spot texp : ℝ) : ℝ :=
  let fwd := m.mp.forward spot texp
  let alpha := (m.vars fwd texp).alpha
  ∑ i, ((⟨alpha * vr i, m.beta, m.intr, m.divr, true⟩ : Cev).massZero (mixFwd correct fr w i) texp).getD 0 * w i

/-- The `log=True` branch of `SabrMixtureABC.mass_zero`, `pyfeng/sabr_int.py` lines 68-73, from the logarithms `lm` of the masses of the components. -/
noncomputable def mixMassLog {ι : Type*} [Fintype ι] [Nonempty ι] (lm w : ι → ℝ) : ℝ :=
  let logMass := fun i => log (w i) + lm i
  let logMax := Finset.univ.sup' Finset.univ_nonempty logMass
  logMax + log (∑ i, exp (logMass i - logMax))

/-- `SabrUncorrChoiWu2021.cond_spot_sigma`, `pyfeng/sabr_int.py` lines 106-114, on the Gauss-Hermite rule `(z, w)`; the forward ratios, volatility ratios and weights.
The assertion `np.isclose(self.rho, 0)` is a hypothesis of the theorems. -/
noncomputable def uncorrNodes {ι : Type*} [Fintype ι] (m : Sabr) (z w : ι → ℝ) (texp : ℝ) : (ι → ℝ) × (ι → ℝ) × (ι → ℝ) :=
  let vovn := m.vov * √texp
  let mv := avgvarMvsk vovn
  let q := (DistLognormal.fromMv mv.1 mv.2.1 1).quad z w
  (fun _ => 1, fun i => √(q.1 i), q.2)

/-- `SabrUncorrChoiWu2021.price`: `SabrMixtureABC.price` on these nodes. -/
noncomputable def uncorrPrice {ι : Type*} [Fintype ι] (m : Sabr) (correct : Bool) (z w : ι → ℝ) (strike spot texp cp : ℝ) : Option ℝ :=
  m.mixPrice correct (m.uncorrNodes z w texp).1 (m.uncorrNodes z w texp).2.1 (m.uncorrNodes z w texp).2.2 strike spot texp cp

/-- `SabrUncorrChoiWu2021.mass_zero`. -/
noncomputable def uncorrMass {ι : Type*} [Fintype ι] (m : Sabr) (correct : Bool) (z w : ι → ℝ) (spot texp : ℝ) : ℝ :=
  m.mixMass correct (m.uncorrNodes z w texp).1 (m.uncorrNodes z w texp).2.1 (m.uncorrNodes z w texp).2.2 spot texp

open Classical in
/-- The forward ratio of one node of `SabrMixtureChoi.cond_spot_sigma`, `pyfeng/sabr_int.py` lines 158-166, from the volatility ratio `sig_t` and the average variance;
`none`: for a negative `beta` the exception object is created but not raised, and the function fails on the unbound `fwd_ratio`. -/
noncomputable def choiFwd (m : Sabr) (alpha texp sigT avgvar : ℝ) : Option ℝ :=
  let rhoAlpha := m.rho * alpha
  if npIsclose m.beta 0 then some (1 + (rhoAlpha / m.vov) * (sigT - 1))
  else if m.beta > 0 then some (max (exp (rhoAlpha * ((sigT - 1) / m.vov - 0.5 * rhoAlpha * texp * avgvar))) 1e-20)
  else none

/-- `SabrMixtureChoi.cond_spot_sigma`, `pyfeng/sabr_int.py` lines 143-167 (`sln_lam = 5/6`), on the outer rule `(z0, w0)` and the inner rule `(z1, w1)`, before the forward
ratio: `(sig_t, avgvar, r_vol, weight)` at node `(i, j)`. -/
noncomputable def choiNode {ι κ : Type*} [Fintype ι] [Fintype κ] (m : Sabr) (z0 w0 : ι → ℝ) (z1 w1 : κ → ℝ) (fwd texp : ℝ) (p : ι × κ) : ℝ × ℝ × ℝ × ℝ :=
  let v := m.vars fwd texp
  let q0 := (⟨v.vovn, 1, 1⟩ : DistLognormal).quad z0 w0
  let mv := condAvgvarMvsk v.vovn (z0 p.1)
  let q1 := (DistLognormal.fromMv mv.1 mv.2.1 (5 / 6)).quad z1 w1
  (q0.1 p.1, q1.1 p.2, v.rhoc * √(q1.1 p.2), q0.2 p.1 * q1.2 p.2)

/-- `SabrMixtureChoi.price`: `SabrMixtureABC.price` on these nodes. -/
noncomputable def choiPrice {ι κ : Type*} [Fintype ι] [Fintype κ] (m : Sabr) (correct : Bool) (z0 w0 : ι → ℝ) (z1 w1 : κ → ℝ) (strike spot texp cp : ℝ) : Option ℝ :=
  let fwd := m.mp.forward spot texp
  let nd := m.choiNode z0 w0 z1 w1 fwd texp
  let fr := fun p => m.choiFwd (m.vars fwd texp).alpha texp (nd p).1 (nd p).2.1
  if ∀ p, (fr p).isSome then
    m.mixPrice correct (fun p => (fr p).getD 0) (fun p => (nd p).2.2.1) (fun p => (nd p).2.2.2) strike spot texp cp
  else none

/-- The `__init__` of `SabrNormAnalytic` and `SabrNormEllipeInt`, `pyfeng/sabr_int.py` lines 184-199, 257-272:
`super().__init__(sigma, vov, rho, beta=0, intr=intr, divr=divr, is_fwd=is_fwd)` where the inherited initialiser is that of `SabrParams`. -/
noncomputable def normIntInit (sigma vov rho intr divr : ℝ) (isFwd : Bool) : Except PyErr PyObj :=
  constructPos sabrParams [.num sigma, .num vov, .num rho] [("beta", .num 0), ("intr", .num intr), ("divr", .num divr), ("is_fwd", .bool isFwd)]

/-- `scipy.special.ellipe(m)`: the complete elliptic integral of the second kind. -/
noncomputable def ellipe (m : ℝ) : ℝ := ∫ t in (0:ℝ)..(π / 2), √(1 - m * sin t ^ 2)

/-- The variables `(xi, k, V, u0)` of `SabrNormAnalytic.price` and `SabrNormEllipeInt.price`, `pyfeng/sabr_int.py` lines 203-209, 326-332. -/
noncomputable def niVars (m : Sabr) (strike fwd texp : ℝ) : ℝ × ℝ × ℝ × ℝ :=
  let rhoc2 := 1 - m.rho ^ 2
  let xi := m.vov * √texp / 2
  let k := m.vov / m.sigma * (strike - fwd) + m.rho
  let V := √(k ^ 2 + rhoc2)
  let u0 := arsinh |(m.rho * V - k) / rhoc2| / (2 * xi)
  (xi, k, V, u0)

/-- The correction sum of `SabrNormAnalytic.price` over the generalised Gauss-Laguerre rule `vs` (nodes, weights), `pyfeng/sabr_int.py` lines 220-237. -/
noncomputable def niCorr (rho xi k V u0 A B : ℝ) (vs : List (ℝ × ℝ)) : ℝ :=
  let rhoc2 := 1 - rho ^ 2
  (vs.map fun q =>
    let uu := √(u0 ^ 2 + 2 * q.1)
    let w := q.2 / (q.1 * √q.1) / uu
    let ch := cosh (2 * xi * uu)
    let diff := √(max (rhoc2 * (ch ^ 2 - 1 - (k - rho * ch) ^ 2)) 0)
    let vp := rho * k + rhoc2 * ch + diff
    let fn := (2 / π) * √(vp / V) * ellipe (min (2 * diff / vp) 1) - 1 - xi * (uu - u0) * (A + B * xi * (uu - u0))
    let base := millsRatio (uu + xi) + millsRatio (uu - xi)
    fn * base * w).sum

/-- `SabrNormAnalytic.price`, `pyfeng/sabr_int.py` lines 201-242; `corr` is the switch `quad_correction`. -/
noncomputable def niPrice (m : Sabr) (corr : Bool) (vs : List (ℝ × ℝ)) (strike spot texp cp : ℝ) : ℝ :=
  let fwd := m.mp.fwd spot texp
  let df := m.mp.df texp
  let (xi, k, V, u0) := m.niVars strike fwd texp
  let tmp1 := |m.rho - k / V|
  let tmp2 := 1 - m.rho * k / V
  let A := 0.75 * tmp1
  let B := 0.75 * (tmp2 - 5 / 16 * tmp1 ^ 2)
  let r0 := millsRatio (u0 - xi)
  let r1 := millsRatio u0
  let r2 := millsRatio (u0 + xi)
  let optVal := ((r0 - r2) + A * (r0 + r2 - 2 * r1) + 2 * B * (r0 - r2 - 2 * xi * (1 - u0 * r1))) / xi
  let optVal := if corr then optVal + niCorr m.rho xi k V u0 A B vs else optVal
  df * (optVal * (0.5 * m.sigma * √(texp * V) * exp (-0.5 * xi ^ 2) * npdf u0) + max (cp * (fwd - strike)) 0)

/-- `SabrNormEllipeInt.hh_xi`, `pyfeng/sabr_int.py` lines 274-293. -/
noncomputable def hhXi (uu k xi rho : ℝ) : ℝ :=
  let rhoc2 := 1 - rho ^ 2
  let ch := cosh (2 * xi * uu)
  let diff := √(max (rhoc2 * (ch ^ 2 - 1 - (k - rho * ch) ^ 2)) 0)
  let vp := max (rho * k + rhoc2 * ch + diff) 0
  √vp * ellipe (min (2 * diff / vp) 1)

/-- The integrand of `SabrNormEllipeInt.price`, `pyfeng/sabr_int.py` lines 334-337. -/
noncomputable def eiIntegrand (rho k xi uu : ℝ) : ℝ :=
  hhXi uu k xi rho * (npdf uu * (millsRatio (uu + xi) + millsRatio (uu - xi)))

/-- `SabrNormEllipeInt.price`, `pyfeng/sabr_int.py` lines 322-345.  `quad f a b` is the number returned by `scipy.integrate.quad`. -/
noncomputable def eiPrice (m : Sabr) (quad : (ℝ → ℝ) → ℝ → ℝ → ℝ) (strike spot texp cp : ℝ) : ℝ :=
  let fwd := m.mp.fwd spot texp
  let df := m.mp.df texp
  let (xi, k, _, u0) := m.niVars strike fwd texp
  let optVal := quad (eiIntegrand m.rho k xi) u0 √(u0 ^ 2 + 73)
  df * (optVal * (m.sigma * √texp / π * exp (-0.5 * xi ^ 2)) + max (cp * (fwd - strike)) 0)

end Sabr

end PyFENG
