import Verif.Model.SabrInt
import Verif.Model.HestonMc
import Verif.Model.Cev

/-!
# Model of `pyfeng/sabr_mc.py`: simulation of the SABR model

One path at a time, over an arbitrary monad of random draws (see `Rng`); the index of the generator (`spawn`) is not modelled.
-/

namespace PyFENG

open Real

namespace Sabr

variable {M : Type → Type} [Monad M]

/-- `SabrMcABC.vol_step`, `pyfeng/sabr_mc.py` lines 23-40. -/
noncomputable def volStep (R : Rng M) (m : Sabr) (dt : ℝ) (isLog : Bool) : M ℝ := do
  let vovn := m.vov * √dt
  let zz ← R.normal
  pure (if isLog then vovn * (zz - vovn / 2) else exp (vovn * (zz - vovn / 2)))

open Classical in
/-- `SabrMcABC.draw_log_return`, `pyfeng/sabr_mc.py` lines 57-75. -/
noncomputable def drawLogReturn (R : Rng M) (m : Sabr) (dt sigma0 sigmaT avgvar : ℝ) : Except McErr (M ℝ) :=
  if npIsclose m.beta 1 then .ok (do
    let lnM := (m.intr - m.divr) * dt + m.rho / m.vov * (sigmaT - sigma0) - 0.5 * avgvar * dt
    let lnSig := √((1 - m.rho ^ 2) * dt * avgvar)
    let zn ← R.normal
    pure (lnM + lnSig * zn))
  else .error .assertionError

/-- The loop of `SabrMcABC.cond_spot_sigma`, `pyfeng/sabr_mc.py` lines 97-99; the state is `(sigma_t, avgvar)`. -/
noncomputable def mcLoop (step : ℝ → ℝ → M (ℝ × ℝ)) : List ℝ → ℝ × ℝ → M (ℝ × ℝ)
  | [], s => pure s
  | dt :: dts, s => do
    let r ← step dt s.1
    mcLoop step dts (r.1, s.2 + r.2 * dt)

open Classical in
/-- The value returned from the final state, `pyfeng/sabr_mc.py` lines 101-113: `(spot ratio, sigma ratio)`. -/
noncomputable def mcResult (m : Sabr) (texp fwd : ℝ) (s : ℝ × ℝ) : ℝ × ℝ :=
  let avgvar := s.2 / texp
  let v := m.vars fwd texp
  let volCond := v.rhoc * √avgvar
  let rhoAlpha := m.rho * v.alpha
  let spotCond :=
    if npIsclose m.beta 0 then 1 + rhoAlpha / m.vov * (s.1 - 1)
    else exp (rhoAlpha * (1.0 / m.vov * (s.1 - 1) - 0.5 * rhoAlpha * avgvar * texp))
  (spotCond, volCond)

/-- `SabrMcABC.cond_spot_sigma`, `pyfeng/sabr_mc.py` lines 77-113; `step dt sigma_t` is `cond_states_step(dt, sigma_t)`. -/
noncomputable def mcCondSpotSigma (m : Sabr) (step : ℝ → ℝ → M (ℝ × ℝ)) (tobs : List ℝ) (texp fwd : ℝ) : M (ℝ × ℝ) := do
  let s ← mcLoop step (Heston.dts tobs) (1, 0)
  pure (m.mcResult texp fwd s)

/-- The forward ratios of the paths after `if self.correct_fwd: fwd_ratio /= np.mean(fwd_ratio)`, `pyfeng/sabr_mc.py` lines 122-123. -/
noncomputable def mcFwd {ι : Type*} [Fintype ι] (correct : Bool) (fr : ι → ℝ) (i : ι) : ℝ :=
  if correct then fr i / ((∑ j, fr j) / Fintype.card ι) else fr i

open Classical in
/-- `SabrMcABC.price`, `pyfeng/sabr_mc.py` lines 115-138, from the ratios `(fr, vr)` of the paths returned by `cond_spot_sigma`. -/
noncomputable def mcPrice {ι : Type*} [Fintype ι] (m : Sabr) (correct : Bool) (fr vr : ι → ℝ) (strike spot texp cp : ℝ) : ℝ :=
  let fwd := m.mp.forward spot texp
  let alpha := (m.vars fwd texp).alpha
  let kk := strike / fwd
  let ratio := mcFwd correct fr
  let ind := fun i => if m.beta > 0 then ratio i > 1e-16 else ratio i > -999
  fwd * (∑ i with ind i, ({ m with isFwd := true } : Sabr).basePrice none (alpha * vr i) kk (ratio i) texp cp) / Fintype.card ι

/-- `SabrMcTimeDisc.cond_states_step_trapez`, `pyfeng/sabr_mc.py` lines 150-154. -/
noncomputable def stepTrapez (R : Rng M) (m : Sabr) (dt sigma0 : ℝ) : M (ℝ × ℝ) := do
  let r ← volStep R m dt false
  let sigmaT := sigma0 * r
  pure (sigmaT, (sigma0 ^ 2 + sigmaT ^ 2) / 2)

/-- `SabrMcTimeDisc.cond_states_step_chen_2012`, `pyfeng/sabr_mc.py` lines 156-166. -/
noncomputable def stepChen (R : Rng M) (m : Sabr) (dt sigma0 : ℝ) : M (ℝ × ℝ) := do
  let vovn := m.vov * √dt
  let z ← R.normal
  let zhat := z - vovn / 2
  let sigmaT := sigma0 * exp (vovn * zhat)
  let mv := condAvgvarMvsk vovn zhat
  let sig := √(log (1 + mv.2.1))
  let z2 ← R.normal
  pure (sigmaT, sigma0 ^ 2 * mv.1 * exp (sig * (z2 - sig / 2)))

/-- `SabrMcTimeDisc.cond_states_step`, `pyfeng/sabr_mc.py` lines 168-178.  The first `vol_step` is drawn and discarded; for another scheme the `ValueError` is created but not raised, so `avgvar` is unbound. -/
noncomputable def mcStepTd (R : Rng M) (m : Sabr) (scheme : ℤ) (dt sigma0 : ℝ) : Except Heston.SchemeErr (M (ℝ × ℝ)) :=
  if scheme = 0 then .ok (do
    let _ ← volStep R m dt false
    stepTrapez R m dt sigma0)
  else if scheme = 1 then .ok (do
    let _ ← volStep R m dt false
    stepChen R m dt sigma0)
  else .error .unboundLocal

/-- `SabrMcTimeDisc.vol_paths`, `pyfeng/sabr_mc.py` lines 181-201, for one path whose Brownian values at the normalised times `tobs / tobs[-1]` are `b`: the volatility path (with the value at time zero) and `log_rn_deriv`. -/
noncomputable def volPathMu (m : Sabr) (tobs b : List ℝ) (mu : ℝ) : List ℝ × ℝ :=
  let texp := tobs.getLastD 0
  let vovn := m.vov * √texp
  let logRn := if mu = 0 then 0 else -mu * (b.getLastD 0 + 0.5 * mu)
  (1 :: List.zipWith (fun x t => exp (vovn * (x + (mu - 0.5 * vovn) * (t / texp)))) b tobs, logRn)

open Classical in
/-- The value returned by `SabrMcTimeDisc.cond_spot_sigma_volpath`, `pyfeng/sabr_mc.py` lines 215-231, from the last value of the path and its Simpson average of squares
`int_var`. -/
noncomputable def volpathResult (m : Sabr) (texp sigma0 sigmaFinal intVar : ℝ) : ℝ × ℝ :=
  let rhoc := √(1 - m.rho ^ 2)
  let rhoSigma := m.rho * sigma0
  let spotCond :=
    if npIsclose m.beta 0 then rhoSigma / m.vov * (sigmaFinal - 1)
    else exp (rhoSigma * (1.0 / m.vov * (sigmaFinal - 1) - 0.5 * rhoSigma * intVar * texp))
  (spotCond, rhoc * √intVar)

open Classical in
/-- `SabrMcTimeDisc.mass_zero`, `pyfeng/sabr_mc.py` lines 233-265, with `log=False`, from the ratios `(fr, vr)` of the paths. -/
noncomputable def mcMass {ι : Type*} [Fintype ι] (m : Sabr) (fr vr : ι → ℝ) (spot texp : ℝ) : Except McErr ℝ :=
  if ¬ (0 < m.beta ∧ m.beta < 1) then .error .assertionError
  else if ¬ npIsclose m.rho 0 then .error .assertionError
  else
    let fwd := m.mp.forward spot texp
    let alpha := (m.vars fwd texp).alpha
    if ¬ ∀ i, npIsclose (fr i) 1 then .error .assertionError
    else .ok ((∑ i, ((⟨alpha * vr i, m.beta, m.intr, m.divr, true⟩ : Cev).massZero 1 texp).getD 0) / Fintype.card ι)

/-- The `log=True` branch of `SabrMcTimeDisc.mass_zero`, `pyfeng/sabr_mc.py` lines 256-261, from the logarithms of the masses of the paths (`log_rn_deriv = 0`). -/
noncomputable def mcMassLog {ι : Type*} [Fintype ι] [Nonempty ι] (lm : ι → ℝ) : ℝ :=
  let logMax := Finset.univ.sup' Finset.univ_nonempty lm
  logMax + log ((∑ i, exp (lm i - logMax)) / Fintype.card ι)

/-! ### `SabrMcCai2017Exact` -/

/-- `SabrMcCai2017Exact.cond_invavgvar_mgf`, `pyfeng/sabr_mc.py` lines 316-335 (complex argument; numpy's principal square root and logarithm). -/
noncomputable def condInvavgvarMgf (uu : ℂ) (vovn sigmaT : ℝ) : ℂ :=
  let x := Real.log sigmaT
  let lam := -uu * (vovn : ℂ) ^ 2
  let z := 0.5 * (sigmaT : ℂ) + (0.5 + lam) / sigmaT
  let phi := Complex.log (z + (z ^ 2 - 1) ^ (1 / 2 : ℂ))
  Complex.exp (((x : ℂ) ^ 2 - phi ^ 2) / (2 * (vovn : ℂ) ^ 2))

/-- `SabrMcCai2017Exact.cond_invavgvar_cdf_laplace`, `pyfeng/sabr_mc.py` lines 337-354. -/
noncomputable def condInvavgvarCdfLaplace (theta : ℂ) (vovn sigmaT : ℝ) : ℂ := condInvavgvarMgf (-theta) vovn sigmaT / theta

/-- `SabrMcCai2017Exact._init_euler_coefs`, `pyfeng/sabr_mc.py` lines 283-286: the binomial weights. -/
noncomputable def combCoef (mEuler : ℕ) (j : ℕ) : ℝ := (mEuler.choose j : ℝ) * 0.5 ^ mEuler

/-- `SabrMcCai2017Exact.inv_laplace`, `pyfeng/sabr_mc.py` lines 356-382, for the transform `F` (`cond_invavgvar_cdf_laplace` at the given `vovn`, `sigma_t`). -/
noncomputable def invLaplaceSum (F : ℂ → ℂ) (mInv : ℝ) (mEuler nEuler : ℕ) (u : ℝ) : ℝ :=
  let ss := fun j : ℕ => (F (((mInv : ℂ) - 2 * Complex.I * π * j) / (2 * u))).re
  let term1 := 0.5 * ss 0
  let cum := fun k : ℕ => ∑ j ∈ Finset.range (k + 1), (if j % 2 = 1 then -ss j else ss j)
  let term2 := ∑ j ∈ Finset.range (mEuler + 1), combCoef mEuler j * cum (nEuler + j)
  exp (mInv / 2) / u * (-term1 + term2)

/-- `SabrMcCai2017Exact.inv_laplace`, `pyfeng/sabr_mc.py` lines 356-382. -/
noncomputable def invLaplace (mInv : ℝ) (mEuler nEuler : ℕ) (u vovn sigmaT : ℝ) : ℝ :=
  invLaplaceSum (fun theta => condInvavgvarCdfLaplace theta vovn sigmaT) mInv mEuler nEuler u

/-- `SabrMcCai2017Exact.draw_cond_avgvar`, `pyfeng/sabr_mc.py` lines 384-421; `solve F u` is the point returned by `brentq` for the equation `F(x) = u` on `[1e-7, 1e5]`. -/
noncomputable def drawCondAvgvar (R : Rng M) (solve : (ℝ → ℝ) → ℝ → ℝ) (F : ℝ → ℝ → ℝ → ℝ) (m : Sabr) (dt sigmaT : ℝ) : M ℝ := do
  let vovn := m.vov * √dt
  let uu ← R.uniform
  pure (1 / solve (fun x => F x vovn sigmaT) uu)

/-- `SabrMcCai2017Exact.cond_states_step`, `pyfeng/sabr_mc.py` lines 423-429. -/
noncomputable def stepCai (R : Rng M) (solve : (ℝ → ℝ) → ℝ → ℝ) (F : ℝ → ℝ → ℝ → ℝ) (m : Sabr) (dt sigma0 : ℝ) : M (ℝ × ℝ) := do
  let r ← volStep R m dt false
  let a ← drawCondAvgvar R solve F m dt r
  pure (r * sigma0, sigma0 ^ 2 * a)

/-- `A0` of `central_chi2_cdf` and `sabr_chi2_cdf`, `pyfeng/sabr_mc.py` lines 477 and 513. -/
noncomputable def caiA0 (beta VT spot : ℝ) : ℝ := 1 / VT * (spot ^ (1 - beta) / (1 - beta)) ^ 2

/-- `SabrMcCai2017Exact.central_chi2_cdf`, `pyfeng/sabr_mc.py` lines 463-478. -/
noncomputable def centralChi2Cdf (beta VT spot : ℝ) : ℝ := gammaInc (1 / (1 - beta) / 2) (caiA0 beta VT spot / 2)

/-- `SabrMcCai2017Exact.C0_func`, `pyfeng/sabr_mc.py` lines 481-495. -/
noncomputable def caiC0 (VT beta u : ℝ) : ℝ := 1 / VT * u ^ (2 * (1 - beta)) / (1 - beta) ^ 2

/-- The state of the loop of `chi2_cdf_appr`: `(cdf, k, t, y, u)`. -/
structure DingState where
  cdf : ℝ
  k : ℕ
  t : ℝ
  y : ℝ
  u : ℝ

/-- One turn of the loop of `chi2_cdf_appr`, `pyfeng/sabr_mc.py` lines 537-551: `none` when it stops. -/
noncomputable def dingStep (x sigma l : ℝ) (s : DingState) : Option DingState :=
  if s.k ≥ 1 ∧ sigma + 2 * s.k > x ∧ s.t * x / (sigma + 2 * s.k - x) ≤ 1e-7 then none
  else
    let r : ℝ × ℝ × ℝ :=
      if s.k = 0 then
        let t := 1 / Real.Gamma (sigma / 2 + 1) * (x / 2) ^ (sigma / 2) * exp (-x / 2)
        let y := exp (-l / 2)
        (t, y, y)
      else
        let t := s.t * x / (sigma + 2 * s.k)
        let u := s.u * l / (2 * s.k)
        (t, s.y + u, u)
    some ⟨s.cdf + r.2.1 * r.1, s.k + 1, r.1, r.2.1, r.2.2⟩

/-- The loop `while True`, `pyfeng/sabr_mc.py` lines 537-551, run for at most `n` turns; `none` if it has not stopped by then. -/
noncomputable def dingLoop (x sigma l : ℝ) : ℕ → DingState → Option ℝ
  | 0, _ => none
  | n + 1, s => match dingStep x sigma l s with
    | none => some s.cdf
    | some s' => dingLoop x sigma l n s'

/-- `K_func` inside `chi2_cdf_appr`, `pyfeng/sabr_mc.py` line 553. -/
noncomputable def prK (s : ℝ) : ℝ := ((1 - s) * Real.log (1 - s) + s - s ^ 2 / 2) / s ^ 2

/-- `yita_func` inside `chi2_cdf_appr`, `pyfeng/sabr_mc.py` lines 555-559. -/
noncomputable def prEta (mu2 s : ℝ) : ℝ := (1 + 2 * mu2 * s - 2 * prK (1 - s) - s - 2 * mu2 * s ^ 2) / (1 + 2 * mu2 * s - 2 * prK (1 - s))

/-- `theta_func` inside `chi2_cdf_appr`, `pyfeng/sabr_mc.py` lines 561-566. -/
noncomputable def prTheta (mu2 eta s : ℝ) : ℝ :=
  -1.5 * (1 + 4 * mu2 * s) / (1 + 2 * mu2 * s) ^ 2 + 5 / 3 * (1 + 3 * mu2 * s) ^ 2 / (1 + 2 * mu2 * s) ^ 3
    + 2 * (1 + 3 * mu2 * s) / (s - 1) / (1 + 2 * mu2 * s) ^ 2 + 3 * eta / (s - 1) ^ 2 / (1 + 2 * mu2 * s)
    - (1 + 2 * prK eta) * eta ^ 2 / 2 / (s - 1) ^ 2 / (1 + 2 * mu2 * s)

/-- The branch of `chi2_cdf_appr` for large arguments, `pyfeng/sabr_mc.py` lines 552-576 (the analytic approximation of Penev and Raykov; divisions by zero and logarithms of non-positive numbers,
which the code turns into NaN, take Lean's default values). -/
noncomputable def penevRaykov (x sigma l : ℝ) : ℝ :=
  let mu2 := l / sigma
  let mu := √mu2
  let s := (√(1 + 4 * x * mu ^ 2 / sigma) - 1) / (2 * mu2)
  let eta := prEta mu2 s
  let z := SignType.sign (s - 1) * √(sigma * (s - 1) ^ 2 * (1 / 2 / s + mu2 - prK (1 - s) / s)
    - Real.log (1 / s - 2 * prK (1 - s) / (s * (1 + 2 * mu2 * s))) + 2 * prTheta mu2 eta s / sigma)
  ncdf z

/-- `SabrMcCai2017Exact.chi2_cdf_appr`, `pyfeng/sabr_mc.py` lines 534-577, with at most `n` turns of the loop. -/
noncomputable def chi2CdfAppr (n : ℕ) (x sigma l : ℝ) : Option ℝ :=
  if x ≤ 500 ∧ l ≤ 500 then dingLoop x sigma l n ⟨0, 0, 0, 0, 0⟩ else some (penevRaykov x sigma l)

/-- `SabrMcCai2017Exact.sabr_chi2_cdf`, `pyfeng/sabr_mc.py` lines 498-515. -/
noncomputable def sabrChi2Cdf (n : ℕ) (beta VT spot u : ℝ) : Option ℝ := chi2CdfAppr n (caiA0 beta VT spot) (1 / (1 - beta)) (caiC0 VT beta u)

/-- `SabrMcCai2017Exact.simu_ST`, `pyfeng/sabr_mc.py` lines 432-460, one path; `solve u` is the point returned by `scipy.optimize.root` for `1 - sabr_chi2_cdf(u_hat) = u`. -/
noncomputable def simuST (R : Rng M) (solve : ℝ → ℝ) (beta VT spot : ℝ) : M ℝ := do
  let u ← R.uniform
  let p0 := 1 - centralChi2Cdf beta VT spot
  pure (if u ≤ p0 then 0 else solve u)

end Sabr

end PyFENG
