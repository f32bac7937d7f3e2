import Verif.Model.Heston
import Verif.Model.SvMc

/-!
# Model of `pyfeng/heston_mc.py`

One path at a time, over an arbitrary monad of random draws (paths are independent; antithetic pairing, modelled in `SvMc`, does not
change the law of one path).  `x2_cdf_points_aw` and `x2_icdf_interp` (tabulated inverse distribution, off by default) are in Model/CdfInv.  Not modelled:
the `*_numeric` functions (C85 covers `Mgf2Mom`).
-/

namespace PyFENG

open Real

/-- The draws used by the schemes, `numpy.random.Generator` methods and `rv_normal`, `rv_uniform` (`pyfeng/sv_abc.py` lines 73-87). -/
structure Rng (M : Type → Type) where
  normal : M ℝ
  uniform : M ℝ
  gamma : ℝ → M ℝ
  poisson : ℝ → M ℕ
  wald : ℝ → ℝ → M ℝ
  ncx2 : ℝ → ℝ → M ℝ

/-- The dictionary `extra` returned by `cond_states_step`. -/
structure HestonMcExtra where
  poisAvgvarV : Option ℝ := none
  qeMCorr : Option ℝ := none

namespace Heston

variable {M : Type → Type} [Monad M]

/-- `HestonMcABC.draw_from_mv`, `pyfeng/heston_mc.py` lines 29-52, one draw. -/
noncomputable def drawFromMv (R : Rng M) (mean varScaled : ℝ) (dist : String) : Except McErr (M ℝ) :=
  if dist.toLower = "ig" then .ok (R.wald mean (mean / varScaled))
  else if dist.toLower = "ga" then .ok (do
    let g ← R.gamma (1 / varScaled)
    pure (varScaled * mean * g))
  else if dist.toLower = "ln" then .ok (do
    let scale := √(log (1 + varScaled))
    let z ← R.normal
    pure (mean * exp (scale * (z - scale / 2))))
  else .error .valueError

/-- The martingale correction of one step in `cond_spot_sigma`, `pyfeng/heston_mc.py` lines 82-89. -/
noncomputable def stepCorr (m : Heston) (correct : Bool) (dt : ℝ) (extra : HestonMcExtra) : ℝ :=
  if correct then
    match extra.poisAvgvarV, extra.qeMCorr with
    | some v, _ => 0.5 * (m.rho * (1 / m.vov * m.mr - 0.5 * m.rho) * dt) ^ 2 * v
    | none, some q => q
    | none, none => 0
  else 0

/-- The loop of `cond_spot_sigma`, `pyfeng/heston_mc.py` lines 78-89; the state is `(var_t, avgvar, m_corr)`. -/
noncomputable def condLoop (m : Heston) (correct : Bool) (step : ℝ → ℝ → M (ℝ × ℝ × HestonMcExtra)) : List ℝ → ℝ × ℝ × ℝ → M (ℝ × ℝ × ℝ)
  | [], s => pure s
  | dt :: dts, s => do
    let r ← step dt s.1
    condLoop m correct step dts (r.1, s.2.1 + r.2.1 * dt, s.2.2 + m.stepCorr correct dt r.2.2)

/-- The time steps `np.diff(tobs, prepend=0)`, `pyfeng/heston_mc.py` lines 70-72, 154-156. -/
noncomputable def dts (tobs : List ℝ) : List ℝ := (List.range tobs.length).map (McState.diff0 tobs)

/-- The value returned from the final state, `pyfeng/heston_mc.py` lines 91, 101-109. -/
noncomputable def condResult (m : Heston) (texp var0 : ℝ) (s : ℝ × ℝ × ℝ) : ℝ × ℝ :=
  let avgvar := s.2.1 / texp
  let spotCond := ((s.1 - var0) + m.mr * texp * (avgvar - m.theta)) / m.vov - 0.5 * m.rho * texp * avgvar
  let spotCond := spotCond * m.rho + s.2.2
  (exp spotCond, √((1.0 - m.rho ^ 2) / var0 * avgvar))

/-- `HestonMcABC.cond_spot_sigma`, `pyfeng/heston_mc.py` lines 69-109 (the diagnostics stored in `self.result` are left out). -/
noncomputable def condSpotSigma (m : Heston) (correct : Bool) (step : ℝ → ℝ → M (ℝ × ℝ × HestonMcExtra)) (tobs : List ℝ) (texp var0 : ℝ) : M (ℝ × ℝ) := do
  let s ← m.condLoop correct step (dts tobs) (var0, 0, 0)
  pure (m.condResult texp var0 s)

/-- `mean_ln` and `ln_m`, `pyfeng/heston_mc.py` lines 119-120 and 137-138. -/
noncomputable def lnMean (m : Heston) (dt var0 varT avgvar : ℝ) : ℝ :=
  m.rho / m.vov * ((varT - var0) + m.mr * dt * (avgvar - m.theta)) + (m.intr - m.divr - 0.5 * avgvar) * dt

/-- `HestonMcABC.cond_log_return_var`, `pyfeng/heston_mc.py` lines 117-122. -/
noncomputable def condLogReturnVar (m : Heston) (dt var0 varT avgvar : ℝ) : ℝ :=
  m.lnMean dt var0 varT avgvar ^ 2 + (1.0 - m.rho ^ 2) * dt * avgvar

/-- `HestonMcABC.draw_log_return`, `pyfeng/heston_mc.py` lines 124-141. -/
noncomputable def drawLogReturn (m : Heston) (R : Rng M) (dt var0 varT avgvar : ℝ) : M ℝ := do
  let zn ← R.normal
  pure (m.lnMean dt var0 varT avgvar + √((1.0 - m.rho ^ 2) * dt * avgvar) * zn)

/-- The loop of `return_var_realized`, `pyfeng/heston_mc.py` lines 163-179; the state is `(var_0, var_r)`. -/
noncomputable def realizedLoop (m : Heston) (R : Rng M) (correct cond : Bool) (step : ℝ → ℝ → M (ℝ × ℝ × HestonMcExtra)) : List ℝ → ℝ × ℝ → M (ℝ × ℝ)
  | [], s => pure s
  | dt :: dts, s => do
    let r ← step dt s.1
    let tmp := m.rho / m.vov * m.mr - 0.5
    let varR := if correct then (match r.2.2.poisAvgvarV with | some v => s.2 + (tmp * dt) ^ 2 * v | none => s.2) else s.2
    let qe := if correct then r.2.2.qeMCorr.getD 0.0 else 0.0
    if cond then realizedLoop m R correct cond step dts (r.1, varR + m.condLogReturnVar dt s.1 r.1 r.2.1)
    else do
      let x ← m.drawLogReturn R dt s.1 r.1 r.2.1
      realizedLoop m R correct cond step dts (r.1, varR + (x + qe) ^ 2)

/-- `HestonMcABC.return_var_realized`, `pyfeng/heston_mc.py` lines 143-181. -/
noncomputable def returnVarRealized (m : Heston) (R : Rng M) (correct cond : Bool) (step : ℝ → ℝ → M (ℝ × ℝ × HestonMcExtra)) (tobs : List ℝ) (texp : ℝ) : M ℝ := do
  let s ← m.realizedLoop R correct cond step (dts tobs) (m.sigma, 0)
  pure (s.2 / texp)

/-! ### Gamma expansion -/

/-- `vov2dt`, `pyfeng/heston_mc.py` line 197 and later. -/
noncomputable def vov2dt (m : Heston) (dt : ℝ) : ℝ := m.vov ^ 2 * dt

/-- `n_2pi_2[n]`, `pyfeng/heston_mc.py` line 199 (`n` counts from 0). -/
noncomputable def n2pi2 (n : ℕ) : ℝ := (((n : ℝ) + 1) * 2 * π) ^ 2

/-- `gamma_n` of `gamma_lambda`, `pyfeng/heston_mc.py` lines 183-203. -/
noncomputable def gammaN (m : Heston) (dt : ℝ) (n : ℕ) : ℝ := ((m.mr * dt) ^ 2 + n2pi2 n) / (2 * m.vov2dt dt)

/-- `lambda_n` of `gamma_lambda`, `pyfeng/heston_mc.py` lines 183-203. -/
noncomputable def lambdaN (m : Heston) (dt : ℝ) (n : ℕ) : ℝ := 4 * n2pi2 n / m.vov2dt dt / ((m.mr * dt) ^ 2 + n2pi2 n)

/-- `HestonMcABC.x1star_avgvar_mv`, `pyfeng/heston_mc.py` lines 205-243: mean and scaled variance. -/
noncomputable def x1star (m : Heston) (dt : ℝ) (kk : ℕ) : ℝ × ℝ :=
  let mrtH := m.mr * dt / 2
  let a2 := mrtH ^ 2
  let csch := 1 / sinh mrtH
  let coth := cosh mrtH * csch
  let mean := if |mrtH| < 0.1 then 1 / 3 + a2 * (-2 / 45 + a2 * 2 / 315) else (coth / mrtH - csch ^ 2) / 2
  let vf := if |mrtH| < 0.1 then 1 / 45 + a2 * (-2 / 315 + a2 * 2 / 1575)
    else (coth / mrtH ^ 3 + csch ^ 2 / mrtH ^ 2 - 2 * coth * csch ^ 2 / mrtH) / 8
  let mean := if kk > 0 then mean - ∑ n ∈ Finset.range kk, m.lambdaN dt n / m.gammaN dt n else mean
  let vf := if kk > 0 then vf - 2 * (∑ n ∈ Finset.range kk, m.lambdaN dt n / m.gammaN dt n ^ 2) / m.vov2dt dt else vf
  (mean, m.vov2dt dt * vf / mean ^ 2)

/-- `HestonMcABC.x2star_avgvar_mv`, `pyfeng/heston_mc.py` lines 245-284. -/
noncomputable def x2star (m : Heston) (dt : ℝ) (kk : ℕ) : ℝ × ℝ :=
  let mrtH := m.mr * dt / 2
  let a2 := mrtH ^ 2
  let csch := 1 / sinh mrtH
  let coth := cosh mrtH * csch
  let mf := if |mrtH| < 0.1 then 1 / 12 + a2 * (-1 / 180 + a2 / 1890) else (mrtH * coth - 1) / (4 * a2)
  let vf := if |mrtH| < 0.1 then 1 / 360 - a2 / 1890 else (mrtH * coth + a2 * csch ^ 2 - 2) / (16 * a2 ^ 2)
  let mf := if kk > 0 then mf - (∑ n ∈ Finset.range kk, 1 / m.gammaN dt n) / m.vov2dt dt else mf
  let vf := if kk > 0 then vf - (∑ n ∈ Finset.range kk, 1 / m.gammaN dt n ^ 2) / m.vov2dt dt ^ 2 else vf
  (m.vov2dt dt * mf, vf / mf ^ 2)

/-- `iv_index`, `pyfeng/heston_mc.py` lines 304, 418, 637. -/
noncomputable def ivIndex (m : Heston) : ℝ := 0.5 * m.cir.chiDim - 1

/-- `zz`, the argument of the Bessel functions, `pyfeng/heston_mc.py` lines 301-302, 634-635. -/
noncomputable def besselArg (m : Heston) (dt var0 varT : ℝ) : ℝ := √(var0 * varT) * (m.cir.phiExp dt).1

/-- `HestonMcABC.eta_mv`, `pyfeng/heston_mc.py` lines 286-317; `ive` is `scipy.special.ive`. -/
noncomputable def etaMv (m : Heston) (ive : ℝ → ℝ → ℝ) (dt var0 varT : ℝ) : ℝ × ℝ :=
  let zz := m.besselArg dt var0 varT
  let iv0 := ive m.ivIndex zz
  let iv1 := ive (m.ivIndex + 1) zz
  let iv2 := ive (m.ivIndex + 2) zz
  let r1 := iv1 / iv0
  let mean := zz / 2 * r1
  (mean, (iv2 / iv0) / r1 ^ 2 + 1 / mean - 1)

/-- `HestonMcABC.cond_avgvar_mv`, `pyfeng/heston_mc.py` lines 319-354. -/
noncomputable def condAvgvarMv (m : Heston) (ive : ℝ → ℝ → ℝ) (dt var0 varT : ℝ) (pois : Option ℝ) (kk : ℕ) : ℝ × ℝ :=
  let eta := match pois with | none => m.etaMv ive dt var0 varT | some p => (p, 0.0)
  let x := m.x1star dt kk
  let facX := var0 + varT
  let z := m.x2star dt kk
  let facZ := 2 * eta.1 + m.cir.chiDim / 2
  let mTotal := x.1 * facX + z.1 * facZ
  let vTotal := x.2 * x.1 ^ 2 * facX + z.2 * z.1 ^ 2 * facZ
  let vTotal := match pois with | none => vTotal + eta.2 * eta.1 ^ 2 * (2 * z.1) ^ 2 | some _ => vTotal
  (mTotal, vTotal / mTotal ^ 2)

/-- `HestonMcGlassermanKim2011.cond_avgvar_mgf`, `pyfeng/heston_mc.py` lines 401-442, real argument; `iv` is `scipy.special.iv`. -/
noncomputable def condAvgvarMgf (m : Heston) (iv : ℝ → ℝ → ℝ) (aa dt var0 varT : ℝ) : ℝ :=
  let mrt := m.mr * dt
  let gamma := √(mrt ^ 2 - 2 * m.vov2dt dt * aa)
  let varMean := √(var0 * varT)
  let phiMr := (m.cir.phiExp dt).1
  let coshMr := cosh (mrt / 2)
  let exphGamma := exp (-gamma / 2)
  let phiGamma := 4 * gamma / m.vov2dt dt * exphGamma / (1 - exphGamma ^ 2)
  let coshGamma := (exphGamma + 1 / exphGamma) / 2
  let part1 := phiGamma / phiMr
  let part2 := exp ((var0 + varT) * (coshMr * phiMr - coshGamma * phiGamma) / 2)
  let part3 := iv m.ivIndex (varMean * phiGamma) / iv m.ivIndex (varMean * phiMr)
  part1 * part2 * part3

/-- `HestonMcGlassermanKim2011.x2_avgvar_mgf`, `pyfeng/heston_mc.py` lines 506-538, real argument. -/
noncomputable def x2AvgvarMgf (m : Heston) (aa dt shape : ℝ) : ℝ :=
  let mrt := m.mr * dt
  let gamma := √(mrt ^ 2 - 2 * m.vov2dt dt * aa)
  let phiMr := (m.cir.phiExp dt).1
  let tmp := (4 * gamma / m.vov2dt dt) / (1 - exp (-gamma))
  exp (shape * (log (tmp / phiMr) - gamma / 2))

/-- `x1star_avgvar_mv_asymp`, `pyfeng/heston_mc.py` lines 463-483. -/
noncomputable def x1starAsymp (m : Heston) (dt : ℝ) (kk : ℕ) : ℝ × ℝ := (2 / (π ^ 2 * kk), m.vov2dt dt / (6 * kk))

/-- `x2star_avgvar_mv_asymp`, `pyfeng/heston_mc.py` lines 485-504. -/
noncomputable def x2starAsymp (m : Heston) (dt : ℝ) (kk : ℕ) : ℝ × ℝ := (m.vov2dt dt / (2 * π ^ 2 * kk), 1 / (3 * kk))

/-- Add independent draws, `np.sum(..., axis=0)`, in `draw_x1`, `draw_x2` and `draw_x123`. -/
def sumDraws : List (M ℝ) → ℝ → M ℝ
  | [], acc => pure acc
  | d :: ds, acc => do
    let x ← d
    sumDraws ds (acc + x)

/-- `HestonMcGlassermanKim2011.draw_x1`, `pyfeng/heston_mc.py` lines 554-575. -/
noncomputable def drawX1 (m : Heston) (R : Rng M) (kk : ℕ) (dt var0 varT : ℝ) : M ℝ := do
  let x1 ← sumDraws ((List.range kk).map fun n => do
    let pois ← R.poisson ((var0 + varT) * m.lambdaN dt n)
    let g ← R.gamma (pois : ℝ)
    pure (g / m.gammaN dt n)) 0
  let trunc := m.x1star dt kk
  let g ← R.gamma ((var0 + varT) / trunc.2)
  pure (x1 + trunc.2 * trunc.1 * g)

/-- `HestonMcGlassermanKim2011.draw_x2`, `pyfeng/heston_mc.py` lines 651-676, one draw. -/
noncomputable def drawX2 (m : Heston) (R : Rng M) (kk : ℕ) (dt shape : ℝ) : M ℝ := do
  let x2 ← sumDraws ((List.range kk).map fun n => do
    let g ← R.gamma shape
    pure (g / m.gammaN dt n)) 0
  let trunc := m.x2star dt kk
  let g ← R.gamma (shape / trunc.2)
  pure (x2 + trunc.2 * trunc.1 * g)

/-- The probabilities `p` before `cumsum` in `draw_eta`, `pyfeng/heston_mc.py` lines 637-645: `cumprod` of `p0` and `zz²/(4 j (j+ν))`. -/
noncomputable def etaProb (m : Heston) (ive : ℝ → ℝ → ℝ) (dt var0 varT : ℝ) (k : ℕ) : ℝ :=
  let zz := m.besselArg dt var0 varT
  let p0 := exp (m.ivIndex * log (zz / 2) - zz - log (Gamma (m.ivIndex + 1))) / ive m.ivIndex zz
  p0 * ∏ j ∈ Finset.range k, zz ^ 2 / (4 * ((j : ℝ) + 1) * ((j : ℝ) + 1 + m.ivIndex))

/-- `draw_eta`, `pyfeng/heston_mc.py` lines 622-649: the number of cumulative probabilities (there are 16) below the uniform draw. -/
noncomputable def drawEta (m : Heston) (R : Rng M) (ive : ℝ → ℝ → ℝ) (dt var0 varT : ℝ) : M ℕ := do
  let u ← R.uniform
  pure ((Finset.range 16).filter fun k => ∑ j ∈ Finset.range (k + 1), m.etaProb ive dt var0 varT j < u).card

/-- The loop adding `zz` to `avgvar` in `cond_states_step`, `pyfeng/heston_mc.py` lines 697-707: for `i < eta.max()` the paths with `eta > i` take the next values of `zz`
in order. The paths are numbered `0, 1, …`; returns the sums added to each path and `total`. -/
def spreadZ (eta : List ℕ) (zz : ℕ → ℝ) : ℕ → (ℕ → ℝ) × ℕ → (ℕ → ℝ) × ℕ
  | 0, s => s
  | i + 1, s =>
    let s := spreadZ eta zz i s
    let above := (List.range eta.length).filter fun p => i < eta.getD p 0
    (fun p => if p ∈ above then s.1 p + zz (s.2 + above.idxOf p) else s.1 p, s.2 + above.length)

/-- `HestonMcGlassermanKim2011.cond_states_step`, `pyfeng/heston_mc.py` lines 678-709, for one path and `tabulate_x2_z=False`: the path receives `eta` draws of `Z` (see `spreadZ`). -/
noncomputable def stepGK (m : Heston) (R : Rng M) (ive : ℝ → ℝ → ℝ) (kk : ℕ) (dt var0 : ℝ) : M (ℝ × ℝ × HestonMcExtra) := do
  let varT ← Cir.drawNcx2 R.ncx2 m.cir dt var0
  let eta ← m.drawEta R ive dt var0 varT
  let x1 ← m.drawX1 R kk dt var0 varT
  let x2 ← m.drawX2 R kk dt (m.cir.chiDim / 2)
  let avgvar ← sumDraws (List.replicate eta (m.drawX2 R kk dt 2.0)) (x1 + x2)
  pure (varT, avgvar, {})

/-! ### Andersen's QE scheme -/

/-- `HestonMcAndersen2008.psi_c`, `pyfeng/heston_mc.py` line 733. -/
noncomputable def psiC : ℝ := 1.5

/-- `k1_half_k3`, `pyfeng/heston_mc.py` line 774. -/
noncomputable def k1HalfK3 (m : Heston) (dt : ℝ) : ℝ := dt / 4 * m.rho * (2 * m.mr / m.vov - m.rho) - m.rho / m.vov

/-- `aa`, `pyfeng/heston_mc.py` line 775. -/
noncomputable def qeA (m : Heston) (dt : ℝ) : ℝ := m.k1HalfK3 dt + 2 * m.rho / m.vov

/-- `psi`, `pyfeng/heston_mc.py` lines 748-749. -/
noncomputable def qePsi (m : Heston) (dt var0 : ℝ) : ℝ := (m.varMv dt (some var0)).2 / (m.varMv dt (some var0)).1 ^ 2

/-- `b2`, `pyfeng/heston_mc.py` lines 755-756. -/
noncomputable def qeB2 (psi : ℝ) : ℝ := (2 / psi - 1) + √(2 / psi * (2 / psi - 1))

/-- `HestonMcAndersen2008.var_step_qe`, `pyfeng/heston_mc.py` lines 737-781, one path: the new variance and the correction. -/
noncomputable def varStepQe (m : Heston) (R : Rng M) (dt var0 : ℝ) : M (ℝ × ℝ) := do
  let mean := (m.varMv dt (some var0)).1
  let psi := m.qePsi dt var0
  let zz ← R.normal
  let aa := m.qeA dt
  let mCorr := -m.k1HalfK3 dt * var0 + dt * m.rho * m.mr * m.theta / m.vov
  if psi ≤ psiC then
    let b2 := qeB2 psi
    let a := mean / (1 + b2)
    pure (a * (√b2 + zz) ^ 2, mCorr + (-aa * b2 * a / (1 - 2 * aa * a) + 0.5 * log (1 + -2 * aa * a)))
  else
    let oneMU := ncdf zz
    let oneMP := 2 / (psi + 1)
    let beta := oneMP / mean
    let varT := if oneMU ≤ oneMP then log (oneMP / oneMU) / beta else 0
    pure (varT, mCorr + -log (1 + (-oneMP + beta * oneMP / (beta - aa))))

/-- The exceptions of `HestonMcAndersen2008.cond_states_step`: for another scheme the `ValueError` is created but not raised, so `var_t` is unbound. -/
inductive SchemeErr where
  | unboundLocal | valueError
  deriving DecidableEq

/-- `HestonMcAndersen2008.cond_states_step`, `pyfeng/heston_mc.py` lines 814-833. -/
noncomputable def stepAndersen (m : Heston) (R : Rng M) (scheme : ℤ) (dt var0 : ℝ) : Except SchemeErr (M (ℝ × ℝ × HestonMcExtra)) :=
  if scheme < 2 then .ok (do
    let varT ← Cir.drawEuler R.normal m.cir dt var0 (decide (scheme = 1))
    pure (varT, (var0 + varT) / 2, {}))
  else if scheme = 2 then .ok (do
    let varT ← Cir.drawNcx2 R.ncx2 m.cir dt var0
    pure (varT, (var0 + varT) / 2, {}))
  else if scheme = 3 then .ok (do
    let r ← Cir.drawPoisGamma R.gamma R.poisson m.cir dt var0
    pure (r.1, (var0 + r.1) / 2, {}))
  else if scheme = 4 then .ok (do
    let r ← m.varStepQe R dt var0
    pure (r.1, (var0 + r.1) / 2, { qeMCorr := some r.2 }))
  else .error .unboundLocal

/-- One step of `HestonMcAndersen2008.vol_paths`, `pyfeng/heston_mc.py` lines 783-812. -/
noncomputable def volStepAndersen (m : Heston) (R : Rng M) (scheme : ℤ) (dt var0 : ℝ) : Except SchemeErr (M ℝ) :=
  if scheme < 2 then .ok (Cir.drawEuler R.normal m.cir dt var0 (decide (scheme = 1)))
  else if scheme = 2 then .ok (Cir.drawNcx2 R.ncx2 m.cir dt var0)
  else if scheme = 3 then .ok (do
    let r ← Cir.drawPoisGamma R.gamma R.poisson m.cir dt var0
    pure r.1)
  else if scheme = 4 then .ok (do
    let r ← m.varStepQe R dt var0
    pure r.1)
  else .error .valueError

/-! ### Choi-Kwok and Tse-Wan -/

/-- `HestonMcChoiKwok2023PoisTd.cond_states_step`, `pyfeng/heston_mc.py` lines 872-878. -/
noncomputable def stepPoisTd (m : Heston) (R : Rng M) (ive : ℝ → ℝ → ℝ) (dt var0 : ℝ) : M (ℝ × ℝ × HestonMcExtra) := do
  let r ← Cir.drawPoisGamma R.gamma R.poisson m.cir dt var0
  let a := m.condAvgvarMv ive dt var0 r.1 (some (r.2 : ℝ)) 0
  pure (r.1, a.1, { poisAvgvarV := some (a.2 * a.1 ^ 2) })

/-- `HestonMcTseWan2013.cond_states_step`, `pyfeng/heston_mc.py` lines 927-932 (class attribute `dist = 'ig'`: the `ig` branch of `draw_from_mv`). -/
noncomputable def stepTseWan (m : Heston) (R : Rng M) (ive : ℝ → ℝ → ℝ) (dt var0 : ℝ) : M (ℝ × ℝ × HestonMcExtra) := do
  let varT ← Cir.drawNcx2 R.ncx2 m.cir dt var0
  let a := m.condAvgvarMv ive dt var0 varT none 0
  let avgvar ← R.wald a.1 (a.1 / a.2)
  pure (varT, avgvar, {})

/-- `HestonMcChoiKwok2023PoisGe.draw_x123`, `pyfeng/heston_mc.py` lines 979-1005 (`dist = 'ig'`: the `ig` branch of `draw_from_mv`). -/
noncomputable def drawX123 (m : Heston) (R : Rng M) (kk : ℕ) (dt varSum shapeSum : ℝ) : M ℝ := do
  let x123 ← sumDraws ((List.range kk).map fun n => do
    let pois ← R.poisson (varSum * m.lambdaN dt n)
    let g ← R.gamma ((pois : ℝ) + shapeSum)
    pure (g / m.gammaN dt n)) 0
  let x := m.x1star dt kk
  let z := m.x2star dt kk
  let mTrunc := x.1 * varSum + z.1 * shapeSum
  let vTrunc := x.2 * x.1 ^ 2 * varSum + z.2 * z.1 ^ 2 * shapeSum
  let t ← R.wald mTrunc (mTrunc / (vTrunc / mTrunc ^ 2))
  pure (x123 + t)

/-- `HestonMcChoiKwok2023PoisGe.cond_states_step`, `pyfeng/heston_mc.py` lines 1007-1015. -/
noncomputable def stepPoisGe (m : Heston) (R : Rng M) (kk : ℕ) (dt var0 : ℝ) : M (ℝ × ℝ × HestonMcExtra) := do
  let r ← Cir.drawPoisGamma R.gamma R.poisson m.cir dt var0
  let shape := 0.5 * m.cir.chiDim + 2 * (r.2 : ℝ)
  let avgvar ← m.drawX123 R kk dt (var0 + r.1) shape
  pure (r.1, avgvar, {})

end Heston

end PyFENG
