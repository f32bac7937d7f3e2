import Verif.Model.HestonMc

/-!
# Model of `pyfeng/sv32.py` and `pyfeng/sv32_mc.py`: the 3/2 stochastic volatility model

The loops that sum a series take the number of passes as an argument.  The simulation is modelled one path at a time, over an arbitrary
monad of random draws (see `Rng`).  Not modelled: `draw_cond_avgvar` and `cond_states_step_invlap` (inversion of a Fourier series by
Newton's method) beyond the Laplace transform they invert, and `cond_avgvar_mv_numeric` (C85 covers `Mgf2Mom`).
-/

namespace PyFENG

open Real

/-- Attributes of a 3/2 model instance (`pyfeng/params.py` `Sv32Params`); `sigma` is the initial variance. -/
structure Sv32 where
  sigma : ℝ
  vov : ℝ
  rho : ℝ
  mr : ℝ
  theta : ℝ
  intr : ℝ
  divr : ℝ
  isFwd : Bool

namespace Sv32

/-- `Sv32ABC.cir`, `pyfeng/sv32.py` lines 18-25; `Sv32McABC.cir`, `pyfeng/sv32_mc.py` lines 15-22. -/
noncomputable def cir (m : Sv32) : Cir :=
  let mrNew := m.mr * m.theta
  ⟨m.vov, mrNew, (m.mr + m.vov ^ 2) / mrNew⟩

/-- The state `(inc, ret)` of `Sv32ABC.hyp1f1_complex` after `n` passes of the loop, `pyfeng/sv32.py` lines 42-48. -/
noncomputable def hyp1f1Loop (a b x : ℂ) : ℕ → ℂ × ℂ
  | 0 =>
    let inc := a / b * x
    (inc, 1 + inc)
  | n + 1 =>
    let s := hyp1f1Loop a b x n
    let kk : ℂ := ((n + 1 : ℕ) : ℂ)
    let inc := s.1 * ((a + kk) / (b + kk) / (kk + 1) * x)
    (inc, s.2 + inc)

/-- `Sv32ABC.hyp1f1_complex`, `pyfeng/sv32.py` lines 27-50 (the code makes `n = 1023` passes). -/
noncomputable def hyp1f1Complex (n : ℕ) (a b x : ℂ) : ℂ := (hyp1f1Loop a b x n).2

/-- `np.clip(z, -M, M)` of a complex number: numpy orders complex numbers lexicographically (`pyfeng/sv32.py` line 74). -/
noncomputable def clipC (M : ℝ) (z : ℂ) : ℂ :=
  if z.re < -M ∨ (z.re = -M ∧ z.im < 0) then ((-M : ℝ) : ℂ)
  else if M < z.re ∨ (z.re = M ∧ 0 < z.im) then (M : ℂ) else z

/-- `mu`, `pyfeng/sv32.py` lines 62-64. -/
noncomputable def muU (m : Sv32) (uu : ℂ) : ℂ := 0.5 + (m.mr - uu * m.rho * m.vov) / (m.vov : ℂ) ^ 2

/-- `delta`, `pyfeng/sv32.py` lines 65-66 (`np.sqrt` of a complex number is the principal square root). -/
noncomputable def deltaU (m : Sv32) (uu : ℂ) : ℂ := (m.muU uu ^ 2 + uu * (1 - uu) / (m.vov : ℂ) ^ 2) ^ (1 / 2 : ℂ)

/-- `alpha`, `pyfeng/sv32.py` line 67. -/
noncomputable def alphaU (m : Sv32) (uu : ℂ) : ℂ := -m.muU uu + m.deltaU uu

/-- `beta`, `pyfeng/sv32.py` line 68. -/
noncomputable def betaU (m : Sv32) (uu : ℂ) : ℂ := 1 + 2 * m.deltaU uu

/-- `XX`, `pyfeng/sv32.py` lines 70-71. -/
noncomputable def xx (m : Sv32) (texp : ℝ) : ℝ :=
  let mrNew := m.mr * m.theta
  2 * mrNew / (m.vov ^ 2 * m.sigma) / (exp (mrNew * texp) - 1)

/-- The argument of `np.clip`, `pyfeng/sv32.py` line 74; `loggamma` stands for `scipy.special.loggamma`. -/
noncomputable def logpExpo (loggamma : ℂ → ℂ) (m : Sv32) (uu : ℂ) (texp : ℝ) : ℂ :=
  loggamma (m.betaU uu - m.alphaU uu) - loggamma (m.betaU uu) + m.alphaU uu * (log (m.xx texp) : ℝ)

/-- `Sv32ABC.logp_mgf`, `pyfeng/sv32.py` lines 52-77; `M` is `expo_max` and `hyp` stands for `hyp1f1_complex`. -/
noncomputable def logpMgf (loggamma : ℂ → ℂ) (M : ℝ) (hyp : ℂ → ℂ → ℂ → ℂ) (m : Sv32) (uu : ℂ) (texp : ℝ) : ℂ :=
  Complex.exp (clipC M (m.logpExpo loggamma uu texp)) * hyp (m.alphaU uu) (m.betaU uu) (-(m.xx texp : ℂ))

/-! ### `sv32_mc.py` -/

/-- The state `(p0, iv)` of `Sv32McABC.iv_complex` after `n` passes of the loop, `pyfeng/sv32_mc.py` lines 51-57. -/
noncomputable def ivLoop (gamma : ℂ → ℂ) (nu : ℂ) (zz : ℝ) : ℕ → ℂ × ℂ
  | 0 =>
    let p0 := ((0.5 * zz : ℝ) : ℂ) ^ nu / gamma (nu + 1)
    (p0, p0)
  | n + 1 =>
    let s := ivLoop gamma nu zz n
    let zzh2 := (((zz / 2) ^ 2 : ℝ) : ℂ)
    let kk : ℂ := ((n + 1 : ℕ) : ℂ)
    let p0 := s.1 * (zzh2 / (kk * (kk + nu)))
    (p0, s.2 + p0)

/-- `Sv32McABC.iv_complex`, `pyfeng/sv32_mc.py` lines 39-57 (the code makes `n = 63` passes); `gamma` is `scipy.special.gamma`. -/
noncomputable def ivComplex (gamma : ℂ → ℂ) (n : ℕ) (nu : ℂ) (zz : ℝ) : ℂ := (ivLoop gamma nu zz n).2

/-- The variables of the loop of `Sv32McABC.iv_d12`, `pyfeng/sv32_mc.py` lines 74-90. -/
structure IvState where
  p0 : ℝ
  psi1 : ℝ
  logMPsi0 : ℝ
  iv1 : ℝ
  iv2 : ℝ

/-- The state of `Sv32McABC.iv_d12` after `n` passes of the loop, `pyfeng/sv32_mc.py` lines 74-90; `digamma` and `trigamma` stand for
`scipy.special.digamma` and `scipy.special.polygamma(1, ·)`. -/
noncomputable def ivD12Loop (digamma trigamma : ℝ → ℝ) (nu zz : ℝ) : ℕ → IvState
  | 0 =>
    let p0 := (zz / 2) ^ nu / Gamma (nu + 1)
    let psi1 := trigamma (nu + 1)
    let l := log (zz / 2) - digamma (nu + 1)
    ⟨p0, psi1, l, l * p0, (l ^ 2 - psi1) * p0⟩
  | n + 1 =>
    let s := ivD12Loop digamma trigamma nu zz n
    let zzh2 := (zz / 2) ^ 2
    let kk : ℝ := ((n + 1 : ℕ) : ℝ)
    let p0 := s.p0 * (zzh2 / (kk * (kk + nu)))
    let l := s.logMPsi0 - 1 / (nu + kk)
    let psi1 := s.psi1 - 1 / (nu + kk) ^ 2
    ⟨p0, psi1, l, s.iv1 + l * p0, s.iv2 + (l ^ 2 - psi1) * p0⟩

/-- `Sv32McABC.iv_d12`, `pyfeng/sv32_mc.py` lines 59-90 (the code makes `kk_max - 1 >= 63` passes). -/
noncomputable def ivD12 (digamma trigamma : ℝ → ℝ) (n : ℕ) (nu zz : ℝ) : ℝ × ℝ :=
  let s := ivD12Loop digamma trigamma nu zz n
  (s.iv1, s.iv2)

/-- `nu`, `pyfeng/sv32_mc.py` lines 106, 225. -/
noncomputable def nu (m : Sv32) : ℝ := m.cir.chiDim / 2 - 1

/-- `zz`, `pyfeng/sv32_mc.py` lines 111, 227. -/
noncomputable def zz (m : Sv32) (dt var0 varT : ℝ) : ℝ := (m.cir.phiExp dt).1 / √(var0 * varT)

/-- `d1_nu_bb` and `d2_nu_bb`, `pyfeng/sv32_mc.py` lines 108-110. -/
noncomputable def dNu (m : Sv32) (dt : ℝ) : ℝ × ℝ :=
  let vov2dt := m.vov ^ 2 * dt
  (4 / vov2dt / m.nu, -(4 / vov2dt) ^ 2 / m.nu ^ 3)

/-- Mean and unscaled variance in `Sv32McABC.cond_avgvar_mv`, `pyfeng/sv32_mc.py` lines 105-122; `iv` stands for `scipy.special.iv`
and `ivd` for `iv_d12`. -/
noncomputable def condAvgvarMeanVar (digamma trigamma : ℝ → ℝ) (iv : ℝ → ℝ → ℝ) (ivd : ℝ → ℝ → ℝ × ℝ) (m : Sv32) (dt var0 varT : ℝ) (eta : Option ℝ) : ℝ × ℝ :=
  let d1NuBb := (m.dNu dt).1
  let d2NuBb := (m.dNu dt).2
  let z := m.zz dt var0 varT
  match eta with
  | none =>
    let i := iv m.nu z
    let d := ivd m.nu z
    let d1 := -(d.1 * d1NuBb) / i
    (d1, (d.1 * d2NuBb + d.2 * d1NuBb ^ 2) / i - d1 ^ 2)
  | some e =>
    let d1 := -digamma (e + m.nu + 1) + log (z / 2)
    let var := d2NuBb * d1 - d1NuBb ^ 2 * trigamma (e + m.nu + 1)
    (d1 * -d1NuBb, var)

/-- `Sv32McABC.cond_avgvar_mv`, `pyfeng/sv32_mc.py` lines 92-126. -/
noncomputable def condAvgvarMv (digamma trigamma : ℝ → ℝ) (iv : ℝ → ℝ → ℝ) (ivd : ℝ → ℝ → ℝ × ℝ) (m : Sv32) (dt var0 varT : ℝ) (eta : Option ℝ) : ℝ × ℝ :=
  let r := condAvgvarMeanVar digamma trigamma iv ivd m dt var0 varT eta
  let varScaled := r.2 / r.1 ^ 2
  (r.1, if varScaled < 0 then 1e-64 else varScaled)

variable {M : Type → Type} [Monad M]

/-- The loop of `cond_spot_sigma`, `pyfeng/sv32_mc.py` lines 133-138; the state is `(var_t, avgvar)`. -/
noncomputable def condLoop (step : ℝ → ℝ → M (ℝ × ℝ)) : List ℝ → ℝ × ℝ → M (ℝ × ℝ)
  | [], s => pure s
  | dt :: dts, s => do
    let r ← step dt s.1
    condLoop step dts (r.1, s.2 + r.2 * dt)

/-- The value returned from the final state, `pyfeng/sv32_mc.py` lines 140-147. -/
noncomputable def condResult (m : Sv32) (texp var0 : ℝ) (s : ℝ × ℝ) : ℝ × ℝ :=
  let avgvar := s.2 / texp
  let spotCond := (log (s.1 / var0) - texp * (m.mr * m.theta - (m.mr + m.vov ^ 2 / 2) * avgvar)) / m.vov - m.rho * avgvar * texp / 2
  (exp (m.rho * spotCond), √((1.0 - m.rho ^ 2) * avgvar / var0))

/-- `Sv32McABC.cond_spot_sigma`, `pyfeng/sv32_mc.py` lines 128-147. -/
noncomputable def condSpotSigma (m : Sv32) (step : ℝ → ℝ → M (ℝ × ℝ)) (tobs : List ℝ) (texp var0 : ℝ) : M (ℝ × ℝ) := do
  let s ← condLoop step (Heston.dts tobs) (var0, 0)
  pure (m.condResult texp var0 s)

/-- `Sv32McTimeStep.var_step_euler`, `pyfeng/sv32_mc.py` lines 159-182. -/
noncomputable def varStepEuler (R : Rng M) (m : Sv32) (var0 dt : ℝ) (milstein : Bool) : M ℝ := do
  let z ← R.normal
  let varT := 1.0 + m.mr * (m.theta - var0) * dt + m.vov * √(var0 * dt) * z
  let varT := if milstein then varT + 0.75 * m.vov ^ 2 * var0 * (z ^ 2 - 1.0) * dt else varT
  let varT := varT * var0
  pure (if varT < 0 then 0 else varT)

/-- The variance step of `Sv32McTimeStep.cond_states_step`, `pyfeng/sv32_mc.py` lines 186-199. -/
noncomputable def varStep (R : Rng M) (m : Sv32) (scheme : ℤ) (dt var0 : ℝ) : Except McErr (M ℝ) :=
  if scheme < 2 then .ok (varStepEuler R m var0 dt (scheme == 1))
  else if scheme = 2 then .ok (do
    let x ← m.cir.drawNcx2 R.ncx2 dt (1 / var0)
    pure (1.0 / x))
  else if scheme = 3 then .ok (do
    let x ← m.cir.drawPoisGamma R.gamma R.poisson dt (1 / var0)
    pure (1.0 / x.1))
  else .error .valueError

/-- `Sv32McTimeStep.cond_states_step`, `pyfeng/sv32_mc.py` lines 184-204. -/
noncomputable def stepTd (R : Rng M) (m : Sv32) (scheme : ℤ) (dt var0 : ℝ) : Except McErr (M (ℝ × ℝ)) := do
  let v ← varStep R m scheme dt var0
  pure (do
    let varT ← v
    pure (varT, (var0 + varT) / 2))

/-- `Sv32McBaldeaux2012Exact.cond_avgvar_laplace`, `pyfeng/sv32_mc.py` lines 222-235; `iv` stands for `iv_complex` (numerator) and
`scipy.special.iv` (denominator), `gamma` for `scipy.special.gamma`. -/
noncomputable def condAvgvarLaplace (gamma : ℂ → ℂ) (ivc : ℂ → ℝ → ℂ) (iv : ℝ → ℝ → ℝ) (m : Sv32) (bb : ℂ) (dt var0 varT : ℝ) (eta : Option ℝ) : ℂ :=
  let vov2dt := m.vov ^ 2 * dt
  let nuBb := ((m.nu : ℂ) ^ 2 + 8 * bb / (vov2dt : ℝ)) ^ (1 / 2 : ℂ)
  let z := m.zz dt var0 varT
  match eta with
  | none => ivc nuBb z / (iv m.nu z : ℝ)
  | some e =>
    let nuDiff := 8 * bb / (m.vov : ℂ) ^ 2 / (nuBb + m.nu)
    gamma (e + m.nu + 1) / gamma (e + nuBb + 1) * ((z / 2 : ℝ) : ℂ) ^ nuDiff

/-- `Sv32McChoiKwok2023Ig.draw_from_mv`, `pyfeng/sv32_mc.py` lines 301-327, one draw (`eps` is `np.finfo(float).eps`). -/
noncomputable def drawFromMv (R : Rng M) (eps mean varScaled : ℝ) (dist : String) : Except McErr (M ℝ) :=
  if eps < mean then
    (if dist.toLower = "ig" then .ok (R.wald mean (mean / varScaled))
    else if dist.toLower = "ga" then .ok (do
      let g ← R.gamma (1 / varScaled)
      pure (varScaled * mean * g))
    else if dist.toLower = "ln" then .ok (do
      let scale := √(log (1 + varScaled))
      let z ← R.normal
      pure (mean * exp (scale * (z - scale / 2))))
    else .error .valueError)
  else if dist.toLower = "ig" ∨ dist.toLower = "ga" ∨ dist.toLower = "ln" then .ok (pure 0) else .error .valueError

/-- `Sv32McChoiKwok2023Ig.cond_states_step`, `pyfeng/sv32_mc.py` lines 399-417; `mv` stands for `cond_avgvar_mv(·, ·, ·, eta=None)`. -/
noncomputable def stepIg (R : Rng M) (eps : ℝ) (mv : ℝ → ℝ → ℝ → ℝ × ℝ) (m : Sv32) (dist : String) (dt var0 : ℝ) : M (Except McErr (ℝ × ℝ)) := do
  let x ← m.cir.drawNcx2 R.ncx2 dt (1 / var0)
  let varT := 1.0 / x
  let r := mv dt var0 varT
  match drawFromMv R eps r.1 r.2 dist with
  | .ok d => do
    let avgvar ← d
    pure (.ok (varT, avgvar))
  | .error e => pure (.error e)

end Sv32

end PyFENG
