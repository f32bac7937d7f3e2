import Verif.Model.Heston
import Verif.Model.HestonMc
import Verif.Model.Fft

/-!
# Model of `pyfeng/ousv.py`: stochastic volatility driven by an Ornstein-Uhlenbeck process

One path at a time, over an arbitrary monad of random draws (see `Rng`).  Not modelled: `scheme` values other than 0 and 1 are an
`UnboundLocalError` (`Heston.SchemeErr`), numpy broadcasting is elementwise.
-/

namespace PyFENG

open Real

/-- Attributes of an OUSV model instance (`pyfeng/params.py` `OusvParams`); `sigma` is the initial volatility. -/
structure Ousv where
  sigma : ℝ
  vov : ℝ
  rho : ℝ
  mr : ℝ
  theta : ℝ
  intr : ℝ
  divr : ℝ
  isFwd : Bool

namespace Ousv

variable {M : Type → Type} [Monad M]

/-- `OusvABC.avgvol_mv`, `pyfeng/ousv.py` lines 25-52 (first component; the second is `None`). -/
noncomputable def avgvolM (m : Ousv) (texp : ℝ) (vol0 : Option ℝ) (nzTheta : Bool) : ℝ :=
  let vol0 := vol0.getD m.sigma
  let vol0 := if nzTheta then vol0 - m.theta else vol0
  let phi := exprel (-(m.mr * texp))
  let r := vol0 * phi
  if nzTheta then r + m.theta else r

/-- `phi2`, `pyfeng/ousv.py` lines 77, 100. -/
noncomputable def phi2 (m : Ousv) (texp : ℝ) : ℝ := (1 + exp (-(m.mr * texp))) / 2 * exprel (-(m.mr * texp))

/-- `OusvABC.avgvar_mv`, `pyfeng/ousv.py` lines 54-84 (first component; the second is `None`). -/
noncomputable def avgvarM (m : Ousv) (texp : ℝ) (vol0 : Option ℝ) (nzTheta : Bool) : ℝ :=
  let vol0 := vol0.getD m.sigma
  let vol0 := if nzTheta then vol0 - m.theta else vol0
  let phi := exprel (-(m.mr * texp))
  let vv := vol0 ^ 2 * m.phi2 texp + 0.5 * (m.vov ^ 2 / m.mr) * (1 - m.phi2 texp)
  if nzTheta then vv + m.theta * (m.theta + 2 * vol0 * phi) else vv

/-- `OusvABC.cond_avgvolvar_m`, `pyfeng/ousv.py` lines 85-118. -/
noncomputable def condAvgvolvarM (m : Ousv) (texp vol0 volT : ℝ) (nzTheta : Bool) : ℝ × ℝ :=
  let mrT := m.mr * texp
  let eMr := exp (-mrT)
  let phi := exprel (-mrT)
  let vol0 := if nzTheta then vol0 - m.theta else vol0
  let volT := if nzTheta then volT - m.theta else volT
  let volhat := volT - vol0 * eMr
  let volM := (vol0 + volhat / (1 + eMr)) * phi
  let varM := vol0 ^ 2 * m.phi2 texp + 0.5 * (m.vov ^ 2 / m.mr) * (cosh mrT / sinh mrT - 1 / mrT)
  let varM := varM + volhat * (volhat * (sinh mrT * cosh mrT - mrT) / (2 * mrT * sinh mrT ^ 2) + vol0 * (eMr / mrT) * (1 / m.phi2 texp - 1))
  if nzTheta then (volM + m.theta, varM + m.theta * (m.theta + 2 * volM)) else (volM, varM)

/-- The local variable `d2` of `strike_var_swap_analytic`, `pyfeng/ousv.py` line 156. -/
noncomputable def swapD2 (m : Ousv) (texp : ℝ) : ℝ :=
  let mrt := m.mr * texp
  let phi := (exp (-mrt) - 1) / mrt
  let x0 := m.sigma - m.theta
  let vov2t := m.vov ^ 2 * texp
  (vov2t + 2 * mrt * m.theta ^ 2) + ((2 * mrt * (m.theta ^ 2 - m.sigma ^ 2) + vov2t) + mrt * (vov2t / 2 - mrt * x0 ^ 2) * phi) * phi

/-- The local variable `d1` of `strike_var_swap_analytic`, `pyfeng/ousv.py` lines 152, 155-159. -/
noncomputable def swapD1 (m : Ousv) (texp : ℝ) : ℝ :=
  let mrt := m.mr * texp
  let phi := (exp (-mrt) - 1) / mrt
  let x0 := m.sigma - m.theta
  let mrt2 := mrt ^ 2
  let vov2t := m.vov ^ 2 * texp
  let sig := m.sigma
  let sig2 := sig ^ 2
  let th := m.theta
  let th2 := th ^ 2
  let E := 4 * mrt2 * (sig2 ^ 2 - th2 ^ 2) - 3 * vov2t * (vov2t + 4 * th2 * mrt)
  let d1 := sig2 ^ 2 / 4 - E * (1 + phi) / (16 * mrt2)
  let d1 := d1 + ((3 * vov2t / 4 - mrt * sig * x0 / 2) * sig2 + E / (32 * mrt)) * phi ^ 2
  let d1 := d1 + ((2 * th * sig / 3 - sig2 / 6 - th2 / 2) * sig2 * mrt2 - E / 48 + (-mrt * sig * th + 3 / 4 * sig2 * mrt - vov2t / 4) * vov2t) * phi ^ 3
  d1 + (E / (8 * mrt) - 3 * vov2t * x0 * th + 3 * sig2 * vov2t / 2 - mrt * sig * x0 * (2 * th2 - th * sig + sig2)) * phi ^ 4 * mrt2 / 8

/-- `OusvABC.strike_var_swap_analytic`, `pyfeng/ousv.py` lines 120-164.  `np.isclose(dt, 0)` is `|dt| <= 1e-8`. -/
noncomputable def strikeVarSwap (m : Ousv) (texp dt : ℝ) : ℝ :=
  let strike := m.avgvarM texp (some m.sigma) true
  if ¬ (|dt| ≤ 1e-8) then
    let correction := m.intr * (m.intr - strike) + m.swapD1 texp - m.vov / (2 * m.mr) * m.rho * m.swapD2 texp / texp
    strike + correction * dt
  else strike

/-- The exponent of `OusvABC.logp_mgf`, `pyfeng/ousv.py` lines 178-202.  Square root and logarithm are the principal branches. -/
noncomputable def logpMgfExpo (m : Ousv) (uu : ℂ) (texp : ℝ) : ℂ :=
  let var0 : ℂ := (m.sigma : ℂ) ^ 2
  let mrH : ℂ := 2 * m.mr
  let vovH : ℂ := 2 * m.vov
  let thetaH : ℂ := (m.vov : ℂ) ^ 2 / (2 * m.mr)
  let vov2H : ℂ := 4 * (m.vov : ℂ) ^ 2
  let beta := mrH - m.rho * vovH * uu
  let dd := (beta ^ 2 + vov2H * uu * (1 - uu)) ^ (1 / 2 : ℂ)
  let gg := (beta - dd) / (beta + dd)
  let expH := Complex.exp (-0.5 * dd * texp)
  let exp := expH ^ 2
  let tmp1 := 1 - gg * exp
  let mgf := mrH * thetaH * ((beta - dd) * texp - 2 * Complex.log (tmp1 / (1 - gg))) + var0 * (beta - dd) * (1 - exp) / tmp1
  let mgf := mgf / vov2H
  let bb := (1 - expH) ^ 2 / tmp1
  let aa := 0.5 * m.mr * m.theta / dd ^ 2
  let aa := aa * (beta * (dd * texp - 4) + dd * (dd * texp - 2) + 4 * ((dd ^ 2 - 2 * beta ^ 2) / (beta + dd) * exp + 2 * beta * expH) / tmp1)
  mgf + 0.5 * m.theta / thetaH * (beta - dd) / dd * (aa + bb * m.sigma)

/-- `OusvABC.logp_mgf`, `pyfeng/ousv.py` lines 166-204. -/
noncomputable def logpMgf (m : Ousv) (uu : ℂ) (texp : ℝ) : ℂ := Complex.exp (m.logpMgfExpo uu texp)

/-- `OusvSchobelZhu1998.D_B_C`, `pyfeng/ousv.py` lines 266-293 (the same expressions are in `logp_mgf_schobelzhu1998`, lines 222-241). -/
noncomputable def dbc (m : Ousv) (s1 s2 s3 : ℂ) (texp : ℝ) : ℂ × ℂ × ℂ :=
  let mr : ℂ := m.mr
  let theta : ℂ := m.theta
  let vov : ℂ := m.vov
  let gamma1 := (2 * vov ^ 2 * s1 + mr ^ 2) ^ (1 / 2 : ℂ)
  let gamma2 := (mr - 2 * vov ^ 2 * s3) / gamma1
  let gamma3 := mr ^ 2 * theta - s2 * vov ^ 2
  let sinh := Complex.sinh (gamma1 * texp)
  let cosh := Complex.cosh (gamma1 * texp)
  let sincos := sinh + gamma2 * cosh
  let cossin := cosh + gamma2 * sinh
  let ktg3 := mr * theta * gamma1 - gamma2 * gamma3
  let s2g3 := vov ^ 2 * gamma1 ^ 3
  let D := (mr - gamma1 * sincos / cossin) / vov ^ 2
  let B := ((ktg3 + gamma3 * sincos) / cossin - mr * theta * gamma1) / (vov ^ 2 * gamma1)
  let C := -0.5 * Complex.log cossin + 0.5 * mr * texp + ((mr * theta * gamma1) ^ 2 - gamma3 ^ 2) / (2 * s2g3) * (sinh / cossin - gamma1 * texp)
    + ktg3 * gamma3 / s2g3 * ((cosh - 1) / cossin)
  (D, B, C)

/-- `OusvABC.logp_mgf_schobelzhu1998`, `pyfeng/ousv.py` lines 206-245. -/
noncomputable def logpMgfSz (m : Ousv) (uu : ℂ) (texp : ℝ) : ℂ :=
  let mr : ℂ := m.mr
  let theta : ℂ := m.theta
  let vov : ℂ := m.vov
  let rho : ℂ := m.rho
  let s1 := 0.5 * uu * ((1 - 2 * mr * rho / vov) - (1 - rho ^ 2) * uu)
  let s2 := uu * mr * theta * rho / vov
  let s3 := 0.5 * uu * rho / vov
  let r := m.dbc s1 s2 s3 texp
  let res := -0.5 * uu * rho * ((m.sigma : ℂ) ^ 2 / vov + vov * texp)
  Complex.exp (res + ((r.1 / 2 * m.sigma + r.2.1) * m.sigma + r.2.2))

/-- `OusvSchobelZhu1998.f_1`, `pyfeng/ousv.py` lines 295-307. -/
noncomputable def f1 (m : Ousv) (phi : ℂ) (texp : ℝ) : ℂ :=
  let mr : ℂ := m.mr
  let theta : ℂ := m.theta
  let vov : ℂ := m.vov
  let rho : ℂ := m.rho
  let tmp := 1 + Complex.I * phi
  let s1 := 0.5 * tmp * (-tmp * (1 - rho ^ 2) + (1 - 2 * mr * rho / vov))
  let s2 := tmp * mr * theta * rho / vov
  let s3 := 0.5 * tmp * rho / vov
  let res := -0.5 * rho * tmp * ((m.sigma : ℂ) ^ 2 / vov + vov * texp)
  let r := m.dbc s1 s2 s3 texp
  Complex.exp (res + ((r.1 / 2 * m.sigma + r.2.1) * m.sigma + r.2.2))

/-- `OusvSchobelZhu1998.f_2`, `pyfeng/ousv.py` lines 309-320. -/
noncomputable def f2 (m : Ousv) (phi : ℂ) (texp : ℝ) : ℂ :=
  let mr : ℂ := m.mr
  let theta : ℂ := m.theta
  let vov : ℂ := m.vov
  let rho : ℂ := m.rho
  let s1 := 0.5 * phi * (phi * (1 - rho ^ 2) + Complex.I * (1 - 2 * mr * rho / vov))
  let s2 := Complex.I * phi * mr * theta * rho / vov
  let s3 := 0.5 * Complex.I * phi * rho / vov
  let res := -0.5 * Complex.I * phi * rho * ((m.sigma : ℂ) ^ 2 / vov + vov * texp)
  let r := m.dbc s1 s2 s3 texp
  Complex.exp (res + ((r.1 / 2 * m.sigma + r.2.1) * m.sigma + r.2.2))

/-- The market-convention fields inherited from `BaseParams`. -/
def mp (m : Ousv) : MParams := ⟨m.sigma, m.intr, m.divr, m.isFwd⟩

/-- `OusvSchobelZhu1998.price`, `pyfeng/ousv.py` lines 322-344: 100001 points from `h` in steps of `h = 0.001`, Simpson's rule. -/
noncomputable def priceSz (m : Ousv) (strike spot texp cp : ℝ) : ℝ :=
  let fwd := m.mp.fwd spot texp
  let df := m.mp.df texp
  let kk := strike / fwd
  let logK := log kk
  let h : ℝ := 0.001
  let ff := fun j : ℕ =>
    let phi : ℂ := (((j : ℝ) + 1) * h : ℝ)
    ((m.f1 phi texp - kk * m.f2 phi texp) * Complex.exp (-Complex.I * phi * logK) / (Complex.I * phi)).re
  let price := Fft.simpson ff 50000 h / π
  let price := price + (1 - kk) / 2 * (if cp > 0 then 1 else -1)
  df * fwd * price

/-- `OusvUncorrBallRoma1994.price`, `pyfeng/ousv.py` lines 357-370, with the class attribute `order = 0`.  The Bsm model is built without `is_fwd`. -/
noncomputable def priceBallRoma (m : Ousv) (strike spot texp cp : ℝ) : ℝ :=
  Bsm.price ⟨√(m.avgvarM texp (some m.sigma) true), m.intr, m.divr, false⟩ strike spot texp cp

/-! ### Monte Carlo -/

/-- `OusvMcABC.vol_step` from the normal variate `zn`, `pyfeng/ousv.py` lines 391-416. -/
noncomputable def volStep (m : Ousv) (dt vol0 zn : ℝ) (nzTheta : Bool) : ℝ :=
  let vol0 := if nzTheta then vol0 - m.theta else vol0
  let eMr := exp (-m.mr * dt)
  let volT := vol0 * eMr + m.vov * √((1 - eMr ^ 2) / (2 * m.mr)) * zn
  if nzTheta then volT + m.theta else volT

/-- The loop of `OusvMcABC.cond_spot_sigma`, `pyfeng/ousv.py` lines 427-430; the state is `(vol_t, avgvar, avgvol)`. -/
noncomputable def condLoop (step : ℝ → ℝ → M (ℝ × ℝ × ℝ)) : List ℝ → ℝ × ℝ × ℝ → M (ℝ × ℝ × ℝ)
  | [], s => pure s
  | dt :: dts, s => do
    let r ← step dt s.1
    condLoop step dts (r.1, s.2.1 + r.2.1 * dt, s.2.2 + r.2.2 * dt)

/-- The value returned from the final state, `pyfeng/ousv.py` lines 432-444. -/
noncomputable def condResult (m : Ousv) (texp vol0 : ℝ) (s : ℝ × ℝ × ℝ) : ℝ × ℝ :=
  let avgvar := s.2.1 / texp
  let avgvol := s.2.2 / texp
  let avgvar := avgvar + m.theta * (m.theta + 2 * avgvol)
  let avgvol := avgvol + m.theta
  let volT := s.1 + m.theta
  let spotCond := (volT ^ 2 - vol0 ^ 2 - m.vov ^ 2 * texp) + texp * (-2 * (m.mr * m.theta) * avgvol + (2 * m.mr - m.rho * m.vov) * avgvar)
  (exp (0.5 * m.rho / m.vov * spotCond), √((1 - m.rho ^ 2) * max avgvar 1e-64) / vol0)

/-- `OusvMcABC.cond_spot_sigma`, `pyfeng/ousv.py` lines 418-444; `step dt vol_t` is `cond_states_step(dt, vol_t, nz_theta=False)`. -/
noncomputable def condSpotSigma (m : Ousv) (step : ℝ → ℝ → M (ℝ × ℝ × ℝ)) (tobs : List ℝ) (texp vol0 : ℝ) : M (ℝ × ℝ) := do
  let s ← condLoop step (Heston.dts tobs) (vol0 - m.theta, 0, 0)
  pure (m.condResult texp vol0 s)

/-- `ln_m`, `pyfeng/ousv.py` lines 466-469 and 487-490. -/
noncomputable def lnMean (m : Ousv) (dt vol0 volT avgvar avgvol : ℝ) : ℝ :=
  (m.intr - m.divr - m.rho * m.vov / 2) * dt + m.rho / m.vov * ((volT ^ 2 - vol0 ^ 2) / 2 - m.mr * m.theta * dt * avgvol)
    + (m.rho / m.vov * m.mr - 0.5) * dt * avgvar

/-- `OusvMcABC.cond_log_return_var`, `pyfeng/ousv.py` lines 452-471. -/
noncomputable def condLogReturnVar (m : Ousv) (dt vol0 volT avgvar avgvol : ℝ) : ℝ :=
  m.lnMean dt vol0 volT avgvar avgvol ^ 2 + (1.0 - m.rho ^ 2) * dt * avgvar

/-- `OusvMcABC.draw_log_return`, `pyfeng/ousv.py` lines 473-493. -/
noncomputable def drawLogReturn (m : Ousv) (R : Rng M) (dt vol0 volT avgvar avgvol : ℝ) : M ℝ := do
  let zn ← R.normal
  pure (m.lnMean dt vol0 volT avgvar avgvol + √((1.0 - m.rho ^ 2) * dt * avgvar) * zn)

/-- The loop of `OusvMcABC.return_var_realized`, `pyfeng/ousv.py` lines 513-521; the state is `(vol_0, var_r)`. -/
noncomputable def realizedLoop (m : Ousv) (R : Rng M) (cond : Bool) (step : ℝ → ℝ → M (ℝ × ℝ × ℝ)) : List ℝ → ℝ × ℝ → M (ℝ × ℝ)
  | [], s => pure s
  | dt :: dts, s => do
    let r ← step dt s.1
    if cond then realizedLoop m R cond step dts (r.1, s.2 + m.condLogReturnVar dt s.1 r.1 r.2.1 r.2.2)
    else do
      let x ← m.drawLogReturn R dt s.1 r.1 r.2.1 r.2.2
      realizedLoop m R cond step dts (r.1, s.2 + x ^ 2)

/-- `OusvMcABC.return_var_realized`, `pyfeng/ousv.py` lines 495-523; `step dt vol_0` is `cond_states_step(dt, vol_0)` (`nz_theta=True`). -/
noncomputable def returnVarRealized (m : Ousv) (R : Rng M) (cond : Bool) (step : ℝ → ℝ → M (ℝ × ℝ × ℝ)) (tobs : List ℝ) (texp : ℝ) : M ℝ := do
  let s ← m.realizedLoop R cond step (Heston.dts tobs) (m.sigma, 0)
  pure (s.2 / texp)

/-- The shift back to non-zero `theta` at the end of `cond_states_step`, `pyfeng/ousv.py` lines 579-582, 992-995: from `(vol_t, avgvar, avgvol)` relative to `theta`. -/
noncomputable def shift (m : Ousv) (r : ℝ × ℝ × ℝ) : ℝ × ℝ × ℝ := (r.1 + m.theta, r.2.1 + m.theta * (m.theta + 2 * r.2.2), r.2.2 + m.theta)

/-- `OusvMcTimeDisc.cond_states_step`, `pyfeng/ousv.py` lines 555-584: `(vol_t, avgvar, avgvol)`. -/
noncomputable def stepTd (m : Ousv) (R : Rng M) (scheme : ℤ) (dt vol0 : ℝ) (nzTheta : Bool) : Except Heston.SchemeErr (M (ℝ × ℝ × ℝ)) :=
  let vol0 := if nzTheta then vol0 - m.theta else vol0
  if scheme = 0 then .ok (do
    let zn ← R.normal
    let volT := m.volStep dt vol0 zn false
    let r := (volT, (vol0 ^ 2 + volT ^ 2) / 2, (vol0 + volT) / 2)
    pure (if nzTheta then m.shift r else r))
  else if scheme = 1 then .ok (do
    let zn ← R.normal
    let volT := m.volStep dt vol0 zn false
    let a := m.condAvgvolvarM dt vol0 volT false
    let r := (volT, a.2, a.1)
    pure (if nzTheta then m.shift r else r))
  else .error .unboundLocal

/-- One path of `OusvMcTimeDisc.vol_paths(tobs)` at time `t > 0`, `pyfeng/ousv.py` lines 534-543; `bm s` is the Brownian path returned by `_bm_incr(..., cum=True)` at time `s`. -/
noncomputable def volPath (m : Ousv) (bm : ℝ → ℝ) (t : ℝ) : ℝ :=
  m.theta + (m.sigma - m.theta + m.vov / √(2 * m.mr) * bm (exp (m.mr * t) ^ 2 - 1)) / exp (m.mr * t)

/-! ### Karhunen-Loève expansion -/

/-- The argument `odd`: `None`, 1 or 2. -/
inductive Parity where
  | all | odd | even
  deriving DecidableEq

/-- The slices `x`, `x[::2]`, `x[1::2]` of the terms numbered `n = 1, ..., ns` (position `k = n - 1`). -/
def Parity.keep : Parity → ℕ → Bool
  | .all, _ => true
  | .odd, k => k % 2 == 0
  | .even, k => k % 2 == 1

/-- `np.sum` of a slice of the first `ns` terms. -/
noncomputable def sliceSum (p : Parity) (ns : ℕ) (f : ℕ → ℝ) : ℝ := ∑ k ∈ (Finset.range ns).filter (fun k => p.keep k), f k

/-- `(n pi)**2` for position `k = n - 1`. -/
noncomputable def nPi2 (k : ℕ) : ℝ := (((k : ℝ) + 1) * π) ^ 2

/-- The closed form in `_a2sum`, `pyfeng/ousv.py` lines 689-694. -/
noncomputable def a2All (x : ℝ) : ℝ := (x / tanh x - 1) / x ^ 2

/-- `OusvMcChoi2025KL._a2sum(mr_t, ns, odd)`, `pyfeng/ousv.py` lines 665-708. -/
noncomputable def a2sum (x : ℝ) (ns : ℕ) (p : Parity) : ℝ :=
  let rv := match p with
    | .even => a2All (x / 2) / 2 ^ 2
    | .odd => a2All x - a2All (x / 2) / 2 ^ 2
    | .all => a2All x
  rv - sliceSum p ns fun k => 2 / (x ^ 2 + nPi2 k)

/-- The closed form in `_a2overn2sum`, `pyfeng/ousv.py` lines 733-738. -/
noncomputable def a2n2All (x : ℝ) : ℝ := (1 / 3 - (x / tanh x - 1) / x ^ 2) / x ^ 2

/-- `OusvMcChoi2025KL._a2overn2sum(mr_t, ns, odd)`, `pyfeng/ousv.py` lines 711-753. -/
noncomputable def a2n2sum (x : ℝ) (ns : ℕ) (p : Parity) : ℝ :=
  let rv := match p with
    | .even => a2n2All (x / 2) / 2 ^ 4
    | .odd => a2n2All x - a2n2All (x / 2) / 2 ^ 4
    | .all => a2n2All x
  rv - sliceSum p ns fun k => 2 / nPi2 k / (x ^ 2 + nPi2 k)

/-- The closed form in `_a4sum`, `pyfeng/ousv.py` lines 778-783. -/
noncomputable def a4All (x : ℝ) : ℝ := (x / tanh x + x ^ 2 / sinh x ^ 2 - 2) / x ^ 4

/-- `OusvMcChoi2025KL._a4sum(mr_t, ns, odd)`, `pyfeng/ousv.py` lines 755-799. -/
noncomputable def a4sum (x : ℝ) (ns : ℕ) (p : Parity) : ℝ :=
  let rv := match p with
    | .even => a4All (x / 2) / 2 ^ 4
    | .odd => a4All x - a4All (x / 2) / 2 ^ 4
    | .all => a4All x
  rv - sliceSum p ns fun k => 4 / (x ^ 2 + nPi2 k) ^ 2

/-- The closed form in `_a6sum`, `pyfeng/ousv.py` lines 822-828. -/
noncomputable def a6All (x : ℝ) : ℝ := (3 * x / tanh x + (3 + 2 * x / tanh x) * x ^ 2 / sinh x ^ 2 - 8) / (2 * x ^ 6)

/-- `OusvMcChoi2025KL._a6sum(mr_t, ns, odd)`, `pyfeng/ousv.py` lines 800-843. -/
noncomputable def a6sum (x : ℝ) (ns : ℕ) (p : Parity) : ℝ :=
  let rv := match p with
    | .even => a6All (x / 2) / 2 ^ 6
    | .odd => a6All x - a6All (x / 2) / 2 ^ 6
    | .all => a6All x
  rv - sliceSum p ns fun k => 8 / (x ^ 2 + nPi2 k) ^ 3

/-- The closed form in `_a6n2sum`, `pyfeng/ousv.py` lines 867-872. -/
noncomputable def a6n2All (x : ℝ) : ℝ := 2 * a4sum x 0 .all - x ^ 2 * a6sum x 0 .all

/-- `OusvMcChoi2025KL._a6n2sum(mr_t, ns, odd)`, `pyfeng/ousv.py` lines 845-886. -/
noncomputable def a6n2sum (x : ℝ) (ns : ℕ) (p : Parity) : ℝ :=
  let rv := match p with
    | .even => a6n2All (x / 2) / 2 ^ 4
    | .odd => a6n2All x - a6n2All (x / 2) / 2 ^ 4
    | .all => a6n2All x
  rv - sliceSum p ns fun k => nPi2 k * 8 / (x ^ 2 + nPi2 k) ^ 3

/-- `n_pi`, `pyfeng/ousv.py` lines 978, 1072. -/
noncomputable def nPi (k : ℕ) : ℝ := π * ((k : ℝ) + 1)

/-- `an2`, `pyfeng/ousv.py` line 983. -/
noncomputable def an2 (x : ℝ) (k : ℕ) : ℝ := 2 / (x ^ 2 + nPi k ^ 2)

/-- `an`, `pyfeng/ousv.py` lines 980, 1073. -/
noncomputable def an (x : ℝ) (k : ℕ) : ℝ := √(an2 x k)

/-- The assembly of the step from the tail variables `(z_g, z_p, z_q, z_r)` and the sine variates `z_sin` (`n_sin` of them),
`pyfeng/ousv.py` lines 977-990, relative to `theta`. -/
noncomputable def klAssemble (m : Ousv) (dt vol0 volT : ℝ) (nSin : ℕ) (zSin : ℕ → ℝ) (zg zp zq zr : ℝ) : ℝ × ℝ × ℝ :=
  let mrT := m.mr * dt
  let vovn := m.vov * √dt
  let zg := zg + sliceSum .odd nSin fun k => an mrT k / nPi k * zSin k
  let zp := zp + sliceSum .odd nSin fun k => an2 mrT k * an mrT k * nPi k * zSin k
  let zq := zq + sliceSum .even nSin fun k => an2 mrT k * an mrT k * nPi k * zSin k
  let zr := zr + sliceSum .all nSin fun k => an2 mrT k * (zSin k ^ 2 - 1)
  let a := m.condAvgvolvarM dt vol0 volT false
  let uuT := a.1 + 2 * vovn * zg
  let vvT := a.2 + vovn * ((vol0 * (zp + zq) + volT * (zp - zq)) + 0.5 * vovn * zr)
  (volT, vvT, uuT)

/-- `OusvMcChoi2025KL.cond_states_step(dt, vol_0, nz_theta, zn)` with `zn` given, `pyfeng/ousv.py` lines 929-935, 970-997: `z 0` is used for the volatility,
`z (k+1)` are the sine variates. -/
noncomputable def stepKlZn (m : Ousv) (dt vol0 : ℝ) (nzTheta : Bool) (nSin : ℕ) (z : ℕ → ℝ) : ℝ × ℝ × ℝ :=
  let vol0 := if nzTheta then vol0 - m.theta else vol0
  let volT := m.volStep dt vol0 (z 0) false
  let r := m.klAssemble dt vol0 volT nSin (fun k => z (k + 1)) 0 0 0 (-a2sum (m.mr * dt) nSin .all)
  if nzTheta then m.shift r else r

/-- `np.clip(x, -1.0, 1.0)`. -/
noncomputable def clip1 (x : ℝ) : ℝ := min (max x (-1)) 1

/-- `n` standard normal variates, `z_sin`, `pyfeng/ousv.py` lines 941-950. -/
def normals (R : Rng M) : ℕ → M (ℕ → ℝ)
  | 0 => pure fun _ => 0
  | n + 1 => do
    let f ← normals R n
    let z ← R.normal
    pure fun k => if k = n then z else f k

/-- `OusvMcChoi2025KL.cond_states_step(dt, vol_0, nz_theta)`, `pyfeng/ousv.py` lines 888-997, drawing its variates. -/
noncomputable def stepKl (m : Ousv) (R : Rng M) (nSin : ℕ) (dt vol0 : ℝ) (nzTheta : Bool) : M (ℝ × ℝ × ℝ) := do
  let mrT := m.mr * dt
  let vol0 := if nzTheta then vol0 - m.theta else vol0
  let zn ← R.normal
  let volT := m.volStep dt vol0 zn false
  let zSin ← normals R nSin
  let zg ← R.normal
  let zp ← R.normal
  let zq ← R.normal
  let zr ← R.normal
  let gStd := √(a2n2sum mrT nSin .odd)
  let pStd := √(a6n2sum mrT nSin .odd)
  let qStd := √(a6n2sum mrT nSin .even)
  let corr := clip1 (a4sum mrT nSin .odd / (gStd * pStd))
  let r := m.klAssemble dt vol0 volT nSin zSin ((corr * zp + √(1.0 - corr ^ 2) * zg) * gStd) (zp * pStd) (zq * qStd) (√(a4sum mrT nSin .all) * (zr ^ 2 - 1))
  pure (if nzTheta then m.shift r else r)

/-- `OusvMcChoi2025KL.unexplained_var_ratio`, `pyfeng/ousv.py` lines 999-1019. -/
noncomputable def unexplainedVarRatio (x : ℝ) (ns : ℕ) : ℝ := a4sum x ns .all / a4sum x 0 .all

/-- `OusvMcChoi2025KL.vol_path_sin(tobs, zn)` with `zn` given, `pyfeng/ousv.py` lines 1055-1079, at one time `t` of a grid ending at `T`. -/
noncomputable def volPathSin (m : Ousv) (nSin : ℕ) (z : ℕ → ℝ) (T t : ℝ) : ℝ :=
  let mrT := m.mr * T
  let eMr := exp (-mrT)
  let eMrT := exp (-m.mr * t)
  let vol0 := m.sigma - m.theta
  let volT := m.volStep T vol0 (z 0) false
  let volhat := volT - vol0 * eMr
  m.theta + vol0 * eMrT + 0.5 * (1 / eMrT - eMrT) / sinh mrT * volhat
    + m.vov * √T * ∑ k ∈ Finset.range nSin, an mrT k * sin (nPi k * t / T) * z (k + 1)

/-- The shape check of the matrix product in `vol_path_sin`, `pyfeng/ousv.py` line 1077: `(an*sin)` has `n_sin` columns, `zn[1:, :]` has `rows - 1` rows (0 if `rows = 0`);
with `zn=None` the code draws `rows = n_sin` rows (line 1063), with `zn` given `n_sin = rows - 1` (line 1067). -/
def volPathSinShape (nSin : ℕ) (zn : Option ℕ) : Except McErr Unit :=
  match zn with
  | none => if nSin = nSin - 1 then .ok () else .error .valueError
  | some rows => if rows - 1 = rows - 1 then .ok () else .error .valueError

/-- The check of `n_sin` in `__post_init__` and `configure`, `pyfeng/ousv.py` lines 637-640, 656-659. -/
def checkNSin (nSin : ℤ) : Except McErr Unit := if nSin % 2 ≠ 0 then .error .valueError else .ok ()

end Ousv

end PyFENG
