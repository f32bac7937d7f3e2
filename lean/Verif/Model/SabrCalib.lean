import Verif.Model.Sabr
import Verif.Model.OptAbc

/-!
# Model of the calibration methods of `pyfeng/sabr.py`

`SabrVolApproxABC.impvol`, `SabrVolApproxABC.vol_smile` and `SabrHagan2002.calibrate3`, one option at a time.  `scipy.optimize.brentq` and
`scipy.optimize.root` are parameters.
-/

namespace PyFENG
namespace Sabr

/-- `scipy.optimize.brentq(f, a, b)`: `f` may raise. -/
abbrev Brentq := (ℝ → Except String ℝ) → ℝ → ℝ → Except String ℝ

/-- `SabrHagan2002.impvol`, `pyfeng/sabr.py` lines 299-313 with `_base_beta = 1` (line 346): the base model is `Bsm` with the rates of `m`
(its `sigma` is `None` and never read; `n_iter = 8`).  Returns the implied `sigma` and the object `self` afterwards. -/
noncomputable def haganImpvol (brentq : Brentq) (m : Sabr) (price strike spot texp cp : ℝ) (setval : Bool) : Except String (ℝ × Sabr) := do
  let vol ← Bsm.impvol (ι := Unit) ⟨0, m.intr, m.divr, m.isFwd⟩ (fun _ => price) (fun _ => strike) (fun _ => spot) (fun _ => texp) (fun _ => cp) 8
  let ivFunc := fun (s : ℝ) => (.ok (({ m with sigma := s } : Sabr).haganVol strike spot texp - vol.1 ()) : Except String ℝ)
  let sigma ← brentq ivFunc 0 10
  pure (sigma, if setval then { m with sigma := sigma } else m)

open Classical in
/-- `SabrNormVolApprox.vol_for_price` as called by `impvol`, `pyfeng/sabr.py` lines 477-488: `sigma` is then the Python float handed over by `brentq`, and
`self.vov / self.sigma` (line 485) raises for `sigma = 0.0` (`vov` a Python float). -/
noncomputable def normVolPy (m : Sabr) (strike spot texp : ℝ) : Except String ℝ :=
  if m.sigma = 0 then .error "ZeroDivisionError: float division by zero" else .ok (m.normVol strike spot texp)

/-- `SabrNormVolApprox.impvol`, `pyfeng/sabr.py` lines 299-313 with `_base_beta = 0` (line 432): the base model is `Norm` (whose `impvol` may return `nan`). -/
noncomputable def normImpvol (brentq : Brentq) (m : Sabr) (price strike spot texp cp : ℝ) (setval : Bool) : Except String (ℝ × Sabr) := do
  let vol := Norm.impvol ⟨0, m.intr, m.divr, m.isFwd⟩ price strike spot texp cp
  let ivFunc := fun (s : ℝ) => do
    let v ← ({ m with sigma := s } : Sabr).normVolPy strike spot texp
    match vol with
    | some w => pure (v - w)
    | none => (.error "nan" : Except String ℝ)
  let sigma ← brentq ivFunc 0 10
  pure (sigma, if setval then { m with sigma := sigma } else m)

/-- The model evaluated by `calibrate3` at the solver's point `x`, `pyfeng/sabr.py` lines 402-404. -/
noncomputable def calibAt (m : Sabr) (x : ℝ × ℝ × ℝ) : Sabr := { m with sigma := Real.exp x.1, vov := Real.exp x.2.1, rho := Real.tanh x.2.2 }

/-- `SabrHagan2002.calibrate3` with `is_vol=True`, `pyfeng/sabr.py` lines 394-415; `root f x0` is the point returned by `scipy.optimize.root` (whose success flag
is not read).  Returns the dictionary (as a triple `sigma, vov, rho`) and the object `self` afterwards. -/
noncomputable def calibrate3 (root : (ℝ × ℝ × ℝ → ℝ × ℝ × ℝ) → ℝ × ℝ × ℝ → ℝ × ℝ × ℝ) (m : Sabr) (vol3 strike3 : ℝ × ℝ × ℝ) (spot texp : ℝ) (setval : Bool) :
    (ℝ × ℝ × ℝ) × Sabr :=
  let err := fun (x : ℝ × ℝ × ℝ) =>
    let model := m.calibAt x
    (model.haganVol strike3.1 spot texp - vol3.1, model.haganVol strike3.2.1 spot texp - vol3.2.1, model.haganVol strike3.2.2 spot texp - vol3.2.2)
  let x := root err (Real.log vol3.2.1, -1, 0)
  let params := (Real.exp x.1, Real.exp x.2.1, Real.tanh x.2.2)
  (params, if setval then { m with sigma := params.1, vov := params.2.1, rho := params.2.2 } else m)

/-- `SabrABC._smile_model`, `pyfeng/sabr.py` lines 29-31. -/
noncomputable def smileModel (m : Sabr) : String :=
  open Classical in if npIsclose m.beta 0 then "norm" else "bsm"

/-- The class `SabrHagan2002` (or `SabrNormVolApprox`, ...) as seen by `OptABC`: its price and rates. -/
noncomputable def cls (price : Sabr → ℝ → ℝ → ℝ → ℝ → ℝ) : OptClass Sabr :=
  { getSigma := Sabr.sigma, setSigma := fun s m => { m with sigma := s }, price := price, conv := mp }

open Classical in
/-- `SabrVolApproxABC.vol_smile`, `pyfeng/sabr.py` lines 315-326, for the class whose price is `price` and whose `vol_for_price` is `volForPrice`. -/
noncomputable def volSmile (price : Sabr → ℝ → ℝ → ℝ → ℝ → ℝ) (volForPrice : Sabr → ℝ → ℝ → ℝ → ℝ) (baseBeta : Option ℝ) (m : Sabr) (strike spot texp : ℝ)
    (cp : Option ℝ) (model : Option String) : Except String OptABC.SmileVal :=
  let model := model.getD m.smileModel
  let volBeta := baseBeta.getD m.beta
  if (OptABC.pyLower model = "bsm" ∧ npIsclose volBeta 1) ∨ (OptABC.pyLower model = "norm" ∧ npIsclose volBeta 0) then .ok (.flat (volForPrice m strike spot texp))
  else OptABC.volSmile (cls price) m strike spot texp cp model

end Sabr
end PyFENG
