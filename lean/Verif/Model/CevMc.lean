import Verif.Model.Cev
import Verif.Model.HestonMc
import Mathlib.MeasureTheory.Integral.Lebesgue.Basic

/-!
# Model of the Monte Carlo drivers of `pyfeng/cev.py` (`CevMc`)

The whole array of paths is kept: the draws of one step are made for all paths, stage by stage, as in the code.
-/

namespace PyFENG

open Real MeasureTheory Set

/-- Elementwise draws: an array operation of the generator fills the array entry by entry. -/
def drawAll {M : Type → Type} [Monad M] {α β : Type} (d : α → M β) : List α → M (List β)
  | [] => pure []
  | a :: l => d a >>= fun b => drawAll d l >>= fun bs => pure (b :: bs)

namespace Cev

variable {M : Type → Type} [Monad M]

/-- First stage of `CevMc.price_step` for one entry, `pyfeng/cev.py` lines 367-384: entries with `spot > 0` get a gamma draw and then
either the Poisson intensity (`Sum.inr`) or, if that is not positive, the price zero (`Sum.inl 0`); other entries keep `s_t`
(`Sum.inl`; for a zero spot this is zero, so that the reset in line 384 changes nothing). -/
noncomputable def stage1 (gam : ℝ → M ℝ) (m : Cev) (dt spot : ℝ) : M (ℝ ⊕ ℝ) :=
  let st := exp ((m.intr - m.divr) * dt) * spot
  let betac := 1 - m.beta
  let var := (betac * m.sigma) ^ 2 * dt * exprel (2 * (m.intr - m.divr) * betac * dt)
  if spot > 0 then
    gam (1 / (2 * betac)) >>= fun g =>
      let lam := (st ^ (2 * betac) / var - 2 * g) / 2
      pure (if lam ≤ 0 then Sum.inl 0 else Sum.inr lam)
  else pure (Sum.inl st)

/-- Second stage, line 386: the Poisson draws for the entries that are still alive. -/
def stage2 (pois : ℝ → M ℕ) : ℝ ⊕ ℝ → M (ℝ ⊕ ℕ)
  | .inl s => pure (.inl s)
  | .inr lam => pois lam >>= fun n => pure (.inr n)

/-- Third stage, lines 386-387: the final gamma draws and the transformation back to prices. -/
noncomputable def stage3 (gam : ℝ → M ℝ) (m : Cev) (dt : ℝ) : ℝ ⊕ ℕ → M ℝ
  | .inl s => pure s
  | .inr n => gam ((n : ℝ) + 1) >>= fun x =>
      let betac := 1 - m.beta
      let var := (betac * m.sigma) ^ 2 * dt * exprel (2 * (m.intr - m.divr) * betac * dt)
      pure ((var * (2 * x)) ^ (1 / (2 * betac)))

/-- `CevMc.price_step` on the array of all paths, `pyfeng/cev.py` lines 352-388, for `beta < 1`. -/
noncomputable def priceSteps (gam : ℝ → M ℝ) (pois : ℝ → M ℕ) (m : Cev) (spots : List ℝ) (dt : ℝ) : M (List ℝ) :=
  drawAll (stage1 gam m dt) spots >>= fun a => drawAll (stage2 pois) a >>= fun b => drawAll (stage3 gam m dt) b

/-- The loop `for i in range(n_dt): s_t = self.price_step(s_t, dt[i])`, `pyfeng/cev.py` lines 397-398, 413-414. -/
noncomputable def mcLoop (gam : ℝ → M ℝ) (pois : ℝ → M ℕ) (m : Cev) : List ℝ → List ℝ → M (List ℝ)
  | [], s => pure s
  | dt :: ds, s => priceSteps gam pois m s dt >>= fun s' => mcLoop gam pois m ds s'

/-- The terminal prices of the `n_path` paths on the dates `tobs(texp)`, `pyfeng/cev.py` lines 392-398, 408-414.  For `beta > 1` numpy
refuses the negative gamma shape in the first step (ValueError, `none`). -/
noncomputable def mcPaths (gam : ℝ → M ℝ) (pois : ℝ → M ℕ) (m : Cev) (nPath : ℕ) (dt : Option ℝ) (spot texp : ℝ) : M (Option (List ℝ)) :=
  if 1 / (2 * (1 - m.beta)) < 0 then pure none
  else mcLoop gam pois m (Heston.dts (McState.tobs dt texp)) (List.replicate nPath spot) >>= fun s => pure (some s)

/-- `CevMc.mass_zero(spot, texp)`, `pyfeng/cev.py` lines 390-404. -/
noncomputable def mcMassZero (gam : ℝ → M ℝ) (pois : ℝ → M ℕ) (m : Cev) (nPath : ℕ) (dt : Option ℝ) (spot texp : ℝ) : M (Option ℝ) :=
  mcPaths gam pois m nPath dt spot texp >>= fun r =>
    pure (r.map fun s => (s.map fun x => if x ≤ 0 then (1 : ℝ) else 0).sum / nPath)

/-- `CevMc.price(strike, spot, texp, cp)`, `pyfeng/cev.py` lines 406-419.  `strike[:, None]` raises for a scalar strike (`Sum.inl`,
TypeError or IndexError); for an array one sample mean per strike, from the same paths. -/
noncomputable def mcPrice (gam : ℝ → M ℝ) (pois : ℝ → M ℕ) (m : Cev) (nPath : ℕ) (dt : Option ℝ) (strike : ℝ ⊕ List ℝ) (spot texp cp : ℝ) :
    M (Option (List ℝ)) :=
  mcPaths gam pois m nPath dt spot texp >>= fun r =>
    pure (match strike with
      | .inl _ => none
      | .inr ks => r.map fun s => ks.map fun k => exp (-m.intr * texp) * ((s.map fun x => max (cp * (x - k)) 0).sum / nPath))

end Cev

/-- Interpretation of random draws by expectations of nonnegative (possibly infinite) quantities. -/
def Lx (α : Type) : Type := (α → ENNReal) → ENNReal

instance : Monad Lx where
  pure a := fun φ => φ a
  bind x f := fun φ => x fun a => f a φ

/-- `standard_gamma(a)`. -/
noncomputable def Lx.gamma (a : ℝ) : Lx ℝ := fun φ => ∫⁻ g in Ioi (0 : ℝ), ENNReal.ofReal (gammaPdf a g) * φ g

/-- `poisson(lam)`. -/
noncomputable def Lx.poisson (lam : ℝ) : Lx ℕ := fun φ => ∑' n : ℕ, ENNReal.ofReal (exp (-lam) * (lam ^ n / n.factorial)) * φ n

end PyFENG
