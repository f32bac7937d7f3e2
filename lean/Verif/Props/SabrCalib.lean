import Verif.Model.SabrCalib
import Verif.Props.SabrVol
import Verif.Props.Bsm
import Mathlib.Analysis.SpecialFunctions.Artanh

/-!
# C137: calibration of the SABR volatility approximations
-/

namespace PyFENG

open Real Set

/-- What the documentation of `scipy.optimize.brentq` promises: the function is evaluated at both ends first (an exception raised there comes out), equal signs raise,
a returned point lies in the bracket with residual at most `tol`, and a continuous function with a sign change has its root found. -/
structure Spec.IsBrentq (br : Sabr.Brentq) (tol : ℝ) : Prop where
  raises : ∀ f a b e, f a = .error e → br f a b = .error e
  sign : ∀ f a b x y, f a = .ok x → f b = .ok y → 0 < x * y → ∃ e, br f a b = .error e
  root : ∀ f a b r, br f a b = .ok r → a ≤ r ∧ r ≤ b ∧ ∃ v, f r = .ok v ∧ |v| ≤ tol
  found : ∀ f (g : ℝ → ℝ) a b, a ≤ b → (∀ s ∈ Icc a b, f s = .ok (g s)) → ContinuousOn g (Icc a b) → g a ≤ 0 → 0 ≤ g b → ∃ r, br f a b = .ok r

open Classical in
/-- An ideal root finder. -/
private noncomputable def idealBr : Sabr.Brentq := fun f a b =>
  match f a, f b with
  | .error e, _ => .error e
  | _, .error e => .error e
  | .ok x, .ok y => if 0 < x * y then .error "f(a) and f(b) must have different signs"
    else if h : ∃ r, a ≤ r ∧ r ≤ b ∧ f r = .ok 0 then .ok h.choose else .error "not found"

/-- The specification is satisfiable, with any tolerance. -/
example {tol : ℝ} (ht : 0 ≤ tol) : Spec.IsBrentq idealBr tol := by
  constructor
  · intro f a b e h
    simp [idealBr, h]
  · intro f a b x y hx hy h
    exact ⟨_, by simp [idealBr, hx, hy, h]; rfl⟩
  · intro f a b r h
    unfold idealBr at h
    split at h
    · cases h
    · cases h
    · split_ifs at h with h1 h2
      injection h with h
      obtain ⟨p1, p2, p3⟩ := h2.choose_spec
      exact ⟨h ▸ p1, h ▸ p2, 0, h ▸ p3, by simpa using ht⟩
  · intro f g a b hab hf hg ha hb
    obtain ⟨r, hr, h0⟩ := intermediate_value_Icc hab hg ⟨ha, hb⟩
    have hex : ∃ r, a ≤ r ∧ r ≤ b ∧ f r = .ok 0 := ⟨r, hr.1, hr.2, by rw [hf r hr, h0]⟩
    refine ⟨hex.choose, ?_⟩
    unfold idealBr
    rw [hf a ⟨le_rfl, hab⟩, hf b ⟨hab, le_rfl⟩]
    simp only
    rw [if_neg (by nlinarith), dif_pos hex]

namespace Sabr

/-- The implied volatility that `haganImpvol` asks from the Black-Scholes base model. -/
noncomputable def Spec.baseIv (m : Sabr) (price K S T cp : ℝ) : Except String ((Unit → ℝ) × Bool) :=
  Bsm.impvol ⟨0, m.intr, m.divr, m.isFwd⟩ (fun _ => price) (fun _ => K) (fun _ => S) (fun _ => T) (fun _ => cp) 8

lemma haganImpvol_eq (br : Brentq) (m : Sabr) (p K S T cp : ℝ) (sv : Bool) {v : Unit → ℝ} {b : Bool} (hv : Spec.baseIv m p K S T cp = .ok (v, b)) :
    haganImpvol br m p K S T cp sv = (br (fun s => .ok (({ m with sigma := s } : Sabr).haganVol K S T - v ())) 0 10).map
      fun s => (s, if sv then { m with sigma := s } else m) := by
  unfold haganImpvol
  unfold Spec.baseIv at hv
  rw [hv]
  simp only [bind, Except.bind, pure, Except.pure]
  cases br (fun s => .ok (({ m with sigma := s } : Sabr).haganVol K S T - v ())) 0 10 <;> rfl

/-- **C137.** When `SabrHagan2002.impvol` returns, the model with the returned `sigma` (and every other parameter as before) has, at this strike and expiry, the Black-Scholes
implied volatility of the price up to the tolerance of the root finder; the object changes only with `setval`, and then only in `sigma`. -/
theorem hagan_impvol_fits {br : Brentq} {tol : ℝ} (hbr : Spec.IsBrentq br tol) (m m' : Sabr) {p K S T cp σ : ℝ} {sv : Bool} {v : Unit → ℝ} {b : Bool}
    (hv : Spec.baseIv m p K S T cp = .ok (v, b)) (h : haganImpvol br m p K S T cp sv = .ok (σ, m')) :
    0 ≤ σ ∧ σ ≤ 10 ∧ |({ m with sigma := σ } : Sabr).haganVol K S T - v ()| ≤ tol ∧ m' = if sv then { m with sigma := σ } else m := by
  rw [haganImpvol_eq br m p K S T cp sv hv] at h
  cases hb : br (fun s => .ok (({ m with sigma := s } : Sabr).haganVol K S T - v ())) 0 10 with
  | error e => rw [hb] at h; cases h
  | ok r =>
    rw [hb] at h
    simp only [Except.map, Except.ok.injEq, Prod.mk.injEq] at h
    obtain ⟨rfl, rfl⟩ := h
    obtain ⟨h1, h2, w, h3, h4⟩ := hbr.root _ _ _ _ hb
    simp only [Except.ok.injEq] at h3
    exact ⟨h1, h2, h3 ▸ h4, rfl⟩

lemma haganVol_sigma0 (m : Sabr) (K S T : ℝ) : ({ m with sigma := 0 } : Sabr).haganVol K S T = 0 := by
  unfold haganVol vars
  simp

/-- **C137 (disagreement).** The bracket of `SabrHagan2002.impvol` is `[0, 10]` whatever the units of the price: a price whose implied volatility is above the one at
`sigma = 10` makes it raise, at every strike. -/
theorem hagan_impvol_bracket {br : Brentq} {tol : ℝ} (hbr : Spec.IsBrentq br tol) (m : Sabr) {p K S T cp : ℝ} (sv : Bool) {v : Unit → ℝ} {b : Bool}
    (hv : Spec.baseIv m p K S T cp = .ok (v, b)) (h0 : 0 < v ()) (h10 : ({ m with sigma := 10 } : Sabr).haganVol K S T < v ()) :
    ∃ e, haganImpvol br m p K S T cp sv = .error e := by
  rw [haganImpvol_eq br m p K S T cp sv hv]
  obtain ⟨e, he⟩ := hbr.sign (fun s => .ok (({ m with sigma := s } : Sabr).haganVol K S T - v ())) 0 10 _ _ rfl rfl (by
    rw [haganVol_sigma0]
    exact mul_pos_of_neg_of_neg (by linarith) (by linarith))
  exact ⟨e, by rw [he]; rfl⟩

/-- Hagan's volatility at the money. -/
lemma haganVol_atm (m : Sabr) {S T : ℝ} (hS : 0 < S) (hT : 0 < T) (s : ℝ) :
    ({ m with sigma := s } : Sabr).haganVol (m.mp.fwd S T) S T
      = (if m.approxOrder = 0 then 1 else 1 + T * ((2 - 3 * m.rho ^ 2) / 24 * m.vov ^ 2 + s / S ^ (1 - m.beta) * m.vov * m.rho * m.beta / 4
          + ((1 - m.beta) * (s / S ^ (1 - m.beta))) ^ 2 / 24)) * (s / S ^ (1 - m.beta)) := by
  have hF : m.mp.fwd S T ≠ 0 := (m.mp.fwd_pos hS T).ne'
  have e : ({ m with sigma := s } : Sabr).mp.fwd S T = m.mp.fwd S T := rfl
  have h0 : ∀ r, hh 0 r = 1 := fun r => by unfold hh; norm_num
  unfold haganVol vars
  rw [if_neg (not_le.2 hT), e]
  simp only [div_self hF, log_one, one_rpow, mul_zero, zero_mul, zero_div, neg_zero, h0, add_zero, mul_one, div_one]

/-- **C137.** At the money, with non-negative correlation, `SabrHagan2002.impvol` succeeds exactly when the `sigma` that explains the price is at most `10`. -/
theorem hagan_impvol_atm {br : Brentq} {tol : ℝ} (hbr : Spec.IsBrentq br tol) (m : Sabr) {p S T cp σ : ℝ} (sv : Bool) {v : Unit → ℝ} {b : Bool} (hS : 0 < S) (hT : 0 < T)
    (hν : 0 ≤ m.vov) (hρ : 0 ≤ m.rho) (hρ1 : m.rho ≤ 1) (hβ : 0 ≤ m.beta) (hs : m.vov ^ 2 * T < 24) (hσ : 0 < σ)
    (hv : Spec.baseIv m p (m.mp.fwd S T) S T cp = .ok (v, b)) (hfit : ({ m with sigma := σ } : Sabr).haganVol (m.mp.fwd S T) S T = v ()) :
    (σ ≤ 10 → ∃ r, haganImpvol br m p (m.mp.fwd S T) S T cp sv = .ok r) ∧ (10 < σ → ∃ e, haganImpvol br m p (m.mp.fwd S T) S T cp sv = .error e) := by
  have hc : 0 < S ^ (1 - m.beta) := rpow_pos_of_pos hS _
  have hmono : ∀ s t : ℝ, 0 ≤ s → s < t → ({ m with sigma := s } : Sabr).haganVol (m.mp.fwd S T) S T < ({ m with sigma := t } : Sabr).haganVol (m.mp.fwd S T) S T := by
    intro s t h0 hst
    rw [haganVol_atm m hS hT, haganVol_atm m hS hT]
    have ha : s / S ^ (1 - m.beta) < t / S ^ (1 - m.beta) := div_lt_div_of_pos_right hst hc
    have ha0 : 0 ≤ s / S ^ (1 - m.beta) := div_nonneg h0 hc.le
    generalize s / S ^ (1 - m.beta) = x at *
    generalize t / S ^ (1 - m.beta) = y at *
    split_ifs
    · linarith
    have hc0 : 0 < 1 + T * ((2 - 3 * m.rho ^ 2) / 24 * m.vov ^ 2) := by
      have h1 : m.rho ^ 2 ≤ 1 := by nlinarith
      have h2 : 0 ≤ m.vov ^ 2 * T := by positivity
      nlinarith
    have hc1 : 0 ≤ T * (m.vov * m.rho * m.beta / 4) := by positivity
    have hc2 : 0 ≤ T * ((1 - m.beta) ^ 2 / 24) := by positivity
    have hx2 : x ^ 2 ≤ y ^ 2 := by nlinarith
    have hx3 : x ^ 3 ≤ y ^ 3 := pow_le_pow_left₀ ha0 ha.le 3
    calc _ = (1 + T * ((2 - 3 * m.rho ^ 2) / 24 * m.vov ^ 2)) * x + T * (m.vov * m.rho * m.beta / 4) * x ^ 2 + T * ((1 - m.beta) ^ 2 / 24) * x ^ 3 := by ring
      _ < (1 + T * ((2 - 3 * m.rho ^ 2) / 24 * m.vov ^ 2)) * y + T * (m.vov * m.rho * m.beta / 4) * y ^ 2 + T * ((1 - m.beta) ^ 2 / 24) * y ^ 3 := by
          have := mul_lt_mul_of_pos_left ha hc0
          have := mul_le_mul_of_nonneg_left hx2 hc1
          have := mul_le_mul_of_nonneg_left hx3 hc2
          linarith
      _ = _ := by ring
  have hv0 : 0 < v () := by
    have := hmono 0 σ le_rfl hσ
    rw [haganVol_sigma0, hfit] at this
    exact this
  constructor
  · intro h10
    rw [haganImpvol_eq br m p _ S T cp sv hv]
    obtain ⟨r, hr⟩ := hbr.found (fun s => .ok (({ m with sigma := s } : Sabr).haganVol (m.mp.fwd S T) S T - v ()))
      (fun s => ({ m with sigma := s } : Sabr).haganVol (m.mp.fwd S T) S T - v ()) 0 10 (by norm_num) (fun s _ => rfl) (by
        simp only [haganVol_atm m hS hT]
        split_ifs
        · fun_prop
        · fun_prop) (by rw [haganVol_sigma0]; linarith) (by
        rcases eq_or_lt_of_le h10 with h | h
        · rw [← h, hfit]; simp
        · have := hmono σ 10 hσ.le h
          linarith)
    exact ⟨_, by rw [hr]; rfl⟩
  · intro h10
    refine hagan_impvol_bracket hbr m sv hv hv0 ?_
    rw [← hfit]
    exact hmono 10 σ (by norm_num) h10

/-- **C137 (disagreement).** `SabrNormVolApprox.impvol` raises for every price, strike, spot and expiry: the root search starts at `sigma = 0`, where the formula divides
by `sigma`. -/
theorem norm_impvol_fails {br : Brentq} {tol : ℝ} (hbr : Spec.IsBrentq br tol) (m : Sabr) (p K S T cp : ℝ) (sv : Bool) :
    ∃ e, normImpvol br m p K S T cp sv = .error e := by
  refine ⟨"ZeroDivisionError: float division by zero", ?_⟩
  unfold normImpvol
  simp only
  rw [hbr.raises _ 0 10 "ZeroDivisionError: float division by zero" (by simp [normVolPy, bind, Except.bind])]
  rfl

/-- The three differences between the volatilities of `m`, with the parameters replaced by `(exp x₁, exp x₂, tanh x₃)`, and the targets. -/
noncomputable def Spec.calibErr (m : Sabr) (vol3 k3 : ℝ × ℝ × ℝ) (S T : ℝ) (x : ℝ × ℝ × ℝ) : ℝ × ℝ × ℝ :=
  let fitted : Sabr := { m with sigma := exp x.1, vov := exp x.2.1, rho := tanh x.2.2 }
  (fitted.haganVol k3.1 S T - vol3.1, fitted.haganVol k3.2.1 S T - vol3.2.1, fitted.haganVol k3.2.2 S T - vol3.2.2)

/-- **C137.** The volatilities of the model with the parameters returned by `SabrHagan2002.calibrate3` miss the three targets by exactly the residual of the solver (whatever
the solver, started at `(log vol₂, -1, 0)`); without `setval` the object is unchanged, with it only `sigma`, `vov` and `rho` change. -/
theorem calibrate3_fits (root : (ℝ × ℝ × ℝ → ℝ × ℝ × ℝ) → ℝ × ℝ × ℝ → ℝ × ℝ × ℝ) (m : Sabr) (vol3 k3 : ℝ × ℝ × ℝ) (S T : ℝ) (sv : Bool) :
    let r := m.calibrate3 root vol3 k3 S T sv
    let fitted : Sabr := { m with sigma := r.1.1, vov := r.1.2.1, rho := r.1.2.2 }
    let f := Spec.calibErr m vol3 k3 S T
    (fitted.haganVol k3.1 S T - vol3.1, fitted.haganVol k3.2.1 S T - vol3.2.1, fitted.haganVol k3.2.2 S T - vol3.2.2) = f (root f (log vol3.2.1, -1, 0)) ∧
    r.2 = if sv then fitted else m := by
  intro r fitted f
  exact ⟨rfl, rfl⟩

/-- **C137.** Admissibility does not depend on the solver having converged. -/
theorem calibrate3_admissible (root : (ℝ × ℝ × ℝ → ℝ × ℝ × ℝ) → ℝ × ℝ × ℝ → ℝ × ℝ × ℝ) (m : Sabr) (vol3 k3 : ℝ × ℝ × ℝ) (S T : ℝ) (sv : Bool) :
    let r := m.calibrate3 root vol3 k3 S T sv
    (0 < r.1.1 ∧ 0 < r.1.2.1 ∧ |r.1.2.2| < 1) ∧ (r.2.beta = m.beta ∧ r.2.intr = m.intr ∧ r.2.divr = m.divr ∧ r.2.isFwd = m.isFwd ∧ r.2.approxOrder = m.approxOrder) := by
  intro r
  refine ⟨⟨exp_pos _, exp_pos _, abs_lt.2 ⟨neg_one_lt_tanh _, tanh_lt_one _⟩⟩, ?_⟩
  cases sv <;> exact ⟨rfl, rfl, rfl, rfl, rfl⟩

/-- **C137.** Round trip: for volatilities produced by a model with `sigma, vov > 0` and `|rho| < 1`, the equations handed to the solver have a solution, namely the
model's own parameters; when it is the only one and the solver solves the equations, `calibrate3` (called on a model with other `sigma`, `vov`, `rho`) gives them back. -/
theorem calibrate3_roundtrip (m : Sabr) (hσ : 0 < m.sigma) (hν : 0 < m.vov) (hρ : m.rho ∈ Ioo (-1) 1) (s0 n0 r0 : ℝ) (k3 : ℝ × ℝ × ℝ) (S T : ℝ) (sv : Bool)
    (root : (ℝ × ℝ × ℝ → ℝ × ℝ × ℝ) → ℝ × ℝ × ℝ → ℝ × ℝ × ℝ) :
    let m0 : Sabr := { m with sigma := s0, vov := n0, rho := r0 }
    let vol3 := (m.haganVol k3.1 S T, m.haganVol k3.2.1 S T, m.haganVol k3.2.2 S T)
    let f := Spec.calibErr m0 vol3 k3 S T
    f (log m.sigma, log m.vov, artanh m.rho) = 0 ∧
    ((∃! x, f x = 0) → f (root f (log vol3.2.1, -1, 0)) = 0 → m0.calibrate3 root vol3 k3 S T sv = ((m.sigma, m.vov, m.rho), if sv then m else m0)) := by
  intro m0 vol3 f
  have hx : f (log m.sigma, log m.vov, artanh m.rho) = 0 := by
    simp only [f, Spec.calibErr, vol3, m0]
    rw [exp_log hσ, exp_log hν, tanh_artanh hρ]
    simp
  refine ⟨hx, fun hu hr => ?_⟩
  have h1 : root f (log vol3.2.1, -1, 0) = (log m.sigma, log m.vov, artanh m.rho) := hu.unique hr hx
  have h2 : m0.calibrate3 root vol3 k3 S T sv = ((exp (root f (log vol3.2.1, -1, 0)).1, exp (root f (log vol3.2.1, -1, 0)).2.1, tanh (root f (log vol3.2.1, -1, 0)).2.2),
      if sv then { m0 with sigma := exp (root f (log vol3.2.1, -1, 0)).1, vov := exp (root f (log vol3.2.1, -1, 0)).2.1, rho := tanh (root f (log vol3.2.1, -1, 0)).2.2 } else m0) := rfl
  rw [h2, h1]
  simp only
  rw [exp_log hσ, exp_log hν, tanh_artanh hρ]

/-- **C137.** The volatility smile of the Hagan model under the name `bsm` (in any case of letters, and by default unless `beta` is close to zero) is its own formula, and this is the
implied volatility of its own prices: repricing with Black-Scholes gives the model price, and no other volatility above the floor does. -/
theorem hagan_smile (m : Sabr) {K S T : ℝ} (hK : 0 < K) (hS : 0 < S) (hT : 0 < T) (cp : Option ℝ) (name : Option String)
    (hname : OptABC.pyLower (name.getD m.smileModel) = "bsm") (hvol : eps < m.haganVol K S T * √T) :
    volSmile haganPrice haganVol (some 1) m K S T cp name = .ok (.flat (m.haganVol K S T)) ∧
    ∀ cp : ℝ, PyFENG.Spec.IsCp cp → ∀ σ : ℝ, eps < σ * √T →
      (Bsm.price ⟨σ, m.intr, m.divr, m.isFwd⟩ K S T cp = m.haganPrice K S T cp ↔ σ = m.haganVol K S T) := by
  constructor
  · unfold volSmile
    simp only [Option.getD_some]
    rw [if_pos (Or.inl ⟨hname, close_self 1⟩)]
  · intro cp hcp σ hσ
    have e : m.haganPrice K S T cp = Bsm.price ⟨m.haganVol K S T, m.intr, m.divr, m.isFwd⟩ K S T cp := by
      unfold haganPrice basePrice
      simp only [Option.getD_some]
      rw [if_pos (close_self 1)]
    rw [e]
    constructor
    · intro h
      rcases lt_trichotomy σ (m.haganVol K S T) with h1 | h1 | h1
      · exact absurd h (bsm_strictMono_vol ⟨0, m.intr, m.divr, m.isFwd⟩ hcp hK hS hT h1 hvol).ne
      · exact h1
      · exact absurd h (bsm_strictMono_vol ⟨0, m.intr, m.divr, m.isFwd⟩ hcp hK hS hT h1 hσ).ne'
    · rintro rfl; rfl

/-- **C137.** `SabrNormVolApprox.vol_smile` under the name `norm` (its default) is its own formula. -/
theorem norm_smile (m : Sabr) (hβ : m.beta = 0) (K S T : ℝ) (cp : Option ℝ) :
    volSmile normPrice normVol (some 0) m K S T cp none = .ok (.flat (m.normVol K S T)) ∧
    ∀ cp : ℝ, Norm.price ⟨m.normVol K S T, m.intr, m.divr, m.isFwd⟩ K S T cp = m.normPrice K S T cp := by
  have h01 : ¬ npIsclose 0 1 := by unfold npIsclose; norm_num
  constructor
  · unfold volSmile smileModel
    simp only [Option.getD_none, Option.getD_some]
    rw [hβ, if_pos (close_self 0)]
    rw [if_pos (Or.inr ⟨by decide, close_self 0⟩)]
  · intro cp
    unfold normPrice basePrice
    simp only [Option.getD_some]
    rw [if_neg h01, if_pos (close_self 0)]

/-- Twenty percent volatility at spot `10000` with `beta = 1/2` is `sigma = 20`, outside the bracket. -/
example : let m : Sabr := ⟨20, 0.3, 0.1, 0.5, 0, 0, false, 1, false⟩
    0 ≤ m.vov ∧ 0 ≤ m.rho ∧ m.rho ≤ 1 ∧ 0 ≤ m.beta ∧ m.vov ^ 2 * 1 < 24 ∧ 10 < m.sigma := by norm_num

end Sabr
end PyFENG
