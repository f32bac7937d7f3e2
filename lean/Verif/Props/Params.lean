import Verif.Model.Params

/-!
# C28, C29: constructors validate and store; `from_model` transfers parameters
-/

namespace PyFENG

open Real

set_option linter.unusedSimpArgs false

/-- A `float | None` argument as a Python value. -/
def optVal (t : Option ℝ) : Val := t.elim .none .num

namespace Params

/-- Keyword arguments `sigma, vov, rho, mr, theta` of the stochastic-volatility classes. -/
def svKw (sigma vov rho mr : ℝ) (theta : Option ℝ) : List (String × Val) :=
  [("sigma", .num sigma), ("vov", .num vov), ("rho", .num rho), ("mr", .num mr), ("theta", optVal theta)]

lemma svFields_eq : svFields = [⟨"sigma", none, true, false, false⟩, ⟨"intr", some (.num 0), true, true, false⟩,
   ⟨"divr", some (.num 0), true, true, false⟩, ⟨"is_fwd", some (.bool false), true, true, false⟩,
   ⟨"vov", some (.num 0.01), true, false, false⟩, ⟨"rho", some (.num 0), true, false, false⟩,
   ⟨"mr", some (.num 0.01), true, false, false⟩, ⟨"theta", some .none, true, false, false⟩] := by
  simp [svFields, inheritFields, baseFields, numField]

lemma subFields_eq : subFields = [⟨"sigma", none, true, false, false⟩, ⟨"intr", some (.num 0), true, true, false⟩,
   ⟨"divr", some (.num 0), true, true, false⟩, ⟨"is_fwd", some (.bool false), true, true, false⟩,
   ⟨"nu", some (.num 0.01), true, false, false⟩, ⟨"theta", some (.num 0), true, false, false⟩,
   ⟨"_mgf1_correction", none, false, false, false⟩] := by
  simp [subFields, inheritFields, baseFields, numField]

lemma cevFields_eq : cevFields = [⟨"sigma", none, true, false, false⟩, ⟨"intr", some (.num 0), true, true, false⟩,
   ⟨"divr", some (.num 0), true, true, false⟩, ⟨"is_fwd", some (.bool false), true, true, false⟩,
   ⟨"beta", some (.num 0.5), true, false, false⟩] := by
  simp [cevFields, inheritFields, baseFields, numField]

lemma hestonCevFields_eq : inheritFields svFields [numField "beta" 1] =
  [⟨"sigma", none, true, false, false⟩, ⟨"intr", some (.num 0), true, true, false⟩,
   ⟨"divr", some (.num 0), true, true, false⟩, ⟨"is_fwd", some (.bool false), true, true, false⟩,
   ⟨"vov", some (.num 0.01), true, false, false⟩, ⟨"rho", some (.num 0), true, false, false⟩,
   ⟨"mr", some (.num 0.01), true, false, false⟩, ⟨"theta", some .none, true, false, false⟩,
   ⟨"beta", some (.num 1), true, false, false⟩] := by
  simp [svFields_eq, inheritFields, numField]

lemma sabrFields_eq : sabrFields = [⟨"sigma", none, true, false, false⟩, ⟨"intr", some (.num 0), true, true, false⟩,
   ⟨"divr", some (.num 0), true, true, false⟩, ⟨"is_fwd", some (.bool false), true, true, false⟩,
   ⟨"beta", some (.num 0.5), true, false, false⟩, ⟨"vov", some (.num 0.1), true, false, false⟩,
   ⟨"rho", some (.num 0), true, false, false⟩] := by
  simp [sabrFields, cevFields_eq, inheritFields, numField]

/-- What `HestonParams.__post_init__` does on numeric attributes. -/
lemma hestonPost_eq {sigma vov rho mr : ℝ} {theta : Option ℝ} (a : Attrs) (h1 : a "sigma" = some (.num sigma))
    (h2 : a "vov" = some (.num vov)) (h3 : a "rho" = some (.num rho)) (h4 : a "mr" = some (.num mr))
    (h5 : a "theta" = some (optVal theta)) :
    hestonPost a = if 0 < sigma ∧ 0 < vov ∧ 0 < mr ∧ 0 < theta.getD sigma ∧ -1 < rho ∧ rho < 1
      then .ok (a.set "theta" (.num (theta.getD sigma))) else .error .valueError := by
  have hs : svPost a = .ok (a.set "theta" (.num (theta.getD sigma))) := by
    cases theta with
    | none => simp [svPost, h1, h5, optVal, basePost]
    | some t =>
      simp only [svPost, h5, optVal, Option.elim, basePost, Option.getD]
      congr 1; funext k; unfold Attrs.set; split <;> simp_all [optVal]
  have e1 : (a.set "theta" (.num (theta.getD sigma))).num "sigma" = .ok sigma := by simp [Attrs.num, Attrs.set, h1]
  have e2 : (a.set "theta" (.num (theta.getD sigma))).num "vov" = .ok vov := by simp [Attrs.num, Attrs.set, h2]
  have e3 : (a.set "theta" (.num (theta.getD sigma))).num "rho" = .ok rho := by simp [Attrs.num, Attrs.set, h3]
  have e4 : (a.set "theta" (.num (theta.getD sigma))).num "mr" = .ok mr := by simp [Attrs.num, Attrs.set, h4]
  have e5 : (a.set "theta" (.num (theta.getD sigma))).num "theta" = .ok (theta.getD sigma) := by simp [Attrs.num, Attrs.set]
  unfold hestonPost
  simp only [hs, e1, e2, e3, e4, e5, bind, Except.bind, pure, Except.pure, throw, throwThe, MonadExceptOf.throw]
  by_cases c1 : sigma ≤ 0
  · simp [c1, not_lt.2 c1]
  by_cases c2 : vov ≤ 0
  · simp [c1, c2, not_lt.2 c2]
  by_cases c3 : mr ≤ 0
  · simp [c1, c2, c3, not_lt.2 c3]
  by_cases c4 : theta.getD sigma ≤ 0
  · simp [c1, c2, c3, c4, not_lt.2 c4]
  by_cases c5 : -1 < rho ∧ rho < 1
  · simp [c1, c2, c3, c4, c5, not_le.1 c1, not_le.1 c2, not_le.1 c3, not_le.1 c4]
  · simp [c1, c2, c3, c4, c5]

/-- **C28** (Heston).  For all numeric `sigma, vov, rho, mr` and `theta` a number or `None`: the constructor either
succeeds or raises `ValueError`, it succeeds exactly when the documented constraints hold (with `theta=None` read as
`theta=sigma`), and then stores the arguments, with `intr=divr=0`, `is_fwd=False` by default. -/
theorem heston_validation (sigma vov rho mr : ℝ) (theta : Option ℝ) :
    ((0 < sigma ∧ 0 < vov ∧ 0 < mr ∧ 0 < theta.getD sigma ∧ -1 < rho ∧ rho < 1) →
      ∃ o, construct hestonParams (svKw sigma vov rho mr theta) = .ok o ∧
        o.attrs "sigma" = some (.num sigma) ∧ o.attrs "vov" = some (.num vov) ∧ o.attrs "rho" = some (.num rho) ∧
        o.attrs "mr" = some (.num mr) ∧ o.attrs "theta" = some (.num (theta.getD sigma)) ∧
        o.attrs "intr" = some (.num 0) ∧ o.attrs "divr" = some (.num 0) ∧ o.attrs "is_fwd" = some (.bool false)) ∧
    (¬ (0 < sigma ∧ 0 < vov ∧ 0 < mr ∧ 0 < theta.getD sigma ∧ -1 < rho ∧ rho < 1) →
      construct hestonParams (svKw sigma vov rho mr theta) = .error .valueError) := by
  have hb := hestonPost_eq (sigma := sigma) (vov := vov) (rho := rho) (mr := mr) (theta := theta) (bindArgs svFields (svKw sigma vov rho mr theta))
    (by simp [bindArgs, svFields_eq, svKw, List.lookup]) (by simp [bindArgs, svFields_eq, svKw, List.lookup]) (by simp [bindArgs, svFields_eq, svKw, List.lookup])
    (by simp [bindArgs, svFields_eq, svKw, List.lookup]) (by simp [bindArgs, svFields_eq, svKw, List.lookup])
  have hc : construct hestonParams (svKw sigma vov rho mr theta) =
      match hestonPost (bindArgs svFields (svKw sigma vov rho mr theta)) with
      | .error e => .error e
      | .ok a => .ok ⟨hestonParams, a⟩ := by
    unfold construct
    rw [if_neg (by simp [hestonParams, svFields_eq, svKw]), if_neg (by simp [hestonParams, svFields_eq, svKw])]
    rfl
  constructor
  · intro h
    rw [hc, hb, if_pos h]
    refine ⟨_, rfl, ?_⟩
    simp [Attrs.set, bindArgs, svFields_eq, svKw, List.lookup]
  · intro h
    rw [hc, hb, if_neg h]

/-- **C28** (CEV-Heston): as Heston, plus `beta > 0`. -/
theorem hestonCev_validation (sigma vov rho mr beta : ℝ) (theta : Option ℝ) :
    ((0 < sigma ∧ 0 < vov ∧ 0 < mr ∧ 0 < theta.getD sigma ∧ -1 < rho ∧ rho < 1) ∧ 0 < beta →
      ∃ o, construct hestonCevParams (svKw sigma vov rho mr theta ++ [("beta", .num beta)]) = .ok o ∧
        o.attrs "sigma" = some (.num sigma) ∧ o.attrs "vov" = some (.num vov) ∧ o.attrs "rho" = some (.num rho) ∧
        o.attrs "mr" = some (.num mr) ∧ o.attrs "theta" = some (.num (theta.getD sigma)) ∧
        o.attrs "beta" = some (.num beta)) ∧
    (¬ ((0 < sigma ∧ 0 < vov ∧ 0 < mr ∧ 0 < theta.getD sigma ∧ -1 < rho ∧ rho < 1) ∧ 0 < beta) →
      construct hestonCevParams (svKw sigma vov rho mr theta ++ [("beta", .num beta)]) = .error .valueError) := by
  have hb := hestonPost_eq (sigma := sigma) (vov := vov) (rho := rho) (mr := mr) (theta := theta)
    (bindArgs hestonCevParams.fields (svKw sigma vov rho mr theta ++ [("beta", .num beta)]))
    (by simp [bindArgs, hestonCevParams, hestonCevFields_eq, svKw, List.lookup])
    (by simp [bindArgs, hestonCevParams, hestonCevFields_eq, svKw, List.lookup])
    (by simp [bindArgs, hestonCevParams, hestonCevFields_eq, svKw, List.lookup])
    (by simp [bindArgs, hestonCevParams, hestonCevFields_eq, svKw, List.lookup])
    (by simp [bindArgs, hestonCevParams, hestonCevFields_eq, svKw, List.lookup])
  have hbeta : bindArgs hestonCevParams.fields (svKw sigma vov rho mr theta ++ [("beta", .num beta)]) "beta"
      = some (.num beta) := by simp [bindArgs, hestonCevParams, hestonCevFields_eq, svKw, List.lookup]
  have hc : construct hestonCevParams (svKw sigma vov rho mr theta ++ [("beta", .num beta)]) =
      match hestonCevPost (bindArgs hestonCevParams.fields (svKw sigma vov rho mr theta ++ [("beta", .num beta)])) with
      | .error e => .error e
      | .ok a => .ok ⟨hestonCevParams, a⟩ := by
    unfold construct
    rw [if_neg (by simp [hestonCevParams, hestonCevFields_eq, svKw]),
      if_neg (by simp [hestonCevParams, hestonCevFields_eq, svKw])]
    rfl
  rw [hc]
  unfold hestonCevPost
  rw [hb]
  by_cases h : 0 < sigma ∧ 0 < vov ∧ 0 < mr ∧ 0 < theta.getD sigma ∧ -1 < rho ∧ rho < 1
  · have e : ((bindArgs hestonCevParams.fields (svKw sigma vov rho mr theta ++ [("beta", .num beta)])).set "theta"
        (.num (theta.getD sigma))).num "beta" = .ok beta := by simp [Attrs.num, Attrs.set, hbeta]
    rw [if_pos h]
    simp only [bind, Except.bind, pure, Except.pure, throw, throwThe, MonadExceptOf.throw, e]
    by_cases hβ : 0 < beta
    · refine ⟨fun _ => ?_, fun h' => absurd ⟨h, hβ⟩ h'⟩
      simp only [hβ, not_true_eq_false, if_false]
      refine ⟨_, rfl, ?_⟩
      simp [Attrs.set, bindArgs, hestonCevParams, hestonCevFields_eq, svKw, List.lookup]
    · refine ⟨fun h' => absurd h'.2 hβ, fun _ => ?_⟩
      simp [hβ]
  · rw [if_neg h]
    exact ⟨fun h' => absurd h'.1 h, fun _ => rfl⟩

/-- The CEV-Heston docstring announces the positional order `(sigma, beta, vov, rho, mr, theta)`; the generated
constructor uses `(sigma, vov, rho, mr, theta, beta)`, so a caller following the documentation has its second argument
stored as `vov`, with `beta` left at 1. -/
theorem hestonCev_positional_order :
    positionalNames hestonCevParams = ["sigma", "vov", "rho", "mr", "theta", "beta"] ∧
    ∀ sigma b : ℝ, 0 < sigma → 0 < b → ∃ o, constructPos hestonCevParams [.num sigma, .num b] [] = .ok o ∧
      o.attrs "vov" = some (.num b) ∧ o.attrs "beta" = some (.num 1) := by
  have hp : positionalNames hestonCevParams = ["sigma", "vov", "rho", "mr", "theta", "beta"] := by
    simp [positionalNames, hestonCevParams, hestonCevFields_eq]
  refine ⟨hp, fun sigma b hs hb => ?_⟩
  have hk : constructPos hestonCevParams [.num sigma, .num b] []
      = construct hestonCevParams [("sigma", .num sigma), ("vov", .num b)] := by
    simp [constructPos, hp]
  have hpost := hestonPost_eq (theta := none)
    (bindArgs hestonCevParams.fields [("sigma", .num sigma), ("vov", .num b)])
    (sigma := sigma) (vov := b) (rho := 0) (mr := 0.01)
    (by simp [bindArgs, hestonCevParams, hestonCevFields_eq, List.lookup])
    (by simp [bindArgs, hestonCevParams, hestonCevFields_eq, List.lookup])
    (by simp [bindArgs, hestonCevParams, hestonCevFields_eq, List.lookup])
    (by simp [bindArgs, hestonCevParams, hestonCevFields_eq, List.lookup])
    (by simp [bindArgs, hestonCevParams, hestonCevFields_eq, List.lookup, optVal])
  rw [if_pos ⟨hs, hb, by norm_num, hs, by norm_num, by norm_num⟩] at hpost
  have hbeta : ((bindArgs hestonCevParams.fields [("sigma", .num sigma), ("vov", .num b)]).set "theta"
        (.num ((none : Option ℝ).getD sigma))).num "beta" = .ok 1 := by
    simp [Attrs.num, Attrs.set, bindArgs, hestonCevParams, hestonCevFields_eq, List.lookup]
  have hc : construct hestonCevParams [("sigma", .num sigma), ("vov", .num b)] =
      .ok ⟨hestonCevParams, (bindArgs hestonCevParams.fields [("sigma", .num sigma), ("vov", .num b)]).set "theta"
        (.num ((none : Option ℝ).getD sigma))⟩ := by
    unfold construct
    rw [if_neg (by simp [hestonCevParams, hestonCevFields_eq]), if_neg (by simp [hestonCevParams, hestonCevFields_eq])]
    have : hestonCevParams.postInit = hestonCevPost := rfl
    rw [this]
    unfold hestonCevPost
    rw [hpost]
    simp only [bind, Except.bind, pure, Except.pure, hbeta]
    simp
  rw [hk, hc]
  refine ⟨_, rfl, ?_⟩
  simp [Attrs.set, bindArgs, hestonCevParams, hestonCevFields_eq, List.lookup]

/-- **C28** (CEV): succeeds exactly for `beta > 0`, `beta ≠ 1`; `ValueError` otherwise. -/
theorem cev_validation (sigma beta : ℝ) :
    (0 < beta ∧ beta ≠ 1 → ∃ o, construct cevParams [("sigma", .num sigma), ("beta", .num beta)] = .ok o ∧
        o.attrs "sigma" = some (.num sigma) ∧ o.attrs "beta" = some (.num beta)) ∧
    (¬ (0 < beta ∧ beta ≠ 1) → construct cevParams [("sigma", .num sigma), ("beta", .num beta)] = .error .valueError) := by
  have hbeta : (bindArgs cevFields [("sigma", .num sigma), ("beta", .num beta)]).num "beta" = .ok beta := by
    simp [Attrs.num, bindArgs, cevFields_eq, List.lookup]
  have hc : construct cevParams [("sigma", .num sigma), ("beta", .num beta)] =
      match cevPost (bindArgs cevFields [("sigma", .num sigma), ("beta", .num beta)]) with
      | .error e => .error e
      | .ok a => .ok ⟨cevParams, a⟩ := by
    unfold construct
    rw [if_neg (by simp [cevParams, cevFields_eq]), if_neg (by simp [cevParams, cevFields_eq])]
    rfl
  rw [hc]
  unfold cevPost
  rw [hbeta]
  constructor
  · rintro ⟨h1, h2⟩
    simp only [h1, not_true_eq_false, if_false, h2, basePost]
    refine ⟨_, rfl, ?_⟩
    simp [bindArgs, cevFields_eq, List.lookup]
  · intro h
    by_cases h1 : 0 < beta
    · have h2 : beta = 1 := by by_contra hne; exact h ⟨h1, hne⟩
      simp [h2]
    · simp [h1]

/-- **C28** (SABR): no validation — every argument is accepted and stored, including `beta = 0` and `beta = 1`. -/
theorem sabr_accepts (sigma beta vov rho : ℝ) :
    ∃ o, construct sabrParams [("sigma", .num sigma), ("beta", .num beta), ("vov", .num vov), ("rho", .num rho)] = .ok o ∧
      o.attrs "sigma" = some (.num sigma) ∧ o.attrs "beta" = some (.num beta) ∧
      o.attrs "vov" = some (.num vov) ∧ o.attrs "rho" = some (.num rho) := by
  unfold construct
  rw [if_neg (by simp [sabrParams, sabrFields_eq]), if_neg (by simp [sabrParams, sabrFields_eq])]
  refine ⟨_, rfl, ?_⟩
  simp [sabrParams, bindArgs, sabrFields_eq, List.lookup]

/-- **C28** (GARCH, OUSV, 3/2): every argument is accepted; `theta=None` becomes `sigma`. -/
theorem sv_accepts (mt : String) (sigma vov rho mr : ℝ) (theta : Option ℝ) :
    ∃ o, construct ⟨mt, svFields, svPost⟩ (svKw sigma vov rho mr theta) = .ok o ∧
      o.attrs "sigma" = some (.num sigma) ∧ o.attrs "vov" = some (.num vov) ∧ o.attrs "rho" = some (.num rho) ∧
      o.attrs "mr" = some (.num mr) ∧ o.attrs "theta" = some (.num (theta.getD sigma)) := by
  unfold construct
  rw [if_neg (by simp [svFields_eq, svKw]), if_neg (by simp [svFields_eq, svKw])]
  have h1 : bindArgs svFields (svKw sigma vov rho mr theta) "theta" = some (optVal theta) := by
    simp [bindArgs, svFields_eq, svKw, List.lookup]
  have h2 : bindArgs svFields (svKw sigma vov rho mr theta) "sigma" = some (.num sigma) := by
    simp [bindArgs, svFields_eq, svKw, List.lookup]
  cases theta with
  | none =>
    simp only [svPost, h1, h2, optVal, Option.elim, basePost]
    refine ⟨_, rfl, ?_⟩
    simp [Attrs.set, bindArgs, svFields_eq, svKw, List.lookup]
  | some t =>
    simp only [svPost, h1, h2, optVal, Option.elim, basePost]
    refine ⟨_, rfl, ?_⟩
    simp [bindArgs, svFields_eq, svKw, List.lookup, optVal]

/-- **C28** (Variance Gamma): succeeds exactly when `1 - θν - σ²ν/2 > 0`; then `_mgf1_correction` is `-log` of it. -/
theorem vg_validation (sigma nu theta : ℝ) :
    (0 < 1 - theta * nu - sigma ^ 2 * nu / 2 →
      ∃ o, construct vgParams [("sigma", .num sigma), ("nu", .num nu), ("theta", .num theta)] = .ok o ∧
        o.attrs "sigma" = some (.num sigma) ∧ o.attrs "nu" = some (.num nu) ∧ o.attrs "theta" = some (.num theta) ∧
        o.attrs "_mgf1_correction" = some (.num (-log (1 - theta * nu - sigma ^ 2 * nu / 2)))) ∧
    (¬ 0 < 1 - theta * nu - sigma ^ 2 * nu / 2 →
      construct vgParams [("sigma", .num sigma), ("nu", .num nu), ("theta", .num theta)] = .error .valueError) := by
  set a := bindArgs subFields [("sigma", .num sigma), ("nu", .num nu), ("theta", .num theta)] with ha
  have e1 : a.num "sigma" = .ok sigma := by simp [ha, Attrs.num, bindArgs, subFields_eq, List.lookup]
  have e2 : a.num "nu" = .ok nu := by simp [ha, Attrs.num, bindArgs, subFields_eq, List.lookup]
  have e3 : a.num "theta" = .ok theta := by simp [ha, Attrs.num, bindArgs, subFields_eq, List.lookup]
  have hc : construct vgParams [("sigma", .num sigma), ("nu", .num nu), ("theta", .num theta)] =
      match vgPost a with
      | .error e => .error e
      | .ok a => .ok ⟨vgParams, a⟩ := by
    unfold construct
    rw [if_neg (by simp [vgParams, subFields_eq]), if_neg (by simp [vgParams, subFields_eq])]
    rfl
  have harg : 1 - theta * nu - 0.5 * sigma ^ 2 * nu = 1 - theta * nu - sigma ^ 2 * nu / 2 := by ring
  rw [hc]
  unfold vgPost
  simp only [e1, e2, e3, bind, Except.bind, pure, Except.pure, throw, throwThe, MonadExceptOf.throw, harg]
  constructor
  · intro h
    simp only [not_le.2 h, if_false]
    refine ⟨_, rfl, ?_⟩
    simp [Attrs.set, ha, bindArgs, subFields_eq, List.lookup]
  · intro h
    simp [not_lt.1 h]

/-- **C28** (NIG): succeeds exactly when `1 - 2θν - σ²ν > 0`. -/
theorem nig_validation (sigma nu theta : ℝ) :
    (0 < 1 - 2 * theta * nu - sigma ^ 2 * nu →
      ∃ o, construct nigParams [("sigma", .num sigma), ("nu", .num nu), ("theta", .num theta)] = .ok o ∧
        o.attrs "sigma" = some (.num sigma) ∧ o.attrs "nu" = some (.num nu) ∧ o.attrs "theta" = some (.num theta) ∧
        o.attrs "_mgf1_correction" = some (.num (1 - √(1 - 2 * theta * nu - sigma ^ 2 * nu)))) ∧
    (¬ 0 < 1 - 2 * theta * nu - sigma ^ 2 * nu →
      construct nigParams [("sigma", .num sigma), ("nu", .num nu), ("theta", .num theta)] = .error .valueError) := by
  set a := bindArgs subFields [("sigma", .num sigma), ("nu", .num nu), ("theta", .num theta)] with ha
  have e1 : a.num "sigma" = .ok sigma := by simp [ha, Attrs.num, bindArgs, subFields_eq, List.lookup]
  have e2 : a.num "nu" = .ok nu := by simp [ha, Attrs.num, bindArgs, subFields_eq, List.lookup]
  have e3 : a.num "theta" = .ok theta := by simp [ha, Attrs.num, bindArgs, subFields_eq, List.lookup]
  have hc : construct nigParams [("sigma", .num sigma), ("nu", .num nu), ("theta", .num theta)] =
      match nigPost a with
      | .error e => .error e
      | .ok a => .ok ⟨nigParams, a⟩ := by
    unfold construct
    rw [if_neg (by simp [nigParams, subFields_eq]), if_neg (by simp [nigParams, subFields_eq])]
    rfl
  rw [hc]
  unfold nigPost
  simp only [e1, e2, e3, bind, Except.bind, pure, Except.pure, throw, throwThe, MonadExceptOf.throw]
  constructor
  · intro h
    simp only [not_le.2 h, if_false]
    refine ⟨_, rfl, ?_⟩
    simp [Attrs.set, ha, bindArgs, subFields_eq, List.lookup]
  · intro h
    simp [not_lt.1 h]

/-- **C28** (all classes): an unknown keyword, or a missing `sigma`, is a `TypeError` whatever the class's
`__post_init__` does. -/
theorem unknown_or_missing_keyword (c : PyClass) (kw : List (String × Val)) :
    (∀ n v, (n, v) ∈ kw → (∀ f ∈ c.fields, f.init = true → f.name ≠ n) → construct c kw = .error .typeError) ∧
    (∀ f ∈ c.fields, f.init = true → f.dflt = none → (∀ v, (f.name, v) ∉ kw) → construct c kw = .error .typeError) := by
  constructor
  · intro n v hmem hn
    unfold construct
    rw [if_pos]
    rw [List.any_eq_true]
    refine ⟨_, hmem, ?_⟩
    simp only [Bool.not_eq_true', List.any_eq_false, Bool.and_eq_true, beq_iff_eq, not_and]
    intro f hf hi
    exact hn f hf hi
  · intro f hf hi hd hk
    unfold construct
    split
    · rfl
    · rw [if_pos]
      rw [List.any_eq_true]
      refine ⟨f, hf, ?_⟩
      simp only [hi, hd, Option.isNone_none, Bool.and_self, Bool.true_and, Bool.not_eq_true', List.any_eq_false, beq_iff_eq]
      rintro ⟨a, b⟩ hp rfl
      exact hk b hp

/-- **C28** (spread models): exactly two volatilities are accepted. -/
theorem spread_validation (sigma : List ℝ) (rho : ℝ) :
    (∃ o, spreadInit sigma rho = .ok o) ↔ sigma.length = 2 := by
  match sigma with
  | [] => simp [spreadInit]
  | [a] => simp [spreadInit]
  | [a, b] => simp [spreadInit]
  | a :: b :: c :: l => simp [spreadInit]

end Params
end PyFENG
