import Verif.Model.Configure
import Verif.Props.NdMc
import Verif.Props.SvMc

/-!
# C146: histories of configuration calls

Every theorem quantifies over all histories of calls on an object.
-/

namespace PyFENG

open Real

/-- Specification: the last value that was given explicitly in a history of optional arguments, or the value `d` the object had before. -/
def Spec.lastGiven {α : Type*} (d : α) (l : List (Option α)) : α := (l.filterMap id).getLastD d

lemma lastGiven_nil {α : Type*} (d : α) : Spec.lastGiven d [] = d := rfl

lemma lastGiven_concat {α : Type*} (d : α) (l : List (Option α)) (x : Option α) : Spec.lastGiven d (l ++ [x]) = x.getD (Spec.lastGiven d l) := by
  unfold Spec.lastGiven
  rw [List.filterMap_append]
  cases x with
  | none => simp
  | some v => simp

namespace NdObj

variable {n : ℕ}

/-- The arguments `n_path` given in a history. -/
noncomputable def nPathArgs (l : List Op) : List (Option ℕ) := l.map fun | .configure a _ _ => a.map fun x => ⌊x⌋₊ | .simulate _ _ => none
/-- The seeds given in a history. -/
def seedArgs (l : List Op) : List (Option (Option ℕ)) := l.map fun | .configure _ b _ => b.map some | .simulate _ _ => none
/-- The antithetic switches given in a history. -/
def antiArgs (l : List Op) : List (Option Bool) := l.map fun | .configure _ _ c => c | .simulate _ _ => none

lemma run_concat (R : ℕ → ℕ → ℝ) (o : Ma n) (s : NdObj n) (l : List Op) (x : Op) : run R o s (l ++ [x]) = step R o (run R o s l) x := by
  unfold run; rw [List.foldl_append]; rfl

lemma simulate_settings (o : Ma n) (s : NdObj n) (t : List ℝ) (st : Bool) :
    (s.simulate o t st).2.nPath = s.nPath ∧ (s.simulate o t st).2.rnSeed = s.rnSeed ∧ (s.simulate o t st).2.antithetic = s.antithetic ∧
    (s.simulate o t st).2.rng = s.rng := by
  unfold simulate
  by_cases h0 : s.nPath = 0
  · rw [if_pos h0]; exact ⟨rfl, rfl, rfl, rfl⟩
  · rw [if_neg h0]
    simp only
    split
    · exact ⟨rfl, rfl, rfl, rfl⟩
    · cases st <;> exact ⟨rfl, rfl, rfl, rfl⟩

/-- **C146.** `BsmNdMc`: after any history of `configure` and `simulate` calls on a new object, each setting is the one last given explicitly (`n_path` is 0 before
the first), and the generator is the one of the last given seed. -/
theorem settings (R : ℕ → ℕ → ℝ) (ent : ℕ → ℝ) (o : Ma n) (seed : Option ℕ) (anti : Bool) (l : List Op) :
    let s := run R o (init R ent seed anti) l
    s.nPath = Spec.lastGiven 0 (nPathArgs l) ∧ s.rnSeed = Spec.lastGiven seed (seedArgs l) ∧ s.antithetic = Spec.lastGiven anti (antiArgs l) ∧
    s.rng = (Spec.lastGiven seed (seedArgs l)).elim ent R := by
  induction l using List.reverseRecOn with
  | nil => exact ⟨rfl, rfl, rfl, rfl⟩
  | append_singleton l x ih =>
    simp only at ih ⊢
    obtain ⟨h1, h2, h3, h4⟩ := ih
    rw [run_concat]
    unfold nPathArgs seedArgs antiArgs at *
    simp only [List.map_append, List.map_cons, List.map_nil, lastGiven_concat]
    cases x with
    | configure a b c =>
      simp only [step]
      rw [← h1, ← h2, ← h3]
      rw [← h2] at h4
      unfold configure pyInt
      cases a <;> cases b <;> cases c <;> exact ⟨rfl, rfl, rfl, by first | exact h4 | rfl⟩
    | simulate t st =>
      obtain ⟨k1, k2, k3, k4⟩ := simulate_settings o (run R o (init R ent seed anti) l) t st
      simp only [step, Option.getD_none]
      exact ⟨k1.trans h1, k2.trans h2, k3.trans h3, k4.trans h4⟩

/-- The state after a complete `configure` depends on the old object only through its stored paths. -/
lemma configure_full (R : ℕ → ℕ → ℝ) (s : NdObj n) (x : ℝ) (k : ℕ) (a : Bool) : s.configure R (some x) (some k) (some a) = ⟨⌊x⌋₊, some k, a, R k, 0, s.path, s.tobs⟩ := rfl

/-- **C146.** Reproducibility of `BsmNdMc`: whatever happened before to two objects, after `configure(n_path, rn_seed, antithetic)` and an accepted `simulate(tobs)` they are in
the same state, with the paths that the stream of the seed gives from its start; so every later call answers alike. -/
theorem reproducible (R : ℕ → ℕ → ℝ) (o : Ma n) (s s' : NdObj n) (h h' : List Op) {x : ℝ} (k : ℕ) (a : Bool) {tobs : List ℝ} (hn : 0 < n) (ht : tobs ≠ []) (hx : 1 ≤ x)
    (ha : a = true → ⌊x⌋₊ % 2 = 0) :
    let ops := [Op.configure (some x) (some k) (some a), Op.simulate tobs true]
    run R o s (h ++ ops) = run R o s' (h' ++ ops) ∧
    ∃ p, NdMc.simulate o a (R k) 0 tobs ⌊x⌋₊ = .ok p ∧ p.paths = ⌊x⌋₊ ∧ p.times = tobs.length ∧
      ∀ spot T f, (run R o s (h ++ ops)).priceEuropean o spot T f = NdMc.priceEuropean o tobs p spot T f := by
  have h0 : ⌊x⌋₊ ≠ 0 := (Nat.floor_pos.2 hx).ne'
  obtain ⟨b, hb, hb1, hb2⟩ := (NdMc.bm_incr_shape o hn a (R k) 0 ht ⌊x⌋₊).2 (by rintro ⟨h1, h2⟩; have := ha h1; omega)
  obtain ⟨p, hp, hp1, hp2⟩ : ∃ p, NdMc.simulate o a (R k) 0 tobs ⌊x⌋₊ = .ok p ∧ p.paths = ⌊x⌋₊ ∧ p.times = tobs.length := by
    unfold NdMc.simulate
    rw [if_neg h0, hb]
    exact ⟨_, rfl, hb2, hb1⟩
  have key : ∀ (s : NdObj n) (h : List Op), run R o s (h ++ [Op.configure (some x) (some k) (some a), Op.simulate tobs true])
      = ⟨⌊x⌋₊, some k, a, R k, 0 + (if a then ⌊x⌋₊ / 2 else ⌊x⌋₊) * tobs.length * n, some p, tobs⟩ := by
    intro s h
    rw [show h ++ [Op.configure (some x) (some k) (some a), Op.simulate tobs true] = (h ++ [Op.configure (some x) (some k) (some a)]) ++ [Op.simulate tobs true] by simp,
      run_concat, run_concat]
    simp only [step, configure_full]
    unfold simulate
    simp only
    rw [if_neg h0, hp]
    rfl
  refine ⟨by rw [key, key], p, hp, hp1, hp2, fun spot T f => ?_⟩
  rw [key]
  rfl

/-- **C146.** Prices come from the stored paths only: calls that store nothing (`configure`, also with a new seed or number of paths, and `simulate(store=False)`) do not change any
price of the object. -/
theorem price_stored (R : ℕ → ℕ → ℝ) (o : Ma n) (s : NdObj n) (l : List Op) (hl : ∀ t, Op.simulate t true ∉ l) (spot : Fin n → ℝ) (T : ℝ) (f : (Fin n → ℝ) → ℝ) :
    (run R o s l).priceEuropean o spot T f = s.priceEuropean o spot T f := by
  have key : (run R o s l).path = s.path ∧ (run R o s l).tobs = s.tobs := by
    induction l using List.reverseRecOn with
    | nil => exact ⟨rfl, rfl⟩
    | append_singleton l x ih =>
      have ih := ih fun t ht => hl t (by simp [ht])
      rw [run_concat]
      cases x with
      | configure a b c =>
        simp only [step]
        unfold configure
        cases a <;> cases b <;> cases c <;> exact ih
      | simulate t st =>
        cases st with
        | true => exact absurd (by simp) (hl t)
        | false =>
          simp only [step]
          unfold simulate
          by_cases h0 : (run R o s l).nPath = 0
          · rw [if_pos h0]; exact ih
          · rw [if_neg h0]
            simp only
            split <;> exact ih
  unfold priceEuropean
  rw [key.1, key.2]

/-- **C146.** Before the first stored simulation `price_european` raises `ValueError`; `simulate` raises `ValueError` exactly when the number of paths is zero or it is odd with antithetic paths. -/
theorem errors (R : ℕ → ℕ → ℝ) (ent : ℕ → ℝ) (o : Ma n) (hn : 0 < n) :
    (∀ (seed : Option ℕ) (anti : Bool) (l : List Op), (∀ t, Op.simulate t true ∉ l) → ∀ spot T f, (run R o (init R ent seed anti) l).priceEuropean o spot T f = .error .valueError) ∧
    ∀ (s : NdObj n) (tobs : List ℝ) (st : Bool), tobs ≠ [] →
      ((s.simulate o tobs st).1 = .error .valueError ↔ s.nPath = 0 ∨ (s.antithetic = true ∧ s.nPath % 2 = 1)) := by
  refine ⟨fun seed anti l hl spot T f => by rw [price_stored R o _ l hl]; rfl, fun s tobs st ht => ?_⟩
  obtain ⟨k1, k2⟩ := NdMc.bm_incr_shape o hn s.antithetic s.rng s.pos ht s.nPath
  unfold simulate
  split_ifs with h0
  · simp [h0]
  all_goals
    simp only [NdMc.simulate]
    rw [if_neg h0]
    by_cases h : s.antithetic = true ∧ s.nPath % 2 = 1
    · rw [k1 h]; simp [Except.map, h]
    · obtain ⟨a, ha, -⟩ := k2 h
      rw [ha]
      cases st <;> simp [Except.map, h0, h]

/-- **C146.** More paths with the same seed extend the sample: the paths of the smaller simulation are the first paths of the larger one. -/
theorem paths_prefix (o : Ma n) (a : Bool) (ω : ℕ → ℝ) (pos : ℕ) (tobs : List ℝ) {N M : ℕ} {p q : Arr3 n}
    (hp : NdMc.simulate o a ω pos tobs N = .ok p) (hq : NdMc.simulate o a ω pos tobs M = .ok q) : ∀ t, ∀ j, ∀ i, p.at' t j i = q.at' t j i := by
  unfold NdMc.simulate NdMc.bmIncr at hp hq
  intro t j i
  cases a with
  | false =>
    simp only [Bool.false_eq_true, if_false] at hp hq
    split_ifs at hp hq
    have hp := Except.ok.inj hp
    have hq := Except.ok.inj hq
    rw [← hp, ← hq]
  | true =>
    simp only [if_true] at hp hq
    split_ifs at hp hq <;> first | (simp only [Except.map, reduceCtorEq] at hp; done) | (simp only [Except.map, reduceCtorEq] at hq; done) | skip
    have hp := Except.ok.inj hp
    have hq := Except.ok.inj hq
    rw [← hp, ← hq]

end NdObj

namespace BasketObj

variable {n : ℕ}

/-- **C146.** `BsmBasketMc`: whatever happened before, `configure(n_path, rn_seed, antithetic)` makes the next prices (and all later ones) those of a new object with these
settings; a price without reseeding continues the stream. -/
theorem reproducible (R : ℕ → ℕ → ℝ) (o : Ma n) (s s' : BasketObj) (h h' : List (Op n)) (x : ℝ) (k : ℕ) (a : Bool) :
    run R o s (h ++ [.configure (some x) (some k) (some a)]) = run R o s' (h' ++ [.configure (some x) (some k) (some a)]) ∧
    ∀ K S T cp cv, ((run R o s (h ++ [.configure (some x) (some k) (some a)])).price o K S T cp cv).1 = (BasketMc.price o ⌊x⌋₊ a (R k) 0 K S T cp cv).1 := by
  have key : ∀ (s : BasketObj) (h : List (Op n)), run R o s (h ++ [.configure (some x) (some k) (some a)]) = ⟨⌊x⌋₊, some k, a, R k, 0⟩ := by
    intro s h
    unfold run
    rw [List.foldl_append]
    rfl
  exact ⟨by rw [key, key], fun K S T cp cv => by rw [key]; rfl⟩

/-- **C146.** Two prices in a row without reseeding use disjoint parts of the stream: the second one is the price a new object would give from the position after the
`n_path` (half of it with antithetic paths) draws per asset of the first. -/
theorem price_continues (o : Ma n) (s : BasketObj) (hs : s.nPath ≠ 0) (K K' : ℝ) (S S' : Fin n → ℝ) (T T' cp cp' : ℝ) (cv cv' : BasketMc.Cv) :
    ((s.price o K S T cp cv).2.price o K' S' T' cp' cv').1
      = (BasketMc.price o s.nPath s.antithetic s.rng (s.pos + (if s.antithetic then s.nPath / 2 else s.nPath) * n) K' S' T' cp' cv').1 := by
  unfold price
  simp only
  have : (BasketMc.price o s.nPath s.antithetic s.rng s.pos K S T cp cv).2 = s.pos + (if s.antithetic then s.nPath / 2 else s.nPath) * n := by
    unfold BasketMc.price BasketMc.nGen
    rw [if_neg hs]
  rw [this]

end BasketObj

/-! ## The conditional Monte-Carlo classes -/

/-- One call of `configure(n_path, dt, rn_seed, antithetic, ext)`. -/
structure ConfArgs where
  nPath : Option ℝ
  dt : Option ℝ
  rnSeed : Option ℕ
  antithetic : Option Bool
  ext : Option ℕ

/-- **C146.** `GarchMcTimeDisc` (`ext` is `scheme`), `HestonMcGlassermanKim2011` and `HestonMcChoiKwok2023PoisGe` (`ext` is `kk`): after any history of `configure` calls each
setting is the last one given explicitly; after at least one call the generators are at their start. -/
theorem McExt.settings (s : McExt) (l : List ConfArgs) :
    let r := l.foldl (fun s c => s.configure c.nPath c.dt c.rnSeed c.antithetic c.ext) s
    r.mc.nPath = Spec.lastGiven s.mc.nPath (l.map fun c => c.nPath.map fun x => ⌊x⌋₊) ∧ r.mc.dt = Spec.lastGiven s.mc.dt (l.map fun c => c.dt.map some) ∧
    r.mc.rnSeed = Spec.lastGiven s.mc.rnSeed (l.map fun c => c.rnSeed.map some) ∧ r.mc.antithetic = Spec.lastGiven s.mc.antithetic (l.map fun c => c.antithetic) ∧
    r.ext = Spec.lastGiven s.ext (l.map fun c => c.ext) ∧ (l ≠ [] → r.mc.posN = (fun _ => 0) ∧ r.mc.posU = fun _ => 0) := by
  induction l using List.reverseRecOn with
  | nil => exact ⟨rfl, rfl, rfl, rfl, rfl, fun h => absurd rfl h⟩
  | append_singleton l c ih =>
    simp only [List.foldl_append, List.foldl_cons, List.foldl_nil, List.map_append, List.map_cons, List.map_nil, lastGiven_concat] at ih ⊢
    obtain ⟨h1, h2, h3, h4, h5, -⟩ := ih
    rw [← h1, ← h2, ← h3, ← h4, ← h5]
    generalize l.foldl (fun s c => s.configure c.nPath c.dt c.rnSeed c.antithetic c.ext) s = r
    obtain ⟨a, b, d, e, f⟩ := c
    unfold McExt.configure McState.configure McState.postInit pyInt
    cases a <;> cases b <;> cases d <;> cases e <;> cases f <;> exact ⟨rfl, rfl, rfl, rfl, rfl, fun _ => ⟨rfl, rfl⟩⟩

/-- **C146.** `CevMc.configure` and `NsvhMc.configure` are `CondMcBsmABC.configure` without the argument they do not have: seeded objects are reproducible in the same way (C76), and the
setting they do not take is never touched. -/
theorem McState.cev_nsvh_configure (s : McState) (n dt : Option ℝ) (k : Option ℕ) (a : Option Bool) :
    s.cevConfigure n dt k = s.configure (n.map fun x => ⌊x⌋₊) dt k none ∧ s.nsvhConfigure n k a = s.configure (n.map fun x => ⌊x⌋₊) none k a ∧
    (s.cevConfigure n dt k).antithetic = s.antithetic ∧ (s.nsvhConfigure n k a).dt = s.dt := by
  unfold McState.cevConfigure McState.nsvhConfigure McState.configure pyInt
  cases n <;> cases dt <;> cases k <;> cases a <;> exact ⟨rfl, rfl, rfl, rfl⟩

/-! ## `SabrMcCai2017Exact` -/

/-- Specification: the arrays a Cai object must hold, the binomial weights `C(m,j) / 2^m`, `j = 0..m`, and the indices `0..m+n`. -/
def Spec.CaiConsistent (s : CaiObj) : Prop :=
  s.combCoef = (List.range (s.mEuler + 1)).map (fun j => (s.mEuler.choose j : ℝ) / 2 ^ s.mEuler) ∧ s.nn = (List.range (s.mEuler + s.nEuler + 1)).map fun (j : ℕ) => (j : ℝ)

lemma CaiObj.comb_eq (m j : ℕ) : (m.choose j : ℝ) * 0.5 ^ m = (m.choose j : ℝ) / 2 ^ m := by
  rw [show (0.5 : ℝ) = 1 / 2 by norm_num, one_div, inv_pow, div_eq_mul_inv]

lemma CaiObj.comb_sum (m : ℕ) : ((List.range (m + 1)).map fun j => (m.choose j : ℝ) * 0.5 ^ m).sum = 1 := by
  have h : ((List.range (m + 1)).map fun j => (m.choose j : ℝ) * 0.5 ^ m).sum = ∑ j ∈ Finset.range (m + 1), (m.choose j : ℝ) * 0.5 ^ m := rfl
  rw [h, ← Finset.sum_mul]
  have := Nat.sum_range_choose m
  rw [← Nat.cast_sum, this]
  push_cast
  rw [← mul_pow]; norm_num

lemma CaiObj.initEuler_eq (s : CaiObj) : s.initEuler = some { s with
    combCoef := (List.range (s.mEuler + 1)).map (fun j => (s.mEuler.choose j : ℝ) / 2 ^ s.mEuler)
    nn := (List.range (s.mEuler + s.nEuler + 1)).map fun (j : ℕ) => (j : ℝ) } := by
  unfold CaiObj.initEuler
  simp only
  rw [CaiObj.comb_sum, if_pos (by norm_num)]
  simp only [CaiObj.comb_eq]

/-- One call of `SabrMcCai2017Exact.configure`. -/
structure CaiArgs where
  nPath : Option ℝ
  dt : Option ℝ
  rnSeed : Option ℕ
  antithetic : Option Bool
  mInv : Option ℕ
  mEuler : Option ℕ
  nEuler : Option ℕ

/-- **C146.** `SabrMcCai2017Exact`: the assertion on the binomial weights never fails, every history of `configure` calls is accepted, and afterwards the stored weights and indices
are those of the last given truncation parameters. -/
theorem CaiObj.settings (s₀ : CaiObj) (l : List CaiArgs) :
    ∃ s, s₀.postInit = some s ∧ ∃ r, l.foldlM (fun s c => s.configure c.nPath c.dt c.rnSeed c.antithetic c.mInv c.mEuler c.nEuler) s = some r ∧
      Spec.CaiConsistent r ∧ r.combCoef.sum = 1 ∧
      r.mInv = Spec.lastGiven s₀.mInv (l.map (·.mInv)) ∧ r.mEuler = Spec.lastGiven s₀.mEuler (l.map (·.mEuler)) ∧ r.nEuler = Spec.lastGiven s₀.nEuler (l.map (·.nEuler)) ∧
      r.mc.nPath = Spec.lastGiven s₀.mc.nPath (l.map fun c => c.nPath.map fun x => ⌊x⌋₊) ∧ r.mc.rnSeed = Spec.lastGiven s₀.mc.rnSeed (l.map fun c => c.rnSeed.map some) ∧
      r.mc.posN = (fun _ => 0) ∧ r.mc.posU = fun _ => 0 := by
  refine ⟨_, by unfold CaiObj.postInit; rw [CaiObj.initEuler_eq], ?_⟩
  have hsum : ∀ r : CaiObj, Spec.CaiConsistent r → r.combCoef.sum = 1 := by
    intro r hr
    rw [hr.1]
    simpa only [CaiObj.comb_eq] using CaiObj.comb_sum r.mEuler
  suffices h : ∃ r, l.foldlM (fun s c => s.configure c.nPath c.dt c.rnSeed c.antithetic c.mInv c.mEuler c.nEuler) _ = some r ∧
      Spec.CaiConsistent r ∧
      r.mInv = Spec.lastGiven s₀.mInv (l.map (·.mInv)) ∧ r.mEuler = Spec.lastGiven s₀.mEuler (l.map (·.mEuler)) ∧ r.nEuler = Spec.lastGiven s₀.nEuler (l.map (·.nEuler)) ∧
      r.mc.nPath = Spec.lastGiven s₀.mc.nPath (l.map fun c => c.nPath.map fun x => ⌊x⌋₊) ∧ r.mc.rnSeed = Spec.lastGiven s₀.mc.rnSeed (l.map fun c => c.rnSeed.map some) ∧
      r.mc.posN = (fun _ => 0) ∧ r.mc.posU = fun _ => 0 by
    obtain ⟨r, h1, h2, h3⟩ := h
    exact ⟨r, h1, h2, hsum r h2, h3⟩
  induction l using List.reverseRecOn with
  | nil => exact ⟨_, rfl, ⟨rfl, rfl⟩, rfl, rfl, rfl, rfl, rfl, rfl, rfl⟩
  | append_singleton l c ih =>
    obtain ⟨r, hr, -, h1, h2, h3, h4, h5, -⟩ := ih
    simp only [List.foldlM_append, List.foldlM_cons, List.foldlM_nil, List.map_append, List.map_cons, List.map_nil, lastGiven_concat]
    rw [hr, ← h1, ← h2, ← h3, ← h4, ← h5]
    simp only [Bind.bind, Option.bind, CaiObj.configure, CaiObj.initEuler_eq, pure]
    refine ⟨_, rfl, ⟨rfl, rfl⟩, ?_⟩
    obtain ⟨a, b, d, e, f, g, h⟩ := c
    unfold McState.configure McState.postInit pyInt
    cases a <;> cases b <;> cases d <;> cases e <;> cases f <;> cases g <;> cases h <;> exact ⟨rfl, rfl, rfl, rfl, rfl, rfl, rfl⟩

/-! ## Rough Heston and finite differences -/

/-- **C146.** `RoughHestonMcABC.configure(texp, ...)` with at least one time step: the grid has `n_ts + 1` points from 0 to `texp` spaced by `dt = texp / n_ts`, whatever the object was
configured for before; it fails exactly for `n_ts = 0`. -/
theorem RoughObj.grid (s : RoughObj) (texp : ℝ) (nTs nPath : Option ℝ) (k : Option ℕ) (a : Option Bool) :
    let N := (nTs.map fun x => ⌊x⌋₊).getD s.nTs
    (s.configure texp nTs nPath k a = none ↔ N = 0) ∧
    ∀ r, s.configure texp nTs nPath k a = some r → r.nTs = N ∧ r.texp = texp ∧ r.mc.dt = some (texp / N) ∧ r.tgrid.length = N + 1 ∧
      r.tgrid[0]? = some 0 ∧ r.tgrid[N]? = some texp ∧ (∀ i < N, ∃ x, r.tgrid[i]? = some x ∧ r.tgrid[i + 1]? = some (x + texp / N)) ∧
      r.mc.nPath = (nPath.map fun x => ⌊x⌋₊).getD s.mc.nPath ∧ r.mc.rnSeed = k.orElse (fun _ => s.mc.rnSeed) ∧ r.mc.antithetic = a.getD s.mc.antithetic := by
  have key : s.configure texp nTs nPath k a = if (nTs.map fun x => ⌊x⌋₊).getD s.nTs = 0 then none else some
      ⟨⟨(nPath.map fun x => ⌊x⌋₊).getD s.mc.nPath, some (texp / ((nTs.map fun x => ⌊x⌋₊).getD s.nTs : ℕ)), k.orElse (fun _ => s.mc.rnSeed), a.getD s.mc.antithetic, s.mc.entropy + 1,
        fun _ => 0, fun _ => 0⟩, (nTs.map fun x => ⌊x⌋₊).getD s.nTs, texp,
        (List.range ((nTs.map fun x => ⌊x⌋₊).getD s.nTs + 1)).map fun (i : ℕ) => texp * i / ((nTs.map fun x => ⌊x⌋₊).getD s.nTs : ℕ)⟩ := by
    unfold RoughObj.configure McState.postInit pyInt
    cases nTs <;> cases nPath <;> cases k <;> cases a <;> rfl
  simp only
  rw [key]
  generalize (nTs.map fun x => ⌊x⌋₊).getD s.nTs = N
  by_cases h : N = 0
  · simp [h]
  · have hN : (N : ℝ) ≠ 0 := Nat.cast_ne_zero.2 h
    rw [if_neg h]
    refine ⟨by simp [h], ?_⟩
    rintro r hr
    have hr := (Option.some.inj hr).symm
    subst hr
    refine ⟨rfl, rfl, rfl, by simp, by simp, ?_, fun i hi => ⟨texp * i / N, ?_, ?_⟩, rfl, rfl, rfl⟩
    · simp only [List.getElem?_map, List.getElem?_range (Nat.lt_succ_self N), Option.map_some]
      rw [mul_div_assoc, div_self hN, mul_one]
    · simp only [List.getElem?_map, List.getElem?_range (show i < N + 1 by omega), Option.map_some]
    · simp only [List.getElem?_map, List.getElem?_range (show i + 1 < N + 1 by omega), Option.map_some]
      push_cast
      congr 1; ring

/-- **C146.** `SvFinDiffABC`: after any history of `configure` calls the grid is the last one given, truncated to integers, and the weight the last one given. -/
theorem FdCfg.settings (s : FdCfg) (l : List (Option (List ℝ) × Option ℝ)) :
    let r := l.foldl (fun s c => s.configure c.1 c.2) s
    r.nGrid = Spec.lastGiven s.nGrid (l.map fun c => c.1.map fun g => g.map fun x => ⌊x⌋₊) ∧ r.adiTheta = Spec.lastGiven s.adiTheta (l.map fun c => c.2) := by
  induction l using List.reverseRecOn with
  | nil => exact ⟨rfl, rfl⟩
  | append_singleton l c ih =>
    simp only [List.foldl_append, List.foldl_cons, List.foldl_nil, List.map_append, List.map_cons, List.map_nil, lastGiven_concat] at ih ⊢
    obtain ⟨h1, h2⟩ := ih
    rw [← h1, ← h2]
    generalize l.foldl (fun s c => s.configure c.1 c.2) s = r
    obtain ⟨a, b⟩ := c
    have e : (r.nGrid.map fun (k : ℕ) => (k : ℝ)).map pyInt = r.nGrid := by
      rw [List.map_map]
      conv_rhs => rw [← List.map_id r.nGrid]
      exact List.map_congr_left fun k _ => by simp [pyInt]
    unfold FdCfg.configure
    cases a <;> cases b <;> exact ⟨by first | exact e | rfl, rfl⟩

/-- A history: configure, simulate, configure again with another seed. The number of paths is the last one given. -/
example (R : ℕ → ℕ → ℝ) (ent : ℕ → ℝ) (o : Ma 2) :
    (NdObj.run R o (NdObj.init R ent none true) [.configure (some 20000) (some 1) none, .simulate [1] true, .configure none (some 2) none]).nPath = 20000 := by
  rw [(NdObj.settings R ent o none true _).1]
  have : ⌊(20000 : ℝ)⌋₊ = 20000 := by exact_mod_cast Nat.floor_natCast (R := ℝ) 20000
  simp [NdObj.nPathArgs, Spec.lastGiven, this]

end PyFENG
