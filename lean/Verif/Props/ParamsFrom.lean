import Verif.Props.Params

/-!
# C29: `from_model` transfers parameters between pricing classes of the same model
-/

namespace PyFENG

open Real

set_option linter.unusedSimpArgs false

namespace Params

/-- Names of the model parameters of a class: its `init` fields. -/
def paramNames (c : PyClass) : Set String := {n | ∃ f ∈ c.fields, f.init = true ∧ f.name = n}

/-- Names of the model parameters and of the constants precomputed from them (`_mgf1_correction`). -/
def determinedNames (c : PyClass) : Set String :=
  {n | ∃ f ∈ c.fields, (f.init = true ∨ f.dflt = none) ∧ f.name = n}

/-- A parameter class as they occur in `params.py`: field names are unique, no field is numerical, and `__post_init__`
reads only model parameters, determines the derived constants from them, leaves foreign attributes alone, keeps the model
parameters defined and is idempotent. -/
structure Regular (c : PyClass) : Prop where
  unique : ∀ f ∈ c.fields, ∀ g ∈ c.fields, f.name = g.name → f = g
  notNumerical : ∀ f ∈ c.fields, f.numerical = false
  local_ : ∀ a b a', (∀ n ∈ paramNames c, a n = b n) → c.postInit a = .ok a' →
    ∃ b', c.postInit b = .ok b' ∧ ∀ n ∈ determinedNames c, a' n = b' n
  localErr : ∀ a b e, (∀ n ∈ paramNames c, a n = b n) → c.postInit a = .error e → c.postInit b = .error e
  frame : ∀ a a', c.postInit a = .ok a' → ∀ n, (∀ f ∈ c.fields, f.name ≠ n) → a' n = a n
  keeps : ∀ a a', c.postInit a = .ok a' → ∀ n, (a n).isSome → (a' n).isSome
  idem : ∀ a a', c.postInit a = .ok a' → ∃ a'', c.postInit a' = .ok a'' ∧ ∀ n ∈ determinedNames c, a'' n = a' n

/-- A legal list of extra numerical fields: names pairwise distinct and not used by the parameter class. -/
structure ExtraOk (c : PyClass) (extra : List (String × Val)) : Prop where
  fresh : ∀ p ∈ extra, ∀ f ∈ c.fields, f.name ≠ p.1
  unique : ∀ p ∈ extra, ∀ q ∈ extra, p.1 = q.1 → p = q

lemma lookup_items (a : Attrs) (fs : List PyField) (n : String) :
    (fs.filterMap fun f => (a f.name).map fun v => (f.name, v)).lookup n
      = if ∃ f ∈ fs, f.name = n then a n else none := by
  induction fs with
  | nil => simp
  | cons f fs ih =>
    rw [List.filterMap_cons]
    cases h : a f.name with
    | none =>
      simp only [Option.map_none, ih]
      by_cases hf : f.name = n
      · subst hf; simp [h]
      · simp [hf]
    | some v =>
      simp only [Option.map_some, List.lookup_cons]
      by_cases hf : n = f.name
      · subst hf; simp [h]
      · have : (n == f.name) = false := by simpa using hf
        rw [this, ih]
        simp [Ne.symm hf]

lemma mem_items {a : Attrs} {fs : List PyField} {p : String × Val}
    (h : p ∈ fs.filterMap fun f => (a f.name).map fun v => (f.name, v)) : ∃ f ∈ fs, f.name = p.1 := by
  obtain ⟨f, hf, he⟩ := List.mem_filterMap.1 h
  refine ⟨f, hf, ?_⟩
  cases ha : a f.name with
  | none => simp [ha] at he
  | some v => simp only [ha, Option.map_some, Option.some.injEq] at he; rw [← he]

lemma lookup_paramsKw (o : PyObj) (n : String) :
    (paramsKw o).lookup n = if ∃ f ∈ o.cls.fields, f.isModel = true ∧ f.name = n then o.attrs n else none := by
  unfold paramsKw
  simp only [List.lookup_append, lookup_items]
  by_cases h : ∃ f ∈ o.cls.fields, f.isModel = true ∧ f.name = n
  · rw [if_pos h]
    obtain ⟨f, hf, hm, hn⟩ := h
    by_cases hk : f.kwOnly = true
    · rw [if_pos (c := ∃ g ∈ List.filter (fun f => f.isModel && f.kwOnly) o.cls.fields, g.name = n)
        ⟨f, List.mem_filter.2 ⟨hf, by simp [hm, hk]⟩, hn⟩]
      split <;> simp
    · rw [if_pos (c := ∃ g ∈ List.filter (fun f => f.isModel && !f.kwOnly) o.cls.fields, g.name = n)
        ⟨f, List.mem_filter.2 ⟨hf, by simp [hm, hk]⟩, hn⟩]
      split <;> simp
  · rw [if_neg h, if_neg, if_neg]
    · rfl
    all_goals
      rintro ⟨f, hf, hn⟩
      have := List.mem_filter.1 hf
      simp only [Bool.and_eq_true] at this
      exact h ⟨f, this.1, this.2.1, hn⟩

lemma mem_paramsKw {o : PyObj} {p : String × Val} (h : p ∈ paramsKw o) :
    ∃ f ∈ o.cls.fields, f.isModel = true ∧ f.name = p.1 := by
  unfold paramsKw at h
  rcases List.mem_append.1 h with h | h
  all_goals
    obtain ⟨f, hf, hn⟩ := mem_items h
    have := List.mem_filter.1 hf
    simp only [Bool.and_eq_true] at this
    exact ⟨f, this.1, this.2.1, hn⟩

lemma model_withNumerical {c : PyClass} (hc : Regular c) (ex : List (String × Val)) (n : String) :
    (∃ f ∈ (withNumerical c ex).fields, f.isModel = true ∧ f.name = n) ↔ n ∈ paramNames c := by
  constructor
  · rintro ⟨f, hf, hm, hn⟩
    rcases List.mem_append.1 hf with hf | hf
    · refine ⟨f, hf, ?_, hn⟩
      simp only [PyField.isModel, Bool.and_eq_true] at hm
      exact hm.1
    · obtain ⟨p, _, rfl⟩ := List.mem_map.1 hf
      simp [PyField.isModel] at hm
  · rintro ⟨f, hf, hi, hn⟩
    exact ⟨f, List.mem_append_left _ hf, by simp [PyField.isModel, hi, hc.notNumerical f hf], hn⟩

lemma bindArgs_param {c : PyClass} (hc : Regular c) (ex : List (String × Val)) (kw : List (String × Val)) {n : String}
    (hn : n ∈ paramNames c) {v : Val} (hv : kw.lookup n = some v) :
    bindArgs (withNumerical c ex).fields kw n = some v := by
  obtain ⟨f, hf, hi, rfl⟩ := hn
  have : (withNumerical c ex).fields.find? (fun g => g.name == f.name) = some f := by
    unfold withNumerical
    simp only [List.find?_append]
    have : c.fields.find? (fun g => g.name == f.name) = some f := by
      cases h : c.fields.find? (fun g => g.name == f.name) with
      | none => have := List.find?_eq_none.1 h f hf; simp at this
      | some g =>
        have h1 := List.mem_of_find?_eq_some h
        have h2 := List.find?_some h
        rw [hc.unique g h1 f hf (by simpa using h2)]
    rw [this]; rfl
  unfold bindArgs
  rw [this]
  simp [hi, hv]

lemma bindArgs_extra {c : PyClass} {ex : List (String × Val)} (he : ExtraOk c ex) (kw : List (String × Val))
    {p : String × Val} (hp : p ∈ ex) (hk : kw.lookup p.1 = none) :
    bindArgs (withNumerical c ex).fields kw p.1 = some p.2 := by
  have : (withNumerical c ex).fields.find? (fun g => g.name == p.1) = some ⟨p.1, some p.2, true, true, true⟩ := by
    unfold withNumerical
    simp only [List.find?_append]
    have h0 : c.fields.find? (fun g => g.name == p.1) = none := by
      rw [List.find?_eq_none]; intro f hf; simpa using he.fresh p hp f hf
    rw [h0]
    cases h : (ex.map fun p => (⟨p.1, some p.2, true, true, true⟩ : PyField)).find? (fun g => g.name == p.1) with
    | none =>
      have := List.find?_eq_none.1 h ⟨p.1, some p.2, true, true, true⟩ (List.mem_map.2 ⟨p, hp, rfl⟩)
      simp at this
    | some g =>
      obtain ⟨q, hq, rfl⟩ := List.mem_map.1 (List.mem_of_find?_eq_some h)
      have h2 := List.find?_some h
      have := he.unique q hq p hp (by simpa using h2)
      rw [this]; rfl
  unfold bindArgs
  rw [this]
  simp [hk]

/-- **C29**, type check: classes of different `model_type` never exchange parameters. -/
theorem from_model_type_mismatch (c : PyClass) (o : PyObj) (h : c.modelType ≠ o.cls.modelType) :
    fromModel c o = .error .typeError := by
  unfold fromModel; rw [if_pos h]

/-- **C29**.  Let `A` and `B` be any two pricing classes of the same parameter class `c` (each adding any numerical fields
of its own), and `o` any object of class `A` — after any attribute assignments.  If the current parameters of `o` pass the
validation of `c`, then `B.from_model(o)` is an object of class `B` with exactly those parameters (defaults resolved and
derived constants recomputed by `__post_init__`), its own numerical fields at their defaults.  If validation fails,
`B.from_model(o)` raises the same error. -/
theorem from_model_transfers {c : PyClass} (hc : Regular c) {exA exB : List (String × Val)}
    (hB : ExtraOk c exB) (o : PyObj) (ho : o.cls = withNumerical c exA)
    (hdef : ∀ n ∈ paramNames c, (o.attrs n).isSome) :
    (∀ a, c.postInit o.attrs = .ok a → ∃ o', fromModel (withNumerical c exB) o = .ok o' ∧ o'.cls = withNumerical c exB ∧
      (∀ n ∈ determinedNames c, o'.attrs n = a n) ∧ (∀ p ∈ exB, o'.attrs p.1 = some p.2)) ∧
    (∀ e, c.postInit o.attrs = .error e → fromModel (withNumerical c exB) o = .error e) := by
  classical
  have hlk : ∀ n, (paramsKw o).lookup n = if n ∈ paramNames c then o.attrs n else none := by
    intro n
    rw [lookup_paramsKw, ho]
    by_cases h : n ∈ paramNames c
    · rw [if_pos h, if_pos ((model_withNumerical hc exA n).2 h)]
    · rw [if_neg h, if_neg (fun h' => h ((model_withNumerical hc exA n).1 h'))]
  have hagree : ∀ n ∈ paramNames c, o.attrs n = bindArgs (withNumerical c exB).fields (paramsKw o) n := by
    intro n hn
    obtain ⟨v, hv⟩ := Option.isSome_iff_exists.1 (hdef n hn)
    rw [hv, bindArgs_param hc exB _ hn (v := v)]
    rw [hlk, if_pos hn, hv]
  have hcons : fromModel (withNumerical c exB) o =
      match c.postInit (bindArgs (withNumerical c exB).fields (paramsKw o)) with
      | .error e => .error e
      | .ok a => .ok ⟨withNumerical c exB, a⟩ := by
    unfold fromModel
    rw [if_neg (by rw [ho]; simp [withNumerical])]
    unfold construct
    rw [if_neg, if_neg]
    · rfl
    · rw [List.any_eq_true]
      rintro ⟨f, hf, h⟩
      simp only [Bool.and_eq_true, Option.isNone_iff_eq_none, Bool.not_eq_true', List.any_eq_false, beq_iff_eq] at h
      rcases List.mem_append.1 hf with hf | hf
      · have hn : f.name ∈ paramNames c := ⟨f, hf, h.1.1, rfl⟩
        obtain ⟨v, hv⟩ := Option.isSome_iff_exists.1 (hdef _ hn)
        have : (paramsKw o).lookup f.name = some v := by rw [hlk, if_pos hn, hv]
        obtain ⟨l, l', heq, -⟩ := List.lookup_eq_some_iff.1 this
        exact h.2 (f.name, v) (by rw [heq]; simp) rfl
      · obtain ⟨p, _, rfl⟩ := List.mem_map.1 hf
        simp at h
    · rw [List.any_eq_true]
      rintro ⟨p, hp, h⟩
      simp only [Bool.not_eq_true', List.any_eq_false, Bool.and_eq_true, beq_iff_eq, not_and] at h
      obtain ⟨f, hf, hm, hn⟩ := mem_paramsKw hp
      rw [ho] at hf
      obtain ⟨g, hg, hgi, hgn⟩ := (model_withNumerical hc exA p.1).1 ⟨f, hf, hm, hn⟩
      exact h g (List.mem_append_left _ hg) hgi hgn
  constructor
  · intro a ha
    obtain ⟨b, hb, hab⟩ := hc.local_ _ _ a hagree ha
    refine ⟨⟨withNumerical c exB, b⟩, by rw [hcons, hb], rfl, fun n hn => (hab n hn).symm, fun p hp => ?_⟩
    have h1 := hc.frame _ _ hb p.1 (fun f hf => hB.fresh p hp f hf)
    have hnot : p.1 ∉ paramNames c := by rintro ⟨f, hf, -, hn⟩; exact hB.fresh p hp f hf hn
    rw [show (⟨withNumerical c exB, b⟩ : PyObj).attrs p.1 = b p.1 from rfl, h1]
    exact bindArgs_extra hB _ hp (by rw [hlk, if_neg hnot])
  · intro e he
    rw [hcons, hc.localErr _ _ e hagree he]

/-- **C29**, for a freshly constructed object: `B.from_model(A(**kw))` has the same parameters and derived constants as
`A(**kw)`. -/
theorem from_model_of_constructed {c : PyClass} (hc : Regular c) {exA exB : List (String × Val)} (hB : ExtraOk c exB)
    (kw : List (String × Val)) (o : PyObj) (ho : construct (withNumerical c exA) kw = .ok o) :
    ∃ o', fromModel (withNumerical c exB) o = .ok o' ∧ o'.cls = withNumerical c exB ∧
      (∀ n ∈ determinedNames c, o'.attrs n = o.attrs n) ∧ (∀ p ∈ exB, o'.attrs p.1 = some p.2) := by
  unfold construct at ho
  split at ho
  · simp at ho
  rename_i h1
  split at ho
  · simp at ho
  rename_i h2
  cases hp : (withNumerical c exA).postInit (bindArgs (withNumerical c exA).fields kw) with
  | error e => rw [hp] at ho; simp at ho
  | ok a =>
    rw [hp] at ho
    simp only [Except.ok.injEq] at ho
    subst ho
    have hp' : c.postInit (bindArgs (withNumerical c exA).fields kw) = .ok a := hp
    obtain ⟨a'', ha'', hag⟩ := hc.idem _ _ hp'
    have hdef : ∀ n ∈ paramNames c, (a n).isSome := by
      rintro n ⟨f, hf, hi, rfl⟩
      refine hc.keeps _ _ hp' _ ?_
      have hfind : (withNumerical c exA).fields.find? (fun g => g.name == f.name) = some f := by
        unfold withNumerical
        simp only [List.find?_append]
        have : c.fields.find? (fun g => g.name == f.name) = some f := by
          cases h : c.fields.find? (fun g => g.name == f.name) with
          | none => have := List.find?_eq_none.1 h f hf; simp at this
          | some g =>
            have h1 := List.mem_of_find?_eq_some h
            have h2 := List.find?_some h
            rw [hc.unique g h1 f hf (by simpa using h2)]
        rw [this]; rfl
      unfold bindArgs
      rw [hfind]
      simp only [hi, if_true]
      cases hd : f.dflt with
      | some d => cases kw.lookup f.name <;> simp
      | none =>
        have h3 : (kw.any fun p => p.1 == f.name) = true := by
          by_contra h3
          apply h2
          rw [List.any_eq_true]
          exact ⟨f, List.mem_append_left _ hf, by simp only [hi, hd, h3]; decide⟩
        obtain ⟨p, hpm, hpn⟩ := List.any_eq_true.1 h3
        have hpn : p.1 = f.name := by simpa using hpn
        cases hl : kw.lookup f.name with
        | some v => simp
        | none =>
          have := List.lookup_eq_none_iff.1 hl p hpm
          simp [hpn] at this
    obtain ⟨hok, -⟩ := from_model_transfers hc (exA := exA) hB ⟨withNumerical c exA, a⟩ rfl hdef
    obtain ⟨o', e1, e2, e3, e4⟩ := hok a'' ha''
    exact ⟨o', e1, e2, fun n hn => by rw [e3 n hn, hag n hn], e4⟩

/-! ### The parameter classes are regular -/

lemma regular_trivial (mt : String) (fs : List PyField) (hu : ∀ f ∈ fs, ∀ g ∈ fs, f.name = g.name → f = g)
    (hn : ∀ f ∈ fs, f.numerical = false) (hd : ∀ f ∈ fs, f.dflt = none → f.init = true) : Regular ⟨mt, fs, basePost⟩ where
  unique := hu
  notNumerical := hn
  local_ := by
    intro a b a' h ha
    simp only [basePost, Except.ok.injEq] at ha
    subst ha
    refine ⟨b, rfl, ?_⟩
    rintro n ⟨f, hf, hi, hfn⟩
    exact h n ⟨f, hf, hi.elim id (hd f hf), hfn⟩
  localErr := by intro a b e _ h; simp [basePost] at h
  frame := by intro a a' h n _; simp only [basePost, Except.ok.injEq] at h; rw [h]
  keeps := by intro a a' h n hn; simp only [basePost, Except.ok.injEq] at h; rwa [← h]
  idem := by intro a a' h; exact ⟨a', rfl, fun _ _ => rfl⟩

theorem bsm_regular : Regular bsmParams :=
  regular_trivial _ _ (by simp [baseFields]) (by simp [baseFields]) (by simp [baseFields])

theorem sabr_regular : Regular sabrParams :=
  regular_trivial _ _ (by simp [sabrFields_eq]) (by simp [sabrFields_eq]) (by simp [sabrFields_eq])

theorem nsvh_regular : Regular nsvhParams :=
  regular_trivial _ _ (by simp [sabrFields_eq, inheritFields, numField]) (by simp [sabrFields_eq, inheritFields, numField])
    (by simp [sabrFields_eq, inheritFields, numField])

lemma num_congr {a b : Attrs} {n : String} (h : a n = b n) : a.num n = b.num n := by unfold Attrs.num; rw [h]

theorem cev_regular : Regular cevParams where
  unique := by simp [cevParams, cevFields_eq]
  notNumerical := by simp [cevParams, cevFields_eq]
  local_ := by
    intro a b a' h ha
    have hb : a.num "beta" = b.num "beta" := num_congr (h _ (by simp [paramNames, cevParams, cevFields_eq]))
    have ha : cevPost a = .ok a' := ha
    show ∃ b', cevPost b = .ok b' ∧ _
    unfold cevPost at ha ⊢
    rw [← hb]
    cases hx : a.num "beta" with
    | error e => simp [hx] at ha
    | ok x =>
      rw [hx] at ha
      by_cases h1 : 0 < x
      · by_cases h2 : x = 1
        · simp [h2] at ha
        · simp only [h1, h2, not_true_eq_false, if_false, basePost, Except.ok.injEq] at ha ⊢
          subst ha
          refine ⟨b, rfl, ?_⟩
          rintro n ⟨f, hf, hi, hfn⟩
          refine h n ⟨f, hf, hi.elim id ?_, hfn⟩
          revert f; simp [cevParams, cevFields_eq]
      · simp [h1] at ha
  localErr := by
    intro a b e h ha
    have hb : a.num "beta" = b.num "beta" := num_congr (h _ (by simp [paramNames, cevParams, cevFields_eq]))
    have ha : cevPost a = .error e := ha
    show cevPost b = .error e
    unfold cevPost at ha ⊢
    rw [← hb]
    cases hx : a.num "beta" with
    | error e => rw [hx] at ha; exact ha
    | ok x =>
      rw [hx] at ha
      by_cases h1 : 0 < x
      · by_cases h2 : x = 1
        · simpa [h2] using ha
        · simp [h1, h2, basePost] at ha
      · simpa [h1] using ha
  frame := by
    intro a a' ha n _
    have ha : cevPost a = .ok a' := ha
    unfold cevPost at ha
    split at ha
    · simp at ha
    · split_ifs at ha; simp only [basePost, Except.ok.injEq] at ha; rw [ha]
  keeps := by
    intro a a' ha n hn
    have ha : cevPost a = .ok a' := ha
    unfold cevPost at ha
    split at ha
    · simp at ha
    · split_ifs at ha; simp only [basePost, Except.ok.injEq] at ha; rwa [← ha]
  idem := by
    intro a a' ha
    have ha : cevPost a = .ok a' := ha
    have : a = a' := by
      unfold cevPost at ha
      split at ha
      · simp at ha
      · split_ifs at ha; simpa only [basePost, Except.ok.injEq] using ha
    subst this
    exact ⟨a, ha, fun _ _ => rfl⟩

/-- The attribute dictionary after `theta=None` has been resolved. -/
def svRes (a : Attrs) : Attrs :=
  match a "theta", a "sigma" with
  | some .none, some s => a.set "theta" s
  | _, _ => a

lemma svRes_cases (a : Attrs) :
    (∃ v, a "theta" = some .none ∧ a "sigma" = some v ∧ svRes a = a.set "theta" v ∧ svPost a = .ok (a.set "theta" v)) ∨
    ((¬ ∃ v, a "theta" = some .none ∧ a "sigma" = some v) ∧ svRes a = a ∧ svPost a = .ok a) := by
  unfold svRes svPost
  cases ht : a "theta" with
  | none => right; simp [basePost]
  | some v =>
    cases hs : a "sigma" with
    | none => right; cases v <;> simp [basePost]
    | some w => cases v <;> simp [basePost]

lemma svPost_eq (a : Attrs) : svPost a = .ok (svRes a) := by
  rcases svRes_cases a with ⟨v, -, -, h1, h2⟩ | ⟨-, h1, h2⟩ <;> rw [h1, h2]

lemma svRes_other (a : Attrs) {n : String} (hn : n ≠ "theta") : svRes a n = a n := by
  rcases svRes_cases a with ⟨v, -, -, h1, h2⟩ | ⟨-, h1, h2⟩ <;> rw [h1]
  simp [Attrs.set, hn]

lemma svRes_congr {a b : Attrs} (h1 : a "theta" = b "theta") (h2 : a "sigma" = b "sigma") :
    svRes a "theta" = svRes b "theta" := by
  rcases svRes_cases a with ⟨v, ht, hs, e1, -⟩ | ⟨hn, e1, -⟩
  · rcases svRes_cases b with ⟨w, ht', hs', e2, -⟩ | ⟨hn', e2, -⟩
    · rw [e1, e2]
      have : v = w := by rw [hs, hs'] at h2; exact Option.some.inj h2
      simp [Attrs.set, this]
    · exact absurd ⟨v, by rw [← h1, ht], by rw [← h2, hs]⟩ hn'
  · rcases svRes_cases b with ⟨w, ht', hs', e2, -⟩ | ⟨hn', e2, -⟩
    · exact absurd ⟨w, by rw [h1, ht'], by rw [h2, hs']⟩ hn
    · rw [e1, e2, h1]

lemma svRes_idem (a : Attrs) : svRes (svRes a) = svRes a := by
  funext n
  by_cases hn : n = "theta"
  · subst hn
    cases ht : a "theta" with
    | none =>
      have : svRes a = a := by unfold svRes; rw [ht]
      rw [this, this]
    | some v =>
      cases v with
      | num r =>
        have : svRes a = a := by unfold svRes; rw [ht]
        rw [this, this]
      | bool r =>
        have : svRes a = a := by unfold svRes; rw [ht]
        rw [this, this]
      | none =>
        cases hs : a "sigma" with
        | none =>
          have : svRes a = a := by unfold svRes; rw [ht, hs]
          rw [this, this]
        | some s =>
          have h1 : svRes a = a.set "theta" s := by unfold svRes; rw [ht, hs]
          have h2 : svRes a "theta" = some s := by rw [h1]; simp [Attrs.set]
          have h3 : svRes a "sigma" = some s := by rw [h1]; simp [Attrs.set, hs]
          generalize svRes a = b at *
          unfold svRes
          rw [h2, h3]
          cases s <;> simp [Attrs.set, h2]
  · rw [svRes_other _ hn]

lemma svRes_keeps (a : Attrs) {n : String} (hn : (a n).isSome) : (svRes a n).isSome := by
  rcases svRes_cases a with ⟨v, -, -, h1, h2⟩ | ⟨-, h1, h2⟩ <;> rw [h1]
  · unfold Attrs.set; split
    · simp
    · exact hn
  · exact hn

/-- A class whose `__post_init__` resolves `theta` and then only checks parameters. -/
lemma regular_sv (mt : String) (fs : List PyField) (post : Attrs → Except PyErr Attrs)
    (chk : Attrs → Except PyErr Unit) (hpost : ∀ a, post a = match chk (svRes a) with
      | .error e => .error e
      | .ok _ => .ok (svRes a))
    (hchk : ∀ a b : Attrs, (∀ n ∈ paramNames ⟨mt, fs, post⟩, a n = b n) → chk a = chk b)
    (hu : ∀ f ∈ fs, ∀ g ∈ fs, f.name = g.name → f = g)
    (hn : ∀ f ∈ fs, f.numerical = false) (hd : ∀ f ∈ fs, f.init = true)
    (hth : "theta" ∈ paramNames ⟨mt, fs, post⟩) (hsg : "sigma" ∈ paramNames ⟨mt, fs, post⟩) :
    Regular ⟨mt, fs, post⟩ := by
  have hres : ∀ a b : Attrs, (∀ n ∈ paramNames ⟨mt, fs, post⟩, a n = b n) →
      ∀ n ∈ paramNames ⟨mt, fs, post⟩, svRes a n = svRes b n := by
    intro a b h n hn
    by_cases ht : n = "theta"
    · subst ht; exact svRes_congr (h _ hth) (h _ hsg)
    · rw [svRes_other _ ht, svRes_other _ ht]; exact h n hn
  have hok : ∀ a a', post a = .ok a' → a' = svRes a ∧ ∃ u, chk (svRes a) = .ok u := by
    intro a a' h
    rw [hpost] at h
    cases hc : chk (svRes a) with
    | error e => simp [hc] at h
    | ok u => rw [hc] at h; exact ⟨(Except.ok.inj h).symm, u, rfl⟩
  refine ⟨hu, hn, ?_, ?_, ?_, ?_, ?_⟩
  · intro a b a' h ha
    obtain ⟨rfl, u, hc⟩ := hok a a' ha
    refine ⟨svRes b, ?_, ?_⟩
    · show post b = _
      rw [hpost, ← hchk _ _ (hres a b h), hc]
    · rintro n ⟨f, hf, _, hfn⟩
      exact hres a b h n ⟨f, hf, hd f hf, hfn⟩
  · intro a b e h ha
    have ha : post a = .error e := ha
    show post b = _
    rw [hpost] at ha ⊢
    rw [← hchk _ _ (hres a b h)]
    cases hc : chk (svRes a) with
    | error e' => rw [hc] at ha; exact ha
    | ok u => simp [hc] at ha
  · intro a a' ha n hn'
    obtain ⟨rfl, -⟩ := hok a a' ha
    refine svRes_other _ ?_
    rintro rfl
    obtain ⟨f, hf, _, hfn⟩ := hth
    exact hn' f hf hfn
  · intro a a' ha n hs
    obtain ⟨rfl, -⟩ := hok a a' ha
    exact svRes_keeps a hs
  · intro a a' ha
    obtain ⟨rfl, u, hc⟩ := hok a a' ha
    refine ⟨svRes a, ?_, fun _ _ => rfl⟩
    show post (svRes a) = _
    rw [hpost, svRes_idem, hc]

theorem sv_regular (mt : String) : Regular ⟨mt, svFields, svPost⟩ :=
  regular_sv _ _ _ (fun _ => .ok ()) (fun a => svPost_eq a) (fun _ _ _ => rfl) (by simp [svFields_eq])
    (by simp [svFields_eq]) (by simp [svFields_eq]) (by simp [paramNames, svFields_eq]) (by simp [paramNames, svFields_eq])

/-- The parameter checks of `HestonParams`. -/
noncomputable def hestonChk (a : Attrs) : Except PyErr Unit :=
  match hestonPost a with
  | .error e => .error e
  | .ok _ => .ok ()

lemma hestonPost_as_chk (a : Attrs) : hestonPost a = match hestonChk (svRes a) with
      | .error e => .error e
      | .ok _ => .ok (svRes a) := by
  unfold hestonChk hestonPost
  simp only [svPost_eq, svRes_idem, bind, Except.bind, pure, Except.pure, throw, throwThe, MonadExceptOf.throw]
  cases (svRes a).num "sigma" with
  | error e => rfl
  | ok s =>
  by_cases c1 : s ≤ 0
  · simp [c1]
  cases (svRes a).num "vov" with
  | error e => simp [c1]
  | ok v =>
  by_cases c2 : v ≤ 0
  · simp [c1, c2]
  cases (svRes a).num "mr" with
  | error e => simp [c1, c2]
  | ok m =>
  by_cases c3 : m ≤ 0
  · simp [c1, c2, c3]
  cases (svRes a).num "theta" with
  | error e => simp [c1, c2, c3]
  | ok t =>
  by_cases c4 : t ≤ 0
  · simp [c1, c2, c3, c4]
  cases (svRes a).num "rho" with
  | error e => simp [c1, c2, c3, c4]
  | ok r =>
  by_cases c5 : -1 < r ∧ r < 1
  · simp [c1, c2, c3, c4, c5]
  · simp [c1, c2, c3, c4, c5]

lemma hestonChk_congr {a b : Attrs} (h1 : a "sigma" = b "sigma") (h2 : a "vov" = b "vov") (h3 : a "rho" = b "rho")
    (h4 : a "mr" = b "mr") (h5 : a "theta" = b "theta") : hestonChk a = hestonChk b := by
  unfold hestonChk hestonPost
  have e1 : (svRes a).num "sigma" = (svRes b).num "sigma" :=
    num_congr (by rw [svRes_other _ (by decide), svRes_other _ (by decide), h1])
  have e2 : (svRes a).num "vov" = (svRes b).num "vov" :=
    num_congr (by rw [svRes_other _ (by decide), svRes_other _ (by decide), h2])
  have e3 : (svRes a).num "rho" = (svRes b).num "rho" :=
    num_congr (by rw [svRes_other _ (by decide), svRes_other _ (by decide), h3])
  have e4 : (svRes a).num "mr" = (svRes b).num "mr" :=
    num_congr (by rw [svRes_other _ (by decide), svRes_other _ (by decide), h4])
  have e5 : (svRes a).num "theta" = (svRes b).num "theta" := num_congr (svRes_congr h5 h1)
  simp only [svPost_eq, bind, Except.bind, pure, Except.pure, throw, throwThe, MonadExceptOf.throw, e1, e2, e3, e4, e5]
  cases (svRes b).num "sigma" with
  | error e => rfl
  | ok s =>
  by_cases c1 : s ≤ 0
  · simp [c1]
  cases (svRes b).num "vov" with
  | error e => simp [c1]
  | ok v =>
  by_cases c2 : v ≤ 0
  · simp [c1, c2]
  cases (svRes b).num "mr" with
  | error e => simp [c1, c2]
  | ok m =>
  by_cases c3 : m ≤ 0
  · simp [c1, c2, c3]
  cases (svRes b).num "theta" with
  | error e => simp [c1, c2, c3]
  | ok t =>
  by_cases c4 : t ≤ 0
  · simp [c1, c2, c3, c4]
  cases (svRes b).num "rho" with
  | error e => simp [c1, c2, c3, c4]
  | ok r =>
  by_cases c5 : -1 < r ∧ r < 1
  · simp [c1, c2, c3, c4, c5]
  · simp [c1, c2, c3, c4, c5]

theorem heston_regular : Regular hestonParams :=
  regular_sv _ _ _ hestonChk hestonPost_as_chk
    (fun a b h => hestonChk_congr (h _ (by simp [paramNames, svFields_eq])) (h _ (by simp [paramNames, svFields_eq]))
      (h _ (by simp [paramNames, svFields_eq])) (h _ (by simp [paramNames, svFields_eq]))
      (h _ (by simp [paramNames, svFields_eq])))
    (by simp [svFields_eq]) (by simp [svFields_eq]) (by simp [svFields_eq]) (by simp [paramNames, svFields_eq])
    (by simp [paramNames, svFields_eq])

lemma roughFields_eq : inheritFields svFields [numField "alpha" 0.62] =
  [⟨"sigma", none, true, false, false⟩, ⟨"intr", some (.num 0), true, true, false⟩,
   ⟨"divr", some (.num 0), true, true, false⟩, ⟨"is_fwd", some (.bool false), true, true, false⟩,
   ⟨"vov", some (.num 0.01), true, false, false⟩, ⟨"rho", some (.num 0), true, false, false⟩,
   ⟨"mr", some (.num 0.01), true, false, false⟩, ⟨"theta", some .none, true, false, false⟩,
   ⟨"alpha", some (.num 0.62), true, false, false⟩] := by
  simp [svFields_eq, inheritFields, numField]

theorem roughHeston_regular : Regular roughHestonParams :=
  regular_sv _ _ _ hestonChk hestonPost_as_chk
    (fun a b h => hestonChk_congr (h _ (by simp [paramNames, roughFields_eq])) (h _ (by simp [paramNames, roughFields_eq]))
      (h _ (by simp [paramNames, roughFields_eq])) (h _ (by simp [paramNames, roughFields_eq]))
      (h _ (by simp [paramNames, roughFields_eq])))
    (by simp [roughFields_eq]) (by simp [roughFields_eq]) (by simp [roughFields_eq]) (by simp [paramNames, roughFields_eq])
    (by simp [paramNames, roughFields_eq])

/-- The parameter checks of `HestonCevParams`. -/
noncomputable def hestonCevChk (a : Attrs) : Except PyErr Unit :=
  match hestonChk a with
  | .error e => .error e
  | .ok _ => match a.num "beta" with
    | .error e => .error e
    | .ok b => if ¬ (0 < b) then .error .valueError else .ok ()

theorem hestonCev_regular : Regular hestonCevParams := by
  refine regular_sv _ _ _ hestonCevChk ?_ ?_ (by simp [hestonCevFields_eq]) (by simp [hestonCevFields_eq])
    (by simp [hestonCevFields_eq]) (by simp [paramNames, hestonCevFields_eq]) (by simp [paramNames, hestonCevFields_eq])
  · intro a
    unfold hestonCevPost hestonCevChk
    rw [hestonPost_as_chk]
    simp only [bind, Except.bind, pure, Except.pure, throw, throwThe, MonadExceptOf.throw]
    cases hestonChk (svRes a) with
    | error e => rfl
    | ok u =>
      cases hx : (svRes a).num "beta" with
      | error e => simp [hx]
      | ok b => by_cases hb : 0 < b <;> simp [hx, hb, not_lt.1, not_le.2]
  · intro a b h
    unfold hestonCevChk
    rw [hestonChk_congr (h _ (by simp [paramNames, hestonCevFields_eq])) (h _ (by simp [paramNames, hestonCevFields_eq]))
      (h _ (by simp [paramNames, hestonCevFields_eq])) (h _ (by simp [paramNames, hestonCevFields_eq]))
      (h _ (by simp [paramNames, hestonCevFields_eq])),
      num_congr (n := "beta") (h _ (by simp [paramNames, hestonCevFields_eq]))]

/-- A class whose `__post_init__` checks the parameters and stores one derived constant. -/
lemma regular_sub (mt : String) (post : Attrs → Except PyErr Attrs) (f : Except PyErr ℝ → Except PyErr ℝ →
    Except PyErr ℝ → Except PyErr ℝ)
    (hpost : ∀ a, post a = match f (a.num "sigma") (a.num "nu") (a.num "theta") with
      | .error e => .error e
      | .ok c => .ok (a.set "_mgf1_correction" (.num c))) :
    Regular ⟨mt, subFields, post⟩ := by
  have hok : ∀ a a', post a = .ok a' → ∃ c, f (a.num "sigma") (a.num "nu") (a.num "theta") = .ok c ∧
      a' = a.set "_mgf1_correction" (.num c) := by
    intro a a' h
    rw [hpost] at h
    cases hc : f (a.num "sigma") (a.num "nu") (a.num "theta") with
    | error e => simp [hc] at h
    | ok c => rw [hc] at h; exact ⟨c, rfl, (Except.ok.inj h).symm⟩
  have hcg : ∀ a b : Attrs, (∀ n ∈ paramNames ⟨mt, subFields, post⟩, a n = b n) →
      f (a.num "sigma") (a.num "nu") (a.num "theta") = f (b.num "sigma") (b.num "nu") (b.num "theta") := by
    intro a b h
    rw [num_congr (n := "sigma") (h _ (by simp [paramNames, subFields_eq])),
      num_congr (n := "nu") (h _ (by simp [paramNames, subFields_eq])),
      num_congr (n := "theta") (h _ (by simp [paramNames, subFields_eq]))]
  refine ⟨by simp [subFields_eq], by simp [subFields_eq], ?_, ?_, ?_, ?_, ?_⟩
  · intro a b a' h ha
    obtain ⟨c, hc, rfl⟩ := hok a a' ha
    refine ⟨b.set "_mgf1_correction" (.num c), ?_, ?_⟩
    · show post b = _
      rw [hpost, ← hcg a b h, hc]
    · rintro n ⟨g, hg, hgi, rfl⟩
      unfold Attrs.set
      split
      · rfl
      · rename_i hne
        refine h _ ⟨g, hg, hgi.elim id ?_, rfl⟩
        revert hne g; simp [subFields_eq]
  · intro a b e h ha
    have ha : post a = .error e := ha
    show post b = _
    rw [hpost] at ha ⊢
    rw [← hcg a b h]
    cases hc : f (a.num "sigma") (a.num "nu") (a.num "theta") with
    | error e' => rw [hc] at ha; exact ha
    | ok c => simp [hc] at ha
  · intro a a' ha n hn
    obtain ⟨c, hc, rfl⟩ := hok a a' ha
    unfold Attrs.set
    rw [if_neg]
    rintro rfl
    exact hn ⟨"_mgf1_correction", none, false, false, false⟩ (by simp [subFields_eq]) rfl
  · intro a a' ha n hs
    obtain ⟨c, hc, rfl⟩ := hok a a' ha
    unfold Attrs.set
    split
    · simp
    · exact hs
  · intro a a' ha
    obtain ⟨c, hc, rfl⟩ := hok a a' ha
    refine ⟨a.set "_mgf1_correction" (.num c), ?_, fun _ _ => rfl⟩
    show post _ = _
    rw [hpost]
    have h1 : (a.set "_mgf1_correction" (.num c)).num "sigma" = a.num "sigma" := num_congr (by simp [Attrs.set])
    have h2 : (a.set "_mgf1_correction" (.num c)).num "nu" = a.num "nu" := num_congr (by simp [Attrs.set])
    have h3 : (a.set "_mgf1_correction" (.num c)).num "theta" = a.num "theta" := num_congr (by simp [Attrs.set])
    rw [h1, h2, h3, hc]
    simp only [Except.ok.injEq]
    funext k
    unfold Attrs.set
    split <;> simp_all

theorem vg_regular : Regular vgParams := by
  refine regular_sub _ _ (fun s n t => do
    let arg := 1 - (← t) * (← n) - 0.5 * (← s) ^ 2 * (← n)
    if arg ≤ 0 then throw .valueError
    return -log arg) ?_
  intro a
  unfold vgPost
  simp only [bind, Except.bind, pure, Except.pure, throw, throwThe, MonadExceptOf.throw]
  cases a.num "theta" with
  | error e => rfl
  | ok t =>
  cases a.num "nu" with
  | error e => rfl
  | ok n =>
  cases a.num "sigma" with
  | error e => rfl
  | ok s => by_cases h : 1 - t * n - 0.5 * s ^ 2 * n ≤ 0 <;> simp [h]

theorem nig_regular : Regular nigParams := by
  refine regular_sub _ _ (fun s n t => do
    let arg := 1 - 2 * (← t) * (← n) - (← s) ^ 2 * (← n)
    if arg ≤ 0 then throw .valueError
    return 1 - √arg) ?_
  intro a
  unfold nigPost
  simp only [bind, Except.bind, pure, Except.pure, throw, throwThe, MonadExceptOf.throw]
  cases a.num "theta" with
  | error e => rfl
  | ok t =>
  cases a.num "nu" with
  | error e => rfl
  | ok n =>
  cases a.num "sigma" with
  | error e => rfl
  | ok s => by_cases h : 1 - 2 * t * n - s ^ 2 * n ≤ 0 <;> simp [h]

/-- The numerical fields of the conditional Monte Carlo classes, `pyfeng/sv_abc.py` lines 15-18. -/
noncomputable def mcExtra : List (String × Val) :=
  [("n_path", .num 10000), ("dt", .num 0.05), ("rn_seed", .none), ("antithetic", .bool true)]

/-- Concrete instance: a `HestonFft` (no numerical fields) copied to a conditional Monte Carlo class. -/
example : ∃ o o', construct (withNumerical hestonParams []) (svKw 0.04 1 (-0.9) 0.5 none) = .ok o ∧
    fromModel (withNumerical hestonParams mcExtra) o = .ok o' ∧ o'.attrs "theta" = some (.num 0.04) ∧
    o'.attrs "n_path" = some (.num 10000) := by
  have hw : withNumerical hestonParams [] = hestonParams := by simp [withNumerical]
  obtain ⟨o, ho, -, -, -, -, ht, -⟩ := (heston_validation 0.04 1 (-0.9) 0.5 none).1 (by norm_num)
  rw [← hw] at ho
  have hx : ExtraOk hestonParams mcExtra := by
    constructor
    · simp [mcExtra, hestonParams, svFields_eq]
    · simp [mcExtra]
  obtain ⟨o', h1, -, h3, h4⟩ := from_model_of_constructed heston_regular hx _ o ho
  refine ⟨o, o', ho, h1, ?_, h4 ("n_path", .num 10000) (by simp [mcExtra])⟩
  rw [h3 _ (by simp [determinedNames, hestonParams, svFields_eq]), ht]
  rfl

end Params
end PyFENG
