import Verif.Model.HestonVolPath
import Verif.Lemmas.ExMv
import Verif.Props.HestonMc

/-!
# C147: law of the simulated variance paths
-/

namespace PyFENG

open Real Set MeasureTheory

namespace Spec

/-- `u_1 V_1 + u_2 V_2 + ...`. -/
def pathSum : List ℝ → List ℝ → ℝ
  | u :: us, v :: vs => u * v + pathSum us vs
  | _, _ => 0

/-- Laplace exponent of the CIR process `dV = k (theta - V) dt + sigma sqrt(V) dW` seen from the date `p` at the dates `t` with weights `u`:
`E exp(u_1 V(t_1) + ... + u_n V(t_n) | V(p) = v) = exp(A + B v)`. -/
noncomputable def cirExponent (k theta sigma : ℝ) : ℝ → List (ℝ × ℝ) → ℝ × ℝ
  | _, [] => (0, 0)
  | p, (t, u) :: l =>
    let r := cirExponent k theta sigma t l
    let w := u + r.2
    let q := 1 - sigma ^ 2 * (1 - exp (-(k * (t - p)))) / (2 * k) * w
    (r.1 - 2 * k * theta / sigma ^ 2 * log q, exp (-(k * (t - p))) * w / q)

/-- The dates increase, starting after `p`. -/
def Dates : ℝ → List ℝ → Prop
  | _, [] => True
  | p, t :: ts => p < t ∧ Dates t ts

end Spec

open Spec

namespace Heston

/-- The exact step. -/
noncomputable def stepPG (c : Cir) (dt v : ℝ) : Ex ℝ := do
  let x ← Cir.drawPoisGamma rngEx.gamma rngEx.poisson c dt v
  pure x.1

lemma stepPG_eq (c : Cir) (hk : 0 < c.mr) (hth : 0 < c.theta) (hs : c.sigma ≠ 0) (dt v : ℝ) (φ : ℝ → ℝ) :
    stepPG c dt v φ = Cir.drawPoisGamma Ex.gamma Ex.poisson c dt v (fun p => φ p.1) := by
  have hd : 0 < 4 * c.mr * c.theta / c.sigma ^ 2 := by positivity
  show Ex.poisson _ (fun n => Ex.gamma0 (4 * c.mr * c.theta / c.sigma ^ 2 / 2 + n) (fun g => φ ((c.phiExp dt).2 / (c.phiExp dt).1 * 2 * g))) =
    Ex.poisson _ (fun n => Ex.gamma (4 * c.mr * c.theta / c.sigma ^ 2 / 2 + n) (fun g => φ ((c.phiExp dt).2 / (c.phiExp dt).1 * 2 * g)))
  congr 1
  ext n
  unfold Ex.gamma0
  rw [if_neg (by positivity)]

lemma stepPG_smul (c : Cir) (hk : 0 < c.mr) (hth : 0 < c.theta) (hs : c.sigma ≠ 0) (dt v k : ℝ) (φ : ℝ → ℝ) :
    stepPG c dt v (fun x => k * φ x) = k * stepPG c dt v φ := by
  rw [stepPG_eq c hk hth hs, stepPG_eq c hk hth hs]
  show Ex.poisson _ (fun n => Ex.gamma _ (fun g => k * φ _)) = k * Ex.poisson _ (fun n => Ex.gamma _ (fun g => φ _))
  simp only [Ex.gamma_smul]
  rw [← Ex.poisson_smul]

lemma volLoop_smul (c : Cir) (hk : 0 < c.mr) (hth : 0 < c.theta) (hs : c.sigma ≠ 0) (ts : List ℝ) (k : ℝ) :
    ∀ (p v : ℝ) (φ : List ℝ → ℝ), volLoop (stepPG c) p v ts (fun x => k * φ x) = k * volLoop (stepPG c) p v ts φ := by
  induction ts with
  | nil => intro p v φ; rfl
  | cons t ts ih =>
    intro p v φ
    show stepPG c (t - p) v (fun v' => volLoop (stepPG c) t v' ts (fun r => k * φ (v' :: r))) =
      k * stepPG c (t - p) v (fun v' => volLoop (stepPG c) t v' ts (fun r => φ (v' :: r)))
    simp only [ih]
    rw [stepPG_smul c hk hth hs]

lemma q_pos (c : Cir) (hk : 0 < c.mr) {r w : ℝ} (hr : 0 < r) (hw : w ≤ 0) :
    0 < 1 - c.sigma ^ 2 * (1 - exp (-(c.mr * r))) / (2 * c.mr) * w := by
  have hE : exp (-(c.mr * r)) < 1 := by
    rw [exp_lt_one_iff]
    linarith [mul_pos hk hr]
  have : 0 ≤ c.sigma ^ 2 * (1 - exp (-(c.mr * r))) / (2 * c.mr) := by
    have : 0 < 1 - exp (-(c.mr * r)) := by linarith
    positivity
  have := mul_nonpos_of_nonneg_of_nonpos this hw
  linarith

lemma stepPG_exp (c : Cir) (hk : 0 < c.mr) (hth : 0 < c.theta) (hs : c.sigma ≠ 0) {r v w : ℝ} (hr : 0 < r) (hw : w ≤ 0) :
    stepPG c r v (fun x => exp (w * x)) = exp (-(2 * c.mr * c.theta / c.sigma ^ 2) * log (1 - c.sigma ^ 2 * (1 - exp (-(c.mr * r))) / (2 * c.mr) * w)
      + v * exp (-(c.mr * r)) * w / (1 - c.sigma ^ 2 * (1 - exp (-(c.mr * r))) / (2 * c.mr) * w)) := by
  have e : 2 * (c.sigma ^ 2 * (1 - exp (-(c.mr * r))) / (4 * c.mr)) = c.sigma ^ 2 * (1 - exp (-(c.mr * r))) / (2 * c.mr) := by
    field_simp; ring
  rw [stepPG_eq c hk hth hs, ← c.mgfVt_eq hk.ne' hs hr.ne']
  exact c.draw_pois_gamma_mgf hk hth hs hr (by rw [e]; linarith [q_pos c hk hr hw])

lemma cirExponent_nonpos (c : Cir) (hk : 0 < c.mr) : ∀ (l : List (ℝ × ℝ)) (p : ℝ), Dates p (l.map Prod.fst) → (∀ x ∈ l, x.2 ≤ 0) →
    (cirExponent c.mr c.theta c.sigma p l).2 ≤ 0 := by
  intro l
  induction l with
  | nil => intro p _ _; exact le_rfl
  | cons a l ih =>
    intro p hd hu
    obtain ⟨t, u⟩ := a
    have h1 : p < t := hd.1
    have hB := ih t hd.2 (fun x hx => hu x (List.mem_cons_of_mem _ hx))
    have hw : u + (cirExponent c.mr c.theta c.sigma t l).2 ≤ 0 := by
      have := hu (t, u) List.mem_cons_self
      simp only at this
      linarith
    exact div_nonpos_of_nonpos_of_nonneg (mul_nonpos_of_nonneg_of_nonpos (exp_pos _).le hw) (q_pos c hk (sub_pos.2 h1) hw).le

lemma volLoop_laplace (c : Cir) (hk : 0 < c.mr) (hth : 0 < c.theta) (hs : c.sigma ≠ 0) : ∀ (l : List (ℝ × ℝ)) (p v : ℝ),
    Dates p (l.map Prod.fst) → (∀ x ∈ l, x.2 ≤ 0) →
    volLoop (stepPG c) p v (l.map Prod.fst) (fun r => exp (pathSum (l.map Prod.snd) r)) =
      exp ((cirExponent c.mr c.theta c.sigma p l).1 + (cirExponent c.mr c.theta c.sigma p l).2 * v) := by
  intro l
  induction l with
  | nil =>
    intro p v _ _
    show exp 0 = exp (0 + 0 * v)
    simp
  | cons a l ih =>
    intro p v hd hu
    obtain ⟨t, u⟩ := a
    have h1 : p < t := hd.1
    have hu' : ∀ x ∈ l, x.2 ≤ 0 := fun x hx => hu x (List.mem_cons_of_mem _ hx)
    have hB := cirExponent_nonpos c hk l t hd.2 hu'
    have hw : u + (cirExponent c.mr c.theta c.sigma t l).2 ≤ 0 := by
      have := hu (t, u) List.mem_cons_self
      simp only at this
      linarith
    show stepPG c (t - p) v (fun v' => volLoop (stepPG c) t v' (l.map Prod.fst) (fun r => exp (u * v' + pathSum (l.map Prod.snd) r))) = _
    simp only [exp_add (_ * _), volLoop_smul c hk hth hs]
    simp only [ih t _ hd.2 hu']
    have e : (fun v' => exp (u * v') * exp ((cirExponent c.mr c.theta c.sigma t l).1 + (cirExponent c.mr c.theta c.sigma t l).2 * v')) =
        fun v' => exp (cirExponent c.mr c.theta c.sigma t l).1 * exp ((u + (cirExponent c.mr c.theta c.sigma t l).2) * v') := by
      ext v'
      rw [← exp_add, ← exp_add]
      congr 1
      ring
    rw [e, stepPG_smul c hk hth hs, stepPG_exp c hk hth hs (sub_pos.2 h1) hw, ← exp_add]
    congr 1
    simp only [cirExponent]
    generalize 1 - c.sigma ^ 2 * (1 - exp (-(c.mr * (t - p)))) / (2 * c.mr) * (u + (cirExponent c.mr c.theta c.sigma t l).2) = q
    ring

/-- Skipping a date of weight zero leaves the exponent unchanged. -/
lemma cirExponent_skip (c : Cir) (hk : 0 < c.mr) (hs : c.sigma ≠ 0) {p t : ℝ} (hpt : p < t) (l : List (ℝ × ℝ)) (hd : Dates t (l.map Prod.fst)) (hu : ∀ x ∈ l, x.2 ≤ 0) :
    cirExponent c.mr c.theta c.sigma p ((t, 0) :: l) = cirExponent c.mr c.theta c.sigma p l := by
  cases l with
  | nil => simp [cirExponent]
  | cons a l =>
    obtain ⟨t', u⟩ := a
    have h2 : t < t' := hd.1
    have hu' : ∀ x ∈ l, x.2 ≤ 0 := fun x hx => hu x (List.mem_cons_of_mem _ hx)
    have hB := cirExponent_nonpos c hk l t' hd.2 hu'
    have hw : u + (cirExponent c.mr c.theta c.sigma t' l).2 ≤ 0 := by
      have := hu (t', u) List.mem_cons_self
      simp only at this
      linarith
    simp only [cirExponent, zero_add]
    set W := u + (cirExponent c.mr c.theta c.sigma t' l).2
    have hq := q_pos c hk (sub_pos.2 h2) hw
    set q := 1 - c.sigma ^ 2 * (1 - exp (-(c.mr * (t' - t)))) / (2 * c.mr) * W with hqd
    have hw2 : exp (-(c.mr * (t' - t))) * W / q ≤ 0 := div_nonpos_of_nonpos_of_nonneg (mul_nonpos_of_nonneg_of_nonpos (exp_pos _).le hw) hq.le
    have hR := q_pos c hk (sub_pos.2 hpt) hw2
    have hprod : (1 - c.sigma ^ 2 * (1 - exp (-(c.mr * (t - p)))) / (2 * c.mr) * (exp (-(c.mr * (t' - t))) * W / q)) * q
        = 1 - c.sigma ^ 2 * (1 - exp (-(c.mr * (t' - p)))) / (2 * c.mr) * W := by
      have hE : exp (-(c.mr * (t' - p))) = exp (-(c.mr * (t - p))) * exp (-(c.mr * (t' - t))) := by rw [← exp_add]; congr 1; ring
      rw [sub_mul, one_mul, mul_assoc, div_mul_cancel₀ _ hq.ne', hE, hqd]
      field_simp
      ring
    have hE : exp (-(c.mr * (t' - p))) = exp (-(c.mr * (t - p))) * exp (-(c.mr * (t' - t))) := by rw [← exp_add]; congr 1; ring
    rw [← hprod, log_mul hR.ne' hq.ne', hE]
    generalize 1 - c.sigma ^ 2 * (1 - exp (-(c.mr * (t - p)))) / (2 * c.mr) * (exp (-(c.mr * (t' - t))) * W / q) = R at *
    ext
    · simp only; ring
    · simp only
      rw [div_mul_eq_div_div_swap]
      congr 1
      ring

lemma dates_mono {p q : ℝ} (h : p ≤ q) : ∀ ts : List ℝ, Dates q ts → Dates p ts
  | [], _ => trivial
  | _ :: _, hd => ⟨lt_of_le_of_lt h hd.1, hd.2⟩

lemma dates_pos {t : ℝ} {ts₂ : List ℝ} : ∀ (ts₁ : List ℝ) (p : ℝ), Dates p (ts₁ ++ t :: ts₂) → p < t
  | [], _, h => h.1
  | _ :: ts₁, _, h => lt_trans h.1 (dates_pos ts₁ _ h.2)

lemma dates_filter : ∀ (l : List (ℝ × ℝ)) (p : ℝ), Dates p (l.map Prod.fst) → Dates p ((l.filter (fun x => decide (x.2 ≠ 0))).map Prod.fst)
  | [], _, _ => trivial
  | (t, u) :: l, p, hd => by
    have ih := dates_filter l t hd.2
    by_cases h : u = 0
    · rw [List.filter_cons_of_neg (by simpa using h)]
      exact dates_mono hd.1.le _ ih
    · rw [List.filter_cons_of_pos (by simpa using h)]
      exact ⟨hd.1, ih⟩

lemma cirExponent_filter (c : Cir) (hk : 0 < c.mr) (hs : c.sigma ≠ 0) : ∀ (l : List (ℝ × ℝ)) (p : ℝ), Dates p (l.map Prod.fst) → (∀ x ∈ l, x.2 ≤ 0) →
    cirExponent c.mr c.theta c.sigma p (l.filter (fun x => decide (x.2 ≠ 0))) = cirExponent c.mr c.theta c.sigma p l
  | [], _, _, _ => rfl
  | (t, u) :: l, p, hd, hu => by
    have hu' : ∀ x ∈ l, x.2 ≤ 0 := fun x hx => hu x (List.mem_cons_of_mem _ hx)
    have ih := cirExponent_filter c hk hs l t hd.2 hu'
    by_cases h : u = 0
    · subst h
      rw [List.filter_cons_of_neg (by simp), cirExponent_skip c hk hs hd.1 l hd.2 hu',
        ← cirExponent_filter c hk hs l p (dates_mono hd.1.le _ hd.2) hu']
    · rw [List.filter_cons_of_pos (by simpa using h)]
      simp only [cirExponent, ih]

/-! ### The properties -/

/-- **C147.** The variance path of `HestonMcChoiKwok2023PoisTd.vol_paths` starts at `sigma` and its values at the observation dates have the joint law of the
CIR process: the joint Laplace transform is the exponential-affine one, for every increasing list of dates and all weights `u <= 0`. -/
theorem vol_paths_laplace {m : Heston} (h : Regular m) (l : List (ℝ × ℝ)) (hd : Dates 0 (l.map Prod.fst)) (hu : ∀ x ∈ l, x.2 ≤ 0) (u0 : ℝ) :
    m.volPathsPoisTd rngEx false (l.map Prod.fst) (fun path => exp (pathSum (u0 :: l.map Prod.snd) path)) =
      exp (u0 * m.sigma + (cirExponent m.mr m.theta m.vov 0 l).1 + (cirExponent m.mr m.theta m.vov 0 l).2 * m.sigma) := by
  have e : (storeVar false) = id := by ext x; simp [storeVar]
  show volLoop (stepPG m.cir) 0 m.sigma (l.map Prod.fst) (fun r => exp (pathSum (u0 :: l.map Prod.snd) ((m.sigma :: r).map (storeVar false)))) = _
  simp only [e, List.map_id]
  show volLoop (stepPG m.cir) 0 m.sigma (l.map Prod.fst) (fun r => exp (u0 * m.sigma + pathSum (l.map Prod.snd) r)) = _
  simp only [exp_add (u0 * m.sigma)]
  rw [volLoop_smul m.cir h.mr h.theta h.vov.ne', volLoop_laplace m.cir h.mr h.theta h.vov.ne' l 0 m.sigma hd hu, ← exp_add]
  congr 1
  show u0 * m.sigma + ((cirExponent m.mr m.theta m.vov 0 l).1 + (cirExponent m.mr m.theta m.vov 0 l).2 * m.sigma) = _
  ring

/-- **C147** (consistency): the law of the path at some of the dates does not depend on the other dates: leaving out the dates of weight zero changes no
joint Laplace transform. -/
theorem vol_paths_consistent {m : Heston} (h : Regular m) (l : List (ℝ × ℝ)) (hd : Dates 0 (l.map Prod.fst)) (hu : ∀ x ∈ l, x.2 ≤ 0) :
    m.volPathsPoisTd rngEx false (l.map Prod.fst) (fun path => exp (pathSum (0 :: l.map Prod.snd) path)) =
      m.volPathsPoisTd rngEx false ((l.filter (fun x => decide (x.2 ≠ 0))).map Prod.fst)
        (fun path => exp (pathSum (0 :: (l.filter (fun x => decide (x.2 ≠ 0))).map Prod.snd) path)) := by
  rw [vol_paths_laplace h l hd hu, vol_paths_laplace h _ (dates_filter l 0 hd) (fun x hx => hu x (List.mem_of_mem_filter hx))]
  have := cirExponent_filter m.cir h.mr h.vov.ne' l 0 hd hu
  change cirExponent m.mr m.theta m.vov 0 _ = cirExponent m.mr m.theta m.vov 0 l at this
  rw [this]

lemma pathSum_zeros : ∀ (k : ℕ) (vs : List ℝ), pathSum (List.replicate k 0) vs = 0
  | 0, vs => by simp [pathSum]
  | k + 1, [] => by simp [pathSum, List.replicate_succ]
  | k + 1, v :: vs => by simp [pathSum, List.replicate_succ, pathSum_zeros k vs]

lemma pathSum_single (u : ℝ) (k : ℕ) : ∀ (n : ℕ) (vs : List ℝ), pathSum (List.replicate n 0 ++ u :: List.replicate k 0) vs = u * vs.getD n 0
  | 0, [] => by simp [pathSum]
  | 0, v :: vs => by simp [pathSum, pathSum_zeros]
  | n + 1, [] => by simp [pathSum, List.replicate_succ]
  | n + 1, v :: vs => by
    rw [List.replicate_succ, List.cons_append]
    simp only [pathSum, zero_mul, zero_add]
    rw [pathSum_single u k n vs]
    simp

/-- **C147** (marginals): at each observation date the value on the path has the law of one exact step from `sigma` over the whole time to that date, whatever
the other dates. -/
theorem vol_paths_marginal {m : Heston} (h : Regular m) (ts₁ ts₂ : List ℝ) (t : ℝ) (hd : Dates 0 (ts₁ ++ t :: ts₂)) {u : ℝ} (hu : u ≤ 0) :
    m.volPathsPoisTd rngEx false (ts₁ ++ t :: ts₂) (fun path => exp (u * path.getD (ts₁.length + 1) 0)) =
      Cir.drawPoisGamma Ex.gamma Ex.poisson m.cir t m.sigma (fun p => exp (u * p.1)) := by
  set l : List (ℝ × ℝ) := ts₁.map (fun s => (s, 0)) ++ (t, u) :: ts₂.map (fun s => (s, 0)) with hl
  have e1 : l.map Prod.fst = ts₁ ++ t :: ts₂ := by simp [hl, Function.comp_def]
  have e2 : (0:ℝ) :: l.map Prod.snd = List.replicate (ts₁.length + 1) 0 ++ u :: List.replicate ts₂.length 0 := by
    simp [hl, Function.comp_def, List.replicate_succ]
  have hu' : ∀ x ∈ l, x.2 ≤ 0 := by
    intro x hx
    simp only [hl, List.mem_append, List.mem_map, List.mem_cons] at hx
    rcases hx with ⟨s, -, rfl⟩ | rfl | ⟨s, -, rfl⟩
    · exact le_rfl
    · exact hu
    · exact le_rfl
  have key := vol_paths_laplace h l (by rw [e1]; exact hd) hu' 0
  rw [e1, e2] at key
  simp only [pathSum_single] at key
  have ht : 0 < t := dates_pos ts₁ 0 hd
  rw [key]
  refine Eq.trans ?_ (stepPG_eq m.cir h.mr h.theta h.vov.ne' t m.sigma (fun x => exp (u * x)))
  rw [stepPG_exp m.cir h.mr h.theta h.vov.ne' ht hu]
  have hf : l.filter (fun x => decide (x.2 ≠ 0)) = [(t, u)].filter (fun x => decide (x.2 ≠ 0)) := by
    rw [hl, List.filter_append, List.filter_cons]
    have z : ∀ ts : List ℝ, (ts.map (fun s => (s, (0:ℝ)))).filter (fun x => decide (x.2 ≠ 0)) = [] := by
      intro ts
      rw [List.filter_eq_nil_iff]
      intro x hx
      obtain ⟨s, -, rfl⟩ := List.mem_map.1 hx
      simp
    rw [z, z, List.nil_append, List.filter_cons]
    simp
  have a1 := cirExponent_filter m.cir h.mr h.vov.ne' l 0 (by rw [e1]; exact hd) hu'
  have a2 := cirExponent_filter m.cir h.mr h.vov.ne' [(t, u)] 0 ⟨ht, trivial⟩ (by simpa using hu)
  have a3 : cirExponent m.mr m.theta m.vov 0 l = cirExponent m.mr m.theta m.vov 0 [(t, u)] := by
    change cirExponent m.cir.mr m.cir.theta m.cir.sigma 0 l = cirExponent m.cir.mr m.cir.theta m.cir.sigma 0 [(t, u)]
    rw [← a1, ← a2, hf]
  rw [a3]
  congr 1
  simp only [cirExponent, add_zero, sub_zero]
  show _ = -(2 * m.mr * m.theta / m.vov ^ 2) * log (1 - m.vov ^ 2 * (1 - exp (-(m.mr * t))) / (2 * m.mr) * u) +
    m.sigma * exp (-(m.mr * t)) * u / (1 - m.vov ^ 2 * (1 - exp (-(m.mr * t))) / (2 * m.mr) * u)
  ring

/-- **C147**: `HestonMcAndersen2008.vol_paths` with the exact schemes 2 and 3 has the same law as `HestonMcChoiKwok2023PoisTd.vol_paths`; the other schemes
do not fail up to 4, and above 4 the call fails. -/
theorem vol_paths_andersen {m : Heston} (h : Regular m) (isInt : Bool) (tobs : List ℝ) :
    m.volPathsAndersen rngEx 3 isInt tobs = .ok (m.volPathsPoisTd rngEx isInt tobs) ∧
    (∃ D, m.volPathsAndersen rngEx 2 isInt tobs = .ok D ∧ ∀ φ, D φ = m.volPathsPoisTd rngEx isInt tobs φ) ∧
    (∀ s : ℤ, (∃ D, m.volPathsAndersen rngEx s isInt tobs = .ok D) ↔ s ≤ 4) ∧
    (∀ s : ℤ, 4 < s → m.volPathsAndersen rngEx s isInt tobs = .error .valueError) := by
  have hstep : (fun dt v => Cir.drawNcx2 rngEx.ncx2 m.cir dt v) = fun dt v => stepPG m.cir dt v := by
    funext dt v φ
    rw [stepPG_eq m.cir h.mr h.theta h.vov.ne']
    exact Cir.draw_ncx2_eq_pois_gamma m.cir dt v φ
  refine ⟨rfl, ⟨_, rfl, fun φ => ?_⟩, fun s => ?_, fun s hs => ?_⟩
  · simp only [hstep]
    rfl
  · unfold volPathsAndersen
    simp only
    constructor
    · rintro ⟨D, hD⟩
      by_contra hc
      rw [if_neg (by omega), if_neg (by omega), if_neg (by omega), if_neg (by omega)] at hD
      cases hD
    · intro hs
      split_ifs with h1 h2 h3 h4
      · exact ⟨_, rfl⟩
      · exact ⟨_, rfl⟩
      · exact ⟨_, rfl⟩
      · exact ⟨_, rfl⟩
      · omega
  · unfold volPathsAndersen
    simp only
    rw [if_neg (by omega), if_neg (by omega), if_neg (by omega), if_neg (by omega)]

/-- **C147 fails** when `sigma` is a Python `int`: the whole path is stored as integers, while a value of the CIR process at a later date is an integer
with probability zero. -/
theorem vol_paths_int_wrong {m : Heston} (h : Regular m) (ts : List ℝ) (hd : Dates 0 ts) {t : ℝ} (ht : 0 < t) :
    m.volPathsPoisTd rngEx true ts (fun path => open Classical in if ∀ x ∈ path, ∃ n : ℤ, x = n then 1 else 0) = 1 ∧
    Cir.drawPoisGamma Ex.gamma Ex.poisson m.cir t m.sigma (fun p => open Classical in if ∃ n : ℤ, p.1 = n then 1 else 0) = 0 := by
  classical
  constructor
  · have e : (fun r : List ℝ => if ∀ x ∈ (m.sigma :: r).map (storeVar true), ∃ n : ℤ, x = n then (1:ℝ) else 0) = fun _ => 1 := by
      funext r
      rw [if_pos]
      intro x hx
      obtain ⟨y, -, rfl⟩ := List.mem_map.1 hx
      unfold storeVar
      simp only [if_true]
      split_ifs
      · exact ⟨_, rfl⟩
      · exact ⟨_, rfl⟩
    show volLoop (stepPG m.cir) 0 m.sigma ts (fun r => if ∀ x ∈ (m.sigma :: r).map (storeVar true), ∃ n : ℤ, x = n then (1:ℝ) else 0) = 1
    rw [e]
    have key := volLoop_laplace m.cir h.mr h.theta h.vov.ne' (ts.map (fun s => (s, 0))) 0 m.sigma (by simpa [Function.comp_def] using hd) (by simp)
    have hf := cirExponent_filter m.cir h.mr h.vov.ne' (ts.map (fun s => (s, 0))) 0 (by simpa [Function.comp_def] using hd) (by simp)
    have z : (ts.map (fun s => (s, (0:ℝ)))).filter (fun x => decide (x.2 ≠ 0)) = [] := by
      rw [List.filter_eq_nil_iff]
      intro x hx
      obtain ⟨s, -, rfl⟩ := List.mem_map.1 hx
      simp
    rw [z] at hf
    rw [← hf] at key
    have e1 : (ts.map (fun s => (s, (0:ℝ)))).map Prod.snd = List.replicate ts.length 0 := by simp [Function.comp_def]
    have e2 : (ts.map (fun s => (s, (0:ℝ)))).map Prod.fst = ts := by simp [Function.comp_def]
    rw [e1, e2] at key
    simp only [pathSum_zeros, cirExponent, zero_mul, add_zero, exp_zero] at key
    exact key
  · obtain ⟨e1, -⟩ := m.cir.scale_eq (dt := t) (ne_of_gt h.mr) (ne_of_gt h.vov) ht.ne'
    have hE : exp (-(m.mr * t)) < 1 := by
      rw [exp_lt_one_iff]
      linarith [mul_pos h.mr ht]
    have ha : 0 < m.vov ^ 2 * (1 - exp (-(m.mr * t))) / (4 * m.mr) := by
      have : 0 < 1 - exp (-(m.mr * t)) := by linarith
      have := h.mr
      have := h.vov
      positivity
    show Ex.poisson _ (fun n => Ex.gamma (4 * m.cir.mr * m.cir.theta / m.cir.sigma ^ 2 / 2 + n)
      (fun g => if ∃ k : ℤ, (m.cir.phiExp t).2 / (m.cir.phiExp t).1 * 2 * g = k then (1:ℝ) else 0)) = 0
    rw [e1]
    change Ex.poisson _ (fun n => Ex.gamma (4 * m.cir.mr * m.cir.theta / m.cir.sigma ^ 2 / 2 + n)
      (fun g => if ∃ k : ℤ, m.vov ^ 2 * (1 - exp (-(m.mr * t))) / (4 * m.mr) * 2 * g = k then (1:ℝ) else 0)) = 0
    set c := m.vov ^ 2 * (1 - exp (-(m.mr * t))) / (4 * m.mr) * 2 with hc
    have hc0 : c ≠ 0 := by positivity
    have hz : ∀ a : ℝ, Ex.gamma a (fun g => if ∃ k : ℤ, c * g = k then (1:ℝ) else 0) = 0 := by
      intro a
      unfold Ex.gamma
      have hcount : (Set.range (fun k : ℤ => (k:ℝ) / c)).Countable := countable_range _
      refine integral_eq_zero_of_ae ?_
      have hae : ∀ᵐ g ∂(volume.restrict (Ioi (0:ℝ))), g ∉ Set.range (fun k : ℤ => (k:ℝ) / c) :=
        ae_restrict_of_ae (hcount.ae_notMem volume)
      filter_upwards [hae] with g hg
      rw [if_neg]
      · simp
      · rintro ⟨k, hk⟩
        exact hg ⟨k, by simp only; rw [← hk]; field_simp⟩
    simp only [hz]
    unfold Ex.poisson poisMix
    simp

/-- The hypotheses are met: quarterly dates with decreasing weights. -/
example : Regular ⟨0.04, 1, -0.9, 0.5, 0.04, 0, 0, false⟩ ∧ Dates 0 ([((0.25:ℝ), (-1:ℝ)), (0.5, 0), (0.75, -3), (1, -2)].map Prod.fst) ∧
    (∀ x ∈ [((0.25:ℝ), (-1:ℝ)), (0.5, 0), (0.75, -3), (1, -2)], x.2 ≤ 0) :=
  ⟨⟨by norm_num, by norm_num, by norm_num⟩, by simp [Dates]; norm_num, by simp⟩

end Heston

end PyFENG
