import Verif.Model.Asian
import Verif.Lemmas.BmExp
import Verif.Lemmas.Brownian
import Verif.Lemmas.RawMom
import Verif.Lemmas.Cev
import Verif.Lemmas.Black
import Verif.Props.Dist
import Verif.Props.BasketNsvh
import Verif.Props.Basket2

/-!
# C63: Asian options
-/

set_option linter.unusedSectionVars false
set_option linter.unusedSimpArgs false

namespace PyFENG

open MeasureTheory ProbabilityTheory Real Set
open scoped NNReal

/-- The price of the underlying in the Black-Scholes model, per unit of initial price. -/
noncomputable def Spec.bsmPath {Ω : Type*} (B : ℝ≥0 → Ω → ℝ) (sigma intr divr : ℝ) (t : ℝ) (ω : Ω) : ℝ :=
  exp ((intr - divr - sigma ^ 2 / 2) * t + sigma * B t.toNNReal ω)

/-- The continuous average of the price over `[0, T]`, per unit of initial price. -/
noncomputable def Spec.average {Ω : Type*} (B : ℝ≥0 → Ω → ℝ) (sigma intr divr T : ℝ) (ω : Ω) : ℝ :=
  (∫ t in (0:ℝ)..T, Spec.bsmPath B sigma intr divr t ω) / T

namespace Asian

variable {Ω : Type*} [MeasurableSpace Ω] {P : Measure Ω} {B : ℝ≥0 → Ω → ℝ}

lemma average_eq (s r q T : ℝ) (ω : Ω) : Spec.average B s r q T ω = Spec.expFunctional B s (r - q - s ^ 2 / 2) T ω / T := by
  unfold Spec.average Spec.expFunctional Spec.bsmPath
  congr 1
  refine intervalIntegral.integral_congr fun u _ => ?_
  congr 1
  ring

lemma mom_avg (hB : Spec.IsBM P B) (s r q : ℝ) {T : ℝ} (hT : 0 < T) (n : ℕ) :
    Integrable (fun ω => Spec.average B s r q T ω ^ n) P ∧
    ∫ ω, Spec.average B s r q T ω ^ n ∂P = BmExp.mom s (r - q - s ^ 2 / 2) n 0 T / T ^ n := by
  have h := BmExp.integral_mom hB s (r - q - s ^ 2 / 2) n 0 ⟨T, hT.le⟩
  have e : ∀ ω, Spec.average B s r q T ω ^ n = (Spec.expFunctional B s (r - q - s ^ 2 / 2) T ω ^ n * exp (0 * B ⟨T, hT.le⟩ ω)) / T ^ n := by
    intro ω
    rw [average_eq, div_pow, zero_mul, exp_zero, mul_one]
  simp_rw [e]
  refine ⟨h.1.div_const _, ?_⟩
  rw [integral_div]
  congr 1
  exact h.2

lemma rate_sub (s r q : ℝ) (i j : ℕ) : BmExp.rate s (r - q - s ^ 2 / 2) 0 j - BmExp.rate s (r - q - s ^ 2 / 2) 0 i
    = ((j:ℝ) - i) * ((r - q) + s ^ 2 * (i + j - 1) / 2) := by
  unfold BmExp.rate; ring

/-! ### `price_mnc` -/

/-- The parameters at which the moment formula of order `n` is degenerate. -/
def Degenerate (m : MParams) (n : ℕ) : Prop := ∃ i j : ℕ, i < j ∧ j ≤ n ∧ 2 * (m.intr - m.divr) = m.sigma ^ 2 * (1 - i - j)

lemma beta_diff (m : MParams) (hs : m.sigma ≠ 0) (i j : ℕ) :
    ((m.intr - m.divr - m.sigma ^ 2 / 2) / m.sigma / m.sigma + j) ^ 2 - ((m.intr - m.divr - m.sigma ^ 2 / 2) / m.sigma / m.sigma + i) ^ 2
      = (BmExp.rate m.sigma (m.intr - m.divr - m.sigma ^ 2 / 2) 0 j - BmExp.rate m.sigma (m.intr - m.divr - m.sigma ^ 2 / 2) 0 i) * (2 / m.sigma ^ 2) := by
  rw [rate_sub]
  field_simp
  ring

lemma foldlM_step (β c : ℝ) (j : ℕ) (l : List ℕ) (h : ∀ i ∈ l, i ≠ j → (β + j) ^ 2 - (β + i) ^ 2 ≠ 0) :
    l.foldlM (fun item0 i => if i ≠ j then
      let x := (β + j) ^ 2 - (β + i) ^ 2
      if x = 0 then Except.error "ZeroDivisionError" else pure (item0 * x⁻¹) else pure item0) c
    = (.ok (c * (l.map fun i => if i ≠ j then ((β + j) ^ 2 - (β + i) ^ 2)⁻¹ else 1).prod) : Except String ℝ) := by
  induction l generalizing c with
  | nil => simp [pure, Except.pure]
  | cons a l ih =>
    have hl := fun i hi => h i (List.mem_cons_of_mem a hi)
    rw [List.foldlM_cons]
    by_cases ha : a = j
    · rw [if_neg (by simpa using ha)]
      simp only [pure, Except.pure, bind, Except.bind]
      have := ih (c := c) hl
      simp only [pure, Except.pure] at this
      rw [this]
      simp [ha]
    · have hx := h a (by simp) ha
      rw [if_pos ha]
      simp only [if_neg hx, pure, Except.pure, bind, Except.bind]
      have := ih (c := c * ((β + j) ^ 2 - (β + a) ^ 2)⁻¹) hl
      simp only [pure, Except.pure] at this
      rw [this]
      simp [ha, mul_assoc]

lemma foldlM_fail (β c : ℝ) (j : ℕ) (l : List ℕ) (h : ∃ i ∈ l, i ≠ j ∧ (β + j) ^ 2 - (β + i) ^ 2 = 0) :
    l.foldlM (fun item0 i => if i ≠ j then
      let x := (β + j) ^ 2 - (β + i) ^ 2
      if x = 0 then Except.error "ZeroDivisionError" else pure (item0 * x⁻¹) else pure item0) c
    = (.error "ZeroDivisionError" : Except String ℝ) := by
  induction l generalizing c with
  | nil => simp at h
  | cons a l ih =>
    rw [List.foldlM_cons]
    by_cases ha : a = j
    · rw [if_neg (by simpa using ha)]
      simp only [pure, Except.pure, bind, Except.bind]
      have := ih (c := c) (by
        obtain ⟨i, hi, h1, h2⟩ := h
        rcases List.mem_cons.1 hi with rfl | hi
        · exact absurd ha h1
        · exact ⟨i, hi, h1, h2⟩)
      simp only [pure, Except.pure] at this
      rw [this]
    · rw [if_pos ha]
      by_cases hx : (β + j) ^ 2 - (β + a) ^ 2 = 0
      · simp only [if_pos hx, bind, Except.bind]
      · simp only [if_neg hx, pure, Except.pure, bind, Except.bind]
        have := ih (c := c * ((β + j) ^ 2 - (β + a) ^ 2)⁻¹) (by
          obtain ⟨i, hi, h1, h2⟩ := h
          rcases List.mem_cons.1 hi with rfl | hi
          · exact absurd h2 hx
          · exact ⟨i, hi, h1, h2⟩)
        simp only [pure, Except.pure] at this
        rw [this]

lemma mapM_ok {α β : Type*} (f : α → Except String β) (g : α → β) (l : List α) (h : ∀ a ∈ l, f a = .ok (g a)) : l.mapM f = .ok (l.map g) := by
  induction l with
  | nil => simp [pure, Except.pure]
  | cons a l ih =>
    rw [List.mapM_cons, h a (by simp), ih fun b hb => h b (List.mem_cons_of_mem a hb)]
    simp [bind, Except.bind, pure, Except.pure]

lemma mapM_error {α β : Type*} (f : α → Except String β) (e : String) (l : List α) (h : ∃ a ∈ l, f a = .error e)
    (h2 : ∀ a ∈ l, ∀ e', f a = .error e' → e' = e) : l.mapM f = .error e := by
  induction l with
  | nil => simp at h
  | cons a l ih =>
    rw [List.mapM_cons]
    rcases hfa : f a with e' | b
    · rw [h2 a (by simp) e' hfa]; rfl
    · have := ih (by
        obtain ⟨c, hc, h3⟩ := h
        rcases List.mem_cons.1 hc with rfl | hc
        · rw [hfa] at h3; simp at h3
        · exact ⟨c, hc, h3⟩) fun c hc => h2 c (List.mem_cons_of_mem a hc)
      rw [this]; rfl

lemma zip_fold (f : ℕ → ℝ) (g : ℕ → ℝ) (l : List ℕ) (c : ℝ) : ((l.zip (l.map f)).foldl (fun acc x => acc + x.2 * g x.1) c) = c + (l.map fun i => f i * g i).sum := by
  induction l generalizing c with
  | nil => simp
  | cons a l ih => simp [ih, add_assoc]

lemma range_sum (f : ℕ → ℝ) (n : ℕ) : ((List.range n).map f).sum = ∑ i ∈ Finset.range n, f i := by
  induction n with
  | zero => simp
  | succ n ih => rw [List.range_succ, Finset.sum_range_succ, List.map_append, List.sum_append, ih]; simp

lemma range_prod (f : ℕ → ℝ) (n : ℕ) : ((List.range n).map f).prod = ∏ i ∈ Finset.range n, f i := by
  induction n with
  | zero => simp
  | succ n ih => rw [List.range_succ, Finset.prod_range_succ, List.map_append, List.prod_append, ih]; simp

lemma not_degenerate {m : MParams} {n : ℕ} (h : ¬ Degenerate m n) {i j : ℕ} (hi : i ≤ n) (hj : j ≤ n) (hij : i ≠ j) :
    BmExp.rate m.sigma (m.intr - m.divr - m.sigma ^ 2 / 2) 0 j - BmExp.rate m.sigma (m.intr - m.divr - m.sigma ^ 2 / 2) 0 i ≠ 0 := by
  rw [rate_sub]
  refine mul_ne_zero (by rw [sub_ne_zero]; exact_mod_cast hij.symm) fun h0 => h ?_
  rcases lt_or_gt_of_ne hij with h1 | h1
  · exact ⟨i, j, h1, hj, by linarith⟩
  · exact ⟨j, i, h1, hi, by linarith⟩

lemma injOn {m : MParams} {n : ℕ} (h : ¬ Degenerate m n) :
    Set.InjOn (BmExp.rate m.sigma (m.intr - m.divr - m.sigma ^ 2 / 2) 0) (Finset.range (n + 1)) := by
  intro i hi j hj e
  by_contra hij
  simp only [Finset.coe_range, mem_Iio] at hi hj
  exact not_degenerate h (by omega) (by omega) hij (by rw [e, sub_self])

/-- **C63.** `price_mnc(T, n)` is the `n`-th moment of the continuous average of the Black-Scholes price per unit of spot, for every Brownian motion driving it, every
order and expiry, outside the degenerate parameter values. -/
theorem price_mnc_correct (hB : Spec.IsBM P B) (m : MParams) (hs : m.sigma ≠ 0) {T : ℝ} (hT : 0 < T) (n : ℕ) (hd : ¬ Degenerate m n) :
    priceMnc m T n = .ok (∫ ω, Spec.average B m.sigma m.intr m.divr T ω ^ n ∂P) := by
  obtain ⟨ρ, hρ⟩ : ∃ ρ, ρ = BmExp.rate m.sigma (m.intr - m.divr - m.sigma ^ 2 / 2) 0 := ⟨_, rfl⟩
  have hds : ∀ j ∈ List.range (n + 1), dsItem ((m.intr - m.divr - m.sigma ^ 2 / 2) / m.sigma / m.sigma) n j
      = .ok (m.sigma ^ (2 * n) * (∏ i ∈ (Finset.range (n + 1)).erase j, (ρ j - ρ i))⁻¹) := by
    intro j hj
    have hj' : j < n + 1 := List.mem_range.1 hj
    unfold dsItem
    rw [foldlM_step _ _ _ _ fun i hi hij => ?_, range_prod]
    · congr 1
      rw [← Finset.mul_prod_erase _ _ (Finset.mem_range.2 hj'), if_neg (by simp), one_mul, ← Finset.prod_inv_distrib]
      have e : ∏ x ∈ (Finset.range (n + 1)).erase j, (if x ≠ j then (((m.intr - m.divr - m.sigma ^ 2 / 2) / m.sigma / m.sigma + j) ^ 2
          - ((m.intr - m.divr - m.sigma ^ 2 / 2) / m.sigma / m.sigma + x) ^ 2)⁻¹ else 1) = ∏ x ∈ (Finset.range (n + 1)).erase j, (m.sigma ^ 2 / 2) * (ρ j - ρ x)⁻¹ := by
        refine Finset.prod_congr rfl fun x hx => ?_
        rw [if_pos (Finset.ne_of_mem_erase hx), beta_diff m hs, ← hρ, mul_inv, inv_div, mul_comm]
      rw [e, Finset.prod_mul_distrib, Finset.prod_const, Finset.card_erase_of_mem (Finset.mem_range.2 hj'), Finset.card_range, Nat.add_sub_cancel, ← mul_assoc, ← mul_pow]
      congr 1
      rw [pow_mul]
      congr 1
      ring
    · have hi' : i < n + 1 := List.mem_range.1 hi
      rw [beta_diff m hs]
      exact mul_ne_zero (not_degenerate hd (by omega) (by omega) hij) (by positivity)
  have hmap := mapM_ok _ _ _ hds
  have hexp : ∀ j : ℕ, exp ((m.sigma ^ 2 * (j:ℝ) ^ 2 / 2 + m.sigma * j * ((m.intr - m.divr - m.sigma ^ 2 / 2) / m.sigma)) * T) = exp (ρ j * T) := by
    intro j
    congr 2
    rw [hρ]
    unfold BmExp.rate
    field_simp
    ring
  unfold priceMnc
  simp only [if_neg hs, if_neg hT.ne', hmap, bind, Except.bind, pure, Except.pure]
  congr 1
  rw [(mom_avg hB m.sigma m.intr m.divr hT n).2, BmExp.mom_closed _ _ _ _ (injOn hd), ← hρ]
  have hz := zip_fold (fun j => m.sigma ^ (2 * n) * (∏ i ∈ (Finset.range (n + 1)).erase j, (ρ j - ρ i))⁻¹)
    (fun j => exp ((m.sigma ^ 2 * (j:ℝ) ^ 2 / 2 + m.sigma * j * ((m.intr - m.divr - m.sigma ^ 2 / 2) / m.sigma)) * T)) (List.range (n + 1)) 0
  rw [hz, range_sum, zero_add]
  simp only [hexp]
  have e2 : ∑ i ∈ Finset.range (n + 1), m.sigma ^ (2 * n) * (∏ k ∈ (Finset.range (n + 1)).erase i, (ρ i - ρ k))⁻¹ * exp (ρ i * T)
      = m.sigma ^ (2 * n) * ∑ j ∈ Finset.range (n + 1), exp (ρ j * T) / ∏ i ∈ (Finset.range (n + 1)).erase j, (ρ j - ρ i) := by
    rw [Finset.mul_sum]
    refine Finset.sum_congr rfl fun j _ => ?_
    rw [div_eq_mul_inv]; ring
  rw [e2, one_div, inv_pow]
  generalize ∑ j ∈ Finset.range (n + 1), exp (ρ j * T) / ∏ i ∈ (Finset.range (n + 1)).erase j, (ρ j - ρ i) = S
  field_simp

/-- **C63.** `price_mnc(T, n)` raises `ZeroDivisionError` exactly at the degenerate parameters, zero volatility or zero expiry; in particular for `r = q` and every order `n >= 1`. -/
theorem price_mnc_fails (m : MParams) (T : ℝ) (n : ℕ) : priceMnc m T n = .error "ZeroDivisionError" ↔ m.sigma = 0 ∨ T = 0 ∨ Degenerate m n := by
  by_cases hs : m.sigma = 0
  · simp only [hs, true_or, iff_true]
    unfold priceMnc
    simp only [if_pos hs, bind, Except.bind, throw, throwThe, MonadExceptOf.throw]
  by_cases hd : Degenerate m n
  · simp only [hd, or_true, iff_true]
    have : (List.range (n + 1)).mapM (dsItem ((m.intr - m.divr - m.sigma ^ 2 / 2) / m.sigma / m.sigma) n) = .error "ZeroDivisionError" := by
      refine mapM_error _ _ _ ?_ ?_
      · obtain ⟨i, j, hij, hj, h⟩ := hd
        refine ⟨j, List.mem_range.2 (by omega), ?_⟩
        unfold dsItem
        refine foldlM_fail _ _ _ _ ⟨i, List.mem_range.2 (by omega), by omega, ?_⟩
        rw [beta_diff m hs, rate_sub]
        have : m.intr - m.divr + m.sigma ^ 2 * (i + j - 1) / 2 = 0 := by linarith
        rw [this]; ring
      · intro j hj e' he
        unfold dsItem at he
        by_cases hex : ∃ i ∈ List.range (n + 1), i ≠ j ∧ ((m.intr - m.divr - m.sigma ^ 2 / 2) / m.sigma / m.sigma + j) ^ 2 - ((m.intr - m.divr - m.sigma ^ 2 / 2) / m.sigma / m.sigma + i) ^ 2 = 0
        · rw [foldlM_fail _ _ _ _ hex] at he
          simpa using he.symm
        · rw [foldlM_step _ _ _ _ fun i hi h1 h2 => hex ⟨i, hi, h1, h2⟩] at he
          simp at he
    unfold priceMnc
    simp only [if_neg hs, this, bind, Except.bind]
  simp only [hs, hd, or_false, false_or]
  have hds : ∃ l, (List.range (n + 1)).mapM (dsItem ((m.intr - m.divr - m.sigma ^ 2 / 2) / m.sigma / m.sigma) n) = .ok l := by
    obtain ⟨β, hβ⟩ : ∃ β, β = (m.intr - m.divr - m.sigma ^ 2 / 2) / m.sigma / m.sigma := ⟨_, rfl⟩
    refine ⟨_, mapM_ok _ (fun j : ℕ => 2 ^ n * ((List.range (n + 1)).map fun i : ℕ => if i ≠ j then ((β + (j:ℝ)) ^ 2 - (β + (i:ℝ)) ^ 2)⁻¹ else 1).prod) _ fun j hj => ?_⟩
    rw [hβ]
    unfold dsItem
    refine foldlM_step _ _ _ _ fun i hi hij => ?_
    have hi' : i < n + 1 := List.mem_range.1 hi
    have hj' : j < n + 1 := List.mem_range.1 hj
    rw [beta_diff m hs]
    exact mul_ne_zero (not_degenerate hd (by omega) (by omega) hij) (by positivity)
  obtain ⟨l, hl⟩ := hds
  unfold priceMnc
  simp only [if_neg hs, hl, bind, Except.bind, pure, Except.pure]
  by_cases hT : T = 0 <;> simp [hT, throw, throwThe, MonadExceptOf.throw]

/-- Equal rates and dividends are degenerate for every order; a positive carry never is. -/
theorem degenerate_cases (m : MParams) (n : ℕ) : (m.intr = m.divr → 1 ≤ n → Degenerate m n) ∧ (m.divr < m.intr → ¬ Degenerate m n) := by
  constructor
  · intro h hn
    exact ⟨0, 1, by norm_num, hn, by rw [h]; norm_num⟩
  · rintro h ⟨i, j, hij, -, e⟩
    have h1 : (1:ℝ) ≤ i + j := by exact_mod_cast (by omega : 1 ≤ i + j)
    nlinarith [sq_nonneg m.sigma]

/-! ### Closed forms of orders 1-4 -/

lemma mul_exprel (x : ℝ) : x * exprel x = exp x - 1 := by
  unfold exprel
  split_ifs with h
  · simp [h]
  · field_simp

lemma integral_exp_lin (c T : ℝ) : ∫ s in (0:ℝ)..T, exp (c * s) = T * exprel (c * T) := by
  have h := intervalIntegral.integral_eq_sub_of_hasDerivAt (a := 0) (b := T) (fun x _ => hasDerivAt_mul_exprel c x) (Continuous.intervalIntegrable (by fun_prop) _ _)
  rw [h]; ring

/-- The mean of the average: `exprel((r-q)T)`. -/
lemma mom_one (s g T : ℝ) : BmExp.mom s (g - s ^ 2 / 2) 1 0 T = T * exprel (g * T) := by
  rw [BmExp.mom_succ, ← integral_exp_lin]
  simp only [BmExp.mom]
  norm_num
  refine intervalIntegral.integral_congr fun u _ => ?_
  rw [← exp_add]
  congr 1
  ring

/-- The second moment, also for `g = 0`. -/
lemma mom_two (s g T : ℝ) (hw : g + s ^ 2 ≠ 0) : BmExp.mom s (g - s ^ 2 / 2) 2 0 T = 2 * (T * exprel ((2 * g + s ^ 2) * T) - T * exprel (g * T)) / (g + s ^ 2) := by
  rw [BmExp.mom_succ]
  have h : ∀ u, BmExp.mom s (g - s ^ 2 / 2) 1 (0 + s) u * exp ((g - s ^ 2 / 2 - 0 ^ 2 / 2) * u) = (exp ((2 * g + s ^ 2) * u) - exp (g * u)) / (g + s ^ 2) := by
    intro u
    rw [BmExp.mom_succ]
    have e : ∫ x in (0:ℝ)..u, BmExp.mom s (g - s ^ 2 / 2) 0 (0 + s + s) x * exp ((g - s ^ 2 / 2 - (0 + s) ^ 2 / 2) * x) = u * exprel ((g + s ^ 2) * u) := by
      rw [← integral_exp_lin]
      refine intervalIntegral.integral_congr fun x _ => ?_
      simp only [BmExp.mom]
      rw [← exp_add]
      congr 1
      ring
    rw [e]
    have h1 := mul_exprel ((g + s ^ 2) * u)
    have e1 : exp ((0 + s) ^ 2 * u / 2) * exp ((g - s ^ 2 / 2 - 0 ^ 2 / 2) * u) = exp (g * u) := by rw [← exp_add]; congr 1; ring
    have e2 : exp ((2 * g + s ^ 2) * u) = exp (g * u) * exp ((g + s ^ 2) * u) := by rw [← exp_add]; congr 1; ring
    rw [eq_div_iff hw, e2]
    push_cast
    calc _ = (exp ((0 + s) ^ 2 * u / 2) * exp ((g - s ^ 2 / 2 - 0 ^ 2 / 2) * u)) * ((g + s ^ 2) * u * exprel ((g + s ^ 2) * u)) := by ring
      _ = _ := by rw [e1, h1]; ring
  simp_rw [h]
  rw [intervalIntegral.integral_div, intervalIntegral.integral_sub (Continuous.intervalIntegrable (by fun_prop) _ _) (Continuous.intervalIntegrable (by fun_prop) _ _),
    integral_exp_lin, integral_exp_lin]
  norm_num
  ring

/-- `p` is not one of `0, -1, ..., -6`. -/
def Regular (m : MParams) : Prop := ∀ k : ℕ, k ≤ 6 → 2 * (m.intr - m.divr) ≠ -(k * m.sigma ^ 2)

lemma regular_iff (m : MParams) : Regular m ↔ ¬ Degenerate m 4 := by
  constructor
  · rintro h ⟨i, j, hij, hj, e⟩
    refine h (i + j - 1) (by omega) ?_
    rw [e, Nat.cast_sub (by omega)]
    push_cast
    ring
  · intro h k hk e
    apply h
    have : ∃ i j : ℕ, i < j ∧ j ≤ 4 ∧ k + 1 = i + j := by
      interval_cases k
      exacts [⟨0, 1, by norm_num⟩, ⟨0, 2, by norm_num⟩, ⟨0, 3, by norm_num⟩, ⟨0, 4, by norm_num⟩, ⟨1, 4, by norm_num⟩, ⟨2, 4, by norm_num⟩, ⟨3, 4, by norm_num⟩]
    obtain ⟨i, j, h1, h2, h3⟩ := this
    refine ⟨i, j, h1, h2, ?_⟩
    rw [e]
    have h3' : (k:ℝ) + 1 = i + j := by exact_mod_cast h3
    have : (k:ℝ) = i + j - 1 := by linarith
    rw [this]; ring

lemma degenerate_mono {m : MParams} {n k : ℕ} (h : n ≤ k) (hd : ¬ Degenerate m k) : ¬ Degenerate m n := fun ⟨i, j, h1, h2, e⟩ => hd ⟨i, j, h1, h2.trans h, e⟩

lemma mom_val (m : MParams) (hs : m.sigma ≠ 0) {T : ℝ} (hT : 0 < T) (hr : Regular m) :
    BmExp.mom m.sigma (m.intr - m.divr - m.sigma ^ 2 / 2) 2 0 T / T ^ 2 = (priceMnc4 m T).2.1 ∧
    BmExp.mom m.sigma (m.intr - m.divr - m.sigma ^ 2 / 2) 3 0 T / T ^ 3 = (priceMnc4 m T).2.2.1 ∧
    BmExp.mom m.sigma (m.intr - m.divr - m.sigma ^ 2 / 2) 4 0 T / T ^ 4 = (priceMnc4 m T).2.2.2 := by
  have hd := (regular_iff m).1 hr
  obtain ⟨p, hp⟩ : ∃ p, p = 2.0 * (m.intr - m.divr) / m.sigma ^ 2 := ⟨_, rfl⟩
  obtain ⟨c, hc⟩ : ∃ c, c = m.sigma ^ 2 / 2 := ⟨_, rfl⟩
  have hc0 : c ≠ 0 := by rw [hc]; positivity
  have hpc : m.intr - m.divr = p * c := by rw [hp, hc]; field_simp; norm_num
  have hk : ∀ k : ℕ, k ≤ 6 → p + k ≠ 0 := by
    intro k hk h0
    refine hr k hk ?_
    have : p = -k := by linarith
    rw [hpc, this, hc]; ring
  obtain ⟨D, hD⟩ : ∃ D : ℕ → ℝ, ∀ k, D k = p + ((k:ℝ) - 1) := ⟨_, fun _ => rfl⟩
  have hrs : ∀ i j : ℕ, BmExp.rate m.sigma (m.intr - m.divr - m.sigma ^ 2 / 2) 0 j - BmExp.rate m.sigma (m.intr - m.divr - m.sigma ^ 2 / 2) 0 i = c * (((j:ℝ) - i) * D (i + j)) := by
    intro i j
    rw [rate_sub, hpc, hD]
    push_cast
    have : m.sigma ^ 2 = 2 * c := by rw [hc]; ring
    rw [this]; ring
  obtain ⟨A, hA⟩ : ∃ A, A = exp ((m.intr - m.divr) * T) := ⟨_, rfl⟩
  obtain ⟨E, hE⟩ : ∃ E, E = exp (m.sigma ^ 2 * T) := ⟨_, rfl⟩
  have hexp : ∀ k : ℕ, exp (BmExp.rate m.sigma (m.intr - m.divr - m.sigma ^ 2 / 2) 0 k * T) = A ^ k * E ^ (k * (k - 1) / 2) := by
    intro k
    rw [hA, hE, ← exp_nat_mul, ← exp_nat_mul, ← exp_add]
    congr 1
    have hev : ((k * (k - 1) / 2 : ℕ) : ℝ) = (k:ℝ) * (k - 1) / 2 := by
      rw [Nat.cast_div (Nat.even_mul_pred_self k).two_dvd (by norm_num)]
      rcases k with _ | k
      · simp
      · simp
    rw [hev]
    unfold BmExp.rate
    ring
  have hv : m.sigma ^ 2 * T = 2 * c * T := by rw [hc]; ring
  have h0 := hk 0 (by norm_num); have h1 := hk 1 (by norm_num); have h2 := hk 2 (by norm_num); have h3 := hk 3 (by norm_num)
  have h4 := hk 4 (by norm_num); have h5 := hk 5 (by norm_num); have h6 := hk 6 (by norm_num)
  push_cast at h0 h1 h2 h3 h4 h5 h6
  have d1 : p = D 1 := by rw [hD]; norm_num
  have d2 : p + 1 = D 2 := by rw [hD]; norm_num
  have d3 : p + 2 = D 3 := by rw [hD]; norm_num
  have d4 : p + 3 = D 4 := by rw [hD]; norm_num
  have d5 : p + 4 = D 5 := by rw [hD]; norm_num
  have d6 : p + 5 = D 6 := by rw [hD]; norm_num
  have d7 : p + 6 = D 7 := by rw [hD]; norm_num
  rw [add_zero, d1] at h0
  rw [d2] at h1; rw [d3] at h2; rw [d4] at h3; rw [d5] at h4; rw [d6] at h5; rw [d7] at h6
  have s3 : (Finset.range 3).erase 0 = {1, 2} := by decide
  have s3' : (Finset.range 3).erase 1 = {0, 2} := by decide
  have s3'' : (Finset.range 3).erase 2 = {0, 1} := by decide
  have a0 : (Finset.range 4).erase 0 = {1, 2, 3} := by decide
  have a1 : (Finset.range 4).erase 1 = {0, 2, 3} := by decide
  have a2 : (Finset.range 4).erase 2 = {0, 1, 3} := by decide
  have a3 : (Finset.range 4).erase 3 = {0, 1, 2} := by decide
  have b0 : (Finset.range 5).erase 0 = {1, 2, 3, 4} := by decide
  have b1 : (Finset.range 5).erase 1 = {0, 2, 3, 4} := by decide
  have b2 : (Finset.range 5).erase 2 = {0, 1, 3, 4} := by decide
  have b3 : (Finset.range 5).erase 3 = {0, 1, 2, 4} := by decide
  have b4 : (Finset.range 5).erase 4 = {0, 1, 2, 3} := by decide
  unfold priceMnc4 base
  simp only [← hA, ← hE, ← hp]
  rw [BmExp.mom_closed _ _ _ _ (injOn (degenerate_mono (by norm_num) hd)), BmExp.mom_closed _ _ _ _ (injOn (degenerate_mono (by norm_num) hd)), BmExp.mom_closed _ _ _ _ (injOn hd)]
  simp only [hexp, hrs, hv]
  simp only [d2, d3, d4, d5, d6, d7]
  rw [d1]
  have f2 : D 2 = D 1 + 1 := by rw [← d2, ← d1]
  have f3 : D 3 = D 1 + 2 := by rw [← d3, ← d1]
  have f4 : D 4 = D 1 + 3 := by rw [← d4, ← d1]
  have f5 : D 5 = D 1 + 4 := by rw [← d5, ← d1]
  have f6 : D 6 = D 1 + 5 := by rw [← d6, ← d1]
  have f7 : D 7 = D 1 + 6 := by rw [← d7, ← d1]
  clear hrs hexp hk hd hr hA hE hp hc hpc hv hD d1 d2 d3 d4 d5 d6 d7
  refine ⟨?_, ?_, ?_⟩
  · simp only [Finset.sum_range_succ, Finset.sum_range_zero, zero_add, s3, s3', s3'', Nat.factorial]
    norm_num
    field_simp
    try simp only [f2, f3, f4, f5, f6, f7]
    ring
  · simp only [Finset.sum_range_succ, Finset.sum_range_zero, zero_add, a0, a1, a2, a3, Nat.factorial]
    norm_num
    field_simp
    try simp only [f2, f3, f4, f5, f6, f7]
    ring
  · simp only [Finset.sum_range_succ, Finset.sum_range_zero, zero_add, b0, b1, b2, b3, b4, Nat.factorial]
    norm_num
    field_simp
    try simp only [f2, f3, f4, f5, f6, f7]
    ring

/-- **C63.** `price_mnc4(T)` returns the first four moments of the continuous average per unit of spot, for every Brownian motion driving the price. -/
theorem price_mnc4_correct (hB : Spec.IsBM P B) (m : MParams) (hs : m.sigma ≠ 0) {T : ℝ} (hT : 0 < T) (hr : Regular m) :
    (priceMnc4 m T).1 = ∫ ω, Spec.average B m.sigma m.intr m.divr T ω ∂P ∧
    (priceMnc4 m T).2.1 = ∫ ω, Spec.average B m.sigma m.intr m.divr T ω ^ 2 ∂P ∧
    (priceMnc4 m T).2.2.1 = ∫ ω, Spec.average B m.sigma m.intr m.divr T ω ^ 3 ∂P ∧
    (priceMnc4 m T).2.2.2 = ∫ ω, Spec.average B m.sigma m.intr m.divr T ω ^ 4 ∂P := by
  obtain ⟨h2, h3, h4⟩ := mom_val m hs hT hr
  refine ⟨?_, ?_, ?_, ?_⟩
  · have := (mom_avg hB m.sigma m.intr m.divr hT 1).2
    simp only [pow_one] at this
    rw [this, mom_one]
    unfold priceMnc4 base
    field_simp
  · rw [(mom_avg hB m.sigma m.intr m.divr hT 2).2, h2]
  · rw [(mom_avg hB m.sigma m.intr m.divr hT 3).2, h3]
  · rw [(mom_avg hB m.sigma m.intr m.divr hT 4).2, h4]

/-- **C63.** The mean returned by `price_mnc4` and `price_mvsk` is right for all parameters, including `r = q`. -/
theorem price_mean_correct (hB : Spec.IsBM P B) (m : MParams) {T : ℝ} (hT : 0 < T) :
    (priceMnc4 m T).1 = ∫ ω, Spec.average B m.sigma m.intr m.divr T ω ∂P ∧ (priceMvsk m T).1 = ∫ ω, Spec.average B m.sigma m.intr m.divr T ω ∂P := by
  have := (mom_avg hB m.sigma m.intr m.divr hT 1).2
  simp only [pow_one] at this
  rw [this, mom_one]
  unfold priceMvsk priceMnc4 base
  constructor <;> field_simp

/-- The exact numerator of `mu2`. -/
lemma mu2_exact (m : MParams) (hs : m.sigma ≠ 0) {T : ℝ} (hT : 0 < T) (h1 : 2 * (m.intr - m.divr) ≠ -m.sigma ^ 2) (h2 : m.intr - m.divr ≠ -m.sigma ^ 2) :
    (4 * ((exprel (m.sigma ^ 2 * T) - exprel ((m.intr - m.divr) * T)) / (m.sigma ^ 2 * T)) + 4 * (2.0 * (m.intr - m.divr) / m.sigma ^ 2) * exprel ((m.intr - m.divr) * T) * exprel (m.sigma ^ 2 * T)
      + exprel ((m.intr - m.divr) * T) ^ 2 * ((2.0 * (m.intr - m.divr) / m.sigma ^ 2) ^ 2 * exprel (m.sigma ^ 2 * T) * (m.sigma ^ 2 * T) - 3 * (2.0 * (m.intr - m.divr) / m.sigma ^ 2) - 2))
      / ((2.0 * (m.intr - m.divr) / m.sigma ^ 2 + 1) * (2.0 * (m.intr - m.divr) / m.sigma ^ 2 + 2)) =
    BmExp.mom m.sigma (m.intr - m.divr - m.sigma ^ 2 / 2) 2 0 T / T ^ 2 - (exprel ((m.intr - m.divr) * T)) ^ 2 := by
  rw [mom_two _ _ _ (fun h => h2 (by linarith))]
  obtain ⟨p, hp⟩ : ∃ p, p = 2.0 * (m.intr - m.divr) / m.sigma ^ 2 := ⟨_, rfl⟩
  have hpc : m.intr - m.divr = p * m.sigma ^ 2 / 2 := by rw [hp]; field_simp; norm_num
  have hp1 : p + 1 ≠ 0 := fun h => h1 (by rw [hpc]; linear_combination m.sigma ^ 2 * h)
  have hp2 : p + 2 ≠ 0 := fun h => h2 (by rw [hpc]; linear_combination m.sigma ^ 2 * h / 2)
  rw [← hp, hpc]
  obtain ⟨v, hvv⟩ : ∃ v, v = m.sigma ^ 2 * T := ⟨_, rfl⟩
  have hv0 : v ≠ 0 := by rw [hvv]; positivity
  have hsT : m.sigma ^ 2 = v / T := by rw [hvv]; field_simp
  have e1 : p * m.sigma ^ 2 / 2 * T = p * v / 2 := by rw [hvv]; ring
  have e2 : (2 * (p * m.sigma ^ 2 / 2) + m.sigma ^ 2) * T = (p + 1) * v := by rw [hvv]; ring
  have e3 : p * m.sigma ^ 2 / 2 + m.sigma ^ 2 = (p + 2) * v / (2 * T) := by rw [hsT]; field_simp
  rw [e2, e1, e3, ← hvv]
  have k1 := mul_exprel (p * v / 2)
  have k2 := mul_exprel v
  have k3 := mul_exprel ((p + 1) * v)
  have k4 : exp ((p + 1) * v) = exp (p * v / 2) ^ 2 * exp v := by rw [← exp_nat_mul, ← exp_add]; congr 1; push_cast; ring
  generalize exprel (p * v / 2) = a at *
  generalize exprel v = b at *
  have k3' : exprel ((p + 1) * v) = ((1 + p * v / 2 * a) ^ 2 * (1 + v * b) - 1) / ((p + 1) * v) := by
    rw [eq_div_iff (mul_ne_zero hp1 hv0), mul_comm, k3, k4]
    have a1 : exp (p * v / 2) = 1 + p * v / 2 * a := by linarith
    have a2 : exp v = 1 + v * b := by linarith
    rw [a1, a2]
  rw [k3']
  obtain ⟨d1, hd1⟩ : ∃ d, d = p + 1 := ⟨_, rfl⟩
  obtain ⟨d2, hd2⟩ : ∃ d, d = p + 2 := ⟨_, rfl⟩
  rw [← hd1] at hp1 ⊢
  rw [← hd2] at hp2 ⊢
  clear k1 k2 k3 k4 k3' e1 e2 e3 hsT h1 h2
  field_simp
  rw [hd1, hd2]
  ring

lemma mu2_eq (m : MParams) (hs : m.sigma ≠ 0) {T : ℝ} (hT : 0 < T) (hv : 0.01 ≤ m.sigma ^ 2 * T) (h1 : 2 * (m.intr - m.divr) ≠ -m.sigma ^ 2) (h2 : m.intr - m.divr ≠ -m.sigma ^ 2) :
    mu2 m T = BmExp.mom m.sigma (m.intr - m.divr - m.sigma ^ 2 / 2) 2 0 T / T ^ 2 - (exprel ((m.intr - m.divr) * T)) ^ 2 := by
  rw [← mu2_exact m hs hT h1 h2]
  unfold mu2 base
  simp only
  rw [if_neg (not_lt.2 hv)]

/-- The variance of the average in raw moments, and the variance returned by the code. -/
lemma var_raw (hB : Spec.IsBM P B) (m : MParams) {T : ℝ} (hT : 0 < T) :
    centralMoment (Spec.average B m.sigma m.intr m.divr T) 2 P = BmExp.mom m.sigma (m.intr - m.divr - m.sigma ^ 2 / 2) 2 0 T / T ^ 2 - (exprel ((m.intr - m.divr) * T)) ^ 2
    ∧ (priceMvsk m T).2.1 * (priceMvsk m T).1 ^ 2 = mu2 m T := by
  have hP := BmExp.isProb hB
  have g1 := mom_avg hB m.sigma m.intr m.divr hT 1
  have g2 := mom_avg hB m.sigma m.intr m.divr hT 2
  have g3 := mom_avg hB m.sigma m.intr m.divr hT 3
  have g4 := mom_avg hB m.sigma m.intr m.divr hT 4
  simp only [pow_one] at g1
  rw [(centralMoment_raw _ P g1.1 g2.1 g3.1 g4.1 g1.2 g2.2 g3.2 g4.2).1, mom_one]
  have e : (priceMvsk m T).2.1 * (priceMvsk m T).1 ^ 2 = mu2 m T := by
    show mu2 m T / (priceMnc4 m T).1 ^ 2 * (priceMnc4 m T).1 ^ 2 = mu2 m T
    refine div_mul_cancel₀ _ (pow_ne_zero _ ?_)
    exact (exprel_pos _).ne'
  refine ⟨?_, e⟩
  have : T * exprel ((m.intr - m.divr) * T) / T = exprel ((m.intr - m.divr) * T) := by field_simp
  rw [this]

/-- **C63.** The variance returned by `price_mvsk` (times the squared mean) is the variance of the average, for `σ²T >= 0.01`; `r = q` is included (only `p = -1, -2` are excluded). -/
theorem price_var_correct (hB : Spec.IsBM P B) (m : MParams) (hs : m.sigma ≠ 0) {T : ℝ} (hT : 0 < T) (hv : 0.01 ≤ m.sigma ^ 2 * T)
    (h1 : 2 * (m.intr - m.divr) ≠ -m.sigma ^ 2) (h2 : m.intr - m.divr ≠ -m.sigma ^ 2) :
    (priceMvsk m T).2.1 * (priceMvsk m T).1 ^ 2 = centralMoment (Spec.average B m.sigma m.intr m.divr T) 2 P := by
  rw [(var_raw hB m hT).1, (var_raw hB m hT).2, mu2_eq m hs hT hv h1 h2]

lemma regular_ne (m : MParams) (hr : Regular m) : 2 * (m.intr - m.divr) ≠ -m.sigma ^ 2 ∧ m.intr - m.divr ≠ -m.sigma ^ 2 := by
  have h1 := hr 1 (by norm_num)
  have h2 := hr 2 (by norm_num)
  push_cast at h1 h2
  exact ⟨fun h => h1 (by linarith), fun h => h2 (by linarith)⟩

lemma central (hB : Spec.IsBM P B) (m : MParams) (hs : m.sigma ≠ 0) {T : ℝ} (hT : 0 < T) (hr : Regular m) :
    centralMoment (Spec.average B m.sigma m.intr m.divr T) 2 P = (priceMnc4 m T).2.1 - (priceMnc4 m T).1 ^ 2 ∧
    centralMoment (Spec.average B m.sigma m.intr m.divr T) 3 P = (priceMnc4 m T).2.2.1 - 3 * (priceMnc4 m T).2.1 * (priceMnc4 m T).1 + 2 * (priceMnc4 m T).1 ^ 3 ∧
    centralMoment (Spec.average B m.sigma m.intr m.divr T) 4 P = (priceMnc4 m T).2.2.2 - 4 * (priceMnc4 m T).2.2.1 * (priceMnc4 m T).1
      + 6 * (priceMnc4 m T).2.1 * (priceMnc4 m T).1 ^ 2 - 3 * (priceMnc4 m T).1 ^ 4 := by
  have hP := BmExp.isProb hB
  have g1 := mom_avg hB m.sigma m.intr m.divr hT 1
  simp only [pow_one] at g1
  obtain ⟨q1, q2, q3, q4⟩ := price_mnc4_correct hB m hs hT hr
  exact centralMoment_raw _ P g1.1 (mom_avg hB m.sigma m.intr m.divr hT 2).1 (mom_avg hB m.sigma m.intr m.divr hT 3).1 (mom_avg hB m.sigma m.intr m.divr hT 4).1 q1.symm q2.symm q3.symm q4.symm

/-- **C63.** `price_mvsk(T)` returns the mean, scaled variance, skewness and raw kurtosis of the average, for `σ²T >= 0.01`. -/
theorem price_mvsk_correct (hB : Spec.IsBM P B) (m : MParams) (hs : m.sigma ≠ 0) {T : ℝ} (hT : 0 < T) (hv : 0.01 ≤ m.sigma ^ 2 * T) (hr : Regular m) :
    Spec.IsScaledMvsk (Spec.average B m.sigma m.intr m.divr T) P (priceMvsk m T).1 (priceMvsk m T).2.1 (priceMvsk m T).2.2.1 ((priceMvsk m T).2.2.2 - 3) := by
  have hP := BmExp.isProb hB
  obtain ⟨q1, q2, q3, q4⟩ := price_mnc4_correct hB m hs hT hr
  obtain ⟨c2, c3, c4⟩ := central hB m hs hT hr
  have h12 := regular_ne m hr
  have hvar := price_var_correct hB m hs hT hv h12.1 h12.2
  have hmean := (price_mean_correct hB m hT).2
  have hpos : (priceMvsk m T).1 ≠ 0 := (exprel_pos _).ne'
  have hmu2 : mu2 m T = centralMoment (Spec.average B m.sigma m.intr m.divr T) 2 P := by
    rw [← hvar]
    show mu2 m T = mu2 m T / (priceMnc4 m T).1 ^ 2 * (priceMnc4 m T).1 ^ 2
    exact (div_mul_cancel₀ _ (pow_ne_zero _ (exprel_pos _).ne')).symm
  have hv' : ¬ (base m T).v < 0.01 := not_lt.2 hv
  refine ⟨hmean.symm, ?_, ?_, ?_⟩
  · rw [← hmean, ← hvar]; field_simp
  · rw [← hmu2, c3]
    unfold priceMvsk
    simp only [if_neg hv']
  · rw [← hmu2, c4]
    unfold priceMvsk
    simp only [if_neg hv']

/-! ### `BsmAsianJsu.price` -/

/-- **C63 (disagreement).** What `BsmAsianJsu.price` returns: the Johnson distribution matched to the average is discounted twice, and its mean is grown once more at the
carry (`from_vsk` is given `intr`, `divr` and `is_fwd`, and the result is multiplied by the discount factor again). -/
theorem jsu_parity_value (m : MParams) (w K S T : ℝ) :
    priceJsu m w K S T 1 - priceJsu m w K S T (-1) =
      Spec.discount m.intr T ^ 2 * (Spec.forward m.isFwd m.intr m.divr ((priceMvsk m T).1 * S) T - K) := by
  have h := Nsvh.nsvh1_parity (fitted m S T w) K ((priceMvsk m T).1 * S) T
  unfold Spec.Parity at h
  unfold priceJsu
  simp only
  rw [← mul_sub, h, MParams.df_eq_spec, MParams.fwd_eq_forward, MParams.forward_eq_spec]
  have e1 : (fitted m S T w).mp.intr = m.intr := rfl
  have e2 : (fitted m S T w).mp.divr = m.divr := rfl
  have e3 : (fitted m S T w).mp.isFwd = m.isFwd := rfl
  rw [e1, e2, e3]
  unfold Spec.discount
  have : exp (-T * m.intr) = exp (-(m.intr * T)) := by congr 1; ring
  rw [this]
  ring

/-- **C63.** Parity `call - put = df*(E[A]*S - K)` of `BsmAsianJsu` holds without interest when `is_fwd` is set (no carry is applied to the fitted distribution). -/
theorem jsu_parity_partial (hB : Spec.IsBM P B) (m : MParams) (hf : m.isFwd = true) (hr : m.intr = 0) (w K S : ℝ) {T : ℝ} (hT : 0 < T) :
    Spec.Parity (priceJsu m w K S T 1) (priceJsu m w K S T (-1)) (Spec.discount m.intr T) (S * ∫ ω, Spec.average B m.sigma m.intr m.divr T ω ∂P) K := by
  unfold Spec.Parity
  rw [jsu_parity_value, ← (price_mean_correct hB m hT).2, hf, hr]
  simp [Spec.discount, Spec.forward]
  ring

/-- **C63 (disagreement).** With interest the parity of `BsmAsianJsu` fails at every strike but one, even if `is_fwd` is set. -/
theorem jsu_parity_fails (hB : Spec.IsBM P B) (m : MParams) (hf : m.isFwd = true) (hr : m.intr ≠ 0) (w K S : ℝ) {T : ℝ} (hT : 0 < T)
    (hK : K ≠ S * ∫ ω, Spec.average B m.sigma m.intr m.divr T ω ∂P) :
    ¬ Spec.Parity (priceJsu m w K S T 1) (priceJsu m w K S T (-1)) (Spec.discount m.intr T) (S * ∫ ω, Spec.average B m.sigma m.intr m.divr T ω ∂P) K := by
  unfold Spec.Parity
  rw [jsu_parity_value, ← (price_mean_correct hB m hT).2, hf]
  rw [← (price_mean_correct hB m hT).2] at hK
  simp only [Spec.forward, if_true]
  intro h
  have hd : 0 < Spec.discount m.intr T := exp_pos _
  have h2 : Spec.discount m.intr T * ((Spec.discount m.intr T - 1) * (S * (priceMvsk m T).1 - K)) = 0 := by
    linear_combination h
  rcases mul_eq_zero.1 h2 with h3 | h3
  · exact hd.ne' h3
  rcases mul_eq_zero.1 h3 with h4 | h4
  · have h5 : exp (-(m.intr * T)) = 1 := by unfold Spec.discount at h4; linarith
    rw [exp_eq_one_iff] at h5
    rcases mul_eq_zero.1 (neg_eq_zero.1 h5) with h6 | h6
    · exact hr h6
    · exact hT.ne' h6
  · exact hK (by linarith)

/-- With a dividend or carry and no `is_fwd`, the fitted distribution has the wrong mean: at zero rate and positive dividend the parity fails at every strike. -/
theorem jsu_parity_fails_carry (hB : Spec.IsBM P B) (m : MParams) (hf : m.isFwd = false) (hr : m.intr = 0) (hq : m.divr ≠ 0) (w K : ℝ) {S T : ℝ} (hS : 0 < S) (hT : 0 < T) :
    ¬ Spec.Parity (priceJsu m w K S T 1) (priceJsu m w K S T (-1)) (Spec.discount m.intr T) (S * ∫ ω, Spec.average B m.sigma m.intr m.divr T ω ∂P) K := by
  unfold Spec.Parity
  rw [jsu_parity_value, ← (price_mean_correct hB m hT).2, hf, hr]
  have hp : 0 < (priceMvsk m T).1 := exprel_pos _
  simp only [Spec.forward, Spec.discount]
  intro h
  norm_num at h
  have h1 : exp (-(m.divr * T)) = 1 := by
    have h2 : (priceMvsk m T).1 * S ≠ 0 := by positivity
    have h3 : (priceMvsk m T).1 * S * exp (-(m.divr * T)) = (priceMvsk m T).1 * S * 1 := by linear_combination h
    exact mul_left_cancel₀ h2 h3
  rw [exp_eq_one_iff] at h1
  rcases mul_eq_zero.1 (neg_eq_zero.1 h1) with h6 | h6
  · exact hq h6
  · exact hT.ne' h6

lemma centralMoment_scale (X : Ω → ℝ) (S : ℝ) (k : ℕ) : centralMoment (fun ω => S * X ω) k P = S ^ k * centralMoment X k P := by
  unfold centralMoment
  have e : ((fun ω => S * X ω) - fun _ => ∫ ω, S * X ω ∂P) ^ k = fun ω => S ^ k * ((X - fun _ => ∫ ω, X ω ∂P) ^ k : Ω → ℝ) ω := by
    funext ω
    simp only [Pi.pow_apply, Pi.sub_apply, integral_const_mul]
    rw [← mul_sub, mul_pow]
  rw [e, integral_const_mul]

/-- **C63.** What `BsmAsianJsu.price` computes: `df²` times the expected payoff of a random variable whose second, third and fourth central moments are exactly those of the
average price and whose mean is the mean of the average price grown at the carry (the mean itself if `is_fwd`).  `hSU` is the strict form of the assertion in `Nsvh1.fit`. -/
theorem jsu_price_correct_partial (hB : Spec.IsBM P B) (m : MParams) (hs : m.sigma ≠ 0) {K S T cp w w0 : ℝ} (hcp : Spec.IsCp cp) (hS : 0 < S) (hT : 0 < T)
    (hv : 0.01 ≤ m.sigma ^ 2 * T) (hr : Regular m) (hvar : 0 < (priceMvsk m T).2.1) (hk : 0 < (priceMvsk m T).2.2.2 - 3)
    (h0 : Nsvh.IsFitMin ((priceMvsk m T).2.2.2 - 3) w0) (hSU : 0 < Nsvh.fBeta1 (priceMvsk m T).2.2.1 ((priceMvsk m T).2.2.2 - 3) w0)
    (hw : w ∈ Icc w0 (Nsvh.fitMax ((priceMvsk m T).2.2.2 - 3))) (hroot : Nsvh.fBeta1 (priceMvsk m T).2.2.1 ((priceMvsk m T).2.2.2 - 3) w = 0) :
    ∃ X : ℝ → ℝ, priceJsu m w K S T cp = Spec.discount m.intr T ^ 2 * Spec.gaussE (fun z => Spec.payoff cp K (X z)) ∧
      ∫ z, X z ∂(gaussianReal 0 1) = Spec.forward m.isFwd m.intr m.divr (∫ ω, S * Spec.average B m.sigma m.intr m.divr T ω ∂P) T ∧
      ∀ j ∈ ({2, 3, 4} : Set ℕ), centralMoment X j (gaussianReal 0 1) = centralMoment (fun ω => S * Spec.average B m.sigma m.intr m.divr T ω) j P := by
  obtain ⟨b1, b2, b3, b4⟩ := price_mvsk_correct hB m hs hT hv hr
  have hm0 : 0 < (priceMvsk m T).1 := exprel_pos _
  have hvar' : 0 < (priceMvsk m T).2.1 * ((priceMvsk m T).1 * S) ^ 2 := by positivity
  have hrho : (fitted m S T w).rho ∈ Ioo (-1) 1 := BasketNsvh.fit_rho_strict _ hk h0 hSU hw hroot
  obtain ⟨f1, f2, f3, -⟩ := Nsvh.nsvh1_fit_matches (⟨1, 0.1, 0, 1, m.intr, m.divr, m.isFwd, false⟩ : Nsvh) hvar' hk hT h0 hw hroot
  have ff : (⟨1, 0.1, 0, 1, m.intr, m.divr, m.isFwd, false⟩ : Nsvh).fitWith ((priceMvsk m T).2.1 * ((priceMvsk m T).1 * S) ^ 2)
    (priceMvsk m T).2.2.1 ((priceMvsk m T).2.2.2 - 3) T w = fitted m S T w := rfl
  rw [ff] at f1 f2 f3
  have hp := Nsvh.nsvh1_price_correct (fitted m S T w) rfl hcp f2 f3 hrho K ((priceMvsk m T).1 * S) hT
  obtain ⟨c2, c3, c4⟩ := Nsvh.nsvh1_priceVsk_correct (fitted m S T w) f2 f3 (Spec.forward m.isFwd m.intr m.divr ((priceMvsk m T).1 * S) T) hT
  have e1 : (fitted m S T w).intr = m.intr := rfl
  have e2 : (fitted m S T w).divr = m.divr := rfl
  have e3 : (fitted m S T w).isFwd = m.isFwd := rfl
  rw [e1, e2, e3] at hp
  rw [f1] at c2 c3 c4
  simp only at c2 c3 c4
  have hmean : ∫ z, Spec.johnson (Spec.forward m.isFwd m.intr m.divr ((priceMvsk m T).1 * S) T) (fitted m S T w).sigma (fitted m S T w).vov (fitted m S T w).rho T z ∂(gaussianReal 0 1)
      = Spec.forward m.isFwd m.intr m.divr ((priceMvsk m T).1 * S) T := Nsvh.johnson_mean _ _ _ _ hT.le
  generalize hX : Spec.johnson (Spec.forward m.isFwd m.intr m.divr ((priceMvsk m T).1 * S) T) (fitted m S T w).sigma (fitted m S T w).vov (fitted m S T w).rho T = X at *
  generalize Spec.average B m.sigma m.intr m.divr T = Y at *
  have e4 : centralMoment X 2 (gaussianReal 0 1) = S ^ 2 * centralMoment Y 2 P := by
    rw [c2, ← b2, b1]; field_simp
  have hY : 0 < centralMoment Y 2 P := by
    have : 0 < S ^ 2 * centralMoment Y 2 P := by rw [← e4, c2]; exact hvar'
    exact (pos_iff_pos_of_mul_pos this).1 (by positivity)
  have hsq : √(S ^ 2 * centralMoment Y 2 P) = S * √(centralMoment Y 2 P) := by rw [sqrt_mul (by positivity), sqrt_sq hS.le]
  have hsy := sqrt_pos.2 hY
  refine ⟨X, ?_, ?_, ?_⟩
  · unfold priceJsu
    simp only
    rw [hp]
    unfold Spec.discount
    have : exp (-T * m.intr) = exp (-(m.intr * T)) := by congr 1; ring
    rw [this]
    ring
  · rw [integral_const_mul, b1, hmean, mul_comm S]
  · intro j hj
    rw [centralMoment_scale]
    rcases hj with rfl | rfl | rfl
    · exact e4
    · rw [e4, hsq] at c3
      have h := c3.trans b3.symm
      rw [div_eq_div_iff (by positivity) (by positivity)] at h
      have h' : (centralMoment X 3 (gaussianReal 0 1) - S ^ 3 * centralMoment Y 3 P) * (centralMoment Y 2 P * √(centralMoment Y 2 P)) = 0 := by linear_combination h
      rcases mul_eq_zero.1 h' with h5 | h5
      · linarith
      · exact absurd h5 (by positivity)
    · rw [e4] at c4
      have h := c4.trans b4.symm
      rw [sub_left_inj, div_eq_div_iff (by positivity) (by positivity)] at h
      have h' : (centralMoment X 4 (gaussianReal 0 1) - S ^ 4 * centralMoment Y 4 P) * centralMoment Y 2 P ^ 2 = 0 := by linear_combination h
      rcases mul_eq_zero.1 h' with h5 | h5
      · linarith
      · exact absurd h5 (by positivity)

/-- An example: `σ² = r = log 2`, `q = 0`, `T = 1`. -/
noncomputable def exA : MParams := ⟨√(log 2), log 2, 0, true⟩

lemma exA_base : base exA 1 = ⟨log 2, log 2, 2, 2, 2⟩ := by
  have hl : 0 < log 2 := log_pos (by norm_num)
  unfold base exA
  simp only [sq_sqrt hl.le, mul_one, sub_zero, exp_log (show (0:ℝ) < 2 by norm_num)]
  congr 1
  field_simp
  norm_num

lemma exA_mvsk : (priceMvsk exA 1).2.1 = 1 / 3 ∧ (priceMvsk exA 1).2.2.1 ^ 2 = 147 / 25 ∧ (priceMvsk exA 1).2.2.2 = 549 / 35 := by
  have hl : 0.1 < log 2 := by have := one_sub_inv_le_log_of_pos (show (0:ℝ) < 2 by norm_num); norm_num at this ⊢; linarith
  have hl0 : log 2 ≠ 0 := by linarith
  have hx : exprel (log 2) = 1 / log 2 := by
    unfold exprel; rw [if_neg hl0, exp_log (by norm_num)]; norm_num
  have hmu : mu2 exA 1 = 1 / 3 / log 2 ^ 2 := by
    unfold mu2
    simp only [exA_base, hx]
    rw [if_neg (by norm_num at hl ⊢; linarith)]
    field_simp
    norm_num
  have hq : priceMnc4 exA 1 = (1 / log 2, 4 / 3 / log 2 ^ 2, 37 / 15 / log 2 ^ 3, 694 / 105 / log 2 ^ 4) := by
    unfold priceMnc4
    simp only [exA_base, hx, Prod.mk.injEq, true_and]
    refine ⟨?_, ?_, ?_⟩ <;> (field_simp; norm_num)
  have hc : ¬ (base exA 1).v < 0.01 := by rw [exA_base]; norm_num at hl ⊢; linarith
  unfold priceMvsk
  simp only [hq, hmu, if_neg hc]
  refine ⟨?_, ?_, ?_⟩
  · field_simp
  · have hs : √(1 / 3 / log 2 ^ 2) ^ 2 = 1 / 3 / log 2 ^ 2 := sq_sqrt (by positivity)
    rw [div_pow, mul_pow, hs]
    field_simp
    norm_num
  · field_simp
    norm_num

lemma exA_regular : Regular exA := by
  have hl : 0 < log 2 := log_pos (by norm_num)
  intro k _ h
  unfold exA at h
  simp only [sq_sqrt hl.le, sub_zero] at h
  have : (0:ℝ) ≤ k := Nat.cast_nonneg k
  nlinarith

/-- The hypotheses of `jsu_price_correct_partial`, of `price_mvsk_correct` and of `price_mnc4_correct` are met; the calibration has exactly one root. -/
example : exA.sigma ≠ 0 ∧ 0.01 ≤ exA.sigma ^ 2 * 1 ∧ Regular exA ∧ 0 < (priceMvsk exA 1).2.1 ∧ 0 < (priceMvsk exA 1).2.2.2 - 3 ∧
    ∃ w0 w, Nsvh.IsFitMin ((priceMvsk exA 1).2.2.2 - 3) w0 ∧ 0 < Nsvh.fBeta1 (priceMvsk exA 1).2.2.1 ((priceMvsk exA 1).2.2.2 - 3) w0 ∧
      w ∈ Icc w0 (Nsvh.fitMax ((priceMvsk exA 1).2.2.2 - 3)) ∧ Nsvh.fBeta1 (priceMvsk exA 1).2.2.1 ((priceMvsk exA 1).2.2.2 - 3) w = 0 := by
  have hl : 0.1 < log 2 := by have := one_sub_inv_le_log_of_pos (show (0:ℝ) < 2 by norm_num); norm_num at this ⊢; linarith
  obtain ⟨e1, e2, e3⟩ := exA_mvsk
  have hk : (0:ℝ) < 549 / 35 - 3 := by norm_num
  obtain ⟨w0, h0, -⟩ := Nsvh.nsvh1_fit_min_unique hk
  refine ⟨(sqrt_pos.2 (by linarith)).ne', ?_, exA_regular, by rw [e1]; norm_num, by rw [e3]; norm_num, ?_⟩
  · unfold exA; simp only; rw [sq_sqrt (by linarith)]; norm_num at hl ⊢; linarith
  rw [e3]
  have hpos : 0 < Nsvh.fBeta1 (priceMvsk exA 1).2.2.1 (549 / 35 - 3) w0 := by
    have h1 : 1.49 ≤ w0 := by
      by_contra hc
      have := Nsvh.quartic_strictMono (549 / 35 - 3) h0.1.le (show (0:ℝ) ≤ 1.49 by norm_num) (not_le.1 hc)
      simp only at this
      rw [h0.2] at this
      norm_num at this
    have h3 : 4 + 2 * (w0 * w0 - (549 / 35 - 3 + 3 + 3) / (w0 * w0 + 2 * w0 + 3)) = 2 ^ 2 := by
      have hd : 0 < w0 * w0 + 2 * w0 + 3 := by nlinarith
      have : (549 / 35 - 3 + 3 + 3) / (w0 * w0 + 2 * w0 + 3) = w0 * w0 := by
        rw [div_eq_iff hd.ne']; linarith [h0.2]
      rw [this]; norm_num
    unfold Nsvh.fBeta1
    simp only
    rw [e2, h3, sqrt_sq (by norm_num)]
    have h4 : (0.49:ℝ) * 3.49 ^ 2 ≤ (w0 + 1 - 2) * (w0 + 1 + 0.5 * 2) ^ 2 :=
      mul_le_mul (by linarith) (pow_le_pow_left₀ (by norm_num) (by linarith) 2) (by norm_num) (by linarith)
    norm_num at h4 ⊢
    linarith
  obtain ⟨w, ⟨hw, hroot⟩, -⟩ := Nsvh.nsvh1_fit_root_unique hk h0 hpos.le
  exact ⟨w0, w, h0, hpos, hw, hroot⟩

/-! ### `BsmAsianLinetsky2004` -/

namespace Linetsky

variable (L : Linetsky) (M : Mp)

/-- **C63.** Whatever the special functions and roots returned by mpmath and sympy, the Linetsky call and put satisfy `call - put = df*(E[A]*S - K)` when they return
(`is_fwd` not set, `|(r-q)T| >= 1e-8`). -/
theorem parity (hB : Spec.IsBM P B) (hf : L.mp.isFwd = false) {K S T c p : ℝ} (hT : 0 < T) (hg : 1e-8 ≤ |(L.mp.intr - L.mp.divr) * T|)
    (hc : L.price M K S T 1 = .ok c) (hp : L.price M K S T (-1) = .ok p) :
    Spec.Parity c p (Spec.discount L.mp.intr T) (S * ∫ ω, Spec.average B L.mp.sigma L.mp.intr L.mp.divr T ω ∂P) K := by
  have hx : (L.mp.intr - L.mp.divr) * T ≠ 0 := by
    intro h; rw [h] at hg; norm_num at hg
  unfold price at hc hp
  simp only [bind, Except.bind, pure, Except.pure] at hc hp
  rcases him : (M.zerosImag L.nu (L.nEig + 1)).mapM (fun p => L.elementImag M (L.mp.sigma ^ 2 * T / 4) p (L.mp.sigma ^ 2 * T / 4 * K / S)) with e | im
  · rw [him] at hc; simp at hc
  rcases hre : L.zerosReal.mapM (fun q => L.elementReal M (L.mp.sigma ^ 2 * T / 4) q (L.mp.sigma ^ 2 * T / 4 * K / S)) with e | re
  · rw [him] at hc; simp only [hre] at hc; simp at hc
  rw [him] at hc hp
  simp only [hre] at hc hp
  rw [if_pos (by norm_num), Except.ok.injEq] at hc
  rw [if_neg (by norm_num), Except.ok.injEq] at hp
  unfold Spec.Parity
  rw [← hc, ← hp, if_neg (not_lt.2 hg), ← (price_mean_correct hB L.mp hT).1]
  have e1 : (priceMnc4 L.mp T).1 = (L.mp.divf T / L.mp.df T - 1) / ((L.mp.intr - L.mp.divr) * T) := by
    show exprel ((L.mp.intr - L.mp.divr) * T) = _
    unfold exprel
    rw [if_neg hx]
    congr 2
    rw [MParams.df_eq_spec]
    unfold MParams.divf Spec.discount
    rw [if_neg (by simp [hf]), ← exp_sub]
    congr 1
    ring
  rw [e1, ← MParams.df_eq_spec]
  ring

/-- **C63 (disagreement).** With `is_fwd=True` the growth of the average uses `divf = 1` but the carry `r-q` in the denominator: the parity then fails for every positive
dividend yield. -/
theorem parity_fails_is_fwd (hB : Spec.IsBM P B) (hf : L.mp.isFwd = true) {K S T c p : ℝ} (hS : 0 < S) (hT : 0 < T) (hq : L.mp.divr ≠ 0)
    (hg : 1e-8 ≤ |(L.mp.intr - L.mp.divr) * T|) (hc : L.price M K S T 1 = .ok c) (hp : L.price M K S T (-1) = .ok p) :
    ¬ Spec.Parity c p (Spec.discount L.mp.intr T) (S * ∫ ω, Spec.average B L.mp.sigma L.mp.intr L.mp.divr T ω ∂P) K := by
  have hx : (L.mp.intr - L.mp.divr) * T ≠ 0 := by
    intro h; rw [h] at hg; norm_num at hg
  unfold price at hc hp
  simp only [bind, Except.bind, pure, Except.pure] at hc hp
  rcases him : (M.zerosImag L.nu (L.nEig + 1)).mapM (fun p => L.elementImag M (L.mp.sigma ^ 2 * T / 4) p (L.mp.sigma ^ 2 * T / 4 * K / S)) with e | im
  · rw [him] at hc; simp at hc
  rcases hre : L.zerosReal.mapM (fun q => L.elementReal M (L.mp.sigma ^ 2 * T / 4) q (L.mp.sigma ^ 2 * T / 4 * K / S)) with e | re
  · rw [him] at hc; simp only [hre] at hc; simp at hc
  rw [him] at hc hp
  simp only [hre] at hc hp
  rw [if_pos (by norm_num), Except.ok.injEq] at hc
  rw [if_neg (by norm_num), Except.ok.injEq] at hp
  unfold Spec.Parity
  rw [← hc, ← hp, if_neg (not_lt.2 hg), ← (price_mean_correct hB L.mp hT).1]
  have e1 : (priceMnc4 L.mp T).1 = (exp ((L.mp.intr - L.mp.divr) * T) - 1) / ((L.mp.intr - L.mp.divr) * T) := by
    show exprel ((L.mp.intr - L.mp.divr) * T) = _
    unfold exprel
    rw [if_neg hx]
  have e2 : L.mp.divf T / L.mp.df T = exp (L.mp.intr * T) := by
    rw [MParams.df_eq_spec]
    unfold MParams.divf Spec.discount
    rw [if_pos hf, one_div, ← exp_neg, neg_neg]
  rw [e1, e2, ← MParams.df_eq_spec]
  intro h
  have hd : 0 < L.mp.df T := L.mp.df_pos T
  have h2 : L.mp.df T * (S * (exp (L.mp.intr * T) - exp ((L.mp.intr - L.mp.divr) * T)) / ((L.mp.intr - L.mp.divr) * T)) = 0 := by
    linear_combination h
  rcases mul_eq_zero.1 h2 with h3 | h3
  · exact hd.ne' h3
  rcases div_eq_zero_iff.1 h3 with h4 | h4
  · rcases mul_eq_zero.1 h4 with h5 | h5
    · exact hS.ne' h5
    · have h6 := exp_injective (sub_eq_zero.1 h5)
      have : L.mp.divr * T = 0 := by linear_combination h6
      rcases mul_eq_zero.1 this with h7 | h7
      · exact hq h7
      · exact hT.ne' h7
  · exact hx h4

/-- **C63 (disagreement).** For `ν <= -2` (`2(r-q) <= -σ²`) `BsmAsianLinetsky2004.price` never returns: the first real eigenvalue is at a pole of the gamma function and the difference
quotient `eta_q` is identically zero. -/
theorem no_price {tau k : ℝ} (h : L.nu ≤ -2) : (∃ q, q ∈ L.zerosReal) ∧ (∀ q, L.etaQ M q = 0) ∧ (∀ q x, L.elementReal M tau q k ≠ .ok x) ∧
    ∀ K S T cp x, L.price M K S T cp ≠ .ok x := by
  have h1 : (∃ q, q ∈ L.zerosReal) := by
    unfold zerosReal
    rw [if_pos h]
    have : 1 ≤ ⌊|L.nu| / 2⌋₊ := by
      rw [Nat.one_le_floor_iff, abs_of_nonpos (by linarith)]
      linarith
    exact ⟨_, List.mem_map.2 ⟨0, List.mem_range.2 (by omega), rfl⟩⟩
  have h2 : ∀ q, L.etaQ M q = 0 := fun q => by unfold etaQ; simp
  have h3 : ∀ tau k q x, L.elementReal M tau q k ≠ .ok x := by
    intro tau k q x
    unfold elementReal
    simp only [bind, Except.bind, pure, Except.pure, h2, mpDiv]
    rcases M.gamma (((L.nu + q) / 2 : ℝ) : ℂ) with e | g
    · simp
    rcases M.gamma ((1 + q : ℝ) : ℂ) with e | g1
    · simp
    simp
  refine ⟨h1, h2, h3 tau k, ?_⟩
  intro K S T cp x hx
  unfold price at hx
  simp only [bind, Except.bind, pure, Except.pure] at hx
  rcases him : (M.zerosImag L.nu (L.nEig + 1)).mapM (fun p => L.elementImag M (L.mp.sigma ^ 2 * T / 4) p (L.mp.sigma ^ 2 * T / 4 * K / S)) with e | im
  · rw [him] at hx; simp at hx
  rw [him] at hx
  obtain ⟨q, hq⟩ := h1
  have : ∃ e, L.zerosReal.mapM (fun q => L.elementReal M (L.mp.sigma ^ 2 * T / 4) q (L.mp.sigma ^ 2 * T / 4 * K / S)) = .error e := by
    rcases hz : L.zerosReal with _ | ⟨a, l⟩
    · rw [hz] at hq; simp at hq
    · rcases ha : L.elementReal M (L.mp.sigma ^ 2 * T / 4) a (L.mp.sigma ^ 2 * T / 4 * K / S) with e | y
      · exact ⟨e, by rw [List.mapM_cons, ha]; rfl⟩
      · exact absurd ha (h3 _ _ _ _)
  obtain ⟨e, he⟩ := this
  simp only [he] at hx
  simp at hx

/-- `parity` is not vacuous: with one imaginary root and simple special functions both prices are returned. -/
example : ∃ (M : Mp) (L : Linetsky) (c p : ℝ), L.mp.isFwd = false ∧ 1e-8 ≤ |(L.mp.intr - L.mp.divr) * 1| ∧ L.price M 1 1 1 1 = .ok c ∧ L.price M 1 1 1 (-1) = .ok p := by
  obtain ⟨M, hM⟩ : ∃ M : Mp, M = ⟨fun _ z _ => z, fun _ z _ => z, fun _ => .ok 1, fun _ _ => [1]⟩ := ⟨_, rfl⟩
  obtain ⟨L, hL⟩ : ∃ L : Linetsky, L = { mp := ⟨1, 1, 0, false⟩ } := ⟨_, rfl⟩
  have hnu : L.nu = 1 := by rw [hL]; unfold nu; norm_num
  have hz : L.zerosReal = [] := by unfold zerosReal; rw [hnu, if_neg (by norm_num)]
  have hxi : L.xiP M 1 ≠ 0 := by
    rw [hM]
    unfold xiP
    simp only
    intro h
    have h1 := congrArg Complex.im ((div_eq_zero_iff.1 h).resolve_right (by norm_num))
    simp at h1
    norm_num at h1
  have him : ∀ tau k, ∃ x, (M.zerosImag L.nu (L.nEig + 1)).mapM (fun p => L.elementImag M tau p k) = .ok x := by
    intro tau k
    have : ∃ y, L.elementImag M tau 1 k = .ok y := by
      unfold elementImag mpDiv
      have hg : M.gamma = fun _ => .ok 1 := by rw [hM]
      have hne : (4 * L.xiP M 1 * 1 : ℂ) ≠ 0 := by simpa using hxi
      simp only [hg, bind, Except.bind, pure, Except.pure, if_neg hne]
      exact ⟨_, rfl⟩
    obtain ⟨y, hy⟩ := this
    have hzi : M.zerosImag L.nu (L.nEig + 1) = [1] := by rw [hM]
    rw [hzi]
    exact ⟨[y], by rw [List.mapM_cons, hy]; rfl⟩
  obtain ⟨x, hx⟩ := him (L.mp.sigma ^ 2 * 1 / 4) (L.mp.sigma ^ 2 * 1 / 4 * 1 / 1)
  have hp : ∀ cp, ∃ c, L.price M 1 1 1 cp = .ok c := by
    intro cp
    unfold price
    simp only [bind, Except.bind, hx, hz, List.mapM_nil, pure, Except.pure]
    split_ifs <;> exact ⟨_, rfl⟩
  obtain ⟨c, hc⟩ := hp 1
  obtain ⟨p, hp'⟩ := hp (-1)
  exact ⟨M, L, c, p, by rw [hL], by rw [hL]; norm_num, hc, hp'⟩

/-- Near `r = q` the growth of the mean is linearised; the parity then holds up to `df*S*((r-q)T)²`. -/
theorem parity_near (hB : Spec.IsBM P B) {K S T c p : ℝ} (hS : 0 < S) (hT : 0 < T) (hg : |(L.mp.intr - L.mp.divr) * T| < 1e-8)
    (hc : L.price M K S T 1 = .ok c) (hp : L.price M K S T (-1) = .ok p) :
    |c - p - Spec.discount L.mp.intr T * (S * ∫ ω, Spec.average B L.mp.sigma L.mp.intr L.mp.divr T ω ∂P - K)|
      ≤ Spec.discount L.mp.intr T * S * ((L.mp.intr - L.mp.divr) * T) ^ 2 := by
  unfold price at hc hp
  simp only [bind, Except.bind, pure, Except.pure] at hc hp
  rcases him : (M.zerosImag L.nu (L.nEig + 1)).mapM (fun p => L.elementImag M (L.mp.sigma ^ 2 * T / 4) p (L.mp.sigma ^ 2 * T / 4 * K / S)) with e | im
  · rw [him] at hc; simp at hc
  rcases hre : L.zerosReal.mapM (fun q => L.elementReal M (L.mp.sigma ^ 2 * T / 4) q (L.mp.sigma ^ 2 * T / 4 * K / S)) with e | re
  · rw [him] at hc; simp only [hre] at hc; simp at hc
  rw [him] at hc hp
  simp only [hre] at hc hp
  rw [if_pos (by norm_num), Except.ok.injEq] at hc
  rw [if_neg (by norm_num), Except.ok.injEq] at hp
  rw [← hc, ← hp, if_pos hg, ← (price_mean_correct hB L.mp hT).1]
  show |_ - _ - Spec.discount L.mp.intr T * (S * exprel ((L.mp.intr - L.mp.divr) * T) - K)| ≤ _
  rw [MParams.df_eq_spec]
  obtain ⟨x, hx⟩ : ∃ x, x = (L.mp.intr - L.mp.divr) * T := ⟨_, rfl⟩
  rw [← hx] at hg ⊢
  have hb : |1 + x / 2 - exprel x| ≤ x ^ 2 := by
    unfold exprel
    split_ifs with h0
    · rw [h0]; norm_num
    · have h1 := Real.exp_bound (x := x) (by linarith [hg, show (1e-8:ℝ) ≤ 1 by norm_num]) (n := 3) (by norm_num)
      simp only [Finset.sum_range_succ, Finset.sum_range_zero, Nat.factorial] at h1
      norm_num at h1
      have e : 1 + x / 2 - (exp x - 1) / x = -(exp x - (1 + x + x ^ 2 / 2)) / x := by field_simp; ring
      rw [e, abs_div, abs_neg, div_le_iff₀ (abs_pos.2 h0)]
      refine h1.trans ?_
      rw [← sq_abs]
      nlinarith [pow_pos (abs_pos.2 h0) 3]
  have hd : 0 < Spec.discount L.mp.intr T := exp_pos _
  generalize Spec.discount L.mp.intr T = d at *
  have e : d * (S / (L.mp.sigma ^ 2 * T / 4) * (im.sum + re.sum).re + (S * (1 + x / 2) - K)) - d * (S / (L.mp.sigma ^ 2 * T / 4) * (im.sum + re.sum).re) - d * (S * exprel x - K)
      = d * S * (1 + x / 2 - exprel x) := by ring
  rw [e, abs_mul, abs_of_pos (by positivity)]
  exact mul_le_mul_of_nonneg_left hb (by positivity)

end Linetsky

/-! ### `BsmContinuousAsianJu2002` -/

namespace Ju

/-- **C63.** The two moments matched by `BsmContinuousAsianJu2002` are the first two moments of the average price, also for `r = q`. -/
theorem moments_correct (hB : Spec.IsBM P B) (m : MParams) (hw : m.intr - m.divr + m.sigma ^ 2 ≠ 0) (S : ℝ) {T : ℝ} (hT : 0 < T) :
    u1 m S T = ∫ ω, S * Spec.average B m.sigma m.intr m.divr T ω ∂P ∧ u2 m S T = ∫ ω, (S * Spec.average B m.sigma m.intr m.divr T ω) ^ 2 ∂P := by
  constructor
  · rw [integral_const_mul, ← (price_mean_correct hB m hT).1]
    rfl
  · simp only [mul_pow]
    rw [integral_const_mul, (mom_avg hB m.sigma m.intr m.divr hT 2).2, mom_two _ _ _ hw]
    unfold u2
    field_simp

/-- **C63.** Put-call parity of `BsmContinuousAsianJu2002.price`. -/
theorem parity (hB : Spec.IsBM P B) (m : MParams) (K S : ℝ) {T : ℝ} (hT : 0 < T) :
    Spec.Parity (price m K S T 1) (price m K S T (-1)) (Spec.discount m.intr T) (∫ ω, S * Spec.average B m.sigma m.intr m.divr T ω ∂P) K := by
  have h1 : ∫ ω, S * Spec.average B m.sigma m.intr m.divr T ω ∂P = u1 m S T := by
    rw [integral_const_mul, ← (price_mean_correct hB m hT).1]
    rfl
  rw [h1]
  unfold Spec.Parity price Spec.discount
  rw [if_pos rfl, if_neg (by norm_num), if_pos rfl, neg_mul]
  ring

/-- The lognormal density of `y = log A` matched by the approximation, as a function of the log price. -/
noncomputable def logDensity (m : MParams) (S T y : ℝ) : ℝ :=
  npdf ((y - (2 * log (u1 m S T) - 0.5 * log (u2 m S T))) / √(log (u2 m S T) - 2 * log (u1 m S T))) / √(log (u2 m S T) - 2 * log (u1 m S T))

lemma hasDerivAt_logDensity (m : MParams) (S T y : ℝ) {M V : ℝ} (hM : M = 2 * log (u1 m S T) - 0.5 * log (u2 m S T)) (hV : V = log (u2 m S T) - 2 * log (u1 m S T)) (hV0 : 0 < V) :
    HasDerivAt (logDensity m S T) ((M - y) / V * logDensity m S T y) y := by
  have e : logDensity m S T = fun y => npdf ((y - M) / √V) / √V := by funext y; unfold logDensity; rw [hM, hV]
  rw [e]
  have hs := sqrt_pos.2 hV0
  have h1 : HasDerivAt (fun y : ℝ => (y - M) / √V) (1 / √V) y := ((hasDerivAt_id' y).sub_const M).div_const _
  have h2 := ((hasDerivAt_npdf ((y - M) / √V)).comp y h1).div_const (√V)
  refine h2.congr_deriv ?_
  beta_reduce
  generalize npdf ((y - M) / √V) = g
  have hq : V = √V ^ 2 := (sq_sqrt hV0.le).symm
  generalize √V = q at *
  rw [hq]
  field_simp
  ring

/-- **C63.** The call of `BsmContinuousAsianJu2002`: the discounted expected payoff of the lognormal variable with the first two moments of the average (see `moments_correct`), plus the
strike times the combination `z1 p + z2 p' + z3 p''` of the lognormal log-density `p` and its derivatives at the log strike. -/
theorem call_value (m : MParams) {K S T : ℝ} (hK : 0 < K) (hu : 0 < u1 m S T) (hu2 : u1 m S T ^ 2 < u2 m S T) :
    ∃ s, 0 < s ∧ Spec.gaussE (fun z => Spec.gbm (u1 m S T) s z) = u1 m S T ∧ Spec.gaussE (fun z => Spec.gbm (u1 m S T) s z ^ 2) = u2 m S T ∧
      (∀ y, HasDerivAt ncdf (logDensity m S T y * s) ((y - (log (u1 m S T) - s ^ 2 / 2)) / s)) ∧
      price m K S T 1 = Spec.discount m.intr T * (Spec.gaussE (fun z => Spec.payoff 1 K (Spec.gbm (u1 m S T) s z))
        + K * (z1 m T * logDensity m S T (log K) + z2 m T * deriv (logDensity m S T) (log K) + z3 m T * deriv (deriv (logDensity m S T)) (log K))) := by
  obtain ⟨V, hV⟩ : ∃ V, V = log (u2 m S T) - 2 * log (u1 m S T) := ⟨_, rfl⟩
  obtain ⟨M, hM⟩ : ∃ M, M = 2 * log (u1 m S T) - 0.5 * log (u2 m S T) := ⟨_, rfl⟩
  have hV0 : 0 < V := by
    have := log_lt_log (by positivity) hu2
    rw [log_pow] at this
    push_cast at this
    linarith
  have hs := sqrt_pos.2 hV0
  have hMV : M = log (u1 m S T) - V / 2 := by rw [hM, hV]; norm_num; ring
  have hsq := sq_sqrt hV0.le
  have hd1 : deriv (logDensity m S T) = fun y => (M - y) / V * logDensity m S T y := funext fun y => (hasDerivAt_logDensity m S T y hM hV hV0).deriv
  have hd2 : deriv (fun y => (M - y) / V * logDensity m S T y) (log K) = ((log K - M) * (log K - M) / V / V - 1 / V) * logDensity m S T (log K) := by
    have h1 : HasDerivAt (fun y : ℝ => (M - y) / V) (-1 / V) (log K) := ((hasDerivAt_id' (log K)).const_sub M).div_const V
    rw [(h1.fun_mul (hasDerivAt_logDensity m S T (log K) hM hV hV0)).deriv]
    field_simp
    ring
  refine ⟨√V, hs, ?_, ?_, ?_, ?_⟩
  · exact Basket.gaussE_gbm_one _ _
  · have e := gaussE_gbm_pow (√V) 2
    have e2 : (fun z => Spec.gbm (u1 m S T) (√V) z ^ 2) = fun z => u1 m S T ^ 2 * Spec.gbm 1 (√V) z ^ 2 := by
      funext z; unfold Spec.gbm; ring
    unfold Spec.gaussE at e ⊢
    rw [e2, integral_const_mul, e, hsq]
    norm_num
    rw [hV, exp_sub, exp_log (by nlinarith [sq_nonneg (u1 m S T)]), two_mul, exp_add, exp_log hu]
    field_simp
  · intro y
    have h := hasDerivAt_ncdf ((y - (log (u1 m S T) - √V ^ 2 / 2)) / √V)
    refine h.congr_deriv ?_
    unfold logDensity
    rw [← hV, ← hM, hMV, hsq]
    field_simp
  · unfold price
    rw [if_pos rfl, gaussE_black (Or.inl rfl) hu hK hs, hd1, hd2]
    unfold bc
    simp only
    rw [← hV, ← hM]
    have hy1 : (M - log K) / √V + √V = bd1 (u1 m S T) K (√V) := by
      unfold bd1
      rw [hMV, log_div hu.ne' hK.ne']
      rw [← hsq]
      rw [sqrt_sq hs.le]
      field_simp
      ring
    have hy2 : (M - log K) / √V + √V - √V = bd2 (u1 m S T) K (√V) := by rw [hy1]; have := bd1_sub (u1 m S T) K (√V); linarith
    rw [hy2, hy1]
    have hdf : exp (-m.intr * T) = Spec.discount m.intr T := by unfold Spec.discount; rw [neg_mul]
    rw [hdf]
    unfold black
    have hld : npdf ((log K - M) / √V) / √V = logDensity m S T (log K) := by unfold logDensity; rw [← hV, ← hM]
    rw [one_mul, one_mul, one_mul, ← hld]
    ring

/-- **C63 (disagreement).** `BsmContinuousAsianJu2002` does not inherit from a parameter class: every attempt to construct it with parameters raises `TypeError`. -/
theorem construct_fails (args : List Val) (kw : List (String × Val)) (h : args ≠ [] ∨ kw ≠ []) : constructPos cls args kw = .error .typeError := by
  unfold constructPos
  by_cases ha : args = []
  · subst ha
    obtain ⟨p, l, rfl⟩ := List.exists_cons_of_ne_nil (h.resolve_left (by simp))
    simp [positionalNames, cls, construct]
  · rw [if_pos]
    simp only [positionalNames, cls, List.filter_nil, List.map_nil, List.length_nil]
    exact List.length_pos_iff.2 ha

/-- **C63 (disagreement).** For an option type other than `1` and `-1` the returned price is `-1`. -/
theorem other_cp (m : MParams) (K S T : ℝ) {cp : ℝ} (h : ¬ Spec.IsCp cp) : price m K S T cp = -1 := by
  unfold price
  unfold Spec.IsCp at h
  push Not at h
  rw [if_neg h.1, if_neg h.2]

/-- The hypotheses of `call_value` and `moments_correct` are met. -/
example : 0 < u1 exA 1 1 ∧ u1 exA 1 1 ^ 2 < u2 exA 1 1 ∧ exA.intr - exA.divr + exA.sigma ^ 2 ≠ 0 := by
  have hl : 0 < log 2 := log_pos (by norm_num)
  have hx : exprel (log 2) = 1 / log 2 := by
    unfold exprel; rw [if_neg hl.ne', exp_log (by norm_num)]; norm_num
  have hx3 : exprel (3 * log 2) = 7 / (3 * log 2) := by
    unfold exprel
    rw [if_neg (by positivity), show 3 * log 2 = ((3:ℕ):ℝ) * log 2 by norm_num, exp_nat_mul, exp_log (by norm_num)]
    norm_num
  have e1 : u1 exA 1 1 = 1 / log 2 := by unfold u1 exA; simp [hx]
  have e2 : u2 exA 1 1 = 4 / 3 / log 2 ^ 2 := by
    unfold u2 exA
    simp only [sq_sqrt hl.le, sub_zero, mul_one]
    rw [show 2 * log 2 + log 2 = 3 * log 2 by ring, hx, hx3]
    field_simp
    norm_num
  refine ⟨by rw [e1]; positivity, ?_, ?_⟩
  · rw [e1, e2, div_pow, one_pow, div_lt_div_iff_of_pos_right (by positivity)]; norm_num
  · unfold exA; simp only [sq_sqrt hl.le]; linarith

end Ju

end Asian

end PyFENG
