import Verif.Props.SabrMom
import Verif.Lemmas.MgfUniq
import Mathlib.Probability.Kernel.CondDistrib

/-!
# C96: moments of the SABR average variance conditional on the terminal volatility
-/

namespace PyFENG

open MeasureTheory ProbabilityTheory Real Set
open scoped NNReal

namespace Sabr

/-! ## An exponential integral of differences of normal probabilities -/

lemma ncdf_sub_eq (z κ : ℝ) : ncdf (z + κ) - ncdf (z - κ) = ∫ u in (-κ)..κ, npdf (z + u) := by
  have h := intervalIntegral.integral_eq_sub_of_hasDerivAt (f := fun u => ncdf (z + u)) (f' := fun u => npdf (z + u)) (a := -κ) (b := κ)
    (fun u _ => by simpa using (hasDerivAt_ncdf (z + u)).comp_const_add z u) ((continuous_npdf.comp (by fun_prop)).intervalIntegrable _ _)
  rw [h, ← sub_eq_add_neg]

lemma ncdf_sub_abs (z κ : ℝ) : ncdf (-|z| + κ) - ncdf (-|z| - κ) = ncdf (z + κ) - ncdf (z - κ) := by
  rcases abs_cases z with ⟨h, _⟩ | ⟨h, _⟩
  · rw [h]
    have h1 := ncdf_neg (z - κ)
    have h2 := ncdf_neg (z + κ)
    rw [show -z + κ = -(z - κ) by ring, show -z - κ = -(z + κ) by ring, h1, h2]
    ring
  · rw [h, neg_neg]

lemma exp_mul_npdf (β z u : ℝ) : exp (β * z) * npdf (z + u) = exp (β ^ 2 / 2 - β * u) * npdf (z + (u - β)) := by
  unfold npdf
  rw [← mul_div_assoc, ← mul_div_assoc, ← exp_add, ← exp_add]
  congr 2
  ring

lemma integral_exp_npdf (β u : ℝ) : Integrable (fun z => exp (β * z) * npdf (z + u)) ∧ ∫ z, exp (β * z) * npdf (z + u) = exp (β ^ 2 / 2 - β * u) := by
  simp_rw [exp_mul_npdf]
  have hi : Integrable fun z => npdf (z + (u - β)) := integrable_npdf.comp_add_right _
  refine ⟨hi.const_mul _, ?_⟩
  rw [integral_const_mul, integral_add_right_eq_self (fun z => npdf z) (u - β), integral_npdf, mul_one]

lemma integral_exp_ncdf_sub {κ β : ℝ} (hκ : 0 ≤ κ) :
    Integrable (fun z => exp (β * z) * (ncdf (z + κ) - ncdf (z - κ))) ∧
    ∫ z, exp (β * z) * (ncdf (z + κ) - ncdf (z - κ)) = ∫ u in (-κ)..κ, exp (β ^ 2 / 2 - β * u) := by
  have hle : -κ ≤ κ := by linarith
  have hmeas : Measurable fun p : ℝ × ℝ => exp (β * p.2) * npdf (p.2 + p.1) := by
    have : Continuous fun p : ℝ × ℝ => exp (β * p.2) * npdf (p.2 + p.1) := by
      have := continuous_npdf; fun_prop
    exact this.measurable
  have hn : ∀ u z, ‖exp (β * z) * npdf (z + u)‖ = exp (β * z) * npdf (z + u) := fun u z => by
    rw [norm_eq_abs, abs_of_pos (mul_pos (exp_pos _) (npdf_pos _))]
  have hint : Integrable (Function.uncurry fun u z => exp (β * z) * npdf (z + u)) ((volume.restrict (Ioc (-κ) κ)).prod volume) := by
    refine (integrable_prod_iff (f := fun p : ℝ × ℝ => exp (β * p.2) * npdf (p.2 + p.1)) hmeas.aestronglyMeasurable).2 ?_
    refine ⟨Filter.Eventually.of_forall fun u => (integral_exp_npdf β u).1, ?_⟩
    simp only [Function.uncurry, hn, (integral_exp_npdf β _).2]
    have : Continuous fun u => exp (β ^ 2 / 2 - β * u) := by fun_prop
    exact (this.intervalIntegrable (-κ) κ).1
  have e : ∀ z, exp (β * z) * (ncdf (z + κ) - ncdf (z - κ)) = ∫ u in Ioc (-κ) κ, exp (β * z) * npdf (z + u) := fun z => by
    rw [ncdf_sub_eq, intervalIntegral.integral_of_le hle, integral_const_mul]
  simp_rw [e]
  refine ⟨hint.integral_prod_right, ?_⟩
  rw [← integral_integral_swap hint, intervalIntegral.integral_of_le hle]
  simp only [(integral_exp_npdf β _).2]

lemma integral_exp_ncdf_val {κ β : ℝ} (hκ : 0 ≤ κ) (hβ : β ≠ 0) :
    ∫ z, exp (β * z) * (ncdf (z + κ) - ncdf (z - κ)) = (exp (β ^ 2 / 2 + β * κ) - exp (β ^ 2 / 2 - β * κ)) / β := by
  rw [(integral_exp_ncdf_sub hκ).2]
  have h := intervalIntegral.integral_eq_sub_of_hasDerivAt (f := fun u => -exp (β ^ 2 / 2 - β * u) / β) (f' := fun u => exp (β ^ 2 / 2 - β * u)) (a := -κ) (b := κ)
    (fun u _ => by
      have : HasDerivAt (fun u => β ^ 2 / 2 - β * u) (-β) u := by
        simpa using ((hasDerivAt_id' u).const_mul β).const_sub (β ^ 2 / 2)
      refine (this.exp.neg.div_const β).congr_deriv ?_
      field_simp) (Continuous.intervalIntegrable (by fun_prop) _ _)
  rw [h, mul_neg, sub_neg_eq_add]
  ring

/-! ## Exponential moments of the conditional formulas -/

/-- `exp(c²/2 + c s p + (p² - p) s²/2)`. -/
noncomputable def Y (c s p : ℝ) : ℝ := exp (c ^ 2 / 2 + c * s * p + (p ^ 2 - p) * s ^ 2 / 2)

lemma gauss_mfn {s : ℝ} {k : ℕ} (hk : 0 < k) (hs : 0.01 < k * s) (j : ℕ) (c : ℝ) :
    Integrable (fun x => exp (s * (x - s / 2)) ^ j * condAvgvarMfn (x - s / 2) (k * s) * exp (c * x)) (gaussianReal 0 1) ∧
    (2 * c + (2 * j - 1) * s ≠ 0 →
      ∫ x, exp (s * (x - s / 2)) ^ j * condAvgvarMfn (x - s / 2) (k * s) * exp (c * x) ∂(gaussianReal 0 1) =
        (Y c s (j + k) - Y c s (j - k)) / (k * s * (2 * c + (2 * j - 1) * s))) := by
  have hks : 0 < k * s := by norm_num at hs; linarith
  have e : ∀ x, npdf x * (exp (s * (x - s / 2)) ^ j * condAvgvarMfn (x - s / 2) (k * s) * exp (c * x)) =
      (fun z => (1 / (2 * (k * s)) * exp ((k * s) ^ 2 / 2 - s ^ 2 / 8 + c * s / 2)) *
        (exp ((c + (j - 1 / 2) * s) * z) * (ncdf (z + k * s) - ncdf (z - k * s)))) (x - s / 2) := by
    intro x
    unfold condAvgvarMfn npdf
    rw [if_pos (by rw [abs_of_pos hks]; exact hs)]
    simp only
    rw [ncdf_sub_abs]
    generalize ncdf _ - ncdf _ = d
    have e1 : √(π / 2) / √(2 * π) = 1 / 2 := by
      rw [← sqrt_div (by positivity), show π / 2 / (2 * π) = (1 / 2) ^ 2 by field_simp, sqrt_sq (by norm_num)]
    have e2 : exp (-x ^ 2 / 2) * (exp (s * (x - s / 2)) ^ j * exp (((x - s / 2) ^ 2 + (k * s) ^ 2) / 2) * exp (c * x)) =
        exp ((k * s) ^ 2 / 2 - s ^ 2 / 8 + c * s / 2) * exp ((c + (j - 1 / 2) * s) * (x - s / 2)) := by
      rw [← exp_nat_mul, ← exp_add, ← exp_add, ← exp_add, ← exp_add]
      congr 1
      ring
    calc exp (-x ^ 2 / 2) / √(2 * π) * (exp (s * (x - s / 2)) ^ j * (√(π / 2) / (k * s) * d * exp (((x - s / 2) ^ 2 + (k * s) ^ 2) / 2)) * exp (c * x))
        = (√(π / 2) / √(2 * π)) / (k * s) * d *
          (exp (-x ^ 2 / 2) * (exp (s * (x - s / 2)) ^ j * exp (((x - s / 2) ^ 2 + (k * s) ^ 2) / 2) * exp (c * x))) := by ring
      _ = _ := by rw [e1, e2]; field_simp
  constructor
  · rw [integrable_gauss_iff]
    simp_rw [e]
    exact (((integral_exp_ncdf_sub hks.le).1).const_mul _).comp_sub_right _
  · intro hβ
    have hβ' : c + (j - 1 / 2) * s ≠ 0 := fun h => hβ (by linear_combination 2 * h)
    rw [integral_gauss]
    simp_rw [e]
    rw [integral_sub_right_eq_self (fun z => (1 / (2 * (k * s)) * exp ((k * s) ^ 2 / 2 - s ^ 2 / 8 + c * s / 2)) *
        (exp ((c + (j - 1 / 2) * s) * z) * (ncdf (z + k * s) - ncdf (z - k * s)))) (s / 2), integral_const_mul, integral_exp_ncdf_val hks.le hβ']
    have y1 : Y c s (j + k) = exp ((k * s) ^ 2 / 2 - s ^ 2 / 8 + c * s / 2) * exp ((c + (j - 1 / 2) * s) ^ 2 / 2 + (c + (j - 1 / 2) * s) * (k * s)) := by
      unfold Y; rw [← exp_add]; congr 1; ring
    have y2 : Y c s (j - k) = exp ((k * s) ^ 2 / 2 - s ^ 2 / 8 + c * s / 2) * exp ((c + (j - 1 / 2) * s) ^ 2 / 2 - (c + (j - 1 / 2) * s) * (k * s)) := by
      unfold Y; rw [← exp_add]; congr 1; ring
    rw [y1, y2, show 2 * c + (2 * (j:ℝ) - 1) * s = 2 * (c + (j - 1 / 2) * s) by ring]
    generalize c + ((j:ℝ) - 1 / 2) * s = β at *
    field_simp

/-- `rate * T`, in terms of `c = b √T` and `s = vov √T`. -/
noncomputable def rho' (c s : ℝ) (i : ℕ) : ℝ := c ^ 2 / 2 + 2 * i * c * s + (2 * i ^ 2 - i) * s ^ 2

lemma exp_rho (c s : ℝ) (i : ℕ) : exp (rho' c s i) = Y c s (2 * i) := by
  unfold rho' Y; congr 1; ring

lemma rho_sub (c s : ℝ) (i j : ℕ) : rho' c s j - rho' c s i = ((j:ℝ) - i) * s * (2 * c + (2 * (i + j) - 1) * s) := by
  unfold rho'; ring

lemma rate_rho (vov b : ℝ) {T : ℝ} (hT : 0 < T) (i : ℕ) :
    BmExp.rate (2 * vov) (-vov ^ 2) b i = rho' (b * √T) (vov * √T) i / T := by
  unfold BmExp.rate rho'
  have h := sq_sqrt hT.le
  rw [eq_div_iff hT.ne']
  linear_combination (-(b ^ 2 / 2 + 2 * i * b * vov + (2 * i ^ 2 - i) * vov ^ 2)) * h

/-- The values of `c` at which two exponents coincide. -/
def exc (s : ℝ) : Set ℝ := range fun q : ℕ => -((2 * (q:ℝ) - 1) * s) / 2

lemma countable_exc (s : ℝ) : (exc s).Countable := countable_range _

lemma ne_of_notMem {s c : ℝ} (hc : c ∉ exc s) (q : ℕ) : 2 * c + (2 * q - 1) * s ≠ 0 := by
  intro h
  refine hc ⟨q, ?_⟩
  simp only
  linear_combination -h / 2

lemma mom_rho {vov b T : ℝ} (hT : 0 < T) (hv : 0 < vov) (hb : ∀ q : ℕ, 2 * (b * √T) + (2 * q - 1) * (vov * √T) ≠ 0) (n : ℕ) :
    BmExp.mom (2 * vov) (-vov ^ 2) n b T / T ^ n = n.factorial * ∑ j ∈ Finset.range (n + 1), Y (b * √T) (vov * √T) (2 * j) /
      ∏ i ∈ (Finset.range (n + 1)).erase j, (((j:ℝ) - i) * (vov * √T) * (2 * (b * √T) + (2 * (i + j) - 1) * (vov * √T))) := by
  have hsT : 0 < √T := sqrt_pos.2 hT
  have hinj : Set.InjOn (BmExp.rate (2 * vov) (-vov ^ 2) b) (Finset.range (n + 1)) := by
    intro i _ j _ h
    rw [rate_rho vov b hT, rate_rho vov b hT, div_left_inj' hT.ne'] at h
    have h0 : rho' (b * √T) (vov * √T) i - rho' (b * √T) (vov * √T) j = 0 := sub_eq_zero.2 h
    rw [rho_sub] at h0
    have h1 := hb (j + i)
    push_cast at h1
    have h2 : vov * √T ≠ 0 := (mul_pos hv hsT).ne'
    have h3 : (i:ℝ) - j = 0 := by
      rcases mul_eq_zero.1 h0 with h4 | h4
      · rcases mul_eq_zero.1 h4 with h5 | h5
        · exact h5
        · exact absurd h5 h2
      · exact absurd h4 h1
    exact_mod_cast sub_eq_zero.1 h3
  rw [BmExp.mom_closed _ _ _ _ hinj, mul_div_assoc, Finset.sum_div]
  congr 1
  refine Finset.sum_congr rfl fun j hj => ?_
  have hcard : ((Finset.range (n + 1)).erase j).card = n := by rw [Finset.card_erase_of_mem hj, Finset.card_range]; rfl
  simp only [rate_rho vov b hT]
  rw [div_mul_cancel₀ _ hT.ne', exp_rho]
  have e : ∏ i ∈ (Finset.range (n + 1)).erase j, (rho' (b * √T) (vov * √T) j / T - rho' (b * √T) (vov * √T) i / T) =
      (∏ i ∈ (Finset.range (n + 1)).erase j, (((j:ℝ) - i) * (vov * √T) * (2 * (b * √T) + (2 * (i + j) - 1) * (vov * √T)))) / T ^ n := by
    simp only [← sub_div, rho_sub]
    rw [Finset.prod_div_distrib, Finset.prod_const, hcard]
  rw [e]
  field_simp

lemma gauss_comb {s : ℝ} (hs : 0.01 < s) {N : ℕ} (a : Fin N → ℝ) (jj kk : Fin N → ℕ) (hk : ∀ i, 0 < kk i) {F : ℝ → ℝ}
    (hF : ∀ x, F x = ∑ i, a i * (exp (s * (x - s / 2)) ^ jj i * condAvgvarMfn (x - s / 2) (kk i * s))) (c : ℝ) :
    Integrable (fun x => F x * exp (c * x)) (gaussianReal 0 1) ∧
    (c ∉ exc s → ∫ x, F x * exp (c * x) ∂(gaussianReal 0 1) =
      ∑ i, a i * ((Y c s (jj i + kk i) - Y c s (jj i - kk i)) / (kk i * s * (2 * c + (2 * jj i - 1) * s)))) := by
  have hs0 : 0 < s := by norm_num at hs; linarith
  have hks : ∀ i, 0.01 < (kk i : ℝ) * s := fun i => by
    have : (1:ℝ) ≤ kk i := by exact_mod_cast hk i
    nlinarith
  have e : ∀ x, F x * exp (c * x) = ∑ i, a i * (exp (s * (x - s / 2)) ^ jj i * condAvgvarMfn (x - s / 2) (kk i * s) * exp (c * x)) := fun x => by
    rw [hF, Finset.sum_mul]
    exact Finset.sum_congr rfl fun i _ => by ring
  simp_rw [e]
  refine ⟨integrable_finsetSum _ fun i _ => (gauss_mfn (hk i) (hks i) (jj i) c).1.const_mul _, fun hc => ?_⟩
  rw [integral_finsetSum _ fun i _ => (gauss_mfn (hk i) (hks i) (jj i) c).1.const_mul _]
  refine Finset.sum_congr rfl fun i _ => ?_
  rw [integral_const_mul, (gauss_mfn (hk i) (hks i) (jj i) c).2 (ne_of_notMem hc _)]

section Ids

variable {vov T c : ℝ} (hT : 0 < T) (hv : 0 < vov) (hbig : 0.01 < vov * √T)

include hT hv

lemma momc (hc : c ∉ exc (vov * √T)) (n : ℕ) :
    BmExp.mom (2 * vov) (-vov ^ 2) n (c / √T) T / T ^ n = n.factorial * ∑ j ∈ Finset.range (n + 1), Y c (vov * √T) (2 * j) /
      ∏ i ∈ (Finset.range (n + 1)).erase j, (((j:ℝ) - i) * (vov * √T) * (2 * c + (2 * (i + j) - 1) * (vov * √T))) := by
  have hsT : √T ≠ 0 := (sqrt_pos.2 hT).ne'
  have e : c / √T * √T = c := div_mul_cancel₀ _ hsT
  have := mom_rho (b := c / √T) hT hv (by rw [e]; exact ne_of_notMem hc) n
  rw [e] at this
  exact this

include hbig

lemma gauss_h1 (c : ℝ) : Integrable (fun x => (condAvgvarMnc (vov * √T) (x - vov * √T / 2)).1 * exp (c * x)) (gaussianReal 0 1) ∧
    (c ∉ exc (vov * √T) → ∫ x, (condAvgvarMnc (vov * √T) (x - vov * √T / 2)).1 * exp (c * x) ∂(gaussianReal 0 1) =
      BmExp.mom (2 * vov) (-vov ^ 2) 1 (c / √T) T / T ^ 1) := by
  have h := gauss_comb hbig (N := 1) ![1] ![1] ![1] (by intro i; fin_cases i <;> simp) (F := fun x => (condAvgvarMnc (vov * √T) (x - vov * √T / 2)).1)
    (by intro x; simp [condAvgvarMnc, condAvgvarRaw]; ring) c
  refine ⟨h.1, fun hc => ?_⟩
  rw [h.2 hc, momc hT hv hc]
  have s2 : (Finset.range 2).erase 0 = {1} := by decide
  have s2' : (Finset.range 2).erase 1 = {0} := by decide
  have hs : 0 < vov * √T := by norm_num at hbig; linarith
  have n1 := ne_of_notMem hc 1
  simp only [Finset.sum_range_succ, Finset.sum_range_zero, zero_add, s2, s2', Finset.prod_singleton, Nat.factorial]
  generalize vov * √T = s at *
  norm_num at n1 ⊢
  field_simp
  ring

lemma gauss_h2 (c : ℝ) : Integrable (fun x => (condAvgvarMnc (vov * √T) (x - vov * √T / 2)).2.1 * exp (c * x)) (gaussianReal 0 1) ∧
    (c ∉ exc (vov * √T) → ∫ x, (condAvgvarMnc (vov * √T) (x - vov * √T / 2)).2.1 * exp (c * x) ∂(gaussianReal 0 1) =
      BmExp.mom (2 * vov) (-vov ^ 2) 2 (c / √T) T / T ^ 2) := by
  have hs : 0 < vov * √T := by norm_num at hbig; linarith
  have h := gauss_comb hbig (N := 3) ![1 / ((vov * √T) ^ 2), (-1 / 2) / ((vov * √T) ^ 2), (-1 / 2) / ((vov * √T) ^ 2)] ![2, 3, 1] ![2, 1, 1] (by intro i; fin_cases i <;> simp)
    (F := fun x => (condAvgvarMnc (vov * √T) (x - vov * √T / 2)).2.1)
    (by
      intro x
      simp only [condAvgvarMnc, condAvgvarRaw, Fin.sum_univ_succ, Fin.sum_univ_zero, Matrix.cons_val_zero, Matrix.cons_val_succ, Nat.cast_ofNat, Nat.cast_one, one_mul]
      have he : exp (vov * √T * (x - vov * √T / 2)) ≠ 0 := (exp_pos _).ne'
      generalize exp (vov * √T * (x - vov * √T / 2)) = E at *
      generalize condAvgvarMfn _ _ = u1
      generalize condAvgvarMfn _ (2 * _) = u2
      generalize condAvgvarMfn _ (3 * _) = u3
      generalize condAvgvarMfn _ (4 * _) = u4
      generalize vov * √T = s at *
      field_simp
      ring) c
  refine ⟨h.1, fun hc => ?_⟩
  rw [h.2 hc, momc hT hv hc]
  have e0 : (Finset.range 3).erase 0 = {1, 2} := by decide
  have e1 : (Finset.range 3).erase 1 = {0, 2} := by decide
  have e2 : (Finset.range 3).erase 2 = {0, 1} := by decide
  have n1 := ne_of_notMem hc 1
  have n2 := ne_of_notMem hc 2
  have n3 := ne_of_notMem hc 3
  simp only [Finset.sum_range_succ, Finset.sum_range_zero, zero_add, e0, e1, e2, Nat.factorial, Fin.sum_univ_succ, Fin.sum_univ_zero,
    Matrix.cons_val_zero, Matrix.cons_val_succ]
  generalize vov * √T = s at *
  norm_num at n1 n2 n3 ⊢
  obtain ⟨d1, h1⟩ : ∃ d, d = 2 * c + s := ⟨_, rfl⟩
  obtain ⟨d2, h2⟩ : ∃ d, d = 2 * c + 3 * s := ⟨_, rfl⟩
  obtain ⟨d3, h3⟩ : ∃ d, d = 2 * c + 5 * s := ⟨_, rfl⟩
  simp only [← h1, ← h2, ← h3] at n1 n2 n3 ⊢
  generalize Y c s 0 = y0
  generalize Y c s 2 = y2
  generalize Y c s 4 = y4
  field_simp
  subst h1 h2 h3
  ring

lemma gauss_h3 (c : ℝ) : Integrable (fun x => (condAvgvarMnc (vov * √T) (x - vov * √T / 2)).2.2.1 * exp (c * x)) (gaussianReal 0 1) ∧
    (c ∉ exc (vov * √T) → ∫ x, (condAvgvarMnc (vov * √T) (x - vov * √T / 2)).2.2.1 * exp (c * x) ∂(gaussianReal 0 1) =
      BmExp.mom (2 * vov) (-vov ^ 2) 3 (c / √T) T / T ^ 3) := by
  have hs : 0 < vov * √T := by norm_num at hbig; linarith
  have h := gauss_comb hbig (N := 6) ![3 / (8 * (vov * √T) ^ 4), (-4) / (8 * (vov * √T) ^ 4), (-4) / (8 * (vov * √T) ^ 4), 1 / (8 * (vov * √T) ^ 4), 3 / (8 * (vov * √T) ^ 4), 1 / (8 * (vov * √T) ^ 4)] ![3, 4, 2, 5, 3, 1] ![3, 2, 2, 1, 1, 1] (by intro i; fin_cases i <;> simp)
    (F := fun x => (condAvgvarMnc (vov * √T) (x - vov * √T / 2)).2.2.1)
    (by
      intro x
      simp only [condAvgvarMnc, condAvgvarRaw, Fin.sum_univ_succ, Fin.sum_univ_zero, Matrix.cons_val_zero, Matrix.cons_val_succ, Nat.cast_ofNat, Nat.cast_one, one_mul]
      have he : exp (vov * √T * (x - vov * √T / 2)) ≠ 0 := (exp_pos _).ne'
      generalize exp (vov * √T * (x - vov * √T / 2)) = E at *
      generalize condAvgvarMfn _ _ = u1
      generalize condAvgvarMfn _ (2 * _) = u2
      generalize condAvgvarMfn _ (3 * _) = u3
      generalize condAvgvarMfn _ (4 * _) = u4
      generalize vov * √T = s at *
      field_simp
      ring) c
  refine ⟨h.1, fun hc => ?_⟩
  rw [h.2 hc, momc hT hv hc]
  have e0 : (Finset.range 4).erase 0 = {1, 2, 3} := by decide
  have e1 : (Finset.range 4).erase 1 = {0, 2, 3} := by decide
  have e2 : (Finset.range 4).erase 2 = {0, 1, 3} := by decide
  have e3 : (Finset.range 4).erase 3 = {0, 1, 2} := by decide
  have n1 := ne_of_notMem hc 1
  have n2 := ne_of_notMem hc 2
  have n3 := ne_of_notMem hc 3
  have n4 := ne_of_notMem hc 4
  have n5 := ne_of_notMem hc 5
  simp only [Finset.sum_range_succ, Finset.sum_range_zero, zero_add, e0, e1, e2, e3, Nat.factorial, Fin.sum_univ_succ, Fin.sum_univ_zero,
    Matrix.cons_val_zero, Matrix.cons_val_succ]
  generalize vov * √T = s at *
  norm_num at n1 n2 n3 n4 n5 ⊢
  obtain ⟨d1, h1⟩ : ∃ d, d = 2 * c + s := ⟨_, rfl⟩
  obtain ⟨d2, h2⟩ : ∃ d, d = 2 * c + 3 * s := ⟨_, rfl⟩
  obtain ⟨d3, h3⟩ : ∃ d, d = 2 * c + 5 * s := ⟨_, rfl⟩
  obtain ⟨d4, h4⟩ : ∃ d, d = 2 * c + 7 * s := ⟨_, rfl⟩
  obtain ⟨d5, h5⟩ : ∃ d, d = 2 * c + 9 * s := ⟨_, rfl⟩
  simp only [← h1, ← h2, ← h3, ← h4, ← h5] at n1 n2 n3 n4 n5 ⊢
  generalize Y c s 0 = y0
  generalize Y c s 2 = y2
  generalize Y c s 4 = y4
  generalize Y c s 6 = y6
  field_simp
  subst h1 h2 h3 h4 h5
  ring

lemma gauss_h4 (c : ℝ) : Integrable (fun x => (condAvgvarMnc (vov * √T) (x - vov * √T / 2)).2.2.2 * exp (c * x)) (gaussianReal 0 1) ∧
    (c ∉ exc (vov * √T) → ∫ x, (condAvgvarMnc (vov * √T) (x - vov * √T / 2)).2.2.2 * exp (c * x) ∂(gaussianReal 0 1) =
      BmExp.mom (2 * vov) (-vov ^ 2) 4 (c / √T) T / T ^ 4) := by
  have hs : 0 < vov * √T := by norm_num at hbig; linarith
  have h := gauss_comb hbig (N := 10) ![2 / (24 * (vov * √T) ^ 6), (-9 / 2) / (24 * (vov * √T) ^ 6), (-9 / 2) / (24 * (vov * √T) ^ 6), 3 / (24 * (vov * √T) ^ 6), 8 / (24 * (vov * √T) ^ 6), 3 / (24 * (vov * √T) ^ 6), (-1 / 2) / (24 * (vov * √T) ^ 6), (-3) / (24 * (vov * √T) ^ 6), (-3) / (24 * (vov * √T) ^ 6), (-1 / 2) / (24 * (vov * √T) ^ 6)] ![4, 5, 3, 6, 4, 2, 7, 5, 3, 1] ![4, 3, 3, 2, 2, 2, 1, 1, 1, 1] (by intro i; fin_cases i <;> simp)
    (F := fun x => (condAvgvarMnc (vov * √T) (x - vov * √T / 2)).2.2.2)
    (by
      intro x
      simp only [condAvgvarMnc, condAvgvarRaw, Fin.sum_univ_succ, Fin.sum_univ_zero, Matrix.cons_val_zero, Matrix.cons_val_succ, Nat.cast_ofNat, Nat.cast_one, one_mul]
      have he : exp (vov * √T * (x - vov * √T / 2)) ≠ 0 := (exp_pos _).ne'
      generalize exp (vov * √T * (x - vov * √T / 2)) = E at *
      generalize condAvgvarMfn _ _ = u1
      generalize condAvgvarMfn _ (2 * _) = u2
      generalize condAvgvarMfn _ (3 * _) = u3
      generalize condAvgvarMfn _ (4 * _) = u4
      generalize vov * √T = s at *
      field_simp
      ring) c
  refine ⟨h.1, fun hc => ?_⟩
  rw [h.2 hc, momc hT hv hc]
  have e0 : (Finset.range 5).erase 0 = {1, 2, 3, 4} := by decide
  have e1 : (Finset.range 5).erase 1 = {0, 2, 3, 4} := by decide
  have e2 : (Finset.range 5).erase 2 = {0, 1, 3, 4} := by decide
  have e3 : (Finset.range 5).erase 3 = {0, 1, 2, 4} := by decide
  have e4 : (Finset.range 5).erase 4 = {0, 1, 2, 3} := by decide
  have n1 := ne_of_notMem hc 1
  have n2 := ne_of_notMem hc 2
  have n3 := ne_of_notMem hc 3
  have n4 := ne_of_notMem hc 4
  have n5 := ne_of_notMem hc 5
  have n6 := ne_of_notMem hc 6
  have n7 := ne_of_notMem hc 7
  simp only [Finset.sum_range_succ, Finset.sum_range_zero, zero_add, e0, e1, e2, e3, e4, Nat.factorial, Fin.sum_univ_succ, Fin.sum_univ_zero,
    Matrix.cons_val_zero, Matrix.cons_val_succ]
  generalize vov * √T = s at *
  norm_num at n1 n2 n3 n4 n5 n6 n7 ⊢
  obtain ⟨d1, h1⟩ : ∃ d, d = 2 * c + s := ⟨_, rfl⟩
  obtain ⟨d2, h2⟩ : ∃ d, d = 2 * c + 3 * s := ⟨_, rfl⟩
  obtain ⟨d3, h3⟩ : ∃ d, d = 2 * c + 5 * s := ⟨_, rfl⟩
  obtain ⟨d4, h4⟩ : ∃ d, d = 2 * c + 7 * s := ⟨_, rfl⟩
  obtain ⟨d5, h5⟩ : ∃ d, d = 2 * c + 9 * s := ⟨_, rfl⟩
  obtain ⟨d6, h6⟩ : ∃ d, d = 2 * c + 11 * s := ⟨_, rfl⟩
  obtain ⟨d7, h7⟩ : ∃ d, d = 2 * c + 13 * s := ⟨_, rfl⟩
  simp only [← h1, ← h2, ← h3, ← h4, ← h5, ← h6, ← h7] at n1 n2 n3 n4 n5 n6 n7 ⊢
  generalize Y c s 0 = y0
  generalize Y c s 2 = y2
  generalize Y c s 4 = y4
  generalize Y c s 6 = y6
  generalize Y c s 8 = y8
  field_simp
  subst h1 h2 h3 h4 h5 h6 h7
  ring

end Ids

section Cond

variable {Ω : Type*} [MeasurableSpace Ω] {P : Measure Ω} {B : ℝ≥0 → Ω → ℝ}

lemma measurable_mfn (k : ℝ) : Measurable fun z => condAvgvarMfn z k := by
  unfold condAvgvarMfn
  have hn : Measurable ncdf := continuous_ncdf.measurable
  by_cases h : |k| > 0.01
  · simp only [if_pos h]
    have h1 : Measurable fun z : ℝ => ncdf (-|z| + k) := hn.comp (by fun_prop)
    have h2 : Measurable fun z : ℝ => ncdf (-|z| - k) := hn.comp (by fun_prop)
    fun_prop
  · simp only [if_neg h]
    fun_prop

lemma measurable_mnc (s : ℝ) : (Measurable fun z => (condAvgvarMnc s z).1) ∧ (Measurable fun z => (condAvgvarMnc s z).2.1) ∧
    (Measurable fun z => (condAvgvarMnc s z).2.2.1) ∧ (Measurable fun z => (condAvgvarMnc s z).2.2.2) := by
  have m1 := measurable_mfn s
  have m2 := measurable_mfn (2 * s)
  have m3 := measurable_mfn (3 * s)
  have m4 := measurable_mfn (4 * s)
  unfold condAvgvarMnc condAvgvarRaw
  simp only
  refine ⟨?_, ?_, ?_, ?_⟩ <;> fun_prop

lemma measurable_vol (hB : Spec.IsBM P B) (vov T : ℝ) : Measurable (Spec.sabrVol B vov T) := by
  have := hB.meas T.toNNReal
  unfold Spec.sabrVol
  fun_prop

lemma measurable_avgVar (hB : Spec.IsBM P B) (vov : ℝ) {T : ℝ} (hT : 0 < T) : Measurable (Spec.sabrAvgVar B vov T) := by
  have h := BmExp.measurable_A hB (2 * vov) (-vov ^ 2) hT.le
  have : Spec.sabrAvgVar B vov T = fun ω => Spec.expFunctional B (2 * vov) (-vov ^ 2) T ω / T := by
    ext ω; exact avgVar_eq vov T ω
  rw [this]
  exact h.div_const _

lemma cond_aux (hB : Spec.IsBM P B) {vov T : ℝ} (hT : 0 < T) (hv : 0 < vov) (n : ℕ) {φ : ℝ → ℝ} (hφ : Measurable φ)
    (h : ∀ c : ℝ, Integrable (fun x => φ (x - vov * √T / 2) * exp (c * x)) (gaussianReal 0 1) ∧
      (c ∉ exc (vov * √T) → ∫ x, φ (x - vov * √T / 2) * exp (c * x) ∂(gaussianReal 0 1) = BmExp.mom (2 * vov) (-vov ^ 2) n (c / √T) T / T ^ n)) :
    (fun ω => φ (log (Spec.sabrVol B vov T ω) / (vov * √T))) =ᵐ[P]
      P[fun ω => Spec.sabrAvgVar B vov T ω ^ n | MeasurableSpace.comap (Spec.sabrVol B vov T) inferInstance] := by
  have := BmExp.isProb hB
  have hsT : 0 < √T := sqrt_pos.2 hT
  have hq : √T * √T = T := mul_self_sqrt hT.le
  set t : ℝ≥0 := T.toNNReal with ht
  have htT : (t : ℝ) = T := Real.coe_toNNReal _ hT.le
  set Z : Ω → ℝ := fun ω => B t ω / √T with hZ
  have hZm : Measurable Z := (hB.meas t).div_const _
  have hlaw : P.map Z = gaussianReal 0 1 := by
    have h1 := (hB.law.hasLaw_eval t).map_eq
    have h2 : Z = (fun x => x / √T) ∘ B t := rfl
    rw [h2, ← Measure.map_map (by fun_prop) (hB.meas t), h1, gaussianReal_map_div_const]
    congr 1
    · simp
    · ext
      push_cast
      rw [htT, sq_sqrt hT.le, div_self hT.ne']
  have hz : ∀ ω, log (Spec.sabrVol B vov T ω) / (vov * √T) = Z ω - vov * √T / 2 := by
    intro ω
    unfold Spec.sabrVol
    rw [log_exp, hZ]
    field_simp
    rw [sq_sqrt hT.le, ← ht]
    ring
  have hcomap : MeasurableSpace.comap (Spec.sabrVol B vov T) inferInstance = MeasurableSpace.comap Z inferInstance := by
    apply le_antisymm
    · have e : Spec.sabrVol B vov T = (fun z => exp (vov * (z * √T) - vov ^ 2 * T / 2)) ∘ Z := by
        ext ω
        simp only [Spec.sabrVol, hZ, Function.comp]
        rw [div_mul_cancel₀ _ hsT.ne']
      rw [e]
      exact (Measurable.comp (by fun_prop) (comap_measurable Z)).comap_le
    · have e : Z = (fun y => log y / (vov * √T) + vov * √T / 2) ∘ Spec.sabrVol B vov T := by
        ext ω
        simp only [Function.comp]
        rw [hz]; ring
      rw [e]
      exact (Measurable.comp (g := fun y => log y / (vov * √T) + vov * √T / 2) (by fun_prop) (comap_measurable (Spec.sabrVol B vov T))).comap_le
  have hmom : ∀ c : ℝ, Integrable (fun ω => Spec.sabrAvgVar B vov T ω ^ n * exp (c * Z ω)) P ∧
      ∫ ω, Spec.sabrAvgVar B vov T ω ^ n * exp (c * Z ω) ∂P = BmExp.mom (2 * vov) (-vov ^ 2) n (c / √T) T / T ^ n := by
    intro c
    have h1 := BmExp.integral_mom hB (2 * vov) (-vov ^ 2) n (c / √T) t
    have e : ∀ ω, Spec.sabrAvgVar B vov T ω ^ n * exp (c * Z ω) = (Spec.expFunctional B (2 * vov) (-vov ^ 2) t ω ^ n * exp (c / √T * B t ω)) / T ^ n := by
      intro ω
      rw [avgVar_eq, htT, hZ, div_pow, show c / √T * B t ω = c * (B t ω / √T) by ring]
      ring
    simp_rw [e]
    refine ⟨h1.1.div_const _, ?_⟩
    rw [integral_div, h1.2, htT]
  simp_rw [hz]
  rw [hcomap]
  have hφ' : Measurable fun x => φ (x - vov * √T / 2) := hφ.comp (by fun_prop)
  have tr : ∀ c : ℝ, Integrable (fun ω => φ (Z ω - vov * √T / 2) * exp (c * Z ω)) P ∧
      ∫ ω, φ (Z ω - vov * √T / 2) * exp (c * Z ω) ∂P = ∫ x, φ (x - vov * √T / 2) * exp (c * x) ∂(gaussianReal 0 1) := by
    intro c
    have hm : Measurable fun x => φ (x - vov * √T / 2) * exp (c * x) := hφ'.mul (by fun_prop)
    constructor
    · have h1 := (h c).1
      rw [← hlaw, integrable_map_measure hm.aestronglyMeasurable hZm.aemeasurable] at h1
      exact h1
    · rw [← hlaw, integral_map hZm.aemeasurable hm.aestronglyMeasurable]
  refine condExp_eq_of_mgf hZm (φ := fun x => φ (x - vov * √T / 2)) ((measurable_avgVar hB vov hT).pow_const n) hφ'
    (fun c => (hmom c).1) (fun c => (tr c).1) (countable_exc (vov * √T)) fun c hc => ?_
  rw [(hmom c).2, (tr c).2, (h c).2 hc]

/-- **C96.** `cond_avgvar_mvsk(vovn, zhat, mnc=True)` at `zhat = log(σ_T/σ_0)/(vov √T)` is, almost surely, the vector of conditional expectations
of the powers 1-4 of the average variance `(1/T)∫_0^T (σ_t/σ_0)² dt` given the terminal volatility: for every Brownian motion, every `vov > 0`
and `T > 0` beyond the threshold at which the code switches to a series. -/
theorem cond_avgvar_mnc_correct (hB : Spec.IsBM P B) {vov T : ℝ} (hT : 0 < T) (hv : 0 < vov) (hbig : 0.01 < vov * √T) :
    (fun ω => (condAvgvarMnc (vov * √T) (log (Spec.sabrVol B vov T ω) / (vov * √T))).1) =ᵐ[P]
      P[fun ω => Spec.sabrAvgVar B vov T ω | MeasurableSpace.comap (Spec.sabrVol B vov T) inferInstance] ∧
    (fun ω => (condAvgvarMnc (vov * √T) (log (Spec.sabrVol B vov T ω) / (vov * √T))).2.1) =ᵐ[P]
      P[fun ω => Spec.sabrAvgVar B vov T ω ^ 2 | MeasurableSpace.comap (Spec.sabrVol B vov T) inferInstance] ∧
    (fun ω => (condAvgvarMnc (vov * √T) (log (Spec.sabrVol B vov T ω) / (vov * √T))).2.2.1) =ᵐ[P]
      P[fun ω => Spec.sabrAvgVar B vov T ω ^ 3 | MeasurableSpace.comap (Spec.sabrVol B vov T) inferInstance] ∧
    (fun ω => (condAvgvarMnc (vov * √T) (log (Spec.sabrVol B vov T ω) / (vov * √T))).2.2.2) =ᵐ[P]
      P[fun ω => Spec.sabrAvgVar B vov T ω ^ 4 | MeasurableSpace.comap (Spec.sabrVol B vov T) inferInstance] := by
  obtain ⟨m1, m2, m3, m4⟩ := measurable_mnc (vov * √T)
  refine ⟨?_, ?_, ?_, ?_⟩
  · simpa only [pow_one] using cond_aux hB hT hv 1 m1 (gauss_h1 hT hv hbig)
  · exact cond_aux hB hT hv 2 m2 (gauss_h2 hT hv hbig)
  · exact cond_aux hB hT hv 3 m3 (gauss_h3 hT hv hbig)
  · exact cond_aux hB hT hv 4 m4 (gauss_h4 hT hv hbig)

/-- **C96.** `cond_avgvar_mvsk(vovn, zhat)` is, almost surely, the mean, scaled variance, skewness and excess kurtosis of the conditional law of the
average variance given the terminal volatility, as soon as `vov² T ≥ 0.01` (below, the code uses truncated expansions). -/
theorem cond_avgvar_mvsk_correct (hB : Spec.IsBM P B) {vov T : ℝ} (hT : 0 < T) (hv : 0 < vov) (hbig : 0.01 ≤ (vov * √T) ^ 2) [IsFiniteMeasure P] :
    ∀ᵐ ω ∂P, Spec.IsScaledMvsk id (condDistrib (Spec.sabrAvgVar B vov T) (Spec.sabrVol B vov T) P (Spec.sabrVol B vov T ω))
      (condAvgvarMvsk (vov * √T) (log (Spec.sabrVol B vov T ω) / (vov * √T))).1
      (condAvgvarMvsk (vov * √T) (log (Spec.sabrVol B vov T ω) / (vov * √T))).2.1
      (condAvgvarMvsk (vov * √T) (log (Spec.sabrVol B vov T ω) / (vov * √T))).2.2.1
      (condAvgvarMvsk (vov * √T) (log (Spec.sabrVol B vov T ω) / (vov * √T))).2.2.2 := by
  have hs0 : 0 < vov * √T := mul_pos hv (sqrt_pos.2 hT)
  have hs1 : 0.01 < vov * √T := by
    norm_num at hbig ⊢
    nlinarith
  obtain ⟨h1, h2, h3, h4⟩ := cond_avgvar_mnc_correct hB hT hv hs1
  have hVm := measurable_vol hB vov T
  have hAm := measurable_avgVar hB vov hT
  have i1 : Integrable (Spec.sabrAvgVar B vov T) P := by simpa using (mom_avg hB vov hT 1).1
  have e1 := condExp_ae_eq_integral_condDistrib hVm hAm.aemeasurable (f := fun y : ℝ => y) (Measurable.stronglyMeasurable (by fun_prop)) i1
  have e2 := condExp_ae_eq_integral_condDistrib hVm hAm.aemeasurable (f := fun y : ℝ => y ^ 2) (Measurable.stronglyMeasurable (by fun_prop)) (mom_avg hB vov hT 2).1
  have e3 := condExp_ae_eq_integral_condDistrib hVm hAm.aemeasurable (f := fun y : ℝ => y ^ 3) (Measurable.stronglyMeasurable (by fun_prop)) (mom_avg hB vov hT 3).1
  have e4 := condExp_ae_eq_integral_condDistrib hVm hAm.aemeasurable (f := fun y : ℝ => y ^ 4) (Measurable.stronglyMeasurable (by fun_prop)) (mom_avg hB vov hT 4).1
  have ii : ∀ n : ℕ, Integrable (fun ω => Spec.sabrAvgVar B vov T ω ^ n) P →
      ∀ᵐ ω ∂P, Integrable (fun y : ℝ => y ^ n) (condDistrib (Spec.sabrAvgVar B vov T) (Spec.sabrVol B vov T) P (Spec.sabrVol B vov T ω)) := by
    intro n hn
    have hm : Measurable fun p : ℝ × ℝ => p.2 ^ n := by fun_prop
    have : Integrable (fun p : ℝ × ℝ => p.2 ^ n) (P.map fun ω => (Spec.sabrVol B vov T ω, Spec.sabrAvgVar B vov T ω)) := by
      rw [integrable_map_measure hm.aestronglyMeasurable (hVm.prodMk hAm).aemeasurable]
      exact hn
    exact this.condDistrib_ae hVm.aemeasurable hAm.aemeasurable
  filter_upwards [h1.trans e1, h2.trans e2, h3.trans e3, h4.trans e4, ii 1 (mom_avg hB vov hT 1).1, ii 2 (mom_avg hB vov hT 2).1,
    ii 3 (mom_avg hB vov hT 3).1, ii 4 (mom_avg hB vov hT 4).1] with ω k1 k2 k3 k4 j1 j2 j3 j4
  set κ := condDistrib (Spec.sabrAvgVar B vov T) (Spec.sabrVol B vov T) P (Spec.sabrVol B vov T ω) with hκ
  generalize log (Spec.sabrVol B vov T ω) / (vov * √T) = z at *
  generalize vov * √T = s at *
  have j1' : Integrable (id : ℝ → ℝ) κ := by simp only [pow_one] at j1; exact j1
  obtain ⟨c2, c3, c4⟩ := centralMoment_raw id κ j1' j2 j3 j4 k1.symm k2.symm k3.symm k4.symm
  have hex : exp (s * z) ≠ 0 := (exp_pos _).ne'
  have hnn : 0 < exp (s * z) := exp_pos _
  have mean : ∫ y, id y ∂κ = (condAvgvarRaw s z).1 * exp (s * z) := k1.symm
  have hneg : ¬ s ^ 2 < 0.01 := not_lt.2 hbig
  unfold condAvgvarMvsk
  simp only [if_neg hneg]
  simp only [condAvgvarMnc] at c2 c3 c4
  generalize condAvgvarRaw s z = r at *
  obtain ⟨r1, r2, r3, r4⟩ := r
  simp only at *
  generalize exp (s * z) = E at *
  have d2 : centralMoment id 2 κ = (r2 - r1 ^ 2) * E ^ 2 := by rw [c2]; ring
  have d3 : centralMoment id 3 κ = (r3 - (3 * r1 * (r2 - r1 ^ 2) + r1 ^ 3)) * E ^ 3 := by rw [c3]; ring
  have d4 : centralMoment id 4 κ = (r4 - (4 * r1 * (r3 - (3 * r1 * (r2 - r1 ^ 2) + r1 ^ 3)) + 6 * r1 ^ 2 * (r2 - r1 ^ 2) + r1 ^ 4)) * E ^ 4 := by rw [c4]; ring
  have hsq : √((r2 - r1 ^ 2) * E ^ 2) = √(r2 - r1 ^ 2) * E := by
    rw [sqrt_mul' _ (by positivity), sqrt_sq hnn.le]
  constructor
  · exact mean
  · rw [mean, d2, mul_pow, mul_div_mul_right _ _ (by positivity)]
  · rw [d2, d3, hsq, show (r2 - r1 ^ 2) * E ^ 2 * (√(r2 - r1 ^ 2) * E) = (r2 - r1 ^ 2) * √(r2 - r1 ^ 2) * E ^ 3 by ring, mul_div_mul_right _ _ (by positivity)]
  · rw [d2, d4, mul_pow, show (E ^ 2) ^ 2 = E ^ 4 by ring, mul_div_mul_right _ _ (by positivity)]

/-- The hypotheses of the two theorems are met: a Brownian motion exists and `vov = T = 1` is beyond both thresholds. -/
example : ∃ (Ω : Type) (_ : MeasurableSpace Ω) (P : Measure Ω) (B : ℝ≥0 → Ω → ℝ), Spec.IsBM P B ∧ (0.01 : ℝ) < 1 * √1 ∧ (0.01 : ℝ) ≤ (1 * √1) ^ 2 := by
  obtain ⟨Ω, m, P, B, h⟩ := Spec.exists_isBM
  exact ⟨Ω, m, P, B, h, by norm_num, by norm_num⟩

end Cond

end Sabr

end PyFENG
