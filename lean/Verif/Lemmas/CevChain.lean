import Verif.Lemmas.Kang
import Verif.Lemmas.Cev

/-!
# Composition of two steps of the absorbed CEV kernel
-/

namespace PyFENG.CevChain

open Real Filter Topology Set MeasureTheory

/-- Kummer's transformation in the terminating case. -/
lemma hasSum_kummer (j : ℕ) : ∀ {nu : ℝ}, 0 < nu → ∀ w : ℝ,
    HasSum (fun n : ℕ => w ^ n / n.factorial * (Real.Gamma (nu + n + j + 1) / Real.Gamma (nu + n + 1)))
      (exp w * Real.Gamma (nu + j + 1) * ∑ i ∈ Finset.range (j + 1), (j.choose i : ℝ) * w ^ i / Real.Gamma (nu + i + 1)) := by
  induction j with
  | zero =>
    intro nu hnu w
    have h := NormedSpace.expSeries_div_hasSum_exp (𝔸 := ℝ) w
    rw [← Real.exp_eq_exp_ℝ] at h
    have hG : ∀ n : ℕ, Real.Gamma (nu + n + 1) ≠ 0 := fun n => (Real.Gamma_pos_of_pos (by positivity)).ne'
    have e : exp w * Real.Gamma (nu + (0:ℕ) + 1) * ∑ i ∈ Finset.range (0 + 1), ((0:ℕ).choose i : ℝ) * w ^ i / Real.Gamma (nu + i + 1) = exp w := by
      have := hG 0
      simp at this
      simp
      field_simp
    rw [e]
    refine h.congr_fun ?_ |> fun x => x
    intro n
    have := hG n
    simp only [Nat.cast_zero, add_zero]
    rw [div_self this, mul_one]
  | succ j ih =>
    intro nu hnu w
    have h1 := (ih hnu w).mul_left (nu + j + 1)
    have h2 := (ih (nu := nu + 1) (by linarith) w).mul_left w
    have h2' : HasSum (fun n : ℕ => w ^ n / n.factorial * (n * (Real.Gamma (nu + n + j + 1) / Real.Gamma (nu + n + 1))))
        (w * (exp w * Real.Gamma (nu + 1 + j + 1) * ∑ i ∈ Finset.range (j + 1), (j.choose i : ℝ) * w ^ i / Real.Gamma (nu + 1 + i + 1))) := by
      rw [← hasSum_nat_add_iff' 1]
      simp only [Finset.range_one, Finset.sum_singleton, Nat.cast_zero, zero_mul, mul_zero, sub_zero]
      refine h2.congr_fun ?_ |> fun x => x
      intro n
      rw [Nat.factorial_succ]
      push_cast
      rw [show nu + ((n : ℝ) + 1) + j + 1 = nu + 1 + n + j + 1 by ring, show nu + ((n : ℝ) + 1) + 1 = nu + 1 + n + 1 by ring]
      have : (n.factorial : ℝ) ≠ 0 := by positivity
      have : (n : ℝ) + 1 ≠ 0 := by positivity
      field_simp
      ring
    have h := h1.add h2'
    have e : (nu + j + 1) * (exp w * Real.Gamma (nu + j + 1) * ∑ i ∈ Finset.range (j + 1), (j.choose i : ℝ) * w ^ i / Real.Gamma (nu + i + 1))
        + w * (exp w * Real.Gamma (nu + 1 + j + 1) * ∑ i ∈ Finset.range (j + 1), (j.choose i : ℝ) * w ^ i / Real.Gamma (nu + 1 + i + 1))
        = exp w * Real.Gamma (nu + (j + 1 : ℕ) + 1) * ∑ i ∈ Finset.range (j + 1 + 1), ((j + 1).choose i : ℝ) * w ^ i / Real.Gamma (nu + i + 1) := by
      have g1 : Real.Gamma (nu + (j + 1 : ℕ) + 1) = (nu + j + 1) * Real.Gamma (nu + j + 1) := by
        push_cast
        rw [← Real.Gamma_add_one (by positivity)]
        ring_nf
      have g2 : Real.Gamma (nu + 1 + j + 1) = (nu + j + 1) * Real.Gamma (nu + j + 1) := by
        rw [← Real.Gamma_add_one (by positivity)]
        ring_nf
      rw [g1, g2]
      have e1 : ∑ i ∈ Finset.range (j + 1 + 1), ((j + 1).choose i : ℝ) * w ^ i / Real.Gamma (nu + i + 1)
          = ∑ i ∈ Finset.range (j + 1), (j.choose i : ℝ) * w ^ i / Real.Gamma (nu + i + 1)
            + w * ∑ i ∈ Finset.range (j + 1), (j.choose i : ℝ) * w ^ i / Real.Gamma (nu + 1 + i + 1) := by
        rw [Finset.sum_range_succ', Finset.mul_sum]
        have e2 : ∀ i : ℕ, ((j + 1).choose (i + 1) : ℝ) * w ^ (i + 1) / Real.Gamma (nu + (i + 1 : ℕ) + 1)
            = (j.choose (i + 1) : ℝ) * w ^ (i + 1) / Real.Gamma (nu + (i + 1 : ℕ) + 1) + w * ((j.choose i : ℝ) * w ^ i / Real.Gamma (nu + 1 + i + 1)) := by
          intro i
          rw [Nat.choose_succ_succ']
          push_cast
          rw [show nu + ((i : ℝ) + 1) + 1 = nu + 1 + i + 1 by ring]
          ring
        simp only [e2, Finset.sum_add_distrib]
        have e3 := Finset.sum_range_succ' (fun i : ℕ => (j.choose i : ℝ) * w ^ i / Real.Gamma (nu + i + 1)) j
        have e4 := Finset.sum_range_succ (fun i : ℕ => (j.choose (i + 1) : ℝ) * w ^ (i + 1) / Real.Gamma (nu + (i + 1 : ℕ) + 1)) j
        rw [e3, e4]
        simp
        ring
      rw [e1]
      ring
    rw [e] at h
    refine h.congr_fun ?_ |> fun x => x
    intro n
    have g3 : Real.Gamma (nu + n + (j + 1 : ℕ) + 1) = (nu + n + j + 1) * Real.Gamma (nu + n + j + 1) := by
      push_cast
      rw [← Real.Gamma_add_one (by positivity)]
      ring_nf
    rw [g3]
    ring

/-- Gamma density with values in the extended half-line. -/
noncomputable def gE (a y : ℝ) : ENNReal := ENNReal.ofReal (gammaPdf a y)

lemma measurable_gammaPdf (a : ℝ) : Measurable (gammaPdf a) := by
  unfold gammaPdf
  fun_prop

lemma measurable_gE (a : ℝ) : Measurable (gE a) := (measurable_gammaPdf a).ennreal_ofReal

/-- Gamma average. -/
noncomputable def A (h : ℝ → ENNReal) (n : ℕ) : ENNReal := ∫⁻ y in Ioi (0 : ℝ), gE ((n : ℝ) + 1) y * h y

/-- The killed kernel. -/
noncomputable def Kf (nu : ℝ) (h : ℝ → ENNReal) (x : ℝ) : ENNReal := ∑' n : ℕ, gE (nu + n + 1) x * A h n

lemma measurable_Kf (nu : ℝ) (h : ℝ → ENNReal) : Measurable (Kf nu h) :=
  Measurable.ennreal_tsum fun n => (measurable_gE _).mul_const _

/-- Mixed gamma integral. -/
noncomputable def bb (nu c : ℝ) (n j : ℕ) : ℝ :=
  c ^ (nu + j) * (Real.Gamma (nu + n + j + 1) / (n.factorial * Real.Gamma (nu + j + 1))) * (1 + c) ^ (-(nu + n + j + 1))

lemma lintegral_mix {nu c : ℝ} (hnu : 0 < nu) (hc : 0 < c) (n j : ℕ) :
    ∫⁻ y in Ioi (0 : ℝ), gE ((n : ℝ) + 1) y * gE (nu + j + 1) (c * y) = ENNReal.ofReal (bb nu c n j) := by
  have hG1 : (0:ℝ) < Real.Gamma (nu + j + 1) := Real.Gamma_pos_of_pos (by positivity)
  have hG2 : Real.Gamma ((n : ℝ) + 1) = n.factorial := Real.Gamma_nat_eq_factorial n
  have e : ∀ y ∈ Ioi (0 : ℝ), gE ((n : ℝ) + 1) y * gE (nu + j + 1) (c * y)
      = ENNReal.ofReal (c ^ (nu + j) / (n.factorial * Real.Gamma (nu + j + 1)) * (y ^ ((nu + n + j + 1) - 1) * exp (-((1 + c) * y)))) := by
    intro y hy
    have hy' : (0:ℝ) < y := hy
    unfold gE
    rw [← ENNReal.ofReal_mul (gammaPdf_nonneg (by positivity) hy'.le)]
    congr 1
    unfold gammaPdf
    rw [hG2, mul_rpow hc.le hy'.le, show -((1 + c) * y) = -y + -(c * y) by ring, exp_add, add_sub_cancel_right, add_sub_cancel_right,
      add_sub_cancel_right, show nu + n + j = n + (nu + j) by ring, rpow_add hy' n (nu + j)]
    field_simp
  rw [setLIntegral_congr_fun measurableSet_Ioi e]
  have hi := Real.integral_rpow_mul_exp_neg_mul_Ioi (a := nu + n + j + 1) (r := 1 + c) (by positivity) (by positivity)
  have hI : IntegrableOn (fun y => c ^ (nu + j) / (n.factorial * Real.Gamma (nu + j + 1)) * (y ^ ((nu + n + j + 1) - 1) * exp (-((1 + c) * y)))) (Ioi 0) := by
    refine Integrable.const_mul ?_ _
    by_contra hcon
    rw [integral_undef hcon] at hi
    have : 0 < (1 / (1 + c)) ^ (nu + n + j + 1) * Real.Gamma (nu + n + j + 1) := by
      have := Real.Gamma_pos_of_pos (show 0 < nu + n + j + 1 by positivity)
      positivity
    linarith
  rw [← ofReal_integral_eq_lintegral_ofReal hI]
  · congr 1
    rw [integral_const_mul, hi]
    unfold bb
    rw [rpow_neg (by positivity), one_div, inv_rpow (by positivity)]
    ring
  · refine (ae_restrict_iff' measurableSet_Ioi).2 (ae_of_all _ fun y hy => ?_)
    have hy' : (0:ℝ) < y := hy
    have := rpow_pos_of_pos hy' ((nu + n + j + 1) - 1)
    have := hG1
    simp only [Pi.zero_apply]
    positivity

lemma bb_nonneg {nu c : ℝ} (hnu : 0 < nu) (hc : 0 < c) (n j : ℕ) : 0 ≤ bb nu c n j := by
  have := Real.Gamma_pos_of_pos (show 0 < nu + n + j + 1 by positivity)
  have := Real.Gamma_pos_of_pos (show 0 < nu + j + 1 by positivity)
  unfold bb
  positivity

lemma A_Kf {nu c : ℝ} (hnu : 0 < nu) (hc : 0 < c) (h : ℝ → ENNReal) (n : ℕ) :
    A (fun y => Kf nu h (c * y)) n = ∑' j : ℕ, ENNReal.ofReal (bb nu c n j) * A h j := by
  unfold A Kf
  simp only [← ENNReal.tsum_mul_left]
  rw [lintegral_tsum]
  · congr 1
    ext j
    simp only [← mul_assoc]
    rw [lintegral_mul_const]
    · rw [lintegral_mix hnu hc]
      rfl
    · exact (measurable_gE _).mul ((measurable_gE _).comp (measurable_const_mul c))
  · intro j
    exact ((measurable_gE _).mul (((measurable_gE _).comp (measurable_const_mul c)).mul_const _)).aemeasurable

/-- Weights of a stretched gamma average. -/
noncomputable def dd (c : ℝ) (i l : ℕ) : ℝ := (1 + c)⁻¹ ^ (i + 1) * (c / (1 + c)) ^ l * ((i + l).choose i : ℝ)

lemma hasSum_stretch {c : ℝ} (hc : 0 < c) (i : ℕ) {z : ℝ} (hz : 0 < z) :
    HasSum (fun l : ℕ => dd c i l * gammaPdf ((i + l : ℕ) + 1) z) ((1 + c)⁻¹ * gammaPdf ((i : ℝ) + 1) ((1 + c)⁻¹ * z)) := by
  have h := NormedSpace.expSeries_div_hasSum_exp (𝔸 := ℝ) (c / (1 + c) * z)
  rw [← Real.exp_eq_exp_ℝ] at h
  have h' := h.mul_left ((1 + c)⁻¹ ^ (i + 1) * z ^ i * exp (-z) / i.factorial)
  have e : (1 + c)⁻¹ * gammaPdf ((i : ℝ) + 1) ((1 + c)⁻¹ * z) = (1 + c)⁻¹ ^ (i + 1) * z ^ i * exp (-z) / i.factorial * exp (c / (1 + c) * z) := by
    unfold gammaPdf
    rw [Real.Gamma_nat_eq_factorial, add_sub_cancel_right, rpow_natCast, mul_pow]
    have : exp (-((1 + c)⁻¹ * z)) = exp (-z) * exp (c / (1 + c) * z) := by
      rw [← exp_add]
      congr 1
      field_simp
      ring
    rw [this]
    ring
  rw [e]
  refine h'.congr_fun ?_ |> fun x => x
  intro l
  unfold gammaPdf dd
  rw [Real.Gamma_nat_eq_factorial, add_sub_cancel_right, rpow_natCast, show (i + l).choose i = (i + l).choose l from Nat.choose_symm_add,
    Nat.add_choose i l, Nat.cast_div (Nat.factorial_mul_factorial_dvd_factorial_add i l) (by positivity)]
  push_cast
  have h1 : ((i + l).factorial : ℝ) ≠ 0 := by positivity
  have h2 : (i.factorial : ℝ) ≠ 0 := by positivity
  have h3 : (l.factorial : ℝ) ≠ 0 := by positivity
  rw [mul_pow, pow_add z]
  field_simp

lemma dd_nonneg {c : ℝ} (hc : 0 < c) (i l : ℕ) : 0 ≤ dd c i l := by unfold dd; positivity

lemma A_stretch {c : ℝ} (hc : 0 < c) {h : ℝ → ENNReal} (hh : Measurable h) (i : ℕ) :
    A (fun y => h ((1 + c) * y)) i = ∑' l : ℕ, ENNReal.ofReal (dd c i l) * A h (i + l) := by
  have k0 : (0:ℝ) < 1 + c := by linarith
  have e1 : A (fun y => h ((1 + c) * y)) i = ∫⁻ z in Ioi (0 : ℝ), ENNReal.ofReal ((1 + c)⁻¹ * gammaPdf ((i : ℝ) + 1) ((1 + c)⁻¹ * z)) * h z := by
    unfold A
    have hcv := lintegral_image_eq_lintegral_abs_deriv_mul (s := Ioi (0 : ℝ)) (f := fun y => (1 + c) * y) (f' := fun _ => 1 + c) measurableSet_Ioi
      (fun x _ => by simpa using ((hasDerivAt_id' x).const_mul (1 + c)).hasDerivWithinAt)
      (fun x _ y _ hxy => mul_left_cancel₀ k0.ne' hxy)
      (fun z => ENNReal.ofReal ((1 + c)⁻¹ * gammaPdf ((i : ℝ) + 1) ((1 + c)⁻¹ * z)) * h z)
    have him : (fun y : ℝ => (1 + c) * y) '' Ioi 0 = Ioi 0 := by
      ext z
      constructor
      · rintro ⟨y, hy, rfl⟩
        exact mul_pos k0 hy
      · intro hz
        exact ⟨(1 + c)⁻¹ * z, mul_pos (inv_pos.2 k0) hz, by field_simp⟩
    rw [him] at hcv
    rw [hcv]
    refine setLIntegral_congr_fun measurableSet_Ioi fun y hy => ?_
    have hy' : (0:ℝ) < y := hy
    simp only
    rw [← mul_assoc, abs_of_pos k0, ← ENNReal.ofReal_mul k0.le, ← mul_assoc, mul_inv_cancel₀ k0.ne', one_mul, ← mul_assoc, inv_mul_cancel₀ k0.ne', one_mul]
    rfl
  rw [e1]
  have e2 : ∀ z ∈ Ioi (0 : ℝ), ENNReal.ofReal ((1 + c)⁻¹ * gammaPdf ((i : ℝ) + 1) ((1 + c)⁻¹ * z)) * h z
      = ∑' l : ℕ, ENNReal.ofReal (dd c i l) * (gE ((i + l : ℕ) + 1) z * h z) := by
    intro z hz
    have hs := hasSum_stretch hc i hz
    rw [← hs.tsum_eq, ENNReal.ofReal_tsum_of_nonneg (fun l => mul_nonneg (dd_nonneg hc i l) (gammaPdf_nonneg (by positivity) (le_of_lt hz))) hs.summable,
      ← ENNReal.tsum_mul_right]
    congr 1
    ext l
    rw [ENNReal.ofReal_mul (dd_nonneg hc i l), mul_assoc]
    rfl
  rw [setLIntegral_congr_fun measurableSet_Ioi e2, lintegral_tsum]
  · congr 1
    ext l
    rw [lintegral_const_mul (f := fun a => gE (((i + l : ℕ) : ℝ) + 1) a * h a) _ ((measurable_gE _).mul hh)]
    rfl
  · intro l
    exact (((measurable_gE _).mul hh).const_mul _).aemeasurable

/-- The coefficient identity. -/
lemma coef {nu c : ℝ} (hnu : 0 < nu) (hc : 0 < c) {x : ℝ} (hx : 0 < x) (j : ℕ) :
    ∑' n : ℕ, gE (nu + n + 1) x * ENNReal.ofReal (bb nu c n j)
      = ∑ p ∈ Finset.antidiagonal j, gE (nu + p.1 + 1) (c / (1 + c) * x) * ENNReal.ofReal (dd c p.1 p.2) := by
  have k0 : (0:ℝ) < 1 + c := by linarith
  have hw : 0 < x / (1 + c) := by positivity
  have hm : 0 < c / (1 + c) * x := by positivity
  have h := hasSum_kummer j hnu (x / (1 + c))
  have hGj := Real.Gamma_pos_of_pos (show 0 < nu + j + 1 by positivity)
  have h' := h.mul_left (c ^ (nu + j) * (1 + c) ^ (-(nu + j + 1)) * x ^ nu * exp (-x) / Real.Gamma (nu + j + 1))
  have el : ∀ n : ℕ, c ^ (nu + j) * (1 + c) ^ (-(nu + j + 1)) * x ^ nu * exp (-x) / Real.Gamma (nu + j + 1)
      * ((x / (1 + c)) ^ n / n.factorial * (Real.Gamma (nu + n + j + 1) / Real.Gamma (nu + n + 1))) = gammaPdf (nu + n + 1) x * bb nu c n j := by
    intro n
    have := Real.Gamma_pos_of_pos (show 0 < nu + n + 1 by positivity)
    unfold gammaPdf bb
    rw [add_sub_cancel_right, rpow_add hx, rpow_natCast, show -(nu + n + j + 1) = -(nu + j + 1) + -(n : ℝ) by ring, rpow_add k0, rpow_neg k0.le (n : ℝ), rpow_natCast,
      div_pow]
    field_simp
  simp only [el] at h'
  have hL : ∑' n : ℕ, gE (nu + n + 1) x * ENNReal.ofReal (bb nu c n j) = ENNReal.ofReal (∑' n : ℕ, gammaPdf (nu + n + 1) x * bb nu c n j) := by
    rw [ENNReal.ofReal_tsum_of_nonneg (fun n => mul_nonneg (gammaPdf_nonneg (by positivity) hx.le) (bb_nonneg hnu hc n j)) h'.summable]
    congr 1
    ext n
    rw [ENNReal.ofReal_mul (gammaPdf_nonneg (by positivity) hx.le)]
    rfl
  rw [hL, h'.tsum_eq]
  have hR : ∑ p ∈ Finset.antidiagonal j, gE (nu + p.1 + 1) (c / (1 + c) * x) * ENNReal.ofReal (dd c p.1 p.2)
      = ENNReal.ofReal (∑ p ∈ Finset.antidiagonal j, gammaPdf (nu + p.1 + 1) (c / (1 + c) * x) * dd c p.1 p.2) := by
    rw [ENNReal.ofReal_sum_of_nonneg (fun p _ => mul_nonneg (gammaPdf_nonneg (by positivity) hm.le) (dd_nonneg hc _ _))]
    refine Finset.sum_congr rfl fun p _ => ?_
    rw [ENNReal.ofReal_mul (gammaPdf_nonneg (by positivity) hm.le)]
    rfl
  rw [hR]
  congr 1
  rw [Finset.Nat.sum_antidiagonal_eq_sum_range_succ_mk, Finset.mul_sum, Finset.mul_sum]
  refine Finset.sum_congr rfl fun i hi => ?_
  have hij : i ≤ j := Nat.lt_succ_iff.1 (Finset.mem_range.1 hi)
  obtain ⟨l, rfl⟩ := Nat.exists_eq_add_of_le hij
  have := Real.Gamma_pos_of_pos (show 0 < nu + i + 1 by positivity)
  simp only [Nat.add_sub_cancel_left]
  unfold gammaPdf dd
  have ee : exp (-(c / (1 + c) * x)) = exp (-x) * exp (x / (1 + c)) := by
    rw [← exp_add]
    congr 1
    field_simp
    ring
  rw [ee, add_sub_cancel_right, mul_rpow (by positivity) hx.le, div_rpow hc.le k0.le, rpow_add hx, rpow_natCast, div_pow, div_pow, inv_pow,
    show -(nu + ((i + l : ℕ) : ℝ) + 1) = -(nu + i) + -((l + 1 : ℕ) : ℝ) by push_cast; ring, rpow_add k0, rpow_neg k0.le (nu + i), rpow_neg k0.le, rpow_natCast,
    show nu + ((i + l : ℕ) : ℝ) = (nu + i) + (l : ℝ) by push_cast; ring, rpow_add hc, rpow_natCast]
  have h1 := rpow_pos_of_pos k0 (nu + i)
  have h2 := rpow_pos_of_pos hc (nu + i)
  have hGj' : Real.Gamma (nu + ↑i + ↑l + 1) ≠ 0 := (Real.Gamma_pos_of_pos (by positivity)).ne'
  generalize (1 + c) ^ (nu + ↑i) = P at *
  generalize c ^ (nu + ↑i) = Q at *
  generalize exp (x / (1 + c)) = R at *
  generalize Real.Gamma (nu + ↑i + ↑l + 1) = G at *
  field_simp
  ring

/-- Two killed steps are one. -/
lemma chain {nu c : ℝ} (hnu : 0 < nu) (hc : 0 < c) {h : ℝ → ENNReal} (hh : Measurable h) {x : ℝ} (hx : 0 < x) :
    Kf nu (fun y => Kf nu h (c * y)) x = Kf nu (fun y => h ((1 + c) * y)) (c / (1 + c) * x) := by
  have e1 : Kf nu (fun y => Kf nu h (c * y)) x = ∑' j : ℕ, (∑' n : ℕ, gE (nu + n + 1) x * ENNReal.ofReal (bb nu c n j)) * A h j := by
    conv_lhs => unfold Kf
    have := fun n => A_Kf hnu hc h n
    unfold Kf at this
    simp only [this, ← ENNReal.tsum_mul_left]
    rw [ENNReal.tsum_comm]
    simp only [← mul_assoc, ENNReal.tsum_mul_right]
  rw [e1]
  simp only [coef hnu hc hx]
  conv_rhs => unfold Kf
  simp only [A_stretch hc hh, ← ENNReal.tsum_mul_left]
  rw [← ENNReal.tsum_prod (f := fun i l : ℕ => gE (nu + i + 1) (c / (1 + c) * x) * (ENNReal.ofReal (dd c i l) * A h (i + l))),
    ← (Finset.HasAntidiagonal.sigmaAntidiagonalEquivProd (A := ℕ)).tsum_eq, ENNReal.tsum_sigma']
  congr 1
  ext j
  rw [Finset.sum_mul, tsum_fintype, ← Finset.sum_coe_sort (Finset.antidiagonal j)]
  refine Finset.sum_congr rfl fun p _ => ?_
  have hp := Finset.mem_antidiagonal.1 p.2
  simp only [Finset.HasAntidiagonal.sigmaAntidiagonalEquivProd_apply]
  rw [hp, mul_assoc]

end PyFENG.CevChain
