import Verif.Props.SabrOrder1

/-!
# C134: the Taylor branch of the first-order term of `SabrChoiWu2021P`
-/

namespace PyFENG

open Real Filter Topology

namespace Sabr

lemma hasDerivAt_arcG_taylor {ρ η t : ℝ} (hρ : |ρ| < 1) (hη : η ≠ √(1 - ρ ^ 2)) (h1 : |η * η - 1| ≤ 1e-6) (hu0 : ρ + (η - √(1 - ρ ^ 2)) * t ≠ 0) (hD : 0 < Spec.arcD ρ η t) :
    HasDerivAt (arcG ρ η) (Spec.arcN ρ t / ((1 + t ^ 2) * Spec.arcD ρ η t) + η * (η * η - 1) ^ 2 / ((ρ + (η - √(1 - ρ ^ 2)) * t) ^ 4 * Spec.arcD ρ η t)) t := by
  rw [← arc_integrand hD.ne']
  have hsq := arc_sq hρ η t
  set c := η - √(1 - ρ ^ 2) with hc
  have hc0 : c ≠ 0 := sub_ne_zero.2 hη
  have hu : HasDerivAt (fun t => ρ + c * t) c t := (((hasDerivAt_id' t).const_mul c).const_add ρ).congr_deriv (by ring)
  obtain ⟨l1, l2⟩ := abs_le.1 h1
  have hG : arcG ρ η = fun t => arctan t + (η / (ρ + c * t) - η * (η * η - 1) / 3 / (ρ + c * t) ^ 3) := by
    funext t
    unfold arcG
    simp only [if_neg (not_lt.2 l2), if_neg (not_lt.2 l1)]
    rw [← hc]
    by_cases h0 : ρ + c * t = 0
    · simp [h0]
    · field_simp
  rw [hG]
  have hA := (hasDerivAt_const t η).fun_div hu hu0
  have hB := (hasDerivAt_const t (η * (η * η - 1) / 3)).fun_div (hu.fun_pow 3) (pow_ne_zero 3 hu0)
  refine ((hasDerivAt_arctan t).fun_add (hA.fun_sub hB)).congr_deriv ?_
  set D := Spec.arcD ρ η t with hDd
  have hD0 := hD.ne'
  generalize ρ + c * t = u at *
  have ht : (1 + t ^ 2) ≠ 0 := by positivity
  have e2 : η * η - 1 = c * D - u ^ 2 := by linarith
  rw [e2]
  field_simp
  push_cast
  ring

/-- **C134** (Taylor branch).  When `eta²` is within `1e-6` of one, the correlation term of `SabrChoiWu2021P` differs from the integral along the geodesic by at most
`|rho beta / (sqrt(1-rho²) (1-beta))| * eta * 1e-12 / (m⁴ d) * |t1 - t2|`, where on the geodesic the numerators `num` of the code stay at least `m` and the distance from zero at least `d`. -/
theorem choiWuP_taylor (m : Sabr) (v : Vars) (kk zz vm : ℝ) (hρ : |m.rho| < 1) (hv : v.rhoc = √(1 - m.rho ^ 2)) (hb : 0.001 ≤ |v.betac|)
    (hη : m.vov / (v.betac * v.alpha) * kk ^ v.betac * (v.rhoc / vm) ≠ v.rhoc) (hη0 : 0 ≤ m.vov / (v.betac * v.alpha) * kk ^ v.betac * (v.rhoc / vm))
    (h1 : let η := m.vov / (v.betac * v.alpha) * kk ^ v.betac * (v.rhoc / vm); |η * η - 1| ≤ 1e-6) {μ d : ℝ} (hμ : 0 < μ) (hd : 0 < d)
    (hD : ∀ t ∈ Set.uIcc ((vm + m.rho + zz) / v.rhoc) ((1 + m.rho) / v.rhoc), d ≤ Spec.arcD m.rho (m.vov / (v.betac * v.alpha) * kk ^ v.betac * (v.rhoc / vm)) t)
    (hm : ∀ t ∈ Set.uIcc ((vm + m.rho + zz) / v.rhoc) ((1 + m.rho) / v.rhoc), μ ≤ |m.rho + (m.vov / (v.betac * v.alpha) * kk ^ v.betac * (v.rhoc / vm) - v.rhoc) * t|) :
    |m.choiWuPGg v kk zz vm - m.rho * m.beta / (v.rhoc * v.betac) *
      Spec.arcInt m.rho (m.vov / (v.betac * v.alpha) * kk ^ v.betac * (v.rhoc / vm)) ((vm + m.rho + zz) / v.rhoc) ((1 + m.rho) / v.rhoc)| ≤
      |m.rho * m.beta / (v.rhoc * v.betac)| * (m.vov / (v.betac * v.alpha) * kk ^ v.betac * (v.rhoc / vm) * 1e-12 / (μ ^ 4 * d) * |(1 + m.rho) / v.rhoc - (vm + m.rho + zz) / v.rhoc|) := by
  have hgg : m.choiWuPGg v kk zz vm = m.rho * m.beta / (v.rhoc * v.betac) *
      (arcG m.rho (m.vov / (v.betac * v.alpha) * kk ^ v.betac * (v.rhoc / vm)) ((1 + m.rho) / v.rhoc) - arcG m.rho (m.vov / (v.betac * v.alpha) * kk ^ v.betac * (v.rhoc / vm)) ((vm + m.rho + zz) / v.rhoc)) := by
    unfold choiWuPGg
    rw [if_neg (not_lt.2 hb)]
    simp only
    generalize hη' : m.vov / (v.betac * v.alpha) * kk ^ v.betac * (v.rhoc / vm) = η at *
    obtain ⟨l1, l2⟩ := abs_le.1 h1
    unfold arcG
    simp only [gt_iff_lt, if_neg (not_lt.2 l2), if_neg (not_lt.2 l1), ← hv]
  rw [hgg, ← mul_sub, abs_mul]
  refine mul_le_mul_of_nonneg_left ?_ (abs_nonneg _)
  generalize m.vov / (v.betac * v.alpha) * kk ^ v.betac * (v.rhoc / vm) = η at *
  generalize (1 + m.rho) / v.rhoc = t2 at *
  generalize (vm + m.rho + zz) / v.rhoc = t1 at *
  rw [hv] at hη hm
  have h1' : |η * η - 1| ≤ 1e-6 := h1
  have hu : ∀ t ∈ Set.uIcc t1 t2, m.rho + (η - √(1 - m.rho ^ 2)) * t ≠ 0 := fun t ht h => by
    have := hm t ht
    rw [h, abs_zero] at this; linarith
  have hD' : ∀ t ∈ Set.uIcc t1 t2, 0 < Spec.arcD m.rho η t := fun t ht => hd.trans_le (hD t ht)
  have c1 : ContinuousOn (fun t => Spec.arcN m.rho t / ((1 + t ^ 2) * Spec.arcD m.rho η t)) (Set.uIcc t1 t2) := by
    refine ContinuousOn.div (by unfold Spec.arcN; fun_prop) (by unfold Spec.arcD Spec.arcN; fun_prop) fun t ht => ?_
    have := hD' t ht
    positivity
  have c2 : ContinuousOn (fun t => η * (η * η - 1) ^ 2 / ((m.rho + (η - √(1 - m.rho ^ 2)) * t) ^ 4 * Spec.arcD m.rho η t)) (Set.uIcc t1 t2) := by
    refine ContinuousOn.div (by fun_prop) (by unfold Spec.arcD Spec.arcN; fun_prop) fun t ht => ?_
    exact mul_ne_zero (pow_ne_zero 4 (hu t ht)) (hD' t ht).ne'
  have hint := intervalIntegral.integral_eq_sub_of_hasDerivAt (fun t ht => hasDerivAt_arcG_taylor hρ hη h1' (hu t ht) (hD' t ht)) (c1.add c2).intervalIntegrable
  rw [intervalIntegral.integral_add c1.intervalIntegrable c2.intervalIntegrable] at hint
  have hE : arcG m.rho η t2 - arcG m.rho η t1 - Spec.arcInt m.rho η t1 t2 = ∫ t in t1..t2, η * (η * η - 1) ^ 2 / ((m.rho + (η - √(1 - m.rho ^ 2)) * t) ^ 4 * Spec.arcD m.rho η t) := by
    unfold Spec.arcInt; linarith
  rw [hE, ← Real.norm_eq_abs]
  refine intervalIntegral.norm_integral_le_of_norm_le_const fun t ht => ?_
  have ht' : t ∈ Set.uIcc t1 t2 := Set.uIoc_subset_uIcc ht
  have hDp := hD' t ht'
  have k1 := hm t ht'
  have k2 := hD t ht'
  have e4 : μ ^ 4 ≤ (m.rho + (η - √(1 - m.rho ^ 2)) * t) ^ 4 := by
    have := pow_le_pow_left₀ hμ.le k1 4
    rwa [Even.pow_abs (by decide : Even 4)] at this
  have q : (η * η - 1) ^ 2 ≤ 1e-12 := by
    have := pow_le_pow_left₀ (abs_nonneg _) h1' 2
    rw [sq_abs] at this
    norm_num at this ⊢
    exact this
  rw [Real.norm_eq_abs, abs_of_nonneg (by positivity)]
  refine div_le_div₀ (by positivity) (mul_le_mul_of_nonneg_left q hη0) (by positivity) ?_
  exact mul_le_mul e4 k2 hd.le (by positivity)

private noncomputable def exT : Sabr := ⟨1, 17 / 16 * (1 + 1e-7), 3 / 5, 1 / 2, 0, 0, false, 1, false⟩

/-- The hypotheses are met with `eta = 1 + 1e-7` on a geodesic of positive length (`t` from 2 to 4); the error bound is below `4e-12`. -/
example : |exT.choiWuPGg ⟨1, 1 / 2, 4 / 5, 9 / 25, 1⟩ 1 (9 / 10) (17 / 10) - 3 / 4 * Spec.arcInt (3 / 5) (1 + 1e-7) 4 2| ≤ 4e-12 := by
  have hη : exT.vov / ((1 / 2 : ℝ) * 1) * (1:ℝ) ^ (1 / 2 : ℝ) * (4 / 5 / (17 / 10)) = 1 + 1e-7 := by rw [one_rpow]; norm_num [exT]
  have hr : √(1 - (3 / 5 : ℝ) ^ 2) = 4 / 5 := by
    rw [show 1 - (3 / 5 : ℝ) ^ 2 = (4 / 5) ^ 2 by norm_num]; exact sqrt_sq (by norm_num)
  have h := choiWuP_taylor exT ⟨1, 1 / 2, 4 / 5, 9 / 25, 1⟩ 1 (9 / 10) (17 / 10) (by norm_num [exT, abs_of_pos]) (by simp only [exT]; exact hr.symm) (by norm_num [abs_of_pos])
    (by rw [hη]; norm_num) (by rw [hη]; norm_num) (by simp only; rw [hη]; norm_num [abs_of_pos]) one_pos one_pos (fun t ht => by
      rw [hη]
      simp only [exT] at ht ⊢
      unfold Spec.arcD Spec.arcN
      rw [hr]
      norm_num [Set.uIcc_of_ge] at ht
      nlinarith [sq_nonneg t, ht.1]) (fun t ht => by
      rw [hη]
      simp only [exT] at ht ⊢
      norm_num [Set.uIcc_of_ge] at ht
      refine le_trans ?_ (le_abs_self _)
      norm_num
      nlinarith [ht.1])
  rw [hη] at h
  simp only [exT] at h ⊢
  norm_num [abs_of_pos] at h ⊢
  linarith

end Sabr

end PyFENG
