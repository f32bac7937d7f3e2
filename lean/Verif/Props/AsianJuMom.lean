import Verif.Props.Asian
import Verif.Props.BasketJuMom

/-!
# `BsmContinuousAsianJu2002`: the correction does not preserve the second moment of the average (C105)

Ju's correction is an expansion which by construction leaves the first two moments of the lognormal approximation alone (for the basket
version of the same paper this is `Basket.ju_second_moment`).  The coefficients in the code violate this: the sign of the `σ⁶T³` part of `z2`
is wrong (except for its term linear in `gt`), and `30480` in `z1` should be `30240`.
-/

namespace PyFENG

open MeasureTheory ProbabilityTheory Real Set

namespace Asian

namespace Ju

/-- The second moment spanned by the call prices, in terms of the three coefficients. -/
lemma callMoment_two (m : MParams) {S T : ℝ} (hu : 0 < u1 m S T) (hu2 : u1 m S T ^ 2 < u2 m S T) :
    Spec.callMoment (fun K => price m K S T 1) (Spec.discount m.intr T) 2 = u2 m S T * (1 + 2 * (z1 m T - 2 * z2 m T + 4 * z3 m T)) := by
  obtain ⟨V, hV⟩ : ∃ V, V = log (u2 m S T) - 2 * log (u1 m S T) := ⟨_, rfl⟩
  obtain ⟨M, hM⟩ : ∃ M, M = 2 * log (u1 m S T) - 0.5 * log (u2 m S T) := ⟨_, rfl⟩
  have hV0 : 0 < V := by
    have := log_lt_log (by positivity) hu2
    rw [log_pow] at this
    push_cast at this
    linarith
  have hs := sqrt_pos.2 hV0
  have hMV : M = log (u1 m S T) - V / 2 := by rw [hM, hV]; norm_num; ring
  have hsq := sq_sqrt hV0.le
  have hu2' : 0 < u2 m S T := lt_of_le_of_lt (sq_nonneg _) hu2
  have hE : exp (√V ^ 2) = u2 m S T / u1 m S T ^ 2 := by
    rw [hsq, hV, exp_sub, exp_log hu2', two_mul, exp_add, exp_log hu, sq]
  have hdf : exp (-m.intr * T) = Spec.discount m.intr T := by unfold Spec.discount; rw [neg_mul]
  have hd0 : Spec.discount m.intr T ≠ 0 := (exp_pos _).ne'
  obtain ⟨q, hq⟩ : ∃ q, q = √V := ⟨_, rfl⟩
  have hVq : V = q ^ 2 := by rw [hq, hsq]
  rw [← hq] at hs hE
  -- the correction as a function of the strike
  let C : ℝ → ℝ := fun K => K * (z1 m T * npdf ((log K - M) / q) / q + z2 m T * npdf ((log K - M) / q) / q * (M - log K) / V
      + z3 m T * ((log K - M) * (log K - M) / V / V - 1 / V) * npdf ((log K - M) / q) / q)
  have hp : ∀ K ∈ Ioi (0:ℝ), ((2:ℕ):ℝ) * (((2:ℕ):ℝ) - 1) * K ^ (2 - 2) * (price m K S T 1 / Spec.discount m.intr T) =
      2 * (K ^ 0 * black 1 (u1 m S T) K q + C K) := fun K hK => by
    have hK' : 0 < K := hK
    have hy1 : (M - log K) / q + q = bd1 (u1 m S T) K q := by
      unfold bd1
      rw [hMV, log_div hu.ne' hK'.ne', hVq]
      field_simp
      ring
    have hy2 : (M - log K) / q + q - q = bd2 (u1 m S T) K q := by rw [hy1]; have := bd1_sub (u1 m S T) K q; linarith
    unfold price
    rw [if_pos rfl]
    unfold bc
    simp only
    rw [← hV, ← hM, ← hq, hy2, hy1, hdf]
    unfold black
    simp only [C]
    push_cast
    rw [pow_zero, one_mul, one_mul, one_mul, one_mul]
    field_simp
    ring
  obtain ⟨i1, v1⟩ := Basket.levy_int hu hs 0
  obtain ⟨h1, h2⟩ := CallMoments.subst hu hs C
  have hqd := CallMoments.quad (F := u1 m S T) hs 2 (z1 m T) (z2 m T) (z3 m T)
  have e : (fun z => q * Spec.gbm (u1 m S T) q z * C (Spec.gbm (u1 m S T) q z)) =
      fun z => npdf z * ((z1 m T - z2 m T * z / q + z3 m T * (z ^ 2 - 1) / q ^ 2) * Spec.gbm (u1 m S T) q z ^ 2) := by
    funext z
    have hl : log (Spec.gbm (u1 m S T) q z) - M = q * z := by
      unfold Spec.gbm
      rw [log_mul hu.ne' (exp_pos _).ne', log_exp, hMV, hVq]; ring
    have hl' : M - log (Spec.gbm (u1 m S T) q z) = -(q * z) := by linarith
    simp only [C]
    rw [hl, hl', mul_div_cancel_left₀ _ hs.ne', hVq]
    have := hs.ne'
    field_simp
    ring
  rw [e] at h1 h2
  have iC := h1.2 ((integrable_gauss_iff _).1 hqd.1)
  have vC : ∫ K in Ioi (0:ℝ), C K = (z1 m T - 2 * z2 m T + 4 * z3 m T) * u2 m S T := by
    rw [h2, ← integral_gauss]
    refine hqd.2.trans ?_
    rw [hE, show ((((2:ℕ):ℝ) * (((2:ℕ):ℝ) - 1)) / 2) = 1 by norm_num, rpow_one]
    field_simp
    push_cast
    ring
  unfold Spec.callMoment
  rw [setIntegral_congr_fun measurableSet_Ioi hp, integral_const_mul, integral_add i1 iC, v1, vC, hE]
  rw [show (((((0:ℕ):ℝ) + 2) * (((0:ℕ):ℝ) + 1)) / 2) = 1 by norm_num, rpow_one]
  norm_num
  field_simp

/-- **C105 (disagreement).** The second moment of the average spanned by the prices of `BsmContinuousAsianJu2002` differs from the second moment of the average by a
relative error of order `σ⁶T³`, the same order as the last terms of the expansion. -/
theorem second_moment_defect {Ω : Type*} [MeasurableSpace Ω] {P : Measure Ω} {B : NNReal → Ω → ℝ} (hB : Spec.IsBM P B) (m : MParams)
    (hw : m.intr - m.divr + m.sigma ^ 2 ≠ 0) {S T : ℝ} (hT : 0 < T) (hu : 0 < u1 m S T) (hu2 : u1 m S T ^ 2 < u2 m S T) :
    let x := (m.intr - m.divr) * T
    Spec.callMoment (fun K => price m K S T 1) (Spec.discount m.intr T) 2 =
      (∫ ω, (S * Spec.average B m.sigma m.intr m.divr T ω) ^ 2 ∂P) *
        (1 + m.sigma ^ 6 * T ^ 3 * (31 / 2835 - 13 * x * (1 / 15120 - 1 / 15240) - 37 * x ^ 2 / 18900 - 19 * x ^ 3 / 37800 + 953 * x ^ 4 / 7484400)) := by
  intro x
  rw [callMoment_two m hu hu2, (moments_correct hB m hw S hT).2]
  congr 2
  unfold z1 z2 z3
  rw [show gt m T = x from rfl]
  ring

/-- **C105 (disagreement).** In particular, when the rate equals the dividend yield, the second moment is overstated by the relative amount `31/2835 σ⁶T³`. -/
theorem second_moment_overstated {Ω : Type*} [MeasurableSpace Ω] {P : Measure Ω} {B : NNReal → Ω → ℝ} (hB : Spec.IsBM P B) (m : MParams)
    (hr : m.intr = m.divr) (hv : m.sigma ≠ 0) {S T : ℝ} (hS : 0 < S) (hT : 0 < T) :
    ∫ ω, (S * Spec.average B m.sigma m.intr m.divr T ω) ^ 2 ∂P < Spec.callMoment (fun K => price m K S T 1) (Spec.discount m.intr T) 2 := by
  have hw : m.intr - m.divr + m.sigma ^ 2 ≠ 0 := by rw [hr, sub_self, zero_add]; positivity
  have ha : 0 < m.sigma ^ 2 * T := by positivity
  have exprel_zero : exprel 0 = 1 := by unfold exprel; simp
  have e1 : u1 m S T = S := by unfold u1; rw [hr, sub_self, zero_mul, exprel_zero, mul_one]
  have hex : 1 + m.sigma ^ 2 * T / 2 < exprel (m.sigma ^ 2 * T) := by
    unfold exprel
    rw [if_neg ha.ne', lt_div_iff₀ ha]
    have := Real.quadratic_le_exp_of_nonneg ha.le
    have h3 : 1 + m.sigma ^ 2 * T + (m.sigma ^ 2 * T) ^ 2 / 2 < exp (m.sigma ^ 2 * T) := by
      have h := Real.sum_le_exp_of_nonneg ha.le 4
      simp only [Finset.sum_range_succ, Finset.range_zero, Finset.sum_empty] at h
      norm_num [Nat.factorial] at h
      have : 0 < (m.sigma ^ 2 * T) ^ 3 / 6 := by positivity
      linarith
    linarith
  have e2 : u1 m S T ^ 2 < u2 m S T := by
    rw [e1]
    unfold u2
    simp only [hr, sub_self, zero_mul, mul_zero, zero_add, exprel_zero]
    rw [lt_div_iff₀ (by positivity), lt_div_iff₀ hT]
    have hS2 : 0 < S ^ 2 := by positivity
    nlinarith
  rw [second_moment_defect hB m hw hT (by rw [e1]; exact hS) e2]
  have hpos : 0 < ∫ ω, (S * Spec.average B m.sigma m.intr m.divr T ω) ^ 2 ∂P := by
    rw [← (moments_correct hB m hw S hT).2]; exact lt_of_le_of_lt (sq_nonneg _) e2
  have h6 : 0 < m.sigma ^ 6 * T ^ 3 := by positivity
  rw [hr] at hpos ⊢
  rw [sub_self, zero_mul]
  norm_num
  have := mul_pos hpos h6
  linarith

end Ju

end Asian

end PyFENG
