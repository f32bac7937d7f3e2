import Mathlib.Analysis.Calculus.MeanValue
import Mathlib.Analysis.Calculus.Deriv.Pow
import Mathlib.Analysis.SpecialFunctions.ExpDeriv
import Mathlib.MeasureTheory.Integral.IntervalIntegral.FundThmCalculus

/-!
# Exponential polynomials and uniqueness for linear differential equations
-/

namespace PyFENG

open Real Set

/-- `sum of c * t^a * exp(-k t)^b` over the entries `(c, a, b)`. -/
noncomputable def ep (k : ℝ) : List (ℝ × ℕ × ℕ) → ℝ → ℝ
  | [], _ => 0
  | (c, a, b) :: l, t => c * t ^ a * exp (-(k * t)) ^ b + ep k l t

/-- Its derivative. -/
noncomputable def epD (k : ℝ) : List (ℝ × ℕ × ℕ) → ℝ → ℝ
  | [], _ => 0
  | (c, a, b) :: l, t => c * ((a * t ^ (a - 1)) - t ^ a * (b * k)) * exp (-(k * t)) ^ b + epD k l t

lemma hasDerivAt_ep (k : ℝ) (l : List (ℝ × ℕ × ℕ)) (t : ℝ) : HasDerivAt (ep k l) (epD k l t) t := by
  induction l with
  | nil => exact hasDerivAt_const _ _
  | cons x l ih =>
    obtain ⟨c, a, b⟩ := x
    have he : HasDerivAt (fun t => exp (-(k * t))) (exp (-(k * t)) * -(k * 1)) t := (((hasDerivAt_id' t).const_mul k).neg).exp
    have h := (((hasDerivAt_pow a t).const_mul c).mul (he.pow b)).add ih
    refine h.congr_deriv ?_
    show _ = c * ((a * t ^ (a - 1)) - t ^ a * (b * k)) * exp (-(k * t)) ^ b + epD k l t
    rcases b with _ | b
    · simp
    · simp only [Nat.add_sub_cancel, pow_succ, Nat.cast_add, Nat.cast_one, Pi.pow_apply]
      ring

/-- Two solutions of `y' = -c y + g` on `[0, ∞)` with the same initial value agree. -/
lemma linear_ode_unique {c : ℝ} {g y z : ℝ → ℝ} (hy : ∀ t, 0 ≤ t → HasDerivWithinAt y (-(c * y t) + g t) (Ici 0) t)
    (hz : ∀ t, 0 ≤ t → HasDerivWithinAt z (-(c * z t) + g t) (Ici 0) t) (h0 : y 0 = z 0) {t : ℝ} (ht : 0 ≤ t) : y t = z t := by
  have hd : ∀ s, 0 ≤ s → HasDerivWithinAt (fun s => exp (c * s) * (y s - z s)) 0 (Ici 0) s := by
    intro s hs
    have he : HasDerivAt (fun s => exp (c * s)) (exp (c * s) * (c * 1)) s := ((hasDerivAt_id' s).const_mul c).exp
    refine (he.hasDerivWithinAt.mul ((hy s hs).sub (hz s hs))).congr_deriv ?_
    simp only [Pi.sub_apply]
    ring
  have hc := constant_of_has_deriv_right_zero (f := fun s => exp (c * s) * (y s - z s)) (a := 0) (b := t)
    (fun s hs => ((hd s hs.1).mono (fun u hu => hu.1)).continuousWithinAt)
    (fun s hs => (hd s hs.1).mono (Ici_subset_Ici.2 hs.1)) t ⟨ht, le_rfl⟩
  simp only [h0, sub_self, mul_zero] at hc
  rcases mul_eq_zero.1 hc with h | h
  · exact absurd h (exp_pos _).ne'
  · linarith

/-- Solution of `y' = -c y + g` on the whole line by variation of constants. -/
noncomputable def odeSol (c y0 : ℝ) (g : ℝ → ℝ) (t : ℝ) : ℝ := exp (-(c * t)) * (y0 + ∫ s in (0 : ℝ)..t, exp (c * s) * g s)

lemma hasDerivAt_odeSol {c y0 : ℝ} {g : ℝ → ℝ} (hg : Continuous g) (t : ℝ) :
    HasDerivAt (odeSol c y0 g) (-(c * odeSol c y0 g t) + g t) t := by
  have hc : Continuous fun s => exp (c * s) * g s := by fun_prop
  have h1 := intervalIntegral.integral_hasDerivAt_right (hc.intervalIntegrable 0 t) (hc.stronglyMeasurableAtFilter _ _) hc.continuousAt
  have he : HasDerivAt (fun t => exp (-(c * t))) (exp (-(c * t)) * -(c * 1)) t := (((hasDerivAt_id' t).const_mul c).neg).exp
  refine (he.mul (h1.const_add y0)).congr_deriv ?_
  unfold odeSol
  have : exp (-(c * t)) * exp (c * t) = 1 := by rw [← exp_add]; simp
  linear_combination g t * this

lemma odeSol_zero (c y0 : ℝ) (g : ℝ → ℝ) : odeSol c y0 g 0 = y0 := by unfold odeSol; simp

lemma continuous_odeSol {c y0 : ℝ} {g : ℝ → ℝ} (hg : Continuous g) : Continuous (odeSol c y0 g) :=
  continuous_iff_continuousAt.2 fun t => (hasDerivAt_odeSol hg t).continuousAt

end PyFENG
