import Verif.Lemmas.CirMoments

/-!
# The CIR and Heston moment equations have solutions
-/

namespace PyFENG

open Real Set

section
variable (mr theta sigma : ℝ) (init : ℕ → ℝ)

/-- Solution of the CIR moment equations. -/
noncomputable def cirM : ℕ → ℕ → ℝ → ℝ
  | 0, 0 => fun _ => 1
  | i + 1, 0 => odeSol ((i + 1) * mr) (init (i + 1)) fun t =>
      (i + 1) * (mr * theta) * cirM i 0 t + (i + 1) * i / 2 * sigma ^ 2 * cirM i 0 t
  | 0, j + 1 => odeSol 0 0 fun t => (j + 1) * cirM 1 j t
  | i + 1, j + 1 => odeSol ((i + 1) * mr) 0 fun t =>
      (i + 1) * (mr * theta) * cirM i (j + 1) t + (i + 1) * i / 2 * sigma ^ 2 * cirM i (j + 1) t + (j + 1) * cirM (i + 2) j t
termination_by i j => i + 2 * j

lemma continuous_cirM : ∀ i j, Continuous (cirM mr theta sigma init i j)
  | 0, 0 => by unfold cirM; exact continuous_const
  | i + 1, 0 => by
      unfold cirM
      have := continuous_cirM i 0
      exact continuous_odeSol (by fun_prop)
  | 0, j + 1 => by
      unfold cirM
      have := continuous_cirM 1 j
      exact continuous_odeSol (by fun_prop)
  | i + 1, j + 1 => by
      unfold cirM
      have h1 := continuous_cirM i (j + 1)
      have h2 := continuous_cirM (i + 2) j
      exact continuous_odeSol (by fun_prop)
termination_by i j => i + 2 * j

lemma cirM_moments (h : init 0 = 1) : Spec.CirMoments mr theta sigma init (cirM mr theta sigma init) := by
  refine ⟨fun t _ => ?_, fun i => ?_, fun i j => ?_, fun i j t _ => ?_⟩
  · unfold cirM; rfl
  · rcases i with _ | i
    · unfold cirM; exact h.symm
    · unfold cirM; exact odeSol_zero _ _ _
  · rcases i with _ | i
    · unfold cirM; exact odeSol_zero _ _ _
    · unfold cirM; exact odeSol_zero _ _ _
  · refine HasDerivAt.hasDerivWithinAt ?_
    rcases i with _ | i <;> rcases j with _ | j
    · have : cirM mr theta sigma init 0 0 = fun _ => 1 := by unfold cirM; rfl
      rw [this]
      refine (hasDerivAt_const t (1 : ℝ)).congr_deriv ?_
      simp
    · have h1 := continuous_cirM mr theta sigma init 1 j
      rw [cirM]
      refine (hasDerivAt_odeSol (by fun_prop) t).congr_deriv ?_
      simp
    · have h1 := continuous_cirM mr theta sigma init i 0
      rw [cirM]
      refine (hasDerivAt_odeSol (by fun_prop) t).congr_deriv ?_
      simp only [Nat.add_sub_cancel]
      push_cast
      ring
    · have h1 := continuous_cirM mr theta sigma init i (j + 1)
      have h2 := continuous_cirM mr theta sigma init (i + 2) j
      rw [cirM]
      refine (hasDerivAt_odeSol (by fun_prop) t).congr_deriv ?_
      simp only [Nat.add_sub_cancel]
      push_cast
      ring

variable (rho : ℝ)

/-- Solution of the Heston moment equations. -/
noncomputable def hesM : ℕ → ℕ → ℝ → ℝ
  | 0, 0 => fun _ => 1
  | 0, j + 1 => odeSol ((j + 1) * mr) (init (j + 1)) fun t =>
      (j + 1) * (mr * theta) * hesM 0 j t + (j + 1) * j / 2 * sigma ^ 2 * hesM 0 j t
  | 1, 0 => odeSol 0 0 fun t => -(1 / 2) * hesM 0 1 t
  | 1, j + 1 => odeSol ((j + 1) * mr) 0 fun t => -(1 / 2) * hesM 0 (j + 2) t
      + (j + 1) * (mr * theta) * hesM 1 j t + (j + 1) * j / 2 * sigma ^ 2 * hesM 1 j t + rho * sigma * (j + 1) * hesM 0 (j + 1) t
  | i + 2, 0 => odeSol 0 0 fun t => -((i + 2) / 2) * hesM (i + 1) 1 t + (i + 2) * (i + 1) / 2 * hesM i 1 t
  | i + 2, j + 1 => odeSol ((j + 1) * mr) 0 fun t => -((i + 2) / 2) * hesM (i + 1) (j + 2) t + (i + 2) * (i + 1) / 2 * hesM i (j + 2) t
      + (j + 1) * (mr * theta) * hesM (i + 2) j t + (j + 1) * j / 2 * sigma ^ 2 * hesM (i + 2) j t
      + rho * sigma * (i + 2) * (j + 1) * hesM (i + 1) (j + 1) t
termination_by i j => 2 * i + j

lemma continuous_hesM : ∀ i j, Continuous (hesM mr theta sigma init rho i j)
  | 0, 0 => by unfold hesM; exact continuous_const
  | 0, j + 1 => by
      unfold hesM
      have h1 := continuous_hesM 0 j
      exact continuous_odeSol (by fun_prop)
  | 1, 0 => by
      unfold hesM
      have h1 := continuous_hesM 0 1
      exact continuous_odeSol (by fun_prop)
  | 1, j + 1 => by
      unfold hesM
      have h1 := continuous_hesM 0 (j + 2)
      have h2 := continuous_hesM 1 j
      have h3 := continuous_hesM 0 (j + 1)
      exact continuous_odeSol (by fun_prop)
  | i + 2, 0 => by
      unfold hesM
      have h1 := continuous_hesM (i + 1) 1
      have h2 := continuous_hesM i 1
      exact continuous_odeSol (by fun_prop)
  | i + 2, j + 1 => by
      unfold hesM
      have h1 := continuous_hesM (i + 1) (j + 2)
      have h2 := continuous_hesM i (j + 2)
      have h3 := continuous_hesM (i + 2) j
      have h4 := continuous_hesM (i + 1) (j + 1)
      exact continuous_odeSol (by fun_prop)
termination_by i j => 2 * i + j

lemma hesM_moments (h : init 0 = 1) : Spec.HestonMoments mr theta sigma rho init (hesM mr theta sigma init rho) := by
  refine ⟨fun t _ => ?_, fun j => ?_, fun i j => ?_, fun i j t _ => ?_⟩
  · unfold hesM; rfl
  · rcases j with _ | j
    · unfold hesM; exact h.symm
    · unfold hesM; exact odeSol_zero _ _ _
  · rcases i with _ | i <;> rcases j with _ | j <;> (unfold hesM; exact odeSol_zero _ _ _)
  · refine HasDerivAt.hasDerivWithinAt ?_
    have hc := continuous_hesM mr theta sigma init rho
    rcases i with _ | _ | i <;> rcases j with _ | j
    · have : hesM mr theta sigma init rho 0 0 = fun _ => 1 := by unfold hesM; rfl
      rw [this]
      refine (hasDerivAt_const t (1 : ℝ)).congr_deriv ?_
      simp
    · have h1 := hc 0 j
      rw [hesM]
      refine (hasDerivAt_odeSol (by fun_prop) t).congr_deriv ?_
      simp only [Nat.add_sub_cancel]
      push_cast
      ring
    · have h1 := hc 0 1
      have e : hesM mr theta sigma init rho 1 0 = odeSol 0 0 fun t => -(1 / 2) * hesM mr theta sigma init rho 0 1 t := by conv_lhs => rw [hesM]
      rw [show (0 + 1 : ℕ) = 1 from rfl, e]
      refine (hasDerivAt_odeSol (by fun_prop) t).congr_deriv ?_
      simp
    · have h1 := hc 0 (j + 2)
      have h2 := hc 1 j
      have h3 := hc 0 (j + 1)
      have e : hesM mr theta sigma init rho 1 (j + 1) = odeSol ((j + 1) * mr) 0 fun t => -(1 / 2) * hesM mr theta sigma init rho 0 (j + 2) t
          + (j + 1) * (mr * theta) * hesM mr theta sigma init rho 1 j t + (j + 1) * j / 2 * sigma ^ 2 * hesM mr theta sigma init rho 1 j t
          + rho * sigma * (j + 1) * hesM mr theta sigma init rho 0 (j + 1) t := by conv_lhs => rw [hesM]
      rw [show (0 + 1 : ℕ) = 1 from rfl, e]
      refine (hasDerivAt_odeSol (by fun_prop) t).congr_deriv ?_
      simp only [Nat.add_sub_cancel, Nat.sub_self]
      push_cast
      ring
    · have h1 := hc (i + 1) 1
      have h2 := hc i 1
      rw [hesM]
      refine (hasDerivAt_odeSol (by fun_prop) t).congr_deriv ?_
      simp only [show i + 1 + 1 - 1 = i + 1 by omega, show i + 1 + 1 - 2 = i by omega, zero_add]
      push_cast
      ring
    · have h1 := hc (i + 1) (j + 2)
      have h2 := hc i (j + 2)
      have h3 := hc (i + 2) j
      have h4 := hc (i + 1) (j + 1)
      rw [hesM]
      refine (hasDerivAt_odeSol (by fun_prop) t).congr_deriv ?_
      simp only [show i + 1 + 1 - 1 = i + 1 by omega, show i + 1 + 1 - 2 = i by omega, Nat.add_sub_cancel]
      push_cast
      ring

end

end PyFENG
