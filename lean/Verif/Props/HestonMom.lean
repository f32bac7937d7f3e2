import Verif.Props.Cir
import Verif.Lemmas.CirExist
import Mathlib.Algebra.Field.GeomSum

/-!
# C40, C85: Heston log-price moments and the variance-swap strike
-/

namespace PyFENG

open Real Set

namespace Heston

/-- **C85**: `logp_mv` returns the mean and the variance of `log(S_T/F)` under the Heston dynamics: for every solution of the moment
equations of the pair (log price, variance). -/
theorem logp_mv_correct (m : Heston) {T : ℝ} (hT : 0 < T) (hk : m.mr ≠ 0) (_hv : m.vov ≠ 0) {H : ℕ → ℕ → ℝ → ℝ}
    (hH : Spec.HestonMoments m.mr m.theta m.vov m.rho (Spec.pointMoments m.sigma) H) :
    m.logpMv T = (H 1 0 T, H 2 0 T - H 1 0 T ^ 2) := by
  rw [H10_eq hH hk T hT.le, H20_eq hH hk T hT.le]
  unfold logpMv avgvarMv cir Cir.avgMv
  simp only [ep, hl10, hl20, Spec.pointMoments, pow_zero, pow_one, mul_one, Option.getD_none]
  rw [Cir.exprel_neg (mul_ne_zero hk hT.ne')]
  generalize exp (-(m.mr * T)) = E
  refine Prod.ext ?_ ?_
  · simp only
    field_simp
    ring
  · simp only
    field_simp
    ring

/-- Specification: fair strike of a variance swap monitored at `n` dates `h` apart: the mean of the squared log returns per unit time.
`V i s = E[V_s^i]` are the moments of the variance, and `H d i j t = E[(X_{dh+t} - X_{dh})^i V_{dh+t}^j]` those of the log price change after the
`d`-th date, which solve the Heston moment equations started from the variance at that date. -/
structure Spec.IsVarSwapStrike (mr theta vov rho v0 carry h : ℝ) (n : ℕ) (strike : ℝ) : Prop where
  eq : ∀ (V : ℕ → ℕ → ℝ → ℝ) (H : ℕ → ℕ → ℕ → ℝ → ℝ), Spec.CirMoments mr theta vov (Spec.pointMoments v0) V →
    (∀ d : ℕ, Spec.HestonMoments mr theta vov rho (fun j => V j 0 (d * h)) (H d)) →
    strike * (n * h) = ∑ d ∈ Finset.range n, (H (d : ℕ) 2 0 h + 2 * (carry * h) * H d 1 0 h + (carry * h) ^ 2)

/-- **C85**: the discretely monitored variance-swap strike of `strike_var_swap_analytic` is the expected realised variance of the log
returns, for every number of monitoring dates. -/
theorem strike_var_swap_correct (m : Heston) {h : ℝ} {n : ℕ} (hn : 0 < n) (hh : 1e-8 < h) (hk : m.mr ≠ 0) :
    Spec.IsVarSwapStrike m.mr m.theta m.vov m.rho m.sigma (m.intr - m.divr) h n (m.strikeVarSwap (n * h) h) := by
  have hh0 : 0 < h := lt_trans (by norm_num) hh
  have hn' : (0 : ℝ) < n := Nat.cast_pos.2 hn
  refine ⟨fun V H hV hH => ?_⟩
  have hd0 : ∀ d : ℕ, (0 : ℝ) ≤ d * h := fun d => by positivity
  have hE : ∀ d : ℕ, exp (-(m.mr * (d * h))) = exp (-(m.mr * h)) ^ d := by
    intro d
    rw [← exp_nat_mul]; congr 1; ring
  set E := exp (-(m.mr * h)) with hEdef
  let m1 : ℝ → ℝ := fun X => m.theta + (m.sigma - m.theta) * X
  let m2 : ℝ → ℝ := fun X => (m.theta * m.vov ^ 2 / (2 * m.mr) + m.theta ^ 2)
    + (-m.theta * m.vov ^ 2 / m.mr + -2 * m.theta ^ 2 + m.sigma * m.vov ^ 2 / m.mr + 2 * m.sigma * m.theta) * X
    + (m.theta * m.vov ^ 2 / (2 * m.mr) + m.theta ^ 2 - m.sigma * m.vov ^ 2 / m.mr - 2 * m.sigma * m.theta + m.sigma ^ 2) * X ^ 2
  let f : ℝ → ℝ := fun X => ep m.mr (hl20 m.mr m.theta (m.vov ^ 2) (m.rho * m.vov) (m1 X) (m2 X)) h
    + 2 * ((m.intr - m.divr) * h) * ep m.mr (hl10 m.mr m.theta (m.vov ^ 2) (m.rho * m.vov) (m1 X) (m2 X)) h + ((m.intr - m.divr) * h) ^ 2
  have hterm : ∀ d : ℕ, H d 2 0 h + 2 * ((m.intr - m.divr) * h) * H d 1 0 h + ((m.intr - m.divr) * h) ^ 2 = f (E ^ d) := by
    intro d
    have e1 : V 1 0 (d * h) = m1 (E ^ d) := by
      rw [M10_eq hV hk _ (hd0 d)]
      simp only [ep, cl10, Spec.pointMoments, pow_zero, pow_one, mul_one, hE, m1]
      ring
    have e2 : V 2 0 (d * h) = m2 (E ^ d) := by
      rw [M20_eq hV hk _ (hd0 d)]
      simp only [ep, cl20, Spec.pointMoments, pow_zero, pow_one, mul_one, hE, m2]
      ring
    rw [H20_eq (hH d) hk h hh0.le, H10_eq (hH d) hk h hh0.le, e1, e2]
  rw [Finset.sum_congr rfl fun d _ => hterm d]
  have hf : ∀ X, f X = f 0 + (f 1 - f (-1)) / 2 * X + ((f 1 + f (-1)) / 2 - f 0) * X ^ 2 := by
    intro X
    simp only [f, ep, hl20, hl10, m1, m2]
    ring
  have hsum : ∑ d ∈ Finset.range n, f (E ^ d) = n * f 0 + (f 1 - f (-1)) / 2 * ∑ d ∈ Finset.range n, E ^ d
      + ((f 1 + f (-1)) / 2 - f 0) * ∑ d ∈ Finset.range n, (E ^ d) ^ 2 := by
    rw [Finset.sum_congr rfl fun d _ => hf (E ^ d), Finset.sum_add_distrib, Finset.sum_add_distrib, Finset.mul_sum, Finset.mul_sum]
    simp
  unfold strikeVarSwap
  have hnc : ¬ (|h| ≤ 1e-8) := by rw [abs_of_pos hh0]; exact not_le.2 hh
  have hTn : (n * h : ℝ) ≠ 0 := (mul_pos hn' hh0).ne'
  simp only [hnc, not_false_eq_true, if_true]
  rw [show -2 * (m.mr * (n * h)) = -(2 * (m.mr * (n * h))) by ring, Cir.exprel_neg (mul_ne_zero hk hTn),
    Cir.exprel_neg (mul_ne_zero hk hh0.ne'), Cir.exprel_neg (mul_ne_zero two_ne_zero (mul_ne_zero hk hTn)), hE,
    show -(2 * (m.mr * (n * h))) = 2 * (-(m.mr * (n * h))) by ring, two_mul (-(m.mr * (n * h))), exp_add, hE]
  have hE1 : exp (-(m.mr * h)) ≠ 1 := by
    rw [Ne, exp_eq_one_iff]
    exact neg_ne_zero.2 (mul_ne_zero hk hh0.ne')
  have hEp := exp_pos (-(m.mr * h))
  have hmh : m.mr * h ≠ 0 := mul_ne_zero hk hh0.ne'
  rw [← hEdef] at hE1 hEp
  have g1 : ∑ d ∈ Finset.range n, E ^ d = (E ^ n - 1) / (E - 1) := geom_sum_eq hE1 n
  have hE2 : E ^ 2 ≠ 1 := by
    intro h2
    have : (E - 1) * (E + 1) = 0 := by linarith [h2]
    rcases mul_eq_zero.1 this with h3 | h3
    · exact hE1 (sub_eq_zero.1 h3)
    · linarith
  have g2 : ∑ d ∈ Finset.range n, (E ^ d) ^ 2 = ((E ^ n) ^ 2 - 1) / (E ^ 2 - 1) := by
    rw [← pow_mul, mul_comm n 2, pow_mul, ← geom_sum_eq hE2 n]
    refine Finset.sum_congr rfl fun d _ => ?_
    rw [← pow_mul, ← pow_mul, mul_comm]
  rw [hsum, g1, g2]
  simp only [f, ep, hl20, hl10, m1, m2, ← hEdef]
  have hE3 : 1 - E ≠ 0 := sub_ne_zero.2 hE1.symm
  have hE4 : 1 + E ≠ 0 := by positivity
  have e5 : E ^ 2 - 1 = -((1 - E) * (1 + E)) := by ring
  have e6 : E - 1 = -(1 - E) := by ring
  have e7 : 1 - 1 / E = -(1 - E) / E := by field_simp; ring
  rw [e5, e6, e7]
  clear_value E
  generalize E ^ n = X
  field_simp
  ring

/-- **C85**: with `dt=0` the strike is the mean of the average variance (continuous monitoring). -/
theorem strike_var_swap_continuous (m : Heston) {T : ℝ} (hT : 0 < T) (hk : m.mr ≠ 0) {V : ℕ → ℕ → ℝ → ℝ}
    (hV : Spec.CirMoments m.mr m.theta m.vov (Spec.pointMoments m.sigma) V) : m.strikeVarSwap T 0 = V 0 1 T / T := by
  rw [← (Cir.avg_mv_correct m.cir (T := T) (v0 := m.sigma) hT hk hV).1]
  unfold strikeVarSwap Cir.avgMv
  norm_num [cir]

/-- The defaults: `var_mv` and `avgvar_mv` start from the model's own variance unless told otherwise. -/
theorem var_mv_default (m : Heston) {dt : ℝ} (hdt : 0 ≤ dt) (var0 : Option ℝ) {M : ℕ → ℕ → ℝ → ℝ}
    (hM : Spec.CirMoments m.mr m.theta m.vov (Spec.pointMoments (var0.getD m.sigma)) M) :
    m.varMv dt var0 = (M 1 0 dt, M 2 0 dt - M 1 0 dt ^ 2) :=
  Cir.mv_correct m.cir hdt hM

/-- The moment equations used as specification have a solution, so the theorems above are not vacuous. -/
example (m : Heston) : ∃ H, Spec.HestonMoments m.mr m.theta m.vov m.rho (Spec.pointMoments m.sigma) H :=
  ⟨_, hesM_moments _ _ _ _ _ (by simp [Spec.pointMoments])⟩

example (m : Heston) : ∃ M, Spec.CirMoments m.mr m.theta m.vov (Spec.pointMoments m.sigma) M :=
  ⟨_, cirM_moments _ _ _ _ (by simp [Spec.pointMoments])⟩

end Heston

namespace Cir

/-- **C40** (semigroup): stepping `s` then `t` gives the moments of stepping `s + t` (tower rule and law of total variance). -/
theorem mv_semigroup (c : Cir) {v0 s t : ℝ} (hk : c.mr ≠ 0) (hs : s ≠ 0) (ht : t ≠ 0) (hst : s + t ≠ 0) :
    (c.mv (s + t) v0).1 = (c.mv t (c.mv s v0).1).1 ∧
    (c.mv (s + t) v0).2 = (c.mv t (c.mv s v0).1).2 + exp (-(c.mr * t)) ^ 2 * (c.mv s v0).2 := by
  unfold mv
  simp only
  rw [exprel_neg (mul_ne_zero hk hs), exprel_neg (mul_ne_zero hk ht), exprel_neg (mul_ne_zero hk hst), mul_add c.mr s t, neg_add, exp_add]
  generalize exp (-(c.mr * s)) = A
  generalize exp (-(c.mr * t)) = B
  have : c.mr * s + c.mr * t ≠ 0 := by rw [← mul_add]; exact mul_ne_zero hk hst
  constructor
  · ring
  · rw [← mul_add]
    field_simp
    ring

end Cir

end PyFENG
