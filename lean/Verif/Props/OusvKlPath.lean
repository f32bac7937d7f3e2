import Verif.Props.OusvMom
import Verif.Props.OusvKl
import Verif.Lemmas.CoshFourier

/-!
# C113: the Karhunen-Loève volatility path and its exact averages
-/

set_option linter.unusedSimpArgs false
set_option linter.unusedVariables false

namespace PyFENG

open Real Set Filter Topology MeasureTheory ProbabilityTheory
open scoped NNReal

namespace Ousv

lemma nPi_pos (k : ℕ) : 0 < nPi k := by unfold nPi; have := pi_pos; positivity

lemma nPi_sq (k : ℕ) : nPi k ^ 2 = Coth.pole k := by unfold nPi Coth.pole; ring

lemma cos_nPi (k : ℕ) : cos (nPi k) = (-1) ^ (k + 1) := by
  have := cos_nat_mul_pi (k + 1)
  unfold nPi
  rw [← this]
  push_cast
  ring_nf

lemma sin_nPi (k : ℕ) : sin (nPi k) = 0 := by
  have := sin_nat_mul_pi (k + 1)
  unfold nPi
  rw [← this]
  push_cast
  ring_nf

lemma int_sin {T : ℝ} (hT : 0 < T) (k : ℕ) : 1 / T * ∫ t in (0:ℝ)..T, sin (nPi k * t / T) = (1 - (-1) ^ (k + 1)) / nPi k := by
  have hp := (nPi_pos k).ne'
  have h2 := intervalIntegral.integral_eq_sub_of_hasDerivAt (a := 0) (b := T) (f := fun t => -(T / nPi k) * cos (nPi k * t / T)) (f' := fun t => sin (nPi k * t / T)) (fun t _ => by
    refine (((((hasDerivAt_id' t).const_mul (nPi k)).div_const T).cos).const_mul (-(T / nPi k))).congr_deriv ?_
    field_simp) (Continuous.intervalIntegrable (by fun_prop) _ _)
  rw [h2, mul_div_assoc, div_self hT.ne', mul_one, cos_nPi]
  simp
  field_simp
  ring

/-- `(1/T) ∫ e^{-κt} sin(nπt/T) dt`. -/
lemma int_exp_sin {T : ℝ} (hT : 0 < T) (κ : ℝ) (k : ℕ) :
    1 / T * ∫ t in (0:ℝ)..T, exp (-(κ * t)) * sin (nPi k * t / T) = nPi k * (1 - (-1) ^ (k + 1) * exp (-(κ * T))) / ((κ * T) ^ 2 + nPi k ^ 2) := by
  have hp := nPi_pos k
  have hd : (κ * T) ^ 2 + nPi k ^ 2 ≠ 0 := by positivity
  have h2 := intervalIntegral.integral_eq_sub_of_hasDerivAt (a := 0) (b := T)
    (f := fun t => -(T / ((κ * T) ^ 2 + nPi k ^ 2)) * (exp (-(κ * t)) * (κ * T * sin (nPi k * t / T) + nPi k * cos (nPi k * t / T)))) (f' := fun t => exp (-(κ * t)) * sin (nPi k * t / T)) (fun t _ => by
    have hl := (((hasDerivAt_id' t).const_mul (nPi k)).div_const T)
    have he : HasDerivAt (fun s => exp (-(κ * s))) (exp (-(κ * t)) * -(κ * 1)) t := (((hasDerivAt_id' t).const_mul κ).fun_neg).exp
    refine ((he.fun_mul ((hl.sin.const_mul (κ * T)).fun_add (hl.cos.const_mul (nPi k)))).const_mul _).congr_deriv ?_
    generalize exp (-(κ * t)) = e
    generalize sin (nPi k * t / T) = s
    generalize cos (nPi k * t / T) = c
    obtain ⟨d, hd'⟩ : ∃ d, d = (κ * T) ^ 2 + nPi k ^ 2 := ⟨_, rfl⟩
    rw [← hd'] at hd ⊢
    field_simp
    rw [hd']
    ring) (Continuous.intervalIntegrable (by fun_prop) _ _)
  rw [h2, mul_div_assoc, div_self hT.ne', mul_one, cos_nPi, sin_nPi]
  simp
  field_simp
  ring

lemma int_sin_sin {T : ℝ} (hT : 0 < T) (j k : ℕ) : 1 / T * ∫ t in (0:ℝ)..T, sin (nPi j * t / T) * sin (nPi k * t / T) = if j = k then 1 / 2 else 0 := by
  have h2c : ∀ a : ℝ, a ≠ 0 → (∃ n : ℤ, a = n * π) → ∫ t in (0:ℝ)..T, cos (a * t / T) = 0 := by
    rintro a ha ⟨n, hn⟩
    have h2 := intervalIntegral.integral_eq_sub_of_hasDerivAt (a := 0) (b := T) (f := fun t => (T / a) * sin (a * t / T)) (f' := fun t => cos (a * t / T)) (fun t _ => by
      refine (((((hasDerivAt_id' t).const_mul a).div_const T).sin).const_mul (T / a)).congr_deriv ?_
      field_simp) (Continuous.intervalIntegrable (by fun_prop) _ _)
    rw [h2, mul_div_assoc, div_self hT.ne', mul_one, hn, sin_int_mul_pi]
    simp
  have e : ∀ t, sin (nPi j * t / T) * sin (nPi k * t / T) = 1 / 2 * (cos ((nPi j - nPi k) * t / T) - cos ((nPi j + nPi k) * t / T)) := fun t => by
    rw [show (nPi j - nPi k) * t / T = nPi j * t / T - nPi k * t / T by ring, show (nPi j + nPi k) * t / T = nPi j * t / T + nPi k * t / T by ring, cos_add, cos_sub]
    ring
  simp_rw [e]
  rw [intervalIntegral.integral_const_mul, intervalIntegral.integral_sub (Continuous.intervalIntegrable (by fun_prop) _ _) (Continuous.intervalIntegrable (by fun_prop) _ _),
    h2c (nPi j + nPi k) (by have := nPi_pos j; have := nPi_pos k; positivity) ⟨(j + 1) + (k + 1), by unfold nPi; push_cast; ring⟩]
  split_ifs with h
  · subst h
    simp
    field_simp
  · rw [h2c (nPi j - nPi k) (fun h' => h ?_) ⟨(j:ℤ) - k, by unfold nPi; push_cast; ring⟩]
    · simp
    · unfold nPi at h'
      have : (j:ℝ) = k := by
        have hpi := pi_pos
        have : π * ((j:ℝ) - k) = 0 := by linarith
        rcases mul_eq_zero.1 this with h | h
        · exact absurd h hpi.ne'
        · linarith
      exact_mod_cast this

lemma sliceSum_eq (p : Parity) (n : ℕ) (f : ℕ → ℝ) : sliceSum p n f = ∑ k ∈ Finset.range n, if p.keep k then f k else 0 := by rw [sliceSum, Finset.sum_filter]

lemma keep_odd_even (k : ℕ) : (Parity.odd.keep k = true ∧ Parity.even.keep k = false ∧ (-1 : ℝ) ^ (k + 1) = -1) ∨ (Parity.odd.keep k = false ∧ Parity.even.keep k = true ∧ (-1 : ℝ) ^ (k + 1) = 1) := by
  rcases Nat.even_or_odd k with h | h
  · left
    have h2 := Nat.even_iff.1 h
    refine ⟨by simp [Parity.keep, h2], by simp [Parity.keep, h2], ?_⟩
    rw [Odd.neg_one_pow h.add_one]
  · right
    have h2 := Nat.odd_iff.1 h
    refine ⟨by simp [Parity.keep, h2], by simp [Parity.keep, h2], ?_⟩
    rw [Even.neg_one_pow h.add_one]

lemma an_sq (x : ℝ) (k : ℕ) : an x k ^ 2 = an2 x k := by
  unfold an
  exact sq_sqrt (by unfold an2; have := nPi_pos k; positivity)

/-- The deterministic part of the path relative to `theta`. -/
noncomputable def base (m : Ousv) (T v0 vT t : ℝ) : ℝ := v0 * exp (-(m.mr * t)) + beta m.mr T t * (vT - v0 * exp (-(m.mr * T)))

lemma volPathSin_eq (m : Ousv) (n : ℕ) (z : ℕ → ℝ) (T t : ℝ) : m.volPathSin n z T t = m.theta + (base m T (m.sigma - m.theta) (m.volStep T (m.sigma - m.theta) (z 0) false) t
    + m.vov * √T * ∑ k ∈ Finset.range n, an (m.mr * T) k * sin (nPi k * t / T) * z (k + 1)) := by
  unfold volPathSin base beta
  have h : (1:ℝ) / exp (-m.mr * t) = exp (m.mr * t) := by rw [neg_mul, exp_neg]; simp
  simp only
  rw [h, sinh_eq (m.mr * t), neg_mul]
  norm_num
  ring

lemma int_base_sin (m : Ousv) (hm : m.mr ≠ 0) {T : ℝ} (hT : 0 < T) (v0 vT : ℝ) (k : ℕ) :
    1 / T * ∫ t in (0:ℝ)..T, base m T v0 vT t * sin (nPi k * t / T) = an2 (m.mr * T) k * nPi k / 2 * (v0 - (-1) ^ (k + 1) * vT) := by
  have hx : m.mr * T ≠ 0 := mul_ne_zero hm hT.ne'
  have hsh := sinh_ne0 hx
  have h1 := int_exp_sin hT m.mr k
  have h2 := int_exp_sin hT (-m.mr) k
  simp only [neg_mul, neg_neg] at h2
  set V := vT - v0 * exp (-(m.mr * T)) with hV
  have e : ∀ t, base m T v0 vT t * sin (nPi k * t / T) = (v0 - V / (2 * sinh (m.mr * T))) * (exp (-(m.mr * t)) * sin (nPi k * t / T)) + V / (2 * sinh (m.mr * T)) * (exp (m.mr * t) * sin (nPi k * t / T)) := fun t => by
    unfold base beta
    rw [← hV, sinh_eq (m.mr * t)]
    field_simp
    ring
  simp_rw [e]
  rw [intervalIntegral.integral_add (Continuous.intervalIntegrable (by fun_prop) _ _) (Continuous.intervalIntegrable (by fun_prop) _ _), intervalIntegral.integral_const_mul, intervalIntegral.integral_const_mul,
    mul_add, mul_left_comm, h1, mul_left_comm, h2]
  unfold an2
  have hd : (m.mr * T) ^ 2 + nPi k ^ 2 ≠ 0 := by have := nPi_pos k; positivity
  rw [neg_sq]
  have hs : exp (m.mr * T) = 2 * sinh (m.mr * T) + exp (-(m.mr * T)) := by rw [sinh_eq]; ring
  rw [hs]
  generalize sinh (m.mr * T) = S at *
  obtain ⟨d, hd'⟩ : ∃ d, d = (m.mr * T) ^ 2 + nPi k ^ 2 := ⟨_, rfl⟩
  rw [← hd'] at hd ⊢
  clear_value V
  have hv : vT = V + v0 * exp (-(m.mr * T)) := by rw [hV]; ring
  rw [hv]
  field_simp
  ring

/-- **C113.** With given normal variates, `cond_states_step` returns exactly the endpoint, the average variance and the average volatility of the path which
`vol_path_sin` builds from the same variates: no discretisation, whatever the number of sine terms. -/
theorem kl_step_eq_path (m : Ousv) (hm : m.mr ≠ 0) {T : ℝ} (hT : 0 < T) (n : ℕ) (z : ℕ → ℝ) :
    m.stepKlZn T m.sigma true n z = (m.volPathSin n z T T, 1 / T * ∫ t in (0:ℝ)..T, m.volPathSin n z T t ^ 2, 1 / T * ∫ t in (0:ℝ)..T, m.volPathSin n z T t) ∧
    m.volPathSin n z T 0 = m.sigma := by
  have hx : m.mr * T ≠ 0 := mul_ne_zero hm hT.ne'
  have hsh := sinh_ne0 hx
  set v0 := m.sigma - m.theta with hv0
  set vT := m.volStep T v0 (z 0) false with hvT
  set y : ℝ → ℝ := fun t => base m T v0 vT t + m.vov * √T * ∑ k ∈ Finset.range n, an (m.mr * T) k * sin (nPi k * t / T) * z (k + 1) with hy
  have hpath : ∀ t, m.volPathSin n z T t = m.theta + y t := fun t => volPathSin_eq m n z T t
  have hbc : Continuous fun t => base m T v0 vT t := by unfold base beta; fun_prop
  have hyc : Continuous y := by rw [hy]; fun_prop
  -- integrals of the base path
  have hb1 : 1 / T * ∫ t in (0:ℝ)..T, base m T v0 vT t = (m.condAvgvolvarM T v0 vT false).1 := (cond_integrals m hm hT v0 vT).1
  have hb2 : 1 / T * ∫ t in (0:ℝ)..T, base m T v0 vT t ^ 2 = (m.condAvgvolvarM T v0 vT false).2 - 0.5 * (m.vov ^ 2 / m.mr) * (cosh (m.mr * T) / sinh (m.mr * T) - 1 / (m.mr * T)) := by
    have h := (cond_integrals { m with vov := 0 } hm hT v0 vT).2
    have e1 : (∫ t in (0:ℝ)..T, base m T v0 vT t ^ 2) = ∫ s in (0:ℝ)..T, ((v0 * exp (-(m.mr * s)) + beta m.mr T s * (vT - v0 * exp (-(m.mr * T)))) ^ 2 + (0:ℝ) ^ 2 * resVar m.mr T s) :=
      intervalIntegral.integral_congr fun s _ => by unfold base; ring
    rw [e1, h]
    unfold condAvgvolvarM phi2
    simp
    ring
  -- the average
  have hU : 1 / T * ∫ t in (0:ℝ)..T, y t = (m.condAvgvolvarM T v0 vT false).1 + 2 * (m.vov * √T) * sliceSum .odd n fun k => an (m.mr * T) k / nPi k * z (k + 1) := by
    rw [hy]
    simp only
    rw [intervalIntegral.integral_add (hbc.intervalIntegrable _ _) (Continuous.intervalIntegrable (by fun_prop) _ _), intervalIntegral.integral_const_mul, mul_add, hb1,
      intervalIntegral.integral_finsetSum fun k _ => Continuous.intervalIntegrable (by fun_prop) _ _]
    congr 1
    have e : ∀ k ∈ Finset.range n, ∫ t in (0:ℝ)..T, an (m.mr * T) k * sin (nPi k * t / T) * z (k + 1) = T * ((1 - (-1) ^ (k + 1)) / nPi k * (an (m.mr * T) k * z (k + 1))) := fun k _ => by
      have h1 := int_sin hT k
      have h2 : ∫ t in (0:ℝ)..T, an (m.mr * T) k * sin (nPi k * t / T) * z (k + 1) = (an (m.mr * T) k * z (k + 1)) * ∫ t in (0:ℝ)..T, sin (nPi k * t / T) := by
        rw [← intervalIntegral.integral_const_mul]
        exact intervalIntegral.integral_congr fun t _ => by ring
      rw [h2, ← h1]
      field_simp
    rw [Finset.sum_congr rfl e, ← Finset.mul_sum, sliceSum_eq, Finset.mul_sum, Finset.mul_sum, Finset.mul_sum, Finset.mul_sum]
    refine Finset.sum_congr rfl fun k _ => ?_
    have hp := (nPi_pos k).ne'
    rcases keep_odd_even k with ⟨h1, h2, h3⟩ | ⟨h1, h2, h3⟩
    · rw [h1, h3, if_pos rfl]
      field_simp
      ring
    · rw [h1, h3, if_neg (by simp)]
      field_simp
      ring
  -- the average of squares
  set c : ℕ → ℝ := fun k => an (m.mr * T) k * z (k + 1) with hc
  have hS2 : 1 / T * ∫ t in (0:ℝ)..T, (∑ k ∈ Finset.range n, c k * sin (nPi k * t / T)) ^ 2 = ∑ k ∈ Finset.range n, c k ^ 2 / 2 := by
    have e : ∀ t, (∑ k ∈ Finset.range n, c k * sin (nPi k * t / T)) ^ 2 = ∑ j ∈ Finset.range n, ∑ k ∈ Finset.range n, c j * c k * (sin (nPi j * t / T) * sin (nPi k * t / T)) := fun t => by
      rw [sq, Finset.sum_mul_sum]
      exact Finset.sum_congr rfl fun j _ => Finset.sum_congr rfl fun k _ => by ring
    simp_rw [e]
    rw [intervalIntegral.integral_finsetSum fun j _ => Continuous.intervalIntegrable (by fun_prop) _ _, Finset.mul_sum]
    refine Finset.sum_congr rfl fun j hj => ?_
    rw [intervalIntegral.integral_finsetSum fun k _ => Continuous.intervalIntegrable (by fun_prop) _ _, Finset.mul_sum]
    have e2 : ∀ k ∈ Finset.range n, 1 / T * ∫ t in (0:ℝ)..T, c j * c k * (sin (nPi j * t / T) * sin (nPi k * t / T)) = if j = k then c j ^ 2 / 2 else 0 := fun k _ => by
      rw [intervalIntegral.integral_const_mul, mul_left_comm, int_sin_sin hT]
      split_ifs with h
      · subst h; ring
      · simp
    rw [Finset.sum_congr rfl e2, Finset.sum_ite_eq, if_pos hj]
  have hV : 1 / T * ∫ t in (0:ℝ)..T, y t ^ 2 = (m.condAvgvolvarM T v0 vT false).2 - 0.5 * (m.vov ^ 2 / m.mr) * (cosh (m.mr * T) / sinh (m.mr * T) - 1 / (m.mr * T))
      + m.vov * √T * ∑ k ∈ Finset.range n, c k * (an2 (m.mr * T) k * nPi k * (v0 - (-1) ^ (k + 1) * vT)) + m.vov ^ 2 * T * ∑ k ∈ Finset.range n, c k ^ 2 / 2 := by
    have e : ∀ t, y t ^ 2 = (base m T v0 vT t ^ 2 + ∑ k ∈ Finset.range n, (2 * (m.vov * √T) * c k) * (base m T v0 vT t * sin (nPi k * t / T))) + (m.vov ^ 2 * T) * (∑ k ∈ Finset.range n, c k * sin (nPi k * t / T)) ^ 2 := fun t => by
      have h1 : ∑ k ∈ Finset.range n, an (m.mr * T) k * sin (nPi k * t / T) * z (k + 1) = ∑ k ∈ Finset.range n, c k * sin (nPi k * t / T) := Finset.sum_congr rfl fun k _ => by rw [hc]; ring
      have h2 : ∑ k ∈ Finset.range n, (2 * (m.vov * √T) * c k) * (base m T v0 vT t * sin (nPi k * t / T)) = 2 * (m.vov * √T) * base m T v0 vT t * ∑ k ∈ Finset.range n, c k * sin (nPi k * t / T) := by
        rw [Finset.mul_sum]; exact Finset.sum_congr rfl fun k _ => by ring
      rw [h2, hy]
      simp only
      rw [h1]
      have hq : √T ^ 2 = T := sq_sqrt hT.le
      linear_combination (m.vov ^ 2 * (∑ k ∈ Finset.range n, c k * sin (nPi k * t / T)) ^ 2) * hq
    simp_rw [e]
    have ic1 : Continuous fun t => base m T v0 vT t ^ 2 := hbc.pow 2
    have ic2 : Continuous fun t => ∑ k ∈ Finset.range n, (2 * (m.vov * √T) * c k) * (base m T v0 vT t * sin (nPi k * t / T)) :=
      continuous_finsetSum _ fun k _ => continuous_const.mul (hbc.mul (by fun_prop))
    have ic4 : ∀ k, Continuous fun t => (2 * (m.vov * √T) * c k) * (base m T v0 vT t * sin (nPi k * t / T)) := fun k => continuous_const.mul (hbc.mul (by fun_prop))
    have ic3 : Continuous fun t => base m T v0 vT t ^ 2 + ∑ k ∈ Finset.range n, (2 * (m.vov * √T) * c k) * (base m T v0 vT t * sin (nPi k * t / T)) := ic1.add ic2
    rw [intervalIntegral.integral_add (ic3.intervalIntegrable _ _) (Continuous.intervalIntegrable (by fun_prop) _ _), intervalIntegral.integral_add (ic1.intervalIntegrable _ _) (ic2.intervalIntegrable _ _),
      intervalIntegral.integral_const_mul, mul_add, mul_add, hb2, mul_left_comm (1 / T) (m.vov ^ 2 * T), hS2,
      intervalIntegral.integral_finsetSum fun k _ => (ic4 k).intervalIntegrable _ _, Finset.mul_sum]
    congr 2
    rw [Finset.mul_sum]
    refine Finset.sum_congr rfl fun k _ => ?_
    rw [intervalIntegral.integral_const_mul, mul_left_comm, int_base_sin m hm hT]
    ring
  have hθ1 : 1 / T * ∫ t in (0:ℝ)..T, m.volPathSin n z T t = (1 / T * ∫ t in (0:ℝ)..T, y t) + m.theta := by
    simp_rw [hpath]
    rw [intervalIntegral.integral_add intervalIntegrable_const (hyc.intervalIntegrable _ _), intervalIntegral.integral_const]
    simp only [sub_zero, smul_eq_mul]
    field_simp
    ring
  have hθ2 : 1 / T * ∫ t in (0:ℝ)..T, m.volPathSin n z T t ^ 2 = (1 / T * ∫ t in (0:ℝ)..T, y t ^ 2) + m.theta * (m.theta + 2 * (1 / T * ∫ t in (0:ℝ)..T, y t)) := by
    simp_rw [hpath]
    have e : ∀ t, (m.theta + y t) ^ 2 = (m.theta ^ 2 + 2 * m.theta * y t) + y t ^ 2 := fun t => by ring
    simp_rw [e]
    have ic1 : Continuous fun t => y t ^ 2 := hyc.pow 2
    have ic2 : Continuous fun t => m.theta ^ 2 + 2 * m.theta * y t := by fun_prop
    rw [intervalIntegral.integral_add (ic2.intervalIntegrable _ _) (ic1.intervalIntegrable _ _),
      intervalIntegral.integral_add intervalIntegrable_const (Continuous.intervalIntegrable (by fun_prop) _ _), intervalIntegral.integral_const, intervalIntegral.integral_const_mul]
    simp only [sub_zero, smul_eq_mul]
    field_simp
    ring
  refine ⟨?_, ?_⟩
  · rw [hθ1, hθ2, hpath T, hU, hV]
    unfold stepKlZn klAssemble shift
    simp only [if_true]
    rw [← hv0, ← hvT]
    refine Prod.ext ?_ (Prod.ext ?_ ?_)
    · simp only [hy, base, beta]
      have : ∑ k ∈ Finset.range n, an (m.mr * T) k * sin (nPi k * T / T) * z (k + 1) = 0 := Finset.sum_eq_zero fun k _ => by
        rw [mul_div_assoc, div_self hT.ne', mul_one, sin_nPi]; ring
      rw [this, div_self hsh]
      ring
    · simp only
      have ha2 : a2sum (m.mr * T) n .all = a2All (m.mr * T) - ∑ k ∈ Finset.range n, an2 (m.mr * T) k := by
        simp [a2sum, sliceSum_eq, Parity.keep, an2, nPi2_pole, nPi_sq]
      have ha0 : a2All (m.mr * T) * T = 1 / m.mr * (cosh (m.mr * T) / sinh (m.mr * T) - 1 / (m.mr * T)) := by
        unfold a2All
        rw [tanh_eq_sinh_div_cosh]
        have := cosh_pos (m.mr * T)
        field_simp
      have hr : sliceSum .all n (fun k => an2 (m.mr * T) k * (z (k + 1) ^ 2 - 1)) = (∑ k ∈ Finset.range n, c k ^ 2) - ∑ k ∈ Finset.range n, an2 (m.mr * T) k := by
        rw [sliceSum_eq, ← Finset.sum_sub_distrib]
        refine Finset.sum_congr rfl fun k _ => ?_
        rw [hc]
        simp only [Parity.keep, if_true]
        rw [mul_pow, an_sq]
        ring
      have hpq : v0 * (sliceSum .odd n (fun k => an2 (m.mr * T) k * an (m.mr * T) k * nPi k * z (k + 1)) + sliceSum .even n (fun k => an2 (m.mr * T) k * an (m.mr * T) k * nPi k * z (k + 1))) +
          vT * (sliceSum .odd n (fun k => an2 (m.mr * T) k * an (m.mr * T) k * nPi k * z (k + 1)) - sliceSum .even n (fun k => an2 (m.mr * T) k * an (m.mr * T) k * nPi k * z (k + 1))) =
          ∑ k ∈ Finset.range n, c k * (an2 (m.mr * T) k * nPi k * (v0 - (-1) ^ (k + 1) * vT)) := by
        rw [sliceSum_eq, sliceSum_eq, ← Finset.sum_add_distrib, ← Finset.sum_sub_distrib, Finset.mul_sum, Finset.mul_sum, ← Finset.sum_add_distrib]
        refine Finset.sum_congr rfl fun k _ => ?_
        rw [hc]
        rcases keep_odd_even k with ⟨h1, h2, h3⟩ | ⟨h1, h2, h3⟩ <;> rw [h1, h2, h3] <;> simp <;> ring
      rw [zero_add, zero_add, zero_add, hpq, hr, ha2]
      have hq : √T ^ 2 = T := sq_sqrt hT.le
      have hs2 : ∑ k ∈ Finset.range n, c k ^ 2 / 2 = (∑ k ∈ Finset.range n, c k ^ 2) / 2 := by rw [Finset.sum_div]
      rw [hs2]
      generalize (∑ k ∈ Finset.range n, c k ^ 2) = A at *
      generalize (∑ k ∈ Finset.range n, an2 (m.mr * T) k) = B at *
      generalize (∑ k ∈ Finset.range n, c k * (an2 (m.mr * T) k * nPi k * (v0 - (-1) ^ (k + 1) * vT))) = D at *
      generalize cosh (m.mr * T) / sinh (m.mr * T) - 1 / (m.mr * T) = E at *
      generalize (sliceSum Parity.odd n fun k => an (m.mr * T) k / nPi k * z (k + 1)) = F at *
      have h0 : m.vov ^ 2 / m.mr * E = m.vov ^ 2 * (a2All (m.mr * T) * T) := by rw [ha0]; ring
      norm_num
      linear_combination (1 / 2 * m.vov ^ 2 * (A - a2All (m.mr * T))) * hq + (1 / 2) * h0
    · simp only
      ring
  · rw [hpath]
    simp [hy, base, beta, hv0]

/-! ### The law of the path -/

/-- The covariance of the solution as endpoint regression plus the sine series. -/
lemma kl_cov {κ : ℝ} (hκ : κ ≠ 0) {T s t : ℝ} (hT : 0 < T) (ht : 0 ≤ t) (hts : t ≤ s) (hs : s ≤ T) :
    HasSum (fun k => T * (an2 (κ * T) k * (sin (nPi k * s / T) * sin (nPi k * t / T))))
      ((exp (-(κ * (s - t))) - exp (-(κ * (s + t)))) / (2 * κ) - beta κ T s * beta κ T t * ((1 - exp (-κ * T) ^ 2) / (2 * κ))) := by
  have hx : κ * T ≠ 0 := mul_ne_zero hκ hT.ne'
  have hsh := sinh_ne0 hx
  have h := (Coth.hasSum_sin hx (a := s / T) (b := t / T) (by positivity) (by gcongr) (by rw [div_le_one hT]; exact hs)).mul_left T
  have e : (exp (-(κ * (s - t))) - exp (-(κ * (s + t)))) / (2 * κ) - beta κ T s * beta κ T t * ((1 - exp (-κ * T) ^ 2) / (2 * κ)) =
      T * (sinh (κ * T * (1 - s / T)) * sinh (κ * T * (t / T)) / (κ * T * sinh (κ * T))) := by
    rw [show κ * T * (1 - s / T) = κ * T - κ * s by field_simp, show κ * T * (t / T) = κ * t by field_simp, sinh_sub]
    unfold beta
    have e1 : exp (-(κ * (s - t))) - exp (-(κ * (s + t))) = 2 * exp (-(κ * s)) * sinh (κ * t) := by
      rw [sinh_eq, show -(κ * (s - t)) = -(κ * s) + κ * t by ring, show -(κ * (s + t)) = -(κ * s) + -(κ * t) by ring, exp_add, exp_add]; ring
    have e2 : 1 - exp (-κ * T) ^ 2 = 2 * exp (-(κ * T)) * sinh (κ * T) := by
      rw [sinh_eq, neg_mul]
      have : exp (-(κ * T)) * exp (κ * T) = 1 := by rw [← exp_add]; simp
      linear_combination -this
    have e3 : exp (-(κ * s)) = cosh (κ * s) - sinh (κ * s) := by rw [cosh_eq, sinh_eq]; ring
    have e4 : exp (-(κ * T)) = cosh (κ * T) - sinh (κ * T) := by rw [cosh_eq, sinh_eq]; ring
    rw [e1, e2, e3, e4]
    field_simp
    ring
  rw [e]
  refine h.congr_fun fun k => ?_
  rw [an2, nPi_sq, show nPi k * s / T = π * ((k:ℝ) + 1) * (s / T) by unfold nPi; ring, show nPi k * t / T = π * ((k:ℝ) + 1) * (t / T) by unfold nPi; ring]

section KlLaw

variable {Ω Ω' : Type*} {mΩ : MeasurableSpace Ω} {mΩ' : MeasurableSpace Ω'} {P : Measure Ω} {Q : Measure Ω'} {W X : ℝ≥0 → Ω → ℝ} {ζ : ℕ → Ω' → ℝ}

/-- The characteristic function of a linear combination of independent standard normal variables. -/
lemma char_iid [IsProbabilityMeasure Q] (hζm : ∀ k, Measurable (ζ k)) (hζi : iIndepFun ζ Q) (hζ : ∀ k, Q.map (ζ k) = gaussianReal 0 1) (d : ℕ → ℝ) (n : ℕ) (μ : ℝ) :
    ∫ ω, Complex.exp (Complex.I * ((μ + ∑ k ∈ Finset.range n, d k * ζ k ω : ℝ) : ℂ)) ∂Q = Complex.exp (Complex.I * μ - ((∑ k ∈ Finset.range n, d k ^ 2 : ℝ) : ℂ) / 2) := by
  have hi : iIndepFun (fun k ω => d k * ζ k ω) Q := hζi.comp (fun k x => d k * x) fun k => by fun_prop
  have h := congrFun (iIndepFun.charFun_map_fun_finsetSum_eq_prod (s := Finset.range n) (X := fun k ω => d k * ζ k ω) (fun k _ => ((hζm k).const_mul (d k)).aemeasurable) (hi.restrict _)) 1
  rw [charFun_apply_real, integral_map (by exact (Finset.measurable_sum _ fun k _ => (hζm k).const_mul _).aemeasurable) (by fun_prop)] at h
  have hk : ∀ k, charFun (Q.map fun ω => d k * ζ k ω) 1 = Complex.exp (-(d k ^ 2 : ℝ) / 2) := fun k => by
    have : (Q.map fun ω => d k * ζ k ω) = gaussianReal 0 (d k ^ 2).toNNReal := by
      have h1 := gaussianReal_map_const_mul (μ := 0) (v := 1) (d k)
      rw [← hζ k, Measure.map_map (by fun_prop) (hζm k)] at h1
      rw [mul_zero, mul_one] at h1
      refine h1.trans (congrArg _ (NNReal.eq ?_))
      rw [coe_toNNReal _ (sq_nonneg _)]
      rfl
    rw [this, charFun_gaussianReal, coe_toNNReal _ (sq_nonneg _)]
    congr 1
    push_cast
    ring
  have e : ∀ ω, Complex.exp (Complex.I * ((μ + ∑ k ∈ Finset.range n, d k * ζ k ω : ℝ) : ℂ)) = Complex.exp (Complex.I * μ) * Complex.exp ((1:ℝ) * ((∑ k ∈ Finset.range n, d k * ζ k ω : ℝ) : ℂ) * Complex.I) := fun ω => by
    rw [← Complex.exp_add]
    congr 1
    push_cast
    ring
  simp_rw [e]
  rw [integral_const_mul, h]
  simp only [Finset.prod_apply, hk]
  rw [← Complex.exp_sum, ← Complex.exp_add]
  congr 1
  push_cast
  rw [Finset.sum_div, sub_eq_add_neg, ← Finset.sum_neg_distrib]
  congr 1
  exact Finset.sum_congr rfl fun k _ => by ring

/-- **C113.** As the number of sine terms grows, the path of `vol_path_sin`, driven by independent standard normal variates, converges in law to the volatility of the model:
for every finite set of times and every linear combination, the characteristic functions converge to those of any solution of the volatility equation. -/
theorem kl_path_law (m : Ousv) (hm : m.mr ≠ 0) (h : Spec.IsOU P W X m.mr m.theta m.vov m.sigma) [IsProbabilityMeasure Q]
    (hζm : ∀ k, Measurable (ζ k)) (hζi : iIndepFun ζ Q) (hζ : ∀ k, Q.map (ζ k) = gaussianReal 0 1)
    {T : ℝ≥0} (hT : 0 < T) {r : ℕ} (t : Fin r → ℝ≥0) (ht : ∀ j, t j ≤ T) (c : Fin r → ℝ) :
    Tendsto (fun n => ∫ ω, Complex.exp (Complex.I * ((∑ j, c j * m.volPathSin n (fun k => ζ k ω) T (t j) : ℝ) : ℂ)) ∂Q) atTop
      (𝓝 (∫ ω, Complex.exp (Complex.I * ((∑ j, c j * X (t j) ω : ℝ) : ℂ)) ∂P)) := by
  have hT' : (0:ℝ) < T := by exact_mod_cast hT
  have hx : m.mr * T ≠ 0 := mul_ne_zero hm hT'.ne'
  set v0 := m.sigma - m.theta with hv0
  set sT := √((1 - exp (-m.mr * T) ^ 2) / (2 * m.mr)) with hsT
  have hsT2 : sT ^ 2 = (1 - exp (-m.mr * T) ^ 2) / (2 * m.mr) := by
    refine sq_sqrt ?_
    rw [← exp_nat_mul]
    push_cast
    rcases lt_or_gt_of_ne hm with h | h
    · exact div_nonneg_of_nonpos (by rw [sub_nonpos]; exact one_le_exp (by nlinarith)) (by linarith)
    · exact div_nonneg (by rw [sub_nonneg]; exact exp_le_one_iff.2 (by nlinarith)) (by linarith)
  set μ := ∑ j, c j * (m.theta + v0 * exp (-(m.mr * t j))) with hμ
  -- the simulated side
  set d : ℕ → ℝ := fun k => match k with
    | 0 => m.vov * (sT * ∑ j, c j * beta m.mr T (t j))
    | k + 1 => m.vov * (√T * (an (m.mr * T) k * ∑ j, c j * sin (nPi k * t j / T))) with hd
  have hsim : ∀ n ω, ∑ j, c j * m.volPathSin n (fun k => ζ k ω) T (t j) = μ + ∑ k ∈ Finset.range (n + 1), d k * ζ k ω := by
    intro n ω
    rw [Finset.sum_range_succ' _ n]
    simp_rw [volPathSin_eq, hd]
    have e : ∀ j, c j * (m.theta + (base m T (m.sigma - m.theta) (m.volStep T (m.sigma - m.theta) (ζ 0 ω) false) (t j) + m.vov * √T * ∑ k ∈ Finset.range n, an (m.mr * T) k * sin (nPi k * t j / T) * ζ (k + 1) ω)) =
        c j * (m.theta + v0 * exp (-(m.mr * t j))) + (c j * beta m.mr T (t j) * (m.vov * sT * ζ 0 ω) + ∑ k ∈ Finset.range n, c j * sin (nPi k * t j / T) * (m.vov * (√T * an (m.mr * T) k) * ζ (k + 1) ω)) := fun j => by
      unfold base volStep
      simp only [Bool.false_eq_true, if_false]
      rw [← hv0, ← hsT, neg_mul, Finset.mul_sum]
      have : ∑ k ∈ Finset.range n, c j * sin (nPi k * t j / T) * (m.vov * (√T * an (m.mr * T) k) * ζ (k + 1) ω) = c j * ∑ k ∈ Finset.range n, m.vov * √T * (an (m.mr * T) k * sin (nPi k * t j / T) * ζ (k + 1) ω) := by
        rw [Finset.mul_sum]; exact Finset.sum_congr rfl fun k _ => by ring
      rw [this]
      ring
    simp_rw [e]
    rw [Finset.sum_add_distrib, Finset.sum_add_distrib, Finset.sum_comm (s := Finset.univ), ← hμ, ← Finset.sum_mul]
    simp_rw [← Finset.sum_mul]
    rw [add_comm (∑ k ∈ Finset.range n, _)]
    have : ∀ k, (∑ j, c j * sin (nPi k * t j / T)) * (m.vov * (√T * an (m.mr * T) k) * ζ (k + 1) ω) = m.vov * (√T * (an (m.mr * T) k * ∑ j, c j * sin (nPi k * t j / T))) * ζ (k + 1) ω := fun k => by ring
    simp_rw [this]
    ring
  simp_rw [hsim]
  simp_rw [char_iid hζm hζi hζ d]
  -- the exact side
  haveI := isProb h
  set V := ∑ i, ∑ j, c i * c j * ∫ ω, Ou.zed W m.mr (t i) ω * Ou.zed W m.mr (t j) ω ∂P with hV
  have hexact : ∫ ω, Complex.exp (Complex.I * ((∑ j, c j * X (t j) ω : ℝ) : ℂ)) ∂P = Complex.exp (Complex.I * μ - ((m.vov ^ 2 * V : ℝ) : ℂ) / 2) := by
    have hL : ∀ ω, ∑ j, c j * X (t j) ω = μ + m.vov * ∑ j, c j * Ou.zed W m.mr (t j) ω := fun ω => by
      rw [hμ, Finset.mul_sum, ← Finset.sum_add_distrib]
      refine Finset.sum_congr rfl fun j _ => ?_
      rw [h.eq (t j) ω]
      ring
    have hl := Ou.lin_law (P := P) ((Ou.gauss_zed h.bm m.mr).comp_right t) (fun j => Ou.mean_zed h.bm m.mr (t j)) Finset.univ (fun i => c i)
    have e1 : (fun ω => ∑ i : (Finset.univ : Finset (Fin r)), c i * (Ou.zed W m.mr ∘ t) i ω) = fun ω => ∑ j, c j * Ou.zed W m.mr (t j) ω := by
      ext ω
      exact Finset.sum_coe_sort Finset.univ fun i => c i * Ou.zed W m.mr (t i) ω
    have e2 : (∑ i : (Finset.univ : Finset (Fin r)), ∑ j : (Finset.univ : Finset (Fin r)), c i * c j * ∫ ω, (Ou.zed W m.mr ∘ t) i ω * (Ou.zed W m.mr ∘ t) j ω ∂P) = V := by
      rw [hV, Finset.sum_coe_sort Finset.univ fun i => ∑ j : (Finset.univ : Finset (Fin r)), c i * c j * ∫ ω, (Ou.zed W m.mr ∘ t) i ω * (Ou.zed W m.mr ∘ t) j ω ∂P]
      refine Finset.sum_congr rfl fun i _ => ?_
      rw [Finset.sum_coe_sort Finset.univ fun j => c i * c j * ∫ ω, (Ou.zed W m.mr ∘ t) i ω * (Ou.zed W m.mr ∘ t) j ω ∂P]
      rfl
    rw [e1, e2] at hl
    have hVn : 0 ≤ V := by
      have : V = ∫ ω, (∑ j, c j * Ou.zed W m.mr (t j) ω) ^ 2 ∂P := by
        have hij : ∀ i j, Integrable (fun ω => c i * Ou.zed W m.mr (t i) ω * (c j * Ou.zed W m.mr (t j) ω)) P := fun i j =>
          (((Ou.memLp_zed h.bm m.mr (t i)).integrable_mul (Ou.memLp_zed h.bm m.mr (t j))).const_mul (c i * c j)).congr (ae_of_all _ fun ω => by simp only [Pi.mul_apply]; ring)
        simp_rw [sq, Finset.sum_mul_sum]
        rw [integral_finsetSum _ fun i _ => integrable_finsetSum _ fun j _ => hij i j, hV]
        refine Finset.sum_congr rfl fun i _ => ?_
        rw [integral_finsetSum _ fun j _ => hij i j]
        refine Finset.sum_congr rfl fun j _ => ?_
        rw [← integral_const_mul]
        exact integral_congr_ae (ae_of_all _ fun ω => by simp only; ring)
      rw [this]
      exact integral_nonneg fun ω => sq_nonneg _
    have hc := congrArg (fun ν => charFun ν m.vov) hl
    have hmeas : Measurable fun ω => ∑ j, c j * Ou.zed W m.mr (t j) ω := Finset.measurable_sum _ fun j _ => (Ou.meas_zed h.bm m.mr (t j)).const_mul _
    rw [charFun_apply_real, integral_map hmeas.aemeasurable (by fun_prop), charFun_gaussianReal] at hc
    have e : ∀ ω, Complex.exp (Complex.I * ((∑ j, c j * X (t j) ω : ℝ) : ℂ)) = Complex.exp (Complex.I * μ) * Complex.exp (m.vov * ((∑ j, c j * Ou.zed W m.mr (t j) ω : ℝ) : ℂ) * Complex.I) := fun ω => by
      rw [hL, ← Complex.exp_add]
      congr 1
      push_cast
      ring
    simp_rw [e]
    rw [integral_const_mul, hc, ← Complex.exp_add, coe_toNNReal _ hVn]
    congr 1
    push_cast
    ring
  rw [hexact]
  -- convergence of the variances
  have hvar : Tendsto (fun n => ∑ k ∈ Finset.range (n + 1), d k ^ 2) atTop (𝓝 (m.vov ^ 2 * V)) := by
    have hcov : ∀ i j, HasSum (fun k => T * (an2 (m.mr * T) k * (sin (nPi k * t i / T) * sin (nPi k * t j / T)))) ((∫ ω, Ou.zed W m.mr (t i) ω * Ou.zed W m.mr (t j) ω ∂P) - beta m.mr T (t i) * beta m.mr T (t j) * sT ^ 2) := by
      have key : ∀ i j, t j ≤ t i → HasSum (fun k => T * (an2 (m.mr * T) k * (sin (nPi k * t i / T) * sin (nPi k * t j / T)))) ((∫ ω, Ou.zed W m.mr (t i) ω * Ou.zed W m.mr (t j) ω ∂P) - beta m.mr T (t i) * beta m.mr T (t j) * sT ^ 2) := by
        intro i j hij
        rw [Ou.zed_mul h.bm hm hij, hsT2]
        exact kl_cov hm hT' (NNReal.coe_nonneg _) (by exact_mod_cast hij) (by exact_mod_cast ht i)
      intro i j
      rcases le_total (t j) (t i) with hij | hij
      · exact key i j hij
      · have := key j i hij
        rw [show (∫ ω, Ou.zed W m.mr (t i) ω * Ou.zed W m.mr (t j) ω ∂P) - beta m.mr T (t i) * beta m.mr T (t j) * sT ^ 2 = (∫ ω, Ou.zed W m.mr (t j) ω * Ou.zed W m.mr (t i) ω ∂P) - beta m.mr T (t j) * beta m.mr T (t i) * sT ^ 2 by
          rw [show (∫ ω, Ou.zed W m.mr (t i) ω * Ou.zed W m.mr (t j) ω ∂P) = ∫ ω, Ou.zed W m.mr (t j) ω * Ou.zed W m.mr (t i) ω ∂P from integral_congr_ae (ae_of_all _ fun ω => mul_comm _ _)]
          ring]
        exact this.congr_fun fun k => by ring
    have hs : HasSum (fun k => m.vov ^ 2 * ∑ i, ∑ j, c i * c j * (T * (an2 (m.mr * T) k * (sin (nPi k * t i / T) * sin (nPi k * t j / T)))))
        (m.vov ^ 2 * ∑ i, ∑ j, c i * c j * ((∫ ω, Ou.zed W m.mr (t i) ω * Ou.zed W m.mr (t j) ω ∂P) - beta m.mr T (t i) * beta m.mr T (t j) * sT ^ 2)) :=
      (hasSum_sum fun i _ => hasSum_sum fun j _ => (hcov i j).mul_left _).mul_left _
    have hd2 : ∀ k, d (k + 1) ^ 2 = m.vov ^ 2 * ∑ i, ∑ j, c i * c j * (T * (an2 (m.mr * T) k * (sin (nPi k * t i / T) * sin (nPi k * t j / T)))) := by
      intro k
      have e : ∑ i, ∑ j, c i * c j * (T * (an2 (m.mr * T) k * (sin (nPi k * t i / T) * sin (nPi k * t j / T)))) = T * (an2 (m.mr * T) k * (∑ j, c j * sin (nPi k * t j / T)) ^ 2) := by
        rw [sq, Finset.sum_mul_sum, Finset.mul_sum, Finset.mul_sum]
        refine Finset.sum_congr rfl fun i _ => ?_
        rw [Finset.mul_sum, Finset.mul_sum]
        exact Finset.sum_congr rfl fun j _ => by ring
      rw [e, hd]
      simp only
      rw [mul_pow, mul_pow, mul_pow, an_sq, sq_sqrt hT'.le]
    have hd0 : d 0 ^ 2 = m.vov ^ 2 * ∑ i, ∑ j, c i * c j * (beta m.mr T (t i) * beta m.mr T (t j) * sT ^ 2) := by
      have e : ∑ i, ∑ j, c i * c j * (beta m.mr T (t i) * beta m.mr T (t j) * sT ^ 2) = sT ^ 2 * (∑ j, c j * beta m.mr T (t j)) ^ 2 := by
        rw [sq (∑ j, _), Finset.sum_mul_sum, Finset.mul_sum]
        refine Finset.sum_congr rfl fun i _ => ?_
        rw [Finset.mul_sum]
        exact Finset.sum_congr rfl fun j _ => by ring
      rw [e, hd]
      simp only
      ring
    have hsum : m.vov ^ 2 * V = m.vov ^ 2 * (∑ i, ∑ j, c i * c j * ((∫ ω, Ou.zed W m.mr (t i) ω * Ou.zed W m.mr (t j) ω ∂P) - beta m.mr T (t i) * beta m.mr T (t j) * sT ^ 2)) + d 0 ^ 2 := by
      rw [hd0, ← mul_add, hV, ← Finset.sum_add_distrib]
      congr 1
      refine Finset.sum_congr rfl fun i _ => ?_
      rw [← Finset.sum_add_distrib]
      exact Finset.sum_congr rfl fun j _ => by ring
    rw [hsum]
    have e3 : (fun n => ∑ k ∈ Finset.range (n + 1), d k ^ 2) = fun n => (∑ k ∈ Finset.range n, m.vov ^ 2 * ∑ i, ∑ j, c i * c j * (T * (an2 (m.mr * T) k * (sin (nPi k * t i / T) * sin (nPi k * t j / T))))) + d 0 ^ 2 := by
      ext n
      rw [Finset.sum_range_succ' (fun k => d k ^ 2)]
      congr 1
      exact Finset.sum_congr rfl fun k _ => hd2 k
    rw [e3]
    exact hs.tendsto_sum_nat.add_const _
  refine (Complex.continuous_exp.tendsto _).comp (tendsto_const_nhds.sub (Tendsto.div_const ?_ 2))
  exact (Complex.continuous_ofReal.tendsto _).comp hvar

end KlLaw

/-- The hypotheses are met: independent standard normal variables exist (as does the volatility process, see `Ou.isOU`). -/
example : ∃ (Ω : Type) (_ : MeasurableSpace Ω) (Q : Measure Ω) (ζ : ℕ → Ω → ℝ), IsProbabilityMeasure Q ∧ (∀ k, Measurable (ζ k)) ∧ iIndepFun ζ Q ∧ ∀ k, Q.map (ζ k) = gaussianReal 0 1 :=
  ⟨ℕ → ℝ, inferInstance, Measure.infinitePi fun _ => gaussianReal 0 1, fun k ω => ω k, inferInstance, fun k => measurable_pi_apply k,
    iIndepFun_infinitePi (X := fun _ x => x) (fun _ => measurable_id), fun k => (measurePreserving_eval_infinitePi (fun _ : ℕ => gaussianReal 0 1) k).map_eq⟩

end Ousv

end PyFENG
