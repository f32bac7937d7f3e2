import Verif.Model.HestonRough
import Verif.Lemmas.FracInt
import Verif.Props.Bsm
import Verif.Lemmas.Moments

/-!
# C128: Monte Carlo paths of the rough Heston variance
-/

namespace PyFENG

open Real MeasureTheory intervalIntegral Set Finset Filter Topology

/-- The explicit scheme for `V_t = v0 + ∫ K(t - s) f(V_s) ds + ∫ K(t - s) g(V_s) dB_s` on the grid `k dt`, in which the drift is integrated with `V` frozen at the left end of
each step, and the stochastic integral over step `k` seen from time `t_n` is replaced by `noise n k` times the step's standard normal. -/
def Spec.IsVolterraScheme (drift noise : ℕ → ℕ → ℝ) (v0 : ℝ) (f g : ℝ → ℝ) (N : ℕ) (Z V : ℕ → ℝ) : Prop :=
  V 0 = v0 ∧ ∀ n < N, V (n + 1) = v0 + ∑ k ∈ Finset.range (n + 1), drift (n + 1) k * f (V k) + ∑ k ∈ Finset.range (n + 1), noise (n + 1) k * g (V k) * Z k

namespace RoughHeston

variable (m : RoughHeston)

lemma update_lt {V : ℕ → ℝ} {i k : ℕ} {v : ℝ} (h : k ≤ i) : Function.update V (i + 1) v k = V k := Function.update_of_ne (by omega) _ _

lemma modifiedEM_stable (texp : ℝ) (nTs : ℕ) (Z : ℕ → ℝ) {n k : ℕ} (h : k ≤ n) : m.modifiedEM texp nTs Z n k = m.modifiedEM texp nTs Z k k := by
  induction n with
  | zero => rw [Nat.le_zero.1 h]
  | succ n ih =>
    rcases h.lt_or_eq with h | rfl
    · rw [← ih (by omega)]
      simp only [modifiedEM]
      exact update_lt (by omega)
    · rfl

lemma grid_diff {texp : ℝ} {nTs : ℕ} (hN : 0 < nTs) (n k : ℕ) : texp * (n:ℝ) / nTs - texp * k / nTs = (n - k) * (texp / nTs) := by
  have : (nTs : ℝ) ≠ 0 := by positivity
  field_simp

/-- C128. The drift weight of the modified Euler scheme is the exact integral of the fractional kernel over the step. -/
theorem term1_exact (h1 : m.alpha < 1) (dt tn tk : ℝ) :
    m.term1 dt tn tk / Gamma (2 - m.alpha) = 1 / Gamma (1 - m.alpha) * ∫ s in (tk - dt)..tk, (tn - s) ^ (-m.alpha) := by
  have hα : 0 < 1 - m.alpha := by linarith
  have h := FracInt.kernel_int hα tn (tk - dt) tk
  rw [show 1 - m.alpha - 1 = -m.alpha by ring] at h
  rw [h, show 2 - m.alpha = 1 - m.alpha + 1 by ring, Gamma_add_one hα.ne', term1, show tn - (tk - dt) = tn - tk + dt by ring]
  have := (Gamma_pos_of_pos hα).ne'
  field_simp

/-- C128. The noise weight of the modified Euler scheme is the exact standard deviation of the stochastic integral of the kernel over the step (Itô isometry). -/
theorem term2_exact (h1 : m.alpha < 1 / 2) (dt tn tk : ℝ) :
    m.term2 dt tn tk = √(∫ s in (tk - dt)..tk, (tn - s) ^ (-(2 * m.alpha))) := by
  have hα : 0 < 1 - 2 * m.alpha := by linarith
  have h := FracInt.kernel_int hα tn (tk - dt) tk
  rw [show 1 - 2 * m.alpha - 1 = -(2 * m.alpha) by ring] at h
  rw [h, term2, show tn - (tk - dt) = tn - tk + dt by ring]

/-- C128. `ModifiedEM` is the Volterra scheme with exact weights, for every sequence of draws. -/
theorem modifiedEM_scheme (h1 : m.alpha < 1 / 2) (texp : ℝ) {nTs : ℕ} (hN : 0 < nTs) (Z : ℕ → ℝ) :
    Spec.IsVolterraScheme
      (fun n k => 1 / Gamma (1 - m.alpha) * ∫ s in (texp * k / nTs)..(texp * (k + 1) / nTs), (texp * n / nTs - s) ^ (-m.alpha))
      (fun n k => 1 / Gamma (1 - m.alpha) * √(∫ s in (texp * k / nTs)..(texp * (k + 1) / nTs), (texp * n / nTs - s) ^ (-(2 * m.alpha))))
      m.sigma (fun v => m.mr * (m.theta - v)) (fun v => m.vov * √v) nTs Z (m.modifiedEM texp nTs Z nTs) := by
  refine ⟨?_, fun n hn => ?_⟩
  · rw [m.modifiedEM_stable texp nTs Z (Nat.zero_le _)]
    simp [modifiedEM]
  · rw [m.modifiedEM_stable texp nTs Z (Nat.succ_le_of_lt hn)]
    simp only [modifiedEM, Function.update_self, Finset.mul_sum, add_assoc]
    have hNr : (nTs : ℝ) ≠ 0 := by positivity
    have ek : ∀ k : ℕ, texp * ((k + 1 : ℕ) : ℝ) / nTs - texp / nTs = texp * k / nTs := fun k => by push_cast; field_simp; ring
    congr 2
    · refine Finset.sum_congr rfl fun k hk => ?_
      rw [m.modifiedEM_stable texp nTs Z (show k ≤ n by have := Finset.mem_range.1 hk; omega), m.modifiedEM_stable texp nTs Z (show k ≤ nTs by have := Finset.mem_range.1 hk; omega)]
      have h := m.term1_exact (by linarith) (mcDt texp nTs) (tgrid texp nTs (n + 1)) (tgrid texp nTs (k + 1))
      simp only [mcDt, tgrid, ek] at h ⊢
      simp only [Nat.cast_add, Nat.cast_one] at h ⊢
      rw [← h, fMc]
      ring
    · refine Finset.sum_congr rfl fun k hk => ?_
      rw [m.modifiedEM_stable texp nTs Z (show k ≤ n by have := Finset.mem_range.1 hk; omega), m.modifiedEM_stable texp nTs Z (show k ≤ nTs by have := Finset.mem_range.1 hk; omega)]
      rw [m.term2_exact h1]
      simp only [mcDt, tgrid, ek]
      simp only [Nat.cast_add, Nat.cast_one]
      rw [gMc]
      ring

/-- The hypotheses are met: `alpha = 0.4`, ten steps. -/
example : (0.4 : ℝ) < 1 / 2 ∧ 0 < 10 := by norm_num

/-! ### The fast scheme -/

lemma fast_stable (dt : ℝ) (L : ℕ) (x ω Z : ℕ → ℝ) {n k : ℕ} (h : k ≤ n) : (m.fast dt L x ω Z n).V k = (m.fast dt L x ω Z k).V k := by
  induction n with
  | zero => rw [Nat.le_zero.1 h]
  | succ n ih =>
    rcases h.lt_or_eq with h | rfl
    · rw [← ih (by omega)]
      simp only [fast]
      exact update_lt (by omega)
    · rfl

lemma exp_int {x : ℝ} (hx : x ≠ 0) (t a b : ℝ) : ∫ s in a..b, exp (-x * (t - s)) = (exp (-x * (t - b)) - exp (-x * (t - a))) / x := by
  have h : ∀ s ∈ uIcc a b, HasDerivAt (fun s => exp (-x * (t - s)) / x) (exp (-x * (t - s))) s := fun s _ => by
    refine ((((hasDerivAt_id' s).const_sub t).const_mul (-x)).exp.div_const x).congr_deriv ?_
    field_simp
  rw [integral_eq_sub_of_hasDerivAt h (by apply Continuous.intervalIntegrable; fun_prop)]
  ring

lemma fast_H (dt : ℝ) (L : ℕ) (x ω Z : ℕ → ℝ) (n l : ℕ) (hx : x l ≠ 0) :
    (m.fast dt L x ω Z n).H l = ∑ k ∈ Finset.range n, m.fMc ((m.fast dt L x ω Z k).V k) * ∫ s in (k * dt)..((k + 1) * dt), exp (-x l * (n * dt - s)) := by
  induction n with
  | zero => simp [fast]
  | succ n ih =>
    rw [Finset.sum_range_succ]
    simp only [fast]
    rw [hN, ih, Finset.mul_sum, add_comm]
    congr 1
    · refine Finset.sum_congr rfl fun k _ => ?_
      rw [mul_left_comm, ← intervalIntegral.integral_const_mul]
      congr 2
      ext s
      rw [← exp_add]
      push_cast
      congr 1
      ring
    · rw [exp_int hx]
      push_cast
      rw [show -x l * ((n + 1) * dt - (n + 1) * dt) = 0 by ring, exp_zero, show -x l * ((n + 1) * dt - n * dt) = -x l * dt by ring]
      ring

lemma fast_J (dt : ℝ) (L : ℕ) (x ω Z : ℕ → ℝ) (n l : ℕ) (hx : x l ≠ 0) :
    (m.fast dt L x ω Z n).J l = ∑ k ∈ Finset.range n, √(∫ s in (k * dt)..((k + 1) * dt), exp (-x l * (n * dt - s)) ^ 2) * m.gMc ((m.fast dt L x ω Z k).V k) * Z k := by
  have key : ∀ n k : ℕ, ∫ s in (k * dt)..((k + 1) * dt), exp (-x l * (n * dt - s)) ^ 2 = ∫ s in (k * dt)..((k + 1) * dt), exp (-(2 * x l) * (n * dt - s)) := fun n k => by
    congr 1
    ext s
    rw [← exp_nat_mul]
    congr 1
    push_cast
    ring
  induction n with
  | zero => simp [fast]
  | succ n ih =>
    rw [Finset.sum_range_succ]
    simp only [fast]
    rw [jN, ih, Finset.mul_sum, add_comm]
    congr 1
    · refine Finset.sum_congr rfl fun k _ => ?_
      rw [← mul_assoc, ← mul_assoc]
      congr 2
      rw [← sqrt_sq (exp_pos (-x l * dt)).le, ← sqrt_mul (sq_nonneg _), ← intervalIntegral.integral_const_mul]
      congr 2
      ext s
      rw [← mul_pow, ← exp_add]
      push_cast
      congr 3
      ring
    · rw [key, exp_int (by simpa using hx)]
      push_cast
      rw [show -(2 * x l) * ((n + 1) * dt - (n + 1) * dt) = 0 by ring, exp_zero, show -(2 * x l) * ((n + 1) * dt - n * dt) = -2 * x l * dt by ring]
      ring

/-- The sum-of-exponentials kernel with nodes `x l` and weights `ω l`. -/
noncomputable def Spec.expKernel (L : ℕ) (x ω : ℕ → ℝ) (t : ℝ) : ℝ := ∑ l ∈ Finset.range L, ω l * exp (-x l * t)

/-- C128. `Fast` is the Volterra scheme in which the current step uses the exact fractional kernel, and every earlier step the sum-of-exponentials kernel; the noise of an earlier
step has the sum of the standard deviations of the exponential terms. -/
theorem fast_scheme (h1 : m.alpha < 1 / 2) {dt : ℝ} (hdt : 0 < dt) (L : ℕ) (x ω Z : ℕ → ℝ) (hx : ∀ l < L, x l ≠ 0) (N : ℕ) :
    Spec.IsVolterraScheme
      (fun n k => 1 / Gamma (1 - m.alpha) * ∫ s in (k * dt)..((k + 1) * dt), if k + 1 = n then (n * dt - s) ^ (-m.alpha) else Spec.expKernel L x ω (n * dt - s))
      (fun n k => 1 / Gamma (1 - m.alpha) * if k + 1 = n then √(∫ s in (k * dt)..((k + 1) * dt), (n * dt - s) ^ (-(2 * m.alpha)))
        else ∑ l ∈ Finset.range L, ω l * √(∫ s in (k * dt)..((k + 1) * dt), exp (-x l * (n * dt - s)) ^ 2))
      m.sigma (fun v => m.mr * (m.theta - v)) (fun v => m.vov * √v) N Z (m.fast dt L x ω Z N).V := by
  refine ⟨?_, fun n hn => ?_⟩
  · rw [m.fast_stable dt L x ω Z (Nat.zero_le _)]
    simp [fast]
  · rw [m.fast_stable dt L x ω Z (Nat.succ_le_of_lt hn)]
    have hv : ∀ k ∈ Finset.range (n + 1), (m.fast dt L x ω Z N).V k = (m.fast dt L x ω Z k).V k := fun k hk => m.fast_stable dt L x ω Z (by have := Finset.mem_range.1 hk; omega)
    have hs1 : ∀ (A : ℕ → ℝ) (φ : ℝ → ℝ), ∑ k ∈ Finset.range (n + 1), A k * φ ((m.fast dt L x ω Z N).V k) = ∑ k ∈ Finset.range (n + 1), A k * φ ((m.fast dt L x ω Z k).V k) :=
      fun A φ => Finset.sum_congr rfl fun k hk => by rw [hv k hk]
    have hs2 : ∀ (A : ℕ → ℝ) (φ : ℝ → ℝ), ∑ k ∈ Finset.range (n + 1), A k * φ ((m.fast dt L x ω Z N).V k) * Z k = ∑ k ∈ Finset.range (n + 1), A k * φ ((m.fast dt L x ω Z k).V k) * Z k :=
      fun A φ => Finset.sum_congr rfl fun k hk => by rw [hv k hk]
    refine Eq.trans ?_ (congrArg₂ (fun a b => m.sigma + a + b) (hs1 _ (fun v => m.mr * (m.theta - v))).symm (hs2 _ (fun v => m.vov * √v)).symm)
    beta_reduce
    rw [Finset.sum_range_succ, Finset.sum_range_succ]
    simp only [fast, Function.update_self]
    have hα : 0 < 1 - m.alpha := by linarith
    have hg := (Gamma_pos_of_pos hα).ne'
    -- the current step
    have c1 : ∫ s in ((n:ℝ) * dt)..((n + 1) * dt), (((n + 1 : ℕ) : ℝ) * dt - s) ^ (-m.alpha) = dt ^ (1 - m.alpha) / (1 - m.alpha) := by
      have h := FracInt.kernel_int hα (((n + 1 : ℕ) : ℝ) * dt) (n * dt) ((n + 1) * dt)
      rw [show 1 - m.alpha - 1 = -m.alpha by ring] at h
      rw [h]
      push_cast
      rw [show ((n:ℝ) + 1) * dt - n * dt = dt by ring, sub_self, zero_rpow hα.ne', sub_zero]
    have hα2 : 0 < 1 - 2 * m.alpha := by linarith
    have c2 : ∫ s in ((n:ℝ) * dt)..((n + 1) * dt), (((n + 1 : ℕ) : ℝ) * dt - s) ^ (-(2 * m.alpha)) = dt ^ (1 - 2 * m.alpha) / (1 - 2 * m.alpha) := by
      have h := FracInt.kernel_int hα2 (((n + 1 : ℕ) : ℝ) * dt) (n * dt) ((n + 1) * dt)
      rw [show 1 - 2 * m.alpha - 1 = -(2 * m.alpha) by ring] at h
      rw [h]
      push_cast
      rw [show ((n:ℝ) + 1) * dt - n * dt = dt by ring, sub_self, zero_rpow hα2.ne', sub_zero]
    have c2' : √(dt ^ (1 - 2 * m.alpha) / (1 - 2 * m.alpha)) = dt ^ (0.5 - m.alpha) / √(1 - 2 * m.alpha) := by
      rw [sqrt_div (by positivity), sqrt_eq_rpow (dt ^ _), ← rpow_mul hdt.le]
      congr 2
      norm_num
      ring
    simp only [if_true, c1, c2, c2']
    -- history
    have hH : ∑ l ∈ Finset.range L, ω l * exp (-x l * dt) * (m.fast dt L x ω Z n).H l
        = ∑ k ∈ Finset.range n, (∫ s in (k * dt)..((k + 1) * dt), if k + 1 = n + 1 then (((n + 1 : ℕ) : ℝ) * dt - s) ^ (-m.alpha) else Spec.expKernel L x ω (((n + 1 : ℕ) : ℝ) * dt - s))
          * (m.mr * (m.theta - (m.fast dt L x ω Z k).V k)) := by
      rw [Finset.sum_congr rfl fun l hl => by rw [m.fast_H dt L x ω Z n l (hx l (Finset.mem_range.1 hl)), Finset.mul_sum], Finset.sum_comm]
      refine Finset.sum_congr rfl fun k hk => ?_
      have hne : ¬ (k + 1 = n + 1) := by have := Finset.mem_range.1 hk; omega
      simp only [Spec.expKernel, if_neg hne]
      rw [intervalIntegral.integral_finsetSum (fun l _ => by apply Continuous.intervalIntegrable; fun_prop), Finset.sum_mul]
      refine Finset.sum_congr rfl fun l _ => ?_
      rw [mul_left_comm, fMc, mul_comm (m.mr * _), ← intervalIntegral.integral_const_mul]
      congr 2
      ext s
      rw [mul_assoc, ← exp_add]
      push_cast
      congr 2
      ring
    have hJ : ∑ l ∈ Finset.range L, ω l * exp (-x l * dt) * (m.fast dt L x ω Z n).J l
        = ∑ k ∈ Finset.range n, (if k + 1 = n + 1 then √(∫ s in (k * dt)..((k + 1) * dt), (((n + 1 : ℕ) : ℝ) * dt - s) ^ (-(2 * m.alpha)))
          else ∑ l ∈ Finset.range L, ω l * √(∫ s in (k * dt)..((k + 1) * dt), exp (-x l * (((n + 1 : ℕ) : ℝ) * dt - s)) ^ 2))
          * (m.vov * √((m.fast dt L x ω Z k).V k)) * Z k := by
      rw [Finset.sum_congr rfl fun l hl => by rw [m.fast_J dt L x ω Z n l (hx l (Finset.mem_range.1 hl)), Finset.mul_sum], Finset.sum_comm]
      refine Finset.sum_congr rfl fun k hk => ?_
      rw [if_neg (by have := Finset.mem_range.1 hk; omega), Finset.sum_mul, Finset.sum_mul]
      refine Finset.sum_congr rfl fun l _ => ?_
      have e : √(∫ s in (k * dt)..((k + 1) * dt), exp (-x l * (((n + 1 : ℕ) : ℝ) * dt - s)) ^ 2) = exp (-x l * dt) * √(∫ s in (k * dt)..((k + 1) * dt), exp (-x l * (n * dt - s)) ^ 2) := by
        rw [← sqrt_sq (exp_pos (-x l * dt)).le, ← sqrt_mul (sq_nonneg _), ← intervalIntegral.integral_const_mul]
        congr 2
        ext s
        rw [← mul_pow, ← exp_add]
        push_cast
        congr 2
        ring
      rw [e, gMc]
      ring
    rw [hH, hJ, Finset.mul_sum, Finset.mul_sum, fMc, gMc, show 2 - m.alpha = 1 - m.alpha + 1 by ring, Gamma_add_one hα.ne']
    simp only [← mul_assoc, ← div_div]
    ring

/-- C128. If the sum of exponentials is within `ξ` of `t ^ (-α)` on `[dt, T]`, every drift weight of `Fast` for an earlier step is within `ξ dt / Γ(1 - α)` of the exact one. -/
theorem fast_drift_error (h0 : 0 < m.alpha) (h1 : m.alpha < 1) {dt ξ : ℝ} (hdt : 0 < dt) (L : ℕ) (x ω : ℕ → ℝ) (n k : ℕ) (hk : k + 1 < n)
    (hξ : ∀ t, dt ≤ t → t ≤ n * dt → |t ^ (-m.alpha) - Spec.expKernel L x ω t| ≤ ξ) :
    |1 / Gamma (1 - m.alpha) * (∫ s in (k * dt)..((k + 1) * dt), Spec.expKernel L x ω (n * dt - s))
      - 1 / Gamma (1 - m.alpha) * ∫ s in (k * dt)..((k + 1) * dt), (n * dt - s) ^ (-m.alpha)| ≤ ξ * dt / Gamma (1 - m.alpha) := by
  have hα : 0 < 1 - m.alpha := by linarith
  have hg := Gamma_pos_of_pos hα
  have hle : (k:ℝ) * dt ≤ (k + 1) * dt := by nlinarith
  have hK : IntervalIntegrable (fun s => Spec.expKernel L x ω (n * dt - s)) volume (k * dt) ((k + 1) * dt) := by
    apply Continuous.intervalIntegrable
    unfold Spec.expKernel
    fun_prop
  have hP : IntervalIntegrable (fun s => ((n:ℝ) * dt - s) ^ (-m.alpha)) volume (k * dt) ((k + 1) * dt) := by
    have := FracInt.kernel_integrable hα (n * dt) (k * dt) ((k + 1) * dt)
    rwa [show 1 - m.alpha - 1 = -m.alpha by ring] at this
  rw [← mul_sub, ← intervalIntegral.integral_sub hK hP, abs_mul, abs_of_pos (by positivity : 0 < 1 / Gamma (1 - m.alpha))]
  have := norm_integral_le_of_norm_le_const (a := (k:ℝ) * dt) (b := (k + 1) * dt) (C := ξ) (f := fun s => Spec.expKernel L x ω (n * dt - s) - (n * dt - s) ^ (-m.alpha)) (fun s hs => by
    rw [uIoc_of_le hle] at hs
    rw [norm_eq_abs, abs_sub_comm]
    have hn : ((k:ℝ) + 1) + 1 ≤ n := by exact_mod_cast hk
    have hk0 : (0:ℝ) ≤ k * dt := by positivity
    exact hξ _ (by nlinarith [hs.2]) (by linarith [hs.1]))
  rw [norm_eq_abs, show ((k:ℝ) + 1) * dt - k * dt = dt by ring, abs_of_pos hdt] at this
  calc _ ≤ 1 / Gamma (1 - m.alpha) * (ξ * dt) := mul_le_mul_of_nonneg_left this (by positivity)
    _ = _ := by ring

lemma cs_exp {x y : ℝ} (a b t : ℝ) (hab : a ≤ b) :
    ∫ s in a..b, exp (-x * (t - s)) * exp (-y * (t - s)) ≤ √(∫ s in a..b, exp (-x * (t - s)) ^ 2) * √(∫ s in a..b, exp (-y * (t - s)) ^ 2) := by
  set A := ∫ s in a..b, exp (-x * (t - s)) ^ 2
  set B := ∫ s in a..b, exp (-y * (t - s)) ^ 2
  set C := ∫ s in a..b, exp (-x * (t - s)) * exp (-y * (t - s))
  have hA : 0 ≤ A := intervalIntegral.integral_nonneg hab fun s _ => by positivity
  have hB : 0 ≤ B := intervalIntegral.integral_nonneg hab fun s _ => by positivity
  have hC : 0 ≤ C := intervalIntegral.integral_nonneg hab fun s _ => by positivity
  have hq : ∀ c : ℝ, 0 ≤ A - 2 * c * C + c ^ 2 * B := fun c => by
    have e : A - 2 * c * C + c ^ 2 * B = ∫ s in a..b, (exp (-x * (t - s)) - c * exp (-y * (t - s))) ^ 2 := by
      have hi : ∀ f : ℝ → ℝ, Continuous f → IntervalIntegrable f volume a b := fun f hf => hf.intervalIntegrable _ _
      simp only [A, B, C]
      rw [← intervalIntegral.integral_const_mul, ← intervalIntegral.integral_const_mul, ← intervalIntegral.integral_sub (hi _ (by fun_prop)) (hi _ (by fun_prop)),
        ← intervalIntegral.integral_add (hi _ (by fun_prop)) (hi _ (by fun_prop))]
      congr 1
      ext s
      ring
    rw [e]
    exact intervalIntegral.integral_nonneg hab fun s _ => sq_nonneg _
  rw [← sqrt_mul hA]
  refine le_sqrt_of_sq_le ?_
  rcases hB.eq_or_lt with h | h
  · rw [← h] at hq ⊢
    have h2 := hq (A / (2 * C) + 1)
    rcases hC.eq_or_lt with h3 | h3
    · rw [← h3]
      simp
    · have : 2 * (A / (2 * C) + 1) * C = A + 2 * C := by field_simp
      linarith
  · have h2 := hq (C / B)
    have : A - 2 * (C / B) * C + (C / B) ^ 2 * B = (A * B - C ^ 2) / B := by field_simp; ring
    rw [this] at h2
    have := mul_nonneg h2 h.le
    rw [div_mul_cancel₀ _ h.ne'] at this
    linarith

/-- C128. The noise of an earlier step in `Fast` is never smaller than that of the stochastic integral of the sum-of-exponentials kernel: adding the standard deviations of its terms
(all driven by one normal) overstates the variance. -/
theorem fast_noise_overstated (L : ℕ) (x ω : ℕ → ℝ) (hω : ∀ l < L, 0 ≤ ω l) {a b : ℝ} (hab : a ≤ b) (t : ℝ) :
    ∫ s in a..b, Spec.expKernel L x ω (t - s) ^ 2 ≤ (∑ l ∈ Finset.range L, ω l * √(∫ s in a..b, exp (-x l * (t - s)) ^ 2)) ^ 2 := by
  have e : ∀ s, Spec.expKernel L x ω (t - s) ^ 2 = ∑ l ∈ Finset.range L, ∑ k ∈ Finset.range L, ω l * ω k * (exp (-x l * (t - s)) * exp (-x k * (t - s))) := fun s => by
    rw [Spec.expKernel, sq, Finset.sum_mul_sum]
    exact Finset.sum_congr rfl fun l _ => Finset.sum_congr rfl fun k _ => by ring
  simp only [e]
  rw [intervalIntegral.integral_finsetSum fun l _ => by apply Continuous.intervalIntegrable; fun_prop, sq, Finset.sum_mul_sum]
  refine Finset.sum_le_sum fun l hl => ?_
  rw [intervalIntegral.integral_finsetSum fun l _ => by apply Continuous.intervalIntegrable; fun_prop]
  refine Finset.sum_le_sum fun k hk => ?_
  rw [intervalIntegral.integral_const_mul]
  have := mul_le_mul_of_nonneg_left (cs_exp (x := x l) (y := x k) a b t hab) (mul_nonneg (hω l (Finset.mem_range.1 hl)) (hω k (Finset.mem_range.1 hk)))
  linarith

/-- ... and strictly so for two different exponents. -/
theorem fast_noise_strict : ∃ (x ω : ℕ → ℝ), (∀ l < 2, 0 < ω l ∧ 0 < x l) ∧
    ∫ s in (0:ℝ)..1, Spec.expKernel 2 x ω (2 - s) ^ 2 < (∑ l ∈ Finset.range 2, ω l * √(∫ s in (0:ℝ)..1, exp (-x l * (2 - s)) ^ 2)) ^ 2 := by
  refine ⟨fun l => 1 + 2 * l, fun _ => 1, fun l _ => ⟨one_pos, by positivity⟩, ?_⟩
  have hq1 : exp (-2) < 1 := by rw [exp_lt_one_iff]; norm_num
  have hq0 := exp_pos (-2)
  have pw : ∀ n : ℕ, exp (-(2 * n)) = exp (-2) ^ n := fun n => by rw [← exp_nat_mul]; congr 1; ring
  have I : ∀ c : ℕ, 0 < c → ∫ s in (0:ℝ)..1, exp (-(2 * c : ℝ) * (2 - s)) = (exp (-2) ^ c - exp (-2) ^ (2 * c)) / (2 * c) := fun c hc => by
    have : (2 * c : ℝ) ≠ 0 := by positivity
    rw [exp_int this, ← pw, ← pw]
    push_cast
    congr 3 <;> ring
  have I1 := I 1 one_pos
  have I2 := I 2 two_pos
  have I3 := I 3 three_pos
  have e1 : ∫ s in (0:ℝ)..1, exp (-(1 + 2 * ((0:ℕ):ℝ)) * (2 - s)) ^ 2 = (exp (-2) - exp (-2) ^ 2) / 2 := by
    rw [show (exp (-2) - exp (-2) ^ 2) / 2 = ∫ s in (0:ℝ)..1, exp (-(2 * (1:ℕ) : ℝ) * (2 - s)) by rw [I1]; norm_num]
    congr 1; ext s; rw [← exp_nat_mul]; congr 1; push_cast; ring
  have e3 : ∫ s in (0:ℝ)..1, exp (-(1 + 2 * ((1:ℕ):ℝ)) * (2 - s)) ^ 2 = (exp (-2) ^ 3 - exp (-2) ^ 6) / 6 := by
    rw [show (exp (-2) ^ 3 - exp (-2) ^ 6) / 6 = ∫ s in (0:ℝ)..1, exp (-(2 * (3:ℕ) : ℝ) * (2 - s)) by rw [I3]; norm_num]
    congr 1; ext s; rw [← exp_nat_mul]; congr 1; push_cast; ring
  have e2 : ∫ s in (0:ℝ)..1, exp (-(1 + 2 * ((0:ℕ):ℝ)) * (2 - s)) * exp (-(1 + 2 * ((1:ℕ):ℝ)) * (2 - s)) = (exp (-2) ^ 2 - exp (-2) ^ 4) / 4 := by
    rw [show (exp (-2) ^ 2 - exp (-2) ^ 4) / 4 = ∫ s in (0:ℝ)..1, exp (-(2 * (2:ℕ) : ℝ) * (2 - s)) by rw [I2]; norm_num]
    congr 1; ext s; rw [← exp_add]; congr 1; push_cast; ring
  have hi : ∀ f : ℝ → ℝ, Continuous f → IntervalIntegrable f volume 0 1 := fun f hf => hf.intervalIntegrable _ _
  have el : ∫ s in (0:ℝ)..1, Spec.expKernel 2 (fun l => 1 + 2 * l) (fun _ => 1) (2 - s) ^ 2
      = (exp (-2) - exp (-2) ^ 2) / 2 + 2 * ((exp (-2) ^ 2 - exp (-2) ^ 4) / 4) + (exp (-2) ^ 3 - exp (-2) ^ 6) / 6 := by
    rw [← e1, ← e2, ← e3, ← intervalIntegral.integral_const_mul, ← intervalIntegral.integral_add (hi _ (by fun_prop)) (hi _ (by fun_prop)),
      ← intervalIntegral.integral_add (hi _ (by fun_prop)) (hi _ (by fun_prop))]
    congr 1
    ext s
    simp only [Spec.expKernel, Finset.sum_range_succ, Finset.range_zero, Finset.sum_empty]
    ring
  rw [el, Finset.sum_range_succ, Finset.sum_range_one, e1, e3]
  generalize exp (-2) = q at *
  have hA : 0 ≤ (q - q ^ 2) / 2 := by nlinarith
  have h3 : q ^ 6 ≤ q ^ 3 := pow_le_pow_of_le_one hq0.le hq1.le (by norm_num)
  have hB : 0 ≤ (q ^ 3 - q ^ 6) / 6 := by linarith
  rw [one_mul, one_mul, add_sq, sq_sqrt hA, sq_sqrt hB, mul_assoc, ← sqrt_mul hA]
  have : (q ^ 2 - q ^ 4) / 4 < √((q - q ^ 2) / 2 * ((q ^ 3 - q ^ 6) / 6)) := by
    refine lt_sqrt_of_sq_lt ?_
    have : (q - q ^ 2) / 2 * ((q ^ 3 - q ^ 6) / 6) - ((q ^ 2 - q ^ 4) / 4) ^ 2 = q ^ 4 * (1 - q) ^ 4 / 48 := by ring
    have h4 : 0 < q ^ 4 * (1 - q) ^ 4 / 48 := by
      have : 0 < 1 - q := by linarith
      positivity
    linarith
  linarith

/-! ### The first step -/

/-- C128. `ModifiedEM` and `Fast` agree on the first step, for every parameter set and every kernel approximation. -/
theorem first_step_agree (h1 : m.alpha < 1 / 2) {texp : ℝ} (hT : 0 < texp) {nTs : ℕ} (hN : 0 < nTs) (L : ℕ) (x ω Z : ℕ → ℝ) :
    (m.fast (mcDt texp nTs) L x ω Z nTs).V 1 = m.modifiedEM texp nTs Z nTs 1 := by
  have hdt : 0 < texp / nTs := by positivity
  rw [m.modifiedEM_stable texp nTs Z (show 1 ≤ nTs by omega), m.fast_stable _ L x ω Z (show 1 ≤ nTs by omega)]
  have hα2 : 0 < 1 - 2 * m.alpha := by linarith
  have c2' : √((texp / nTs) ^ (1 - 2 * m.alpha) / (1 - 2 * m.alpha)) = (texp / nTs) ^ (0.5 - m.alpha) / √(1 - 2 * m.alpha) := by
    rw [sqrt_div (by positivity), sqrt_eq_rpow ((texp / nTs) ^ _), ← rpow_mul hdt.le]
    congr 2
    norm_num
    ring
  simp only [fast, modifiedEM, Function.update_self, mul_zero, Finset.sum_const_zero, Finset.range_one, Finset.sum_singleton, term1, term2, mcDt, tgrid, zero_add, sub_self,
    zero_rpow (show 1 - m.alpha ≠ 0 by linarith), zero_rpow hα2.ne', sub_zero, c2']
  ring

/-- C128 (finding). Nothing keeps the simulated variance positive: for every parameter set with `sigma, vov > 0` some draw makes the first simulated value negative, after which the
code takes the square root of a negative number. -/
theorem variance_goes_negative (h1 : m.alpha < 1 / 2) {texp : ℝ} (hT : 0 < texp) {nTs : ℕ} (hN : 0 < nTs) (hσ : 0 < m.sigma) (hv : 0 < m.vov) :
    ∃ z0 : ℝ, ∀ Z : ℕ → ℝ, Z 0 ≤ z0 → m.modifiedEM texp nTs Z nTs 1 < 0 := by
  obtain ⟨-, h⟩ := m.modifiedEM_scheme h1 texp hN (fun _ => 0)
  have hα2 : 0 < 1 - 2 * m.alpha := by linarith
  have hdt : 0 < texp / nTs := by positivity
  set c := 1 / Gamma (1 - m.alpha) * (m.vov * √m.sigma * √((texp / nTs) ^ (1 - 2 * m.alpha) / (1 - 2 * m.alpha))) with hc
  have hc0 : 0 < c := by
    have := Gamma_pos_of_pos (show 0 < 1 - m.alpha by linarith)
    positivity
  set d := m.sigma + 1 / Gamma (2 - m.alpha) * (m.mr * (m.theta - m.sigma) * (texp / nTs) ^ (1 - m.alpha)) with hd
  refine ⟨-(|d| + 1) / c, fun Z hZ => ?_⟩
  have e : m.modifiedEM texp nTs Z nTs 1 = d + c * Z 0 := by
    rw [m.modifiedEM_stable texp nTs Z (show 1 ≤ nTs by omega)]
    simp only [modifiedEM, Function.update_self, Finset.range_one, Finset.sum_singleton, term1, term2, mcDt, tgrid, zero_add, sub_self, fMc, gMc,
      zero_rpow (show 1 - m.alpha ≠ 0 by linarith), zero_rpow hα2.ne', sub_zero, hc, hd]
    ring
  rw [e]
  have := (le_div_iff₀ hc0).1 hZ
  have := le_abs_self d
  nlinarith

/-! ### The price -/

/-- C128. The pair of normals has standard normal margins and correlation `rho`: its joint moment generating function. -/
theorem corrNormals_law (hρ : m.rho ^ 2 ≤ 1) (a b : ℝ) :
    Spec.gaussE (fun z1 => Spec.gaussE fun z2 => exp (a * (m.corrNormals z1 z2).1 + b * (m.corrNormals z1 z2).2)) = exp ((a ^ 2 + 2 * m.rho * a * b + b ^ 2) / 2) := by
  have hs : √(1 - m.rho ^ 2) ^ 2 = 1 - m.rho ^ 2 := sq_sqrt (by linarith)
  have e : ∀ z1 z2, a * (m.corrNormals z1 z2).1 + b * (m.corrNormals z1 z2).2 = (b * √(1 - m.rho ^ 2)) * z2 + (a + b * m.rho) * z1 := fun z1 z2 => by
    simp only [corrNormals]
    ring
  simp only [e, gaussE_exp_lin]
  have e2 : ∀ z1, (b * √(1 - m.rho ^ 2)) ^ 2 / 2 + (a + b * m.rho) * z1 = (a + b * m.rho) * z1 + (b * √(1 - m.rho ^ 2)) ^ 2 / 2 := fun z1 => by ring
  simp only [e2, gaussE_exp_lin]
  congr 1
  rw [mul_pow, hs]
  ring

/-- The Euler scheme for the log price, `dX = (r - V/2) dt + √V dW`, after `n` steps. -/
noncomputable def Spec.logEuler (r dt x0 : ℝ) (V W : ℕ → ℝ) (n : ℕ) : ℝ := x0 + ∑ i ∈ Finset.range n, ((r - V i / 2) * dt + √(V i) * √dt * W i)

/-- C128 (finding). The log price of `price` drifts by `intr` per step instead of `intr * dt`, whatever the step. -/
theorem logPath_drift {dt : ℝ} (spot : ℝ) (V W : ℕ → ℝ) (hV : ∀ i, 0 ≤ V i) (n : ℕ) :
    m.logPath dt spot V W n = Spec.logEuler m.intr dt (log spot) V W n + n * (m.intr - m.intr * dt) := by
  induction n with
  | zero => simp [logPath, Spec.logEuler]
  | succ n ih =>
    simp only [logPath, ih, Spec.logEuler, Finset.sum_range_succ, sqrt_mul (hV n)]
    push_cast
    ring

/-- C128 (finding). With zero rates, `price` for expiry `texp` and `n` steps is the Euler price of the option that expires one step earlier. -/
theorem mcPrice_short (hr : m.intr = 0) (texp spot : ℝ) (nTs P : ℕ) (V W : ℕ → ℕ → ℝ) (hV : ∀ p i, 0 ≤ V p i) (strike cp : ℝ) :
    m.mcPrice texp spot nTs P V W strike cp
      = (∑ p ∈ Finset.range P, Spec.payoff cp strike (exp (Spec.logEuler 0 (texp / nTs) (log spot) (V p) (W p) (nTs - 1)))) / P := by
  simp only [mcPrice, m.logPath_drift _ _ _ (hV _), hr, Spec.payoff, mcDt, max_comm (0:ℝ)]
  simp

/-- C128. With zero rates, `priceCMC` is the average over the paths of the expected payoff given the variance path, the independent part of the asset's noise being integrated out. -/
theorem priceCMC_zero_rates (hr : m.intr = 0) (hq : m.divr = 0) {texp spot strike cp : ℝ} (hT : 0 < texp) (hS : 0 < spot) (hK : 0 < strike) (hcp : Spec.IsCp cp)
    (nTs P : ℕ) (V Z : ℕ → ℕ → ℝ) (hv : ∀ p < P, eps ≤ √((1 - m.rho ^ 2) * intVar texp nTs (V p))) :
    m.priceCMC texp spot nTs P V Z false true strike cp = .ok ((∑ p ∈ Finset.range P, Spec.gaussE fun z => Spec.payoff cp strike
      (spot * exp (m.rho * itoSum texp nTs (V p) (Z p) + √((1 - m.rho ^ 2) * intVar texp nTs (V p)) * z - intVar texp nTs (V p) / 2))) / P) := by
  simp only [priceCMC, if_true]
  congr 2
  refine Finset.sum_congr rfl fun p hp => ?_
  have hpv := hv p (Finset.mem_range.1 hp)
  have hpos : 0 < (1 - m.rho ^ 2) * intVar texp nTs (V p) := by
    by_contra h
    rw [sqrt_eq_zero_of_nonpos (not_lt.1 h)] at hpv
    exact absurd eps_pos (not_lt.2 hpv)
  have hs : √((1 - m.rho ^ 2) * intVar texp nTs (V p) / texp) * √texp = √((1 - m.rho ^ 2) * intVar texp nTs (V p)) := by
    rw [← sqrt_mul (by positivity), div_mul_cancel₀ _ hT.ne']
  simp only [mcCondSpotSigma, hr, hq, mul_zero, neg_zero, exp_zero, div_one, mul_one, zero_mul, zero_add, Bool.false_eq_true, if_false]
  rw [bsm_price_eq_expectation _ hcp hK (by positivity) (by simpa [hs] using hpv)]
  simp only [Spec.discount, Spec.forward, Spec.gbm, hs, zero_mul, neg_zero, exp_zero, one_mul, sub_self, mul_one, ite_self]
  congr 1
  ext z
  rw [mul_assoc spot, ← exp_add, sq_sqrt hpos.le]
  congr 3
  norm_num
  ring

/-- C128 (finding). With the forward correction, the put-call parity of `priceCMC` holds for the forward multiplied by `exp((2 r - q) T)`: the carry is applied once in `forward`, the
interest rate once more in the conditional forward, and the carry again by the base model. -/
theorem priceCMC_parity (hf : m.isFwd = false) {texp spot : ℝ} (hS : 0 < spot) (nTs : ℕ) {P : ℕ} (hP : 0 < P) (V Z : ℕ → ℕ → ℝ) (strike : ℝ) :
    ∃ c p, m.priceCMC texp spot nTs P V Z true true strike 1 = .ok c ∧ m.priceCMC texp spot nTs P V Z true true strike (-1) = .ok p ∧
      Spec.Parity c p (Spec.discount m.intr texp) (Spec.forward false m.intr m.divr spot texp * exp ((2 * m.intr - m.divr) * texp)) strike := by
  refine ⟨_, _, by simp only [priceCMC, if_true]; rfl, by simp only [priceCMC, if_true]; rfl, ?_⟩
  have hPr : (P : ℝ) ≠ 0 := by positivity
  rw [Spec.Parity, ← sub_div, ← Finset.sum_sub_distrib]
  have hpar : ∀ p, Bsm.price ⟨(m.mcCondSpotSigma texp spot nTs P V Z true p).2, m.intr, m.divr, m.isFwd⟩ strike (m.mcCondSpotSigma texp spot nTs P V Z true p).1 texp 1
      - Bsm.price ⟨(m.mcCondSpotSigma texp spot nTs P V Z true p).2, m.intr, m.divr, m.isFwd⟩ strike (m.mcCondSpotSigma texp spot nTs P V Z true p).1 texp (-1)
      = Spec.discount m.intr texp * exp ((m.intr - m.divr) * texp) * (m.mcCondSpotSigma texp spot nTs P V Z true p).1 - Spec.discount m.intr texp * strike := fun p => by
    have := bsm_put_call_parity ⟨(m.mcCondSpotSigma texp spot nTs P V Z true p).2, m.intr, m.divr, m.isFwd⟩ strike (m.mcCondSpotSigma texp spot nTs P V Z true p).1 texp
    rw [Spec.Parity] at this
    rw [this]
    simp only [Spec.forward, hf, Bool.false_eq_true, if_false]
    ring
  rw [Finset.sum_congr rfl fun p _ => hpar p, Finset.sum_sub_distrib, ← Finset.mul_sum, Finset.sum_const, Finset.card_range, nsmul_eq_mul]
  have hmean : (∑ p ∈ Finset.range P, (m.mcCondSpotSigma texp spot nTs P V Z true p).1) = P * (spot * exp ((m.intr - m.divr) * texp) * exp (m.intr * texp)) := by
    simp only [mcCondSpotSigma, if_true]
    rw [← Finset.mul_sum]
    set S := ∑ p ∈ Finset.range P, spot / exp (-texp * m.intr) * exp (-texp * m.divr) * exp (m.intr * texp + m.rho * itoSum texp nTs (V p) (Z p) - 0.5 * m.rho ^ 2 * intVar texp nTs (V p)) with hSd
    have hS0 : S ≠ 0 := (Finset.sum_pos (fun p _ => by positivity) (Finset.nonempty_range_iff.2 hP.ne')).ne'
    rw [show (m.intr - m.divr) * texp = -(-texp * m.intr) + -texp * m.divr by ring, exp_add, exp_neg]
    have := (exp_pos (-texp * m.intr)).ne'
    field_simp
  rw [hmean, show (2 * m.intr - m.divr) * texp = (m.intr - m.divr) * texp + m.intr * texp by ring, exp_add]
  simp only [Spec.forward, Bool.false_eq_true, if_false]
  field_simp

/-- C128 (finding). A scalar strike always raises in `priceCMC`. -/
theorem priceCMC_scalar (texp spot : ℝ) (nTs P : ℕ) (V Z : ℕ → ℕ → ℝ) (c : Bool) (strike cp : ℝ) : m.priceCMC texp spot nTs P V Z c false strike cp = .error .axisError := rfl

end RoughHeston

end PyFENG
