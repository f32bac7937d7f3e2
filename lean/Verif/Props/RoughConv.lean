import Verif.Lemmas.FracConv
import Verif.Props.RoughHybrid
import Mathlib.Analysis.Complex.ExponentialBounds
import Mathlib.Topology.MetricSpace.Contracting

/-!
# C126, C127: convergence of the recursions for the fractional Riccati equation
-/

namespace PyFENG

open Real MeasureTheory intervalIntegral Set Filter Topology

namespace FracConv

/-- What is known about the solution and the grid. -/
structure Setup (α δ T L M l ω C A : ℝ) (f : ℂ → ℂ) (y : ℝ → ℂ) : Prop where
  hα : 0 < α
  hδ : 0 < δ
  hL : 0 ≤ L
  hl : 0 < l
  hC0 : 0 ≤ C
  hω0 : 0 ≤ ω
  hf : ∀ x z, ‖x‖ ≤ M + 1 → ‖z‖ ≤ M + 1 → ‖f x - f z‖ ≤ L * ‖x - z‖
  hy : ∀ t, 0 ≤ t → t ≤ T → ‖y t‖ ≤ M
  hyi : ∀ t, 0 ≤ t → t ≤ T → IntervalIntegrable (fun s => (((t - s) ^ (α - 1) : ℝ) : ℂ) * f (y s)) volume 0 t
  hsol : ∀ t, 0 ≤ t → t ≤ T → y t = Spec.fracInt α (fun s => f (y s)) t
  hLl : L ≤ l ^ α / 4
  hC : L * (T ^ α / Gamma (α + 1)) ≤ C
  hω : ∀ s t, 0 ≤ s → s ≤ T → 0 ≤ t → t ≤ T → |s - t| ≤ 2 * δ → ‖y s - y t‖ ≤ ω
  hA : 2 * C * (C + 1) * ω ≤ A
  hAT : A * exp (l * T) ≤ 1

variable {α δ T L M l ω C A : ℝ} {f : ℂ → ℂ} {y : ℝ → ℂ} {h : ℕ → ℂ}

lemma Setup.A0 (S : Setup α δ T L M l ω C A f y) : 0 ≤ A := by
  have := S.hC0; have := S.hω0; exact le_trans (by positivity) S.hA

lemma Setup.zero (S : Setup α δ T L M l ω C A f y) (hT : 0 ≤ T) : y 0 = 0 := by
  rw [S.hsol 0 le_rfl hT]; simp [Spec.fracInt]

/-- A value of the recursion with a small error at a grid point `j δ ≤ s` close to `s`. -/
lemma Setup.point (S : Setup α δ T L M l ω C A f y) {j : ℕ} {s : ℝ} (hsT : s ≤ T) (h1 : (j:ℝ) * δ ≤ s) (h2 : s - j * δ ≤ 2 * δ)
    (he : ‖h j - y (j * δ)‖ ≤ A * exp (l * (j * δ))) : ‖f (h j) - f (y s)‖ ≤ L * A * exp (l * s) + L * ω := by
  have hj : (0:ℝ) ≤ j * δ := mul_nonneg (Nat.cast_nonneg _) S.hδ.le
  have hA0 := S.A0
  have hl := S.hl
  have e1 : A * exp (l * (j * δ)) ≤ A * exp (l * s) := mul_le_mul_of_nonneg_left (exp_le_exp.2 (mul_le_mul_of_nonneg_left h1 hl.le)) hA0
  have e2 : A * exp (l * s) ≤ A * exp (l * T) := mul_le_mul_of_nonneg_left (exp_le_exp.2 (mul_le_mul_of_nonneg_left hsT hl.le)) hA0
  have b1 : ‖h j‖ ≤ M + 1 := by
    have := norm_le_norm_add_norm_sub' (h j) (y (j * δ))
    have := S.hy (j * δ) hj (h1.trans hsT)
    linarith [S.hAT]
  have b2 : ‖y s‖ ≤ M + 1 := by have := S.hy s (hj.trans h1) hsT; linarith
  have e3 : ‖h j - y s‖ ≤ A * exp (l * s) + ω := by
    have := S.hω (j * δ) s hj (h1.trans hsT) (hj.trans h1) hsT (by rw [abs_sub_comm, abs_of_nonneg (by linarith)]; exact h2)
    have := norm_sub_le_norm_sub_add_norm_sub (h j) (y (j * δ)) (y s)
    linarith
  calc ‖f (h j) - f (y s)‖ ≤ L * ‖h j - y s‖ := S.hf _ _ b1 b2
    _ ≤ L * (A * exp (l * s) + ω) := mul_le_mul_of_nonneg_left e3 S.hL
    _ = _ := by ring

/-- The error of an integral of a close right-hand side. -/
lemma Setup.integral (S : Setup α δ T L M l ω C A f y) {t : ℝ} (ht0 : 0 ≤ t) (htT : t ≤ T) {g : ℝ → ℂ} {c : ℝ} (hc : 0 ≤ c)
    (hg : IntervalIntegrable (fun s => (((t - s) ^ (α - 1) : ℝ) : ℂ) * g s) volume 0 t)
    (hb : ∀ s, 0 < s → s < t → ‖g s - f (y s)‖ ≤ L * A * exp (l * s) + L * c) :
    ‖Spec.fracInt α g t - y t‖ ≤ A * exp (l * t) / 4 + C * c := by
  have hA0 := S.A0
  have hlα : 0 < l ^ α := rpow_pos_of_pos S.hl _
  have hG : 0 < Gamma (α + 1) := Gamma_pos_of_pos (by linarith [S.hα])
  rw [S.hsol t ht0 htT]
  refine (fracInt_close S.hα S.hl (mul_nonneg S.hL hA0) ht0 hg (S.hyi t ht0 htT) hb).trans (add_le_add ?_ ?_)
  · rw [div_le_iff₀ hlα]
    have := mul_le_mul_of_nonneg_right S.hLl (mul_nonneg hA0 (exp_pos (l * t)).le)
    calc L * A * exp (l * t) = L * (A * exp (l * t)) := by ring
      _ ≤ l ^ α / 4 * (A * exp (l * t)) := this
      _ = _ := by ring
  · have h1 : t ^ α / Gamma (α + 1) ≤ T ^ α / Gamma (α + 1) := div_le_div_of_nonneg_right (rpow_le_rpow ht0 htT S.hα.le) hG.le
    have h2 := mul_le_mul_of_nonneg_left h1 S.hL
    calc L * c * (t ^ α / Gamma (α + 1)) = L * (t ^ α / Gamma (α + 1)) * c := by ring
      _ ≤ C * c := mul_le_mul_of_nonneg_right (h2.trans S.hC) hc

/-- The error bound for the scheme of `logp_mgf_adam`. -/
lemma adams_bound (S : Setup α δ T L M l ω C A f y) (hlδ : exp (l * δ) ≤ 4) (hCω : C * ω ≤ 3 / 4) (h0 : h 0 = 0)
    (hrec : ∀ k, h (k + 1) = Spec.fracInt α (Spec.linFn δ fun j => if j ≤ k then f (h (j - 1))
      else f (Spec.fracInt α (Spec.stepFn δ fun j => f (h (j - 1))) ((k + 1 : ℕ) * δ))) ((k + 1 : ℕ) * δ)) (k : ℕ) (hk : (k:ℝ) * δ ≤ T) :
    ‖h k - y (k * δ)‖ ≤ A * exp (l * (k * δ)) := by
  have hδ := S.hδ
  have hA0 := S.A0
  have hl := S.hl
  induction k using Nat.strong_induction_on with
  | _ k ih =>
  cases k with
  | zero =>
    have hT : 0 ≤ T := by simpa using hk
    simp only [Nat.cast_zero, zero_mul, h0, S.zero hT, sub_zero, norm_zero]
    positivity
  | succ k =>
  set t : ℝ := ((k + 1 : ℕ) : ℝ) * δ with ht
  have ht0 : 0 ≤ t := by positivity
  have hte : t = k * δ + δ := by rw [ht]; push_cast; ring
  have IH : ∀ j, j ≤ k → ‖h j - y (j * δ)‖ ≤ A * exp (l * (j * δ)) := fun j hj => by
    refine ih j (by omega) (le_trans ?_ hk)
    rw [hte]
    have : (j:ℝ) * δ ≤ k * δ := mul_le_mul_of_nonneg_right (by exact_mod_cast hj) hδ.le
    linarith
  have cell : ∀ s, 0 < s → s < t → ∃ i : ℕ, ⌊s / δ⌋₊ = i ∧ i ≤ k ∧ (i:ℝ) * δ ≤ s ∧ s < i * δ + δ := fun s hs0 hs => by
    have f1 := Nat.floor_le (div_nonneg hs0.le hδ.le)
    have f2 := Nat.lt_floor_add_one (s / δ)
    rw [le_div_iff₀ hδ] at f1
    rw [div_lt_iff₀ hδ] at f2
    refine ⟨_, rfl, ?_, f1, by linarith⟩
    have : (⌊s / δ⌋₊ : ℝ) * δ < ((k + 1 : ℕ) : ℝ) * δ := lt_of_le_of_lt f1 hs
    have := lt_of_mul_lt_mul_right this hδ.le
    have : ⌊s / δ⌋₊ < k + 1 := by exact_mod_cast this
    omega
  have lag : ∀ (s : ℝ) (i : ℕ), s < t → i ≤ k → (i:ℝ) * δ ≤ s → s < i * δ + δ → ‖f (h (i - 1)) - f (y s)‖ ≤ L * A * exp (l * s) + L * ω := fun s i hs hi h1 h2 => by
    cases i with
    | zero =>
      simp only [Nat.cast_zero, zero_mul, zero_add] at h1 h2
      exact S.point (j := 0) (by linarith) (by simpa using h1) (by simp only [Nat.cast_zero, zero_mul]; linarith) (IH 0 (by omega))
    | succ i =>
      push_cast at h1 h2
      exact S.point (j := i) (by linarith) (by nlinarith) (by linarith) (IH i (by omega))
  -- the predictor
  have hp : ‖Spec.fracInt α (Spec.stepFn δ fun j => f (h (j - 1))) t - y t‖ ≤ A * exp (l * t) / 4 + C * ω := by
    refine S.integral ht0 hk S.hω0 (step_ii S.hα hδ _ (k + 1)) fun s hs0 hs => ?_
    obtain ⟨i, hi, hik, h1, h2⟩ := cell s hs0 hs
    unfold Spec.stepFn
    rw [hi]
    exact lag s i hs hik h1 h2
  set p := Spec.fracInt α (Spec.stepFn δ fun j => f (h (j - 1))) t with hpdef
  have hAt : A * exp (l * t) ≤ 1 := le_trans (mul_le_mul_of_nonneg_left (exp_le_exp.2 (mul_le_mul_of_nonneg_left hk hl.le)) hA0) S.hAT
  have last : ∀ s, (k:ℝ) * δ ≤ s → s < t → ‖f p - f (y s)‖ ≤ L * A * exp (l * s) + L * ((C + 1) * ω) := fun s h1 h2 => by
    have hs0 : 0 ≤ s := le_trans (by positivity) h1
    have b1 : ‖p‖ ≤ M + 1 := by
      have := norm_le_norm_add_norm_sub' p (y t)
      have := S.hy t ht0 hk
      linarith
    have b2 : ‖y s‖ ≤ M + 1 := by have := S.hy s hs0 (h2.le.trans hk); linarith
    have e4 : exp (l * t) ≤ 4 * exp (l * s) := by
      have : exp (l * t) ≤ exp (l * δ) * exp (l * s) := by rw [← exp_add]; exact exp_le_exp.2 (by nlinarith)
      nlinarith [exp_pos (l * s)]
    have e5 : ‖p - y s‖ ≤ A * exp (l * s) + (C + 1) * ω := by
      have q1 := norm_sub_le_norm_sub_add_norm_sub p (y t) (y s)
      have q2 := S.hω t s ht0 hk hs0 (h2.le.trans hk) (by rw [abs_of_nonneg (by linarith)]; linarith)
      have q3 := mul_le_mul_of_nonneg_left e4 hA0
      nlinarith
    calc ‖f p - f (y s)‖ ≤ L * ‖p - y s‖ := S.hf _ _ b1 b2
      _ ≤ L * (A * exp (l * s) + (C + 1) * ω) := mul_le_mul_of_nonneg_left e5 S.hL
      _ = _ := by ring
  have hωC : L * ω ≤ L * ((C + 1) * ω) := mul_le_mul_of_nonneg_left (by nlinarith [mul_nonneg S.hC0 S.hω0]) S.hL
  rw [hrec k]
  refine (S.integral ht0 hk (c := (C + 1) * ω) (mul_nonneg (by linarith [S.hC0]) S.hω0) (lin_ii S.hα hδ _ (k + 1)) fun s hs0 hs => ?_).trans ?_
  · obtain ⟨i, hi, hik, h1, h2⟩ := cell s hs0 hs
    obtain ⟨f0, f1⟩ := frac_mem hδ hs0.le
    unfold Spec.linFn
    refine lin_close f0 f1 ?_ ?_
    · simp only
      rw [hi, if_pos hik]
      exact (lag s i hs hik h1 h2).trans (by linarith)
    · simp only
      rw [hi]
      rcases Nat.lt_or_ge i k with hlt | hge
      · rw [if_pos (by omega), Nat.add_sub_cancel]
        exact (S.point (hs.le.trans hk) h1 (by linarith) (IH i hik)).trans (by linarith)
      · rw [if_neg (by omega)]
        have : i = k := le_antisymm hik hge
        subst this
        exact last s h1 hs
  · have e6 : C * ((C + 1) * ω) ≤ A / 2 := by have := S.hA; linarith
    have e7 : A ≤ A * exp (l * t) := le_mul_of_one_le_right hA0 (one_le_exp (by positivity))
    linarith

/-- The error bound for an explicit recursion with piecewise-constant right-hand side, given starting values up to index `k0`. -/
lemma euler_bound (S : Setup α δ T L M l ω C A f y) {k0 n : ℕ} (h0 : ∀ i ≤ k0, i ≤ n → (i:ℝ) * δ ≤ T → ‖h i - y (i * δ)‖ ≤ A)
    (hrec : ∀ i, k0 < i → i ≤ n → h i = Spec.fracInt α (Spec.stepFn δ fun j => f (h j)) (i * δ)) (k : ℕ) (hkn : k ≤ n) (hk : (k:ℝ) * δ ≤ T) :
    ‖h k - y (k * δ)‖ ≤ A * exp (l * (k * δ)) := by
  have hδ := S.hδ
  have hA0 := S.A0
  have hl := S.hl
  induction k using Nat.strong_induction_on with
  | _ k ih =>
  set t : ℝ := (k:ℝ) * δ with ht
  have ht0 : 0 ≤ t := by positivity
  have e7 : A ≤ A * exp (l * t) := le_mul_of_one_le_right hA0 (one_le_exp (by positivity))
  rcases Nat.lt_or_ge k0 k with hlt | hge
  · rw [hrec k hlt hkn]
    refine (S.integral ht0 hk (c := ω) S.hω0 (step_ii S.hα hδ _ k) fun s hs0 hs => ?_).trans ?_
    · have f1 := Nat.floor_le (div_nonneg hs0.le hδ.le)
      have f2 := Nat.lt_floor_add_one (s / δ)
      rw [le_div_iff₀ hδ] at f1
      rw [div_lt_iff₀ hδ] at f2
      have hi : ⌊s / δ⌋₊ < k := by
        have := lt_of_mul_lt_mul_right (lt_of_le_of_lt f1 hs) hδ.le
        exact_mod_cast this
      unfold Spec.stepFn
      refine S.point (hs.le.trans hk) f1 (by linarith) (ih _ hi (by omega) (le_trans ?_ hk))
      exact f1.trans hs.le
    · have e6 : C * ω ≤ A / 2 := by
        have := S.hA
        have : C * ω ≤ C * (C + 1) * ω := by
          have := mul_nonneg (mul_nonneg S.hC0 S.hC0) S.hω0
          nlinarith
        linarith
      linarith
  · exact (h0 k hge hkn hk).trans e7

/-- A solution of the integral equation that is continuous on `[0, T]`, for a locally Lipschitz right-hand side: constants for the error bounds. -/
lemma exists_setup {α T : ℝ} (hα : 0 < α) (hT : 0 ≤ T) {f : ℂ → ℂ} (hfc : Continuous f) (hf : ∀ R : ℝ, ∃ L : ℝ, 0 ≤ L ∧ ∀ x z, ‖x‖ ≤ R → ‖z‖ ≤ R → ‖f x - f z‖ ≤ L * ‖x - z‖) {y : ℝ → ℂ}
    (hy : ContinuousOn y (Icc 0 T)) (hsol : ∀ t ∈ Icc 0 T, y t = Spec.fracInt α (fun s => f (y s)) t) :
    ∃ K ≥ 0, ∃ L M l C : ℝ, ∃ η > 0, (∀ δ, δ ≤ η → exp (l * δ) ≤ 4) ∧ (∀ ω, ω ≤ η → C * ω ≤ 3 / 4) ∧ 0 < l ∧
      ∀ δ ω ε, 0 < δ → 0 ≤ ω → 0 ≤ ε → ω ≤ η → ε ≤ η → (∀ s t, 0 ≤ s → s ≤ T → 0 ≤ t → t ≤ T → |s - t| ≤ 2 * δ → ‖y s - y t‖ ≤ ω) →
        ∃ A, ε ≤ A ∧ A * exp (l * T) ≤ K * (ω + ε) ∧ Setup α δ T L M l ω C A f y := by
  obtain ⟨M, hM⟩ := isCompact_Icc.exists_bound_of_continuousOn hy
  obtain ⟨L, hL, hLip⟩ := hf (M + 1)
  have hG : 0 < Gamma (α + 1) := Gamma_pos_of_pos (by linarith)
  set l : ℝ := (4 * L + 1) ^ (1 / α) with hl
  have hl0 : 0 < l := rpow_pos_of_pos (by linarith) _
  have hlα : l ^ α = 4 * L + 1 := by rw [hl, ← rpow_mul (by linarith), one_div, inv_mul_cancel₀ hα.ne', rpow_one]
  set C : ℝ := L * (T ^ α / Gamma (α + 1)) with hC
  have hC0 : 0 ≤ C := by have := rpow_nonneg hT α; positivity
  set K : ℝ := (2 * C * (C + 1) + 1) * exp (l * T) with hK
  have hK0 : 0 < K := by positivity
  refine ⟨K, hK0.le, L, M, l, C, min (1 / l) (min (1 / (2 * K)) (3 / (4 * (C + 1)))), lt_min (by positivity) (lt_min (by positivity) (by positivity)), ?_, ?_, hl0, ?_⟩
  · intro δ hδ
    have h1 : l * δ ≤ 1 := by
      have := mul_le_mul_of_nonneg_left (hδ.trans (min_le_left _ _)) hl0.le
      rwa [mul_one_div_cancel hl0.ne'] at this
    have := exp_le_exp.2 h1
    have := Real.exp_one_lt_d9
    linarith
  · intro ω hω
    have h1 := hω.trans ((min_le_right _ _).trans (min_le_right _ _))
    have h2 := mul_le_mul_of_nonneg_left h1 hC0
    refine h2.trans ?_
    rw [mul_div_assoc', div_le_div_iff₀ (by positivity) (by norm_num)]
    nlinarith
  · intro δ ω ε hδ hω hε h1 h2 hmod
    have e1 := h1.trans ((min_le_right _ _).trans (min_le_left _ _))
    have e2 := h2.trans ((min_le_right _ _).trans (min_le_left _ _))
    have hA : (2 * C * (C + 1) * ω + ε) * exp (l * T) ≤ K * (ω + ε) := by
      have p1 : 2 * C * (C + 1) * ω + ε ≤ (2 * C * (C + 1) + 1) * (ω + ε) := by
        have : 0 ≤ 2 * C * (C + 1) * ε := by positivity
        nlinarith
      calc _ ≤ (2 * C * (C + 1) + 1) * (ω + ε) * exp (l * T) := mul_le_mul_of_nonneg_right p1 (exp_pos _).le
        _ = _ := by rw [hK]; ring
    have hKs : K * (ω + ε) ≤ 1 := by
      have := mul_le_mul_of_nonneg_left (add_le_add e1 e2) hK0.le
      have e : K * (1 / (2 * K) + 1 / (2 * K)) = 1 := by field_simp; norm_num
      linarith
    refine ⟨2 * C * (C + 1) * ω + ε, by have : 0 ≤ 2 * C * (C + 1) * ω := by positivity
                                        linarith, hA, ?_⟩
    exact { hα := hα, hδ := hδ, hL := hL, hl := hl0, hC0 := hC0, hω0 := hω, hf := hLip, hy := fun t h1 h2 => hM t ⟨h1, h2⟩
            hyi := fun t h1 h2 => (FracInt.ofReal_ii (FracInt.kernel_integrable hα t 0 t)).mul_continuousOn (by
              rw [uIcc_of_le h1]
              exact hfc.comp_continuousOn (hy.mono (Icc_subset_Icc_right h2)))
            hsol := fun t h1 h2 => hsol t ⟨h1, h2⟩
            hLl := by rw [hlα]; linarith
            hC := le_rfl, hω := hmod, hA := by linarith, hAT := hA.trans hKs }

end FracConv

/-- The continuous solutions on `[0, T]` of the fractional Riccati equation of the rough Heston model for the argument `u` (El Euch and Rosenbaum): `h = I^α (½(u² - u) + λ(uρν - 1) h + ½(λν)² h²)`. -/
def Spec.IsRiccati (m : RoughHeston) (u : ℂ) (T : ℝ) (y : ℝ → ℂ) : Prop :=
  ContinuousOn y (Icc 0 T) ∧ ∀ t ∈ Icc 0 T, y t = Spec.fracInt m.alpha (fun s =>
    (u ^ 2 - u) / 2 + (m.mr : ℂ) * (u * m.rho * m.vov - 1) * y s + ((m.mr : ℂ) * m.vov) ^ 2 / 2 * y s ^ 2) t

namespace RoughHeston

open FracConv

lemma F_eq (m : RoughHeston) (u x : ℂ) : m.F u x = (u ^ 2 - u) / 2 + (m.mr : ℂ) * (u * m.rho * m.vov - 1) * x + ((m.mr : ℂ) * m.vov) ^ 2 / 2 * x ^ 2 := by
  unfold F; push_cast; ring

lemma isRiccati_iff (m : RoughHeston) (u : ℂ) (T : ℝ) (y : ℝ → ℂ) : Spec.IsRiccati m u T y ↔ ContinuousOn y (Icc 0 T) ∧ ∀ t ∈ Icc 0 T, y t = Spec.fracInt m.alpha (fun s => m.F u (y s)) t := by
  unfold Spec.IsRiccati
  simp only [F_eq]

lemma F_continuous (m : RoughHeston) (u : ℂ) : Continuous (m.F u) := by unfold F; fun_prop

lemma F_lip (m : RoughHeston) (u : ℂ) (R : ℝ) : ∃ L : ℝ, 0 ≤ L ∧ ∀ x z, ‖x‖ ≤ R → ‖z‖ ≤ R → ‖m.F u x - m.F u z‖ ≤ L * ‖x - z‖ := by
  set b : ℂ := m.mr * (u * m.rho * m.vov - 1) with hb
  set c : ℂ := ((m.mr * m.vov : ℝ) : ℂ) ^ 2 / 2 with hc
  refine ⟨‖b‖ + ‖c‖ * (2 * |R|), by positivity, fun x z hx hz => ?_⟩
  have e : m.F u x - m.F u z = (b + c * (x + z)) * (x - z) := by unfold F; rw [hb, hc]; ring
  rw [e, norm_mul]
  refine mul_le_mul_of_nonneg_right ((norm_add_le _ _).trans (add_le_add le_rfl ?_)) (norm_nonneg _)
  rw [norm_mul]
  refine mul_le_mul_of_nonneg_left ((norm_add_le _ _).trans ?_) (norm_nonneg _)
  have := le_abs_self R
  linarith

/-- **C126.** Error of the loop of `logp_mgf_adam`: as long as the Riccati equation has a continuous solution on `[0, T]`, the computed values differ from it at all grid points by at most
a constant times the oscillation of the solution over two steps, for every step that is small enough. -/
theorem adam_error (m : RoughHeston) (hα : 0 < m.alpha) {u : ℂ} {T : ℝ} (hT : 0 ≤ T) {y : ℝ → ℂ} (hy : Spec.IsRiccati m u T y) :
    ∃ K ≥ 0, ∃ η > 0, ∀ δ ω, 0 < δ → δ ≤ η → 0 ≤ ω → ω ≤ η → (∀ s t, 0 ≤ s → s ≤ T → 0 ≤ t → t ≤ T → |s - t| ≤ 2 * δ → ‖y s - y t‖ ≤ ω) →
      ∀ n k : ℕ, k ≤ n → (k:ℝ) * δ ≤ T → ‖(m.adamArr δ u n).1 k - y (k * δ)‖ ≤ K * ω := by
  obtain ⟨K, hK, L, M, l, C, η, hη, h1, h2, hl, h3⟩ := exists_setup hα hT (m.F_continuous u) (m.F_lip u) hy.1 ((m.isRiccati_iff u T y).1 hy).2
  refine ⟨K, hK, η, hη, fun δ ω hδ hδη hω hωη hmod n k hk hkT => ?_⟩
  obtain ⟨A, -, hA, S⟩ := h3 δ ω 0 hδ hω le_rfl hωη hη.le hmod
  obtain ⟨h, hh, h0, hrec⟩ := adam_recursion m hα hδ u
  rw [hh n k hk]
  refine (adams_bound S (h1 δ hδη) (h2 ω hωη) h0 hrec k hkT).trans ?_
  rw [add_zero] at hA
  exact (mul_le_mul_of_nonneg_left (exp_le_exp.2 (mul_le_mul_of_nonneg_left hkT hl.le)) S.A0).trans hA

/-- **C126.** Convergence: with smaller and smaller steps the loop of `logp_mgf_adam` approximates the solution of the fractional Riccati equation uniformly on `[0, T]`. -/
theorem adam_converges (m : RoughHeston) (hα : 0 < m.alpha) {u : ℂ} {T : ℝ} (hT : 0 ≤ T) {y : ℝ → ℂ} (hy : Spec.IsRiccati m u T y) {ε : ℝ} (hε : 0 < ε) :
    ∃ δ₀ > 0, ∀ δ, 0 < δ → δ ≤ δ₀ → ∀ n k : ℕ, k ≤ n → (k:ℝ) * δ ≤ T → ‖(m.adamArr δ u n).1 k - y (k * δ)‖ ≤ ε := by
  obtain ⟨K, hK, η, hη, h⟩ := adam_error m hα hT hy
  have hu := isCompact_Icc.uniformContinuousOn_of_continuous hy.1
  rw [Metric.uniformContinuousOn_iff] at hu
  set ω := min η (ε / (K + 1)) with hω
  have hω0 : 0 < ω := lt_min hη (by positivity)
  obtain ⟨d, hd, hd2⟩ := hu ω hω0
  refine ⟨min η (d / 3), lt_min hη (by positivity), fun δ hδ hδ0 n k hk hkT => ?_⟩
  refine (h δ ω hδ (hδ0.trans (min_le_left _ _)) hω0.le (min_le_left _ _) (fun s t hs hs' ht ht' hst => ?_) n k hk hkT).trans ?_
  · have := hd2 s ⟨hs, hs'⟩ t ⟨ht, ht'⟩ (by rw [Real.dist_eq]; have := hδ0.trans (min_le_right _ _); linarith)
    rw [dist_eq_norm] at this
    exact this.le
  · have h1 : K * ω ≤ K * (ε / (K + 1)) := mul_le_mul_of_nonneg_left (min_le_right _ _) hK
    refine h1.trans ?_
    rw [mul_div_assoc', div_le_iff₀ (by linarith)]
    nlinarith

/-- `Ih` on the grid with `N` steps as an integral. -/
lemma Ih_eq {T r : ℝ} (hT : 0 < T) {N : ℕ} (hN : 0 < N) (g : ℕ → ℂ) : Ih (T / N) r T g =
    (∫ s in (0:ℝ)..T, (((T - ⌊s / (T / N)⌋₊ * (T / N)) ^ (r - 1) : ℝ) : ℂ) * g ⌊s / (T / N)⌋₊) / (Gamma r : ℂ) := by
  have hN' : (0:ℝ) < N := by exact_mod_cast hN
  have hδ : 0 < T / N := by positivity
  have e : T / (T / N) = N := by field_simp
  have eT : (N:ℝ) * (T / N) = T := by field_simp
  unfold Ih
  rw [e, Nat.ceil_natCast]
  congr 1
  have h := grid_split hδ (fun s => (((T - ⌊s / (T / N)⌋₊ * (T / N)) ^ (r - 1) : ℝ) : ℂ) * g ⌊s / (T / N)⌋₊) (fun i _ => (((T - i * (T / N)) ^ (r - 1) : ℝ) : ℂ) * g i) N
    (fun i _ => intervalIntegrable_const) (fun i _ s h1 h2 => by rw [floor_cell hδ h1 h2])
  rw [eT] at h
  rw [h]
  refine Finset.sum_congr rfl fun i _ => ?_
  rw [intervalIntegral.integral_const, Complex.real_smul]
  push_cast
  ring

/-- `Ih` of values that converge uniformly to a continuous function converges to the fractional integral. -/
lemma Ih_tendsto {T r : ℝ} (hT : 0 < T) (hr : 0 < r) (hr1 : r ≤ 1) {y : ℝ → ℂ} (hy : ContinuousOn y (Icc 0 T)) (g : ℕ → ℕ → ℂ)
    (hg : ∀ ε > 0, ∀ᶠ N : ℕ in atTop, ∀ k ≤ N, ‖g N k - y (k * (T / N))‖ ≤ ε) : Tendsto (fun N : ℕ => Ih (T / N) r T (g N)) atTop (𝓝 (Spec.fracInt r y T)) := by
  obtain ⟨M, hM⟩ := isCompact_Icc.exists_bound_of_continuousOn hy
  have hev : (fun N : ℕ => Ih (T / N) r T (g N)) =ᶠ[atTop] fun N : ℕ => (∫ s in (0:ℝ)..T, (((T - ⌊s / (T / N)⌋₊ * (T / N)) ^ (r - 1) : ℝ) : ℂ) * g N ⌊s / (T / N)⌋₊) / (Gamma r : ℂ) := by
    filter_upwards [eventually_gt_atTop 0] with N hN
    exact Ih_eq hT hN _
  rw [tendsto_congr' hev]
  unfold Spec.fracInt
  refine Tendsto.div_const ?_ _
  -- facts about the cell of a point
  have cell : ∀ N : ℕ, 0 < N → ∀ s, 0 < s → s < T → (⌊s / (T / N)⌋₊ : ℝ) * (T / N) ≤ s ∧ s - ⌊s / (T / N)⌋₊ * (T / N) < T / N ∧ ⌊s / (T / N)⌋₊ ≤ N := fun N hN s h0 h1 => by
    have hN' : (0:ℝ) < N := by exact_mod_cast hN
    have hδ : 0 < T / N := by positivity
    have f1 := Nat.floor_le (div_nonneg h0.le hδ.le)
    have f2 := Nat.lt_floor_add_one (s / (T / N))
    rw [le_div_iff₀ hδ] at f1
    rw [div_lt_iff₀ hδ] at f2
    refine ⟨f1, by linarith, floor_le_of hδ ?_⟩
    have : (N:ℝ) * (T / N) = T := by field_simp
    linarith
  refine intervalIntegral.tendsto_integral_filter_of_dominated_convergence (fun s => (T - s) ^ (r - 1) * (M + 1)) ?_ ?_ ?_ ?_
  · refine Eventually.of_forall fun N => Measurable.aestronglyMeasurable ?_
    have hfl : Measurable fun s : ℝ => ⌊s / (T / N)⌋₊ := Nat.measurable_floor.comp (measurable_id.div_const _)
    exact (measurable_from_nat (f := fun j : ℕ => (((T - j * (T / N)) ^ (r - 1) : ℝ) : ℂ) * g N j)).comp hfl
  · filter_upwards [hg 1 one_pos, eventually_gt_atTop 0] with N hN hN0
    have hne : ∀ᵐ s ∂(volume : Measure ℝ), s ≠ T := by simp [ae_iff, measure_singleton]
    filter_upwards [hne] with s hsT hs
    rw [uIoc_of_le hT.le] at hs
    have hsT' : s < T := lt_of_le_of_ne hs.2 hsT
    obtain ⟨c1, c2, c3⟩ := cell N hN0 s hs.1 hsT'
    rw [norm_mul, Complex.norm_real, norm_of_nonneg (rpow_nonneg (by linarith) _)]
    refine mul_le_mul (rpow_le_rpow_of_nonpos (by linarith) (by linarith) (by linarith)) ?_ (norm_nonneg _) (rpow_nonneg (by linarith) _)
    have h1 := hN _ c3
    have h2 := hM (⌊s / (T / N)⌋₊ * (T / N)) ⟨by positivity, by linarith⟩
    have h3 := norm_le_norm_add_norm_sub' (g N ⌊s / (T / N)⌋₊) (y (⌊s / (T / N)⌋₊ * (T / N)))
    linarith
  · exact (FracInt.kernel_integrable hr T 0 T).mul_const _
  · have hne : ∀ᵐ s ∂(volume : Measure ℝ), s ≠ T := by simp [ae_iff, measure_singleton]
    filter_upwards [hne] with s hsT hs
    rw [uIoc_of_le hT.le] at hs
    have hsT' : s < T := lt_of_le_of_ne hs.2 hsT
    have hpt : Tendsto (fun N : ℕ => (⌊s / (T / N)⌋₊ : ℝ) * (T / N)) atTop (𝓝 s) := by
      have hz : Tendsto (fun N : ℕ => s - T / N) atTop (𝓝 s) := by
        have := (tendsto_const_div_atTop_nhds_zero_nat T).const_sub s
        simpa using this
      refine tendsto_of_tendsto_of_tendsto_of_le_of_le' hz tendsto_const_nhds ?_ ?_
      · filter_upwards [eventually_gt_atTop 0] with N hN
        have := (cell N hN s hs.1 hsT').2.1
        linarith
      · filter_upwards [eventually_gt_atTop 0] with N hN
        exact (cell N hN s hs.1 hsT').1
    refine Tendsto.mul ?_ ?_
    · refine (Complex.continuous_ofReal.tendsto _).comp ?_
      exact (tendsto_const_nhds.sub hpt).rpow_const (Or.inl (by linarith))
    · have hyc : ContinuousAt y s := hy.continuousAt (Icc_mem_nhds hs.1 hsT')
      have h1 := hyc.tendsto.comp hpt
      have h2 : Tendsto (fun N : ℕ => g N ⌊s / (T / N)⌋₊ - y (⌊s / (T / N)⌋₊ * (T / N))) atTop (𝓝 0) := by
        rw [Metric.tendsto_nhds]
        intro ε hε
        filter_upwards [hg (ε / 2) (by positivity), eventually_gt_atTop 0] with N hN hN0
        rw [dist_zero_right]
        have := hN _ (cell N hN0 s hs.1 hsT').2.2
        linarith
      have h3 := h2.add h1
      simp only [Function.comp_def, sub_add_cancel, zero_add] at h3
      exact h3

/-- **C126.** Convergence of the moment generating function: with `N` steps up to the expiry, the value of `logp_mgf_adam` tends to `exp(θλ ∫₀ᵀ h + V₀ I^{1-α} h(T))` for the solution `h`
of the fractional Riccati equation, as long as the latter exists on `[0, T]`. -/
theorem adam_mgf_converges (m : RoughHeston) (hα : 0 < m.alpha) (hα1 : m.alpha < 1) {u : ℂ} {T : ℝ} (hT : 0 < T) {y : ℝ → ℂ} (hy : Spec.IsRiccati m u T y) :
    Tendsto (fun N : ℕ => Complex.exp (m.adamExpo (T / N) u T)) atTop
      (𝓝 (Complex.exp (m.theta * m.mr * (∫ s in (0:ℝ)..T, y s) + m.sigma * Spec.fracInt (1 - m.alpha) y T))) := by
  set g : ℕ → ℕ → ℂ := fun N => (m.adamArr (T / N) u ⌊T / (T / N)⌋₊).1 with hgdef
  have hg : ∀ ε > 0, ∀ᶠ N : ℕ in atTop, ∀ k ≤ N, ‖g N k - y (k * (T / N))‖ ≤ ε := fun ε hε => by
    obtain ⟨δ₀, h0, h⟩ := adam_converges m hα hT.le hy hε
    filter_upwards [eventually_gt_atTop 0, (tendsto_const_div_atTop_nhds_zero_nat T).eventually_lt_const h0] with N hN hlt k hk
    have hN' : (0:ℝ) < N := by exact_mod_cast hN
    have e : T / (T / N) = N := by field_simp
    refine h (T / N) (by positivity) hlt.le _ k (by rw [e, Nat.floor_natCast]; exact hk) ?_
    have : (k:ℝ) * (T / N) ≤ N * (T / N) := mul_le_mul_of_nonneg_right (by exact_mod_cast hk) (by positivity)
    rwa [show (N:ℝ) * (T / N) = T by field_simp] at this
  have h1 := Ih_tendsto hT one_pos le_rfl hy.1 g hg
  have h2 := Ih_tendsto hT (r := 1 - m.alpha) (by linarith) (by linarith) hy.1 g hg
  have e1 : Spec.fracInt 1 y T = ∫ s in (0:ℝ)..T, y s := by simp [Spec.fracInt]
  rw [e1] at h1
  exact (Complex.continuous_exp.tendsto _).comp ((h1.const_mul _).add (h2.const_mul _))

/-- **C126.** There is at most one continuous solution of the fractional Riccati equation on `[0, T]`. -/
theorem riccati_unique (m : RoughHeston) (hα : 0 < m.alpha) {u : ℂ} {T : ℝ} {y z : ℝ → ℂ} (hy : Spec.IsRiccati m u T y) (hz : Spec.IsRiccati m u T z) : ∀ t ∈ Icc 0 T, y t = z t := by
  intro t ht
  rcases ht.1.eq_or_lt with h0 | h0
  · rw [hy.2 t ht, hz.2 t ht, ← h0]; simp [Spec.fracInt]
  have hy' : Spec.IsRiccati m u t y := ⟨hy.1.mono (Icc_subset_Icc_right ht.2), fun s hs => hy.2 s ⟨hs.1, hs.2.trans ht.2⟩⟩
  have hz' : Spec.IsRiccati m u t z := ⟨hz.1.mono (Icc_subset_Icc_right ht.2), fun s hs => hz.2 s ⟨hs.1, hs.2.trans ht.2⟩⟩
  rw [← sub_eq_zero, ← norm_eq_zero]
  refine le_antisymm (le_of_forall_pos_le_add fun ε hε => ?_) (norm_nonneg _)
  obtain ⟨d1, h1, hc1⟩ := adam_converges m hα ht.1 hy' (half_pos hε)
  obtain ⟨d2, h2, hc2⟩ := adam_converges m hα ht.1 hz' (half_pos hε)
  obtain ⟨N, hN⟩ := exists_nat_gt (t / min d1 d2)
  have hm : 0 < min d1 d2 := lt_min h1 h2
  have hN0 : (0:ℝ) < N := lt_of_le_of_lt (by positivity) hN
  have hδ : t / N ≤ min d1 d2 := by rw [div_lt_iff₀ hm] at hN; rw [div_le_iff₀ hN0]; linarith
  have e : (N:ℝ) * (t / N) = t := by field_simp
  have a := hc1 (t / N) (by positivity) (hδ.trans (min_le_left _ _)) N N le_rfl e.le
  have b := hc2 (t / N) (by positivity) (hδ.trans (min_le_right _ _)) N N le_rfl e.le
  rw [e] at a b
  have := norm_sub_le_norm_sub_add_norm_sub (y t) ((m.adamArr (t / N) u N).1 N) (z t)
  rw [norm_sub_rev] at a
  linarith

/-- The fractional integral of a bounded continuous function is continuous. -/
lemma frac_continuousOn {α : ℝ} (hα : 0 < α) {g : ℝ → ℂ} (hg : Continuous g) {B : ℝ} (hB : ∀ s, ‖g s‖ ≤ B) : ContinuousOn (Spec.fracInt α g) (Ici 0) := by
  have e : ∀ t ∈ Ici (0:ℝ), Spec.fracInt α g t = ((t ^ α : ℝ) : ℂ) * (∫ x in (0:ℝ)..1, (((1 - x) ^ (α - 1) : ℝ) : ℂ) * g (t * x)) / (Gamma α : ℂ) := fun t ht => by
    have ht : 0 ≤ t := ht
    unfold Spec.fracInt
    congr 1
    rcases ht.eq_or_lt with h0 | h0
    · rw [← h0, zero_rpow hα.ne']; simp
    have h := intervalIntegral.integral_comp_mul_left (a := 0) (b := 1) (fun s => (((t - s) ^ (α - 1) : ℝ) : ℂ) * g s) h0.ne'
    rw [mul_zero, mul_one, eq_inv_smul_iff₀ h0.ne'] at h
    rw [← h, Complex.real_smul, ← intervalIntegral.integral_const_mul, ← intervalIntegral.integral_const_mul]
    refine integral_congr fun x hx => ?_
    rw [uIcc_of_le zero_le_one] at hx
    have : (t - t * x) ^ (α - 1) = t ^ (α - 1) * (1 - x) ^ (α - 1) := by rw [← mul_rpow ht (by linarith [hx.2])]; congr 1; ring
    rw [this]
    have e2 : t ^ α = t * t ^ (α - 1) := by rw [rpow_sub_one h0.ne']; field_simp
    rw [e2]; push_cast; ring
  refine ContinuousOn.congr (Continuous.continuousOn ?_) e
  have hI : Continuous fun t : ℝ => ∫ x in (0:ℝ)..1, (((1 - x) ^ (α - 1) : ℝ) : ℂ) * g (t * x) := by
    refine continuous_of_dominated_interval (bound := fun x => (1 - x) ^ (α - 1) * B) ?_ ?_ ?_ ?_
    · intro t
      refine Measurable.aestronglyMeasurable (Measurable.mul (by fun_prop) ?_)
      exact (hg.comp (by fun_prop : Continuous fun x : ℝ => t * x)).measurable
    · refine fun t => ae_of_all _ fun x hx => ?_
      rw [uIoc_of_le zero_le_one] at hx
      have : (0:ℝ) ≤ (1 - x) ^ (α - 1) := rpow_nonneg (by linarith [hx.2]) _
      rw [norm_mul, Complex.norm_real, norm_of_nonneg this]
      exact mul_le_mul_of_nonneg_left (hB _) this
    · exact (FracInt.kernel_integrable hα 1 0 1).mul_const _
    · refine ae_of_all _ fun x _ => continuous_const.mul (hg.comp (by fun_prop))
  exact (((Complex.continuous_ofReal.comp (continuous_id.rpow_const fun _ => Or.inr hα.le)).mul hI).div_const _)

/-- **C126.** For all parameters and every argument the fractional Riccati equation has a continuous solution up to some positive time. -/
theorem riccati_exists (m : RoughHeston) (hα : 0 < m.alpha) (u : ℂ) : ∃ T > 0, ∃ y, Spec.IsRiccati m u T y := by
  obtain ⟨L, hL, hLip⟩ := m.F_lip u 1
  set B : ℝ := ‖m.F u 0‖ + L with hB
  have hFB : ∀ x, ‖x‖ ≤ 1 → ‖m.F u x‖ ≤ B := fun x hx => by
    have h1 := hLip x 0 hx (by simp)
    have h2 := norm_le_norm_add_norm_sub' (m.F u x) (m.F u 0)
    rw [sub_zero] at h1
    nlinarith
  have hB0 : 0 ≤ B := by positivity
  have hG : 0 < Gamma (m.alpha + 1) := Gamma_pos_of_pos (by linarith)
  set c : ℝ := Gamma (m.alpha + 1) / (2 * (B + L + 1)) with hc
  have hc0 : 0 < c := by positivity
  set T : ℝ := c ^ (1 / m.alpha) with hT
  have hT0 : 0 < T := rpow_pos_of_pos hc0 _
  have hTα : T ^ m.alpha = c := by rw [hT, ← rpow_mul hc0.le, one_div, inv_mul_cancel₀ hα.ne', rpow_one]
  have hk : ∀ t ∈ Icc 0 T, t ^ m.alpha / Gamma (m.alpha + 1) ≤ 1 / (2 * (B + L + 1)) := fun t ht => by
    have h1 : t ^ m.alpha ≤ c := by rw [← hTα]; exact rpow_le_rpow ht.1 ht.2 hα.le
    rw [div_le_iff₀ hG]
    refine h1.trans (le_of_eq ?_)
    rw [hc]; ring
  refine ⟨T, hT0, ?_⟩
  -- the map
  let ext : C(Icc (0:ℝ) T, ℂ) → ℝ → ℂ := fun φ => IccExtend hT0.le φ
  have hext : ∀ φ, Continuous (ext φ) := fun φ => φ.continuous.Icc_extend'
  have hextb : ∀ φ s, ‖ext φ s‖ ≤ ‖φ‖ := fun φ s => φ.norm_coe_le_norm _
  have hcont : ∀ φ, ContinuousOn (Spec.fracInt m.alpha fun s => m.F u (ext φ s)) (Ici 0) := fun φ => by
    obtain ⟨K, hK⟩ : ∃ K, ∀ x : ℂ, ‖x‖ ≤ ‖φ‖ → ‖m.F u x‖ ≤ K := by
      obtain ⟨L', hL', h'⟩ := m.F_lip u ‖φ‖
      refine ⟨‖m.F u 0‖ + L' * ‖φ‖, fun x hx => ?_⟩
      have h1 := h' x 0 hx (by simp)
      have h2 := norm_le_norm_add_norm_sub' (m.F u x) (m.F u 0)
      rw [sub_zero] at h1
      nlinarith
    exact frac_continuousOn hα ((m.F_continuous u).comp (hext φ)) fun s => hK _ (hextb φ s)
  let Φ : C(Icc (0:ℝ) T, ℂ) → C(Icc (0:ℝ) T, ℂ) := fun φ => ⟨fun t => Spec.fracInt m.alpha (fun s => m.F u (ext φ s)) t,
    continuousOn_iff_continuous_restrict.1 ((hcont φ).mono Icc_subset_Ici_self)⟩
  have hii : ∀ φ (t : ℝ), IntervalIntegrable (fun s => (((t - s) ^ (m.alpha - 1) : ℝ) : ℂ) * m.F u (ext φ s)) volume 0 t := fun φ t =>
    (FracInt.ofReal_ii (FracInt.kernel_integrable hα t 0 t)).mul_continuousOn ((m.F_continuous u).comp (hext φ)).continuousOn
  have hmaps : MapsTo Φ (Metric.closedBall 0 1) (Metric.closedBall 0 1) := fun φ hφ => by
    rw [mem_closedBall_zero_iff] at hφ ⊢
    rw [ContinuousMap.norm_le _ zero_le_one]
    intro t
    have h := fracInt_close (α := m.alpha) (l := 1) (A := 0) (B := B) hα one_pos le_rfl t.2.1 (f1 := fun s => m.F u (ext φ s)) (f2 := fun _ => 0) (hii φ t)
      (by simp) (fun s _ _ => by rw [sub_zero, zero_mul, zero_add]; exact hFB _ ((hextb φ s).trans hφ))
    have e0 : Spec.fracInt m.alpha (fun _ => (0:ℂ)) t = 0 := by simp [Spec.fracInt]
    rw [e0, sub_zero, zero_mul, zero_div, zero_add] at h
    refine h.trans ((mul_le_mul_of_nonneg_left (hk t t.2) hB0).trans ?_)
    rw [mul_one_div, div_le_one (by positivity)]
    linarith
  have hcontr : ContractingWith (1 / 2) (hmaps.restrict Φ _ _) := by
    refine ⟨by norm_num, LipschitzWith.of_dist_le_mul fun φ ψ => ?_⟩
    have hφ := mem_closedBall_zero_iff.1 φ.2
    have hψ := mem_closedBall_zero_iff.1 ψ.2
    rw [Subtype.dist_eq, Subtype.dist_eq, MapsTo.val_restrict_apply, MapsTo.val_restrict_apply, ContinuousMap.dist_le (by positivity)]
    intro t
    have h := fracInt_close (α := m.alpha) (l := 1) (A := 0) (B := L * dist φ.1 ψ.1) hα one_pos le_rfl t.2.1 (f1 := fun s => m.F u (ext φ.1 s)) (f2 := fun s => m.F u (ext ψ.1 s)) (hii φ.1 t) (hii ψ.1 t)
      (fun s _ _ => by
        rw [zero_mul, zero_add]
        refine (hLip _ _ ((hextb _ s).trans hφ) ((hextb _ s).trans hψ)).trans (mul_le_mul_of_nonneg_left ?_ hL)
        rw [← dist_eq_norm]
        exact ContinuousMap.dist_apply_le_dist _)
    rw [zero_mul, zero_div, zero_add, ← dist_eq_norm] at h
    refine h.trans ((mul_le_mul_of_nonneg_left (hk t t.2) (by positivity)).trans ?_)
    have : L * (1 / (2 * (B + L + 1))) ≤ 1 / 2 := by rw [mul_one_div, div_le_div_iff₀ (by positivity) (by norm_num)]; linarith
    have := mul_le_mul_of_nonneg_right this (dist_nonneg (x := φ.1) (y := ψ.1))
    calc L * dist φ.1 ψ.1 * (1 / (2 * (B + L + 1))) = L * (1 / (2 * (B + L + 1))) * dist φ.1 ψ.1 := by ring
      _ ≤ 1 / 2 * dist φ.1 ψ.1 := this
      _ = _ := by norm_num
  obtain ⟨φ, -, hfix, -⟩ := hcontr.exists_fixedPoint' Metric.isClosed_closedBall.isComplete hmaps (x := 0) (by simp) (edist_ne_top _ _)
  refine ⟨ext φ, (m.isRiccati_iff u T _).2 ⟨(hext φ).continuousOn, fun t ht => ?_⟩⟩
  have : ext φ t = φ ⟨t, ht⟩ := IccExtend_of_mem hT0.le φ ht
  rw [this]
  exact (DFunLike.congr_fun hfix ⟨t, ht⟩).symm

/-- Continuous solutions of the fractional differential equation with right-hand side `nu + mu φ + l φ²`. -/
def Spec.IsQuadRiccati (α : ℝ) (l mu nu : ℂ) (T : ℝ) (y : ℝ → ℂ) : Prop :=
  ContinuousOn y (Icc 0 T) ∧ ∀ t ∈ Icc 0 T, y t = _root_.PyFENG.Spec.fracInt α (fun s => nu + mu * y s + l * y s ^ 2) t

lemma quad_lip (l mu nu : ℂ) (R : ℝ) : ∃ L : ℝ, 0 ≤ L ∧ ∀ x z, ‖x‖ ≤ R → ‖z‖ ≤ R → ‖(nu + mu * x + l * x ^ 2) - (nu + mu * z + l * z ^ 2)‖ ≤ L * ‖x - z‖ := by
  refine ⟨‖mu‖ + ‖l‖ * (2 * |R|), by positivity, fun x z hx hz => ?_⟩
  have e : (nu + mu * x + l * x ^ 2) - (nu + mu * z + l * z ^ 2) = (mu + l * (x + z)) * (x - z) := by ring
  rw [e, norm_mul]
  refine mul_le_mul_of_nonneg_right ((norm_add_le _ _).trans (add_le_add le_rfl ?_)) (norm_nonneg _)
  rw [norm_mul]
  refine mul_le_mul_of_nonneg_left ((norm_add_le _ _).trans ?_) (norm_nonneg _)
  have := le_abs_self R
  linarith

/-- **C127.** Error of the Euler recursion `phi_n`: at all grid points it differs from the solution of the fractional Riccati equation by at most a constant times the oscillation of the solution
over two steps plus the error of the starting values, for every grid that is fine enough. -/
theorem phi_n_error (m : RoughHeston) (hα : 0 < m.alpha) {texp : ℝ} (hT : 0 < texp) {l mu nu : ℂ} {y : ℝ → ℂ} (hy : Spec.IsQuadRiccati m.alpha l mu nu texp y) :
    ∃ K ≥ 0, ∃ η > 0, ∀ (n r0 k0 k : ℕ) (a : ℕ → ℂ) (ω ε : ℝ), 0 < n → texp / n ≤ η → 0 ≤ ω → ω ≤ η → 0 ≤ ε → ε ≤ η → k0 ≤ k → k ≤ n →
      (∀ s t, 0 ≤ s → s ≤ texp → 0 ≤ t → t ≤ texp → |s - t| ≤ 2 * (texp / n) → ‖y s - y t‖ ≤ ω) →
      (∀ i, 1 ≤ i → i ≤ k0 → ‖m.phiT r0 (texp * i / n) a - y (texp * i / n)‖ ≤ ε) →
      ∀ i ≤ k, ‖m.phiN texp n r0 k0 k l mu nu a i - y (texp * i / n)‖ ≤ K * (ω + ε) := by
  obtain ⟨K, hK, L, M, l', C, η, hη, h1, h2, hl, h3⟩ := exists_setup hα hT.le (by fun_prop) (quad_lip l mu nu) hy.1 hy.2
  refine ⟨K, hK, η, hη, fun n r0 k0 k a ω ε hn hδη hω hωη hε hεη hk0 hkn hmod hstart i hi => ?_⟩
  have hn' : (0:ℝ) < n := by exact_mod_cast hn
  have hδ : 0 < texp / n := by positivity
  have eq : ∀ j : ℕ, texp * j / n = j * (texp / n) := fun j => by ring
  obtain ⟨A, hεA, hA, S⟩ := h3 (texp / n) ω ε hδ hω hε hωη hεη hmod
  obtain ⟨p0, p1, p2⟩ := phi_n_recursion m hα hT (k0 := k0) hn r0 l mu nu a hk0
  have hle : ∀ j ≤ n, (j:ℝ) * (texp / n) ≤ texp := fun j hj => by
    have : (j:ℝ) * (texp / n) ≤ n * (texp / n) := mul_le_mul_of_nonneg_right (by exact_mod_cast hj) hδ.le
    rwa [show (n:ℝ) * (texp / n) = texp by field_simp] at this
  have := euler_bound S (k0 := k0) (n := k) (h := m.phiN texp n r0 k0 k l mu nu a) (fun j hj _ _ => by
    rcases Nat.eq_zero_or_pos j with rfl | hj0
    · rw [p0, Nat.cast_zero, zero_mul, S.zero hT.le, sub_zero, norm_zero]; exact S.A0
    · rw [p1 j hj0 hj, ← eq]
      exact (hstart j hj0 hj).trans hεA) p2 i hi (hle i (hi.trans hkn))
  rw [eq]
  refine this.trans (le_trans ?_ hA)
  exact mul_le_mul_of_nonneg_left (exp_le_exp.2 (mul_le_mul_of_nonneg_left (hle i (hi.trans hkn)) hl.le)) S.A0

/-- **C127.** Convergence of the Euler recursion: for a fixed number of starting values and a fixed number of series coefficients, whatever they are, the values of `phi_n` tend to the solution of
the fractional Riccati equation, uniformly on the grid. -/
theorem phi_n_converges (m : RoughHeston) (hα : 0 < m.alpha) {texp : ℝ} (hT : 0 < texp) {l mu nu : ℂ} {y : ℝ → ℂ} (hy : Spec.IsQuadRiccati m.alpha l mu nu texp y)
    (r0 k0 : ℕ) (a : ℕ → ℂ) {ε : ℝ} (hε : 0 < ε) : ∃ N, ∀ n ≥ N, k0 ≤ n ∧ ∀ i ≤ n, ‖m.phiN texp n r0 k0 n l mu nu a i - y (texp * i / n)‖ ≤ ε := by
  obtain ⟨K, hK, η, hη, h⟩ := phi_n_error m hα hT hy
  set ω := min η (ε / (2 * (K + 1))) with hω
  have hω0 : 0 < ω := lt_min hη (by positivity)
  have hu := isCompact_Icc.uniformContinuousOn_of_continuous hy.1
  rw [Metric.uniformContinuousOn_iff] at hu
  obtain ⟨d, hd, hd2⟩ := hu ω hω0
  have hy0 : y 0 = 0 := by rw [hy.2 0 ⟨le_rfl, hT.le⟩]; simp [Spec.fracInt]
  -- the starting values are small
  have hser : Tendsto (fun t : ℝ => m.phiT r0 t a) (𝓝[≥] 0) (𝓝 0) := by
    have hc : Continuous fun t : ℝ => m.phiT r0 t a := by
      unfold phiT
      refine continuous_finsetSum _ fun i hi => continuous_const.mul (Complex.continuous_ofReal.comp (continuous_id.rpow_const fun _ => Or.inr ?_))
      positivity
    have h0 : m.phiT r0 0 a = 0 := by
      unfold phiT
      refine Finset.sum_eq_zero fun i hi => ?_
      have : (0:ℝ) < m.alpha * i := mul_pos hα (by have := (Finset.mem_Icc.1 hi).1; exact_mod_cast this)
      rw [zero_rpow this.ne']; simp
    have := hc.tendsto 0
    rw [h0] at this
    exact this.mono_left nhdsWithin_le_nhds
  have hev : ∀ᶠ t : ℝ in 𝓝[≥] 0, ‖m.phiT r0 t a‖ < ω / 2 := by
    have := hser.norm
    rw [norm_zero] at this
    exact this.eventually_lt_const (by positivity)
  rw [eventually_nhdsWithin_iff, Metric.eventually_nhds_iff] at hev
  obtain ⟨d1, hd1, hs⟩ := hev
  obtain ⟨d3, hd3, hs3⟩ := hu (ω / 2) (by positivity)
  set D := min (min η (d / 3)) (min d1 d3 / (k0 + 1)) with hD
  have hD0 : 0 < D := lt_min (lt_min hη (by positivity)) (div_pos (lt_min hd1 hd3) (by positivity))
  obtain ⟨N, hN⟩ := exists_nat_gt (texp / D)
  refine ⟨N + k0 + 1, fun n hn => ⟨by omega, fun i hi => ?_⟩⟩
  have hn0 : 0 < n := by omega
  have hn' : (0:ℝ) < n := by exact_mod_cast hn0
  have hNn : (N:ℝ) ≤ n := by exact_mod_cast (by omega : N ≤ n)
  have hδ : texp / n < D := by
    rw [div_lt_iff₀ hD0] at hN
    rw [div_lt_iff₀ hn']
    nlinarith
  have hδ0 : 0 < texp / n := by positivity
  refine (h n r0 k0 n a ω ω hn0 (hδ.le.trans ((min_le_left _ _).trans (min_le_left _ _))) hω0.le (min_le_left _ _) hω0.le (min_le_left _ _) (by omega) le_rfl ?_ ?_ i hi).trans ?_
  · intro s t hs' hs1 ht ht1 hst
    have := hd2 s ⟨hs', hs1⟩ t ⟨ht, ht1⟩ (by rw [Real.dist_eq]; have := hδ.le.trans ((min_le_left _ _).trans (min_le_right _ _)); linarith)
    rw [dist_eq_norm] at this
    exact this.le
  · intro j hj hj0
    have hj' : (j:ℝ) ≤ k0 := by exact_mod_cast hj0
    have e : texp * j / n = j * (texp / n) := by ring
    have ht0 : (0:ℝ) ≤ j * (texp / n) := by positivity
    have h5 := hδ.trans_le (min_le_right _ _)
    rw [lt_div_iff₀ (by positivity)] at h5
    have h6 : (j:ℝ) * (texp / n) < min d1 d3 := by nlinarith
    have hjT : (j:ℝ) * (texp / n) ≤ texp := by
      have : (j:ℝ) * (texp / n) ≤ n * (texp / n) := mul_le_mul_of_nonneg_right (by exact_mod_cast (by omega : j ≤ n)) hδ0.le
      rwa [show (n:ℝ) * (texp / n) = texp by field_simp] at this
    rw [e]
    have a1 := hs (y := (j:ℝ) * (texp / n)) (by rw [Real.dist_eq, sub_zero, abs_of_nonneg ht0]; exact h6.trans_le (min_le_left _ _)) ht0
    have a2 := hs3 ((j:ℝ) * (texp / n)) ⟨ht0, hjT⟩ 0 ⟨le_rfl, hT.le⟩ (by rw [Real.dist_eq, sub_zero, abs_of_nonneg ht0]; exact h6.trans_le (min_le_right _ _))
    rw [hy0, dist_zero_right] at a2
    have := norm_sub_le (m.phiT r0 (j * (texp / n)) a) (y (j * (texp / n)))
    linarith
  · have h1 : K * (ω + ω) ≤ K * (ε / (K + 1)) := mul_le_mul_of_nonneg_left (by
      have := min_le_right η (ε / (2 * (K + 1)))
      have e : ε / (2 * (K + 1)) + ε / (2 * (K + 1)) = ε / (K + 1) := by field_simp; norm_num
      linarith) hK
    refine h1.trans ?_
    rw [mul_div_assoc', div_le_iff₀ (by linarith)]
    nlinarith

/-- The coefficients that `logp_mgf_hybrid` passes to the recursion give the fractional Riccati equation of the model. -/
theorem quad_riccati_iff (m : RoughHeston) (u : ℂ) (T : ℝ) (y : ℝ → ℂ) : Spec.IsQuadRiccati m.alpha m.lambd (m.muR u) (nuR u) T y ↔ _root_.PyFENG.Spec.IsRiccati m u T y := by
  have e : ∀ x, nuR u + m.muR u * x + m.lambd * x ^ 2 = m.F u x := fun x => by
    unfold nuR muR lambd F; push_cast; ring
  rw [isRiccati_iff]
  unfold Spec.IsQuadRiccati
  simp only [e]

/-- Parameters with a quadratic term and an argument that is neither 0 nor 1: the solution exists up to some time, and both schemes converge to it there. -/
example : ∃ T > 0, ∃ y, Spec.IsQuadRiccati (62 / 100) (RoughHeston.lambd ⟨0.0392, 0.331, -0.681, 0.1, 0.3156, 62 / 100, 0, 0, false⟩)
    (RoughHeston.muR ⟨0.0392, 0.331, -0.681, 0.1, 0.3156, 62 / 100, 0, 0, false⟩ (2 * Complex.I)) (nuR (2 * Complex.I)) T y := by
  obtain ⟨T, hT, y, hy⟩ := riccati_exists ⟨0.0392, 0.331, -0.681, 0.1, 0.3156, 62 / 100, 0, 0, false⟩ (by norm_num) (2 * Complex.I)
  exact ⟨T, hT, y, (quad_riccati_iff ⟨0.0392, 0.331, -0.681, 0.1, 0.3156, 62 / 100, 0, 0, false⟩ _ _ _).2 hy⟩

/-- An explicit solution: without mean reversion the right-hand side is constant, and `h(t) = ½(u² - u) t^α / Γ(α + 1)` on every interval. -/
example (m : RoughHeston) (hα : 0 < m.alpha) (hmr : m.mr = 0) (u : ℂ) (T : ℝ) :
    _root_.PyFENG.Spec.IsRiccati m u T fun t => (u ^ 2 - u) / 2 * ((t ^ m.alpha / Gamma (m.alpha + 1) : ℝ) : ℂ) := by
  rw [isRiccati_iff]
  refine ⟨Continuous.continuousOn (continuous_const.mul (Complex.continuous_ofReal.comp ((continuous_id.rpow_const fun _ => Or.inr hα.le).div_const _))), fun t ht => ?_⟩
  have e : ∀ x, m.F u x = (u ^ 2 - u) / 2 * (((1:ℝ) : ℝ) : ℂ) := fun x => by unfold F; rw [hmr]; push_cast; ring
  simp only [e]
  rcases ht.1.eq_or_lt with h0 | h0
  · rw [← h0, zero_rpow hα.ne']; simp [_root_.PyFENG.Spec.fracInt]
  have h := FracInt.frac_pow (p := 0) hα le_rfl h0
  simp only [rpow_zero, zero_add, Gamma_one] at h
  unfold _root_.PyFENG.Spec.fracInt at h ⊢
  have e2 : ∀ s, (((t - s) ^ (m.alpha - 1) : ℝ) : ℂ) * ((u ^ 2 - u) / 2 * ((1:ℝ) : ℂ)) = (u ^ 2 - u) / 2 * ((((t - s) ^ (m.alpha - 1) : ℝ) : ℂ) * ((1:ℝ) : ℂ)) := fun s => by ring
  simp only [e2]
  rw [intervalIntegral.integral_const_mul, mul_div_assoc, h]
  push_cast
  ring

end RoughHeston

end PyFENG
