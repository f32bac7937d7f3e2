import Verif.Lemmas.Kummer
import Verif.Props.HestonEta

/-!
# Growth of the modified Bessel function at infinity: `√(2πz) e^{-z} I_ν(z) → 1`
-/

namespace PyFENG.BesselAsymp

open Real MeasureTheory Filter Topology Set Spec

/-- Symmetric beta moments. -/
noncomputable def N (p : ℝ) (n : ℕ) : ℝ := ∫ s in (0:ℝ)..1, (1 - 2 * s) ^ n * (s * (1 - s)) ^ p

lemma cont_base {p : ℝ} (hp : 0 ≤ p) : Continuous fun s : ℝ => (s * (1 - s)) ^ p :=
  (by fun_prop : Continuous fun s : ℝ => s * (1 - s)).rpow_const fun _ => Or.inr hp

lemma N_odd (p : ℝ) (k : ℕ) : N p (2 * k + 1) = 0 := by
  have h := intervalIntegral.integral_comp_sub_left (a := 0) (b := 1) (fun s : ℝ => (1 - 2 * s) ^ (2 * k + 1) * (s * (1 - s)) ^ p) 1
  simp only [sub_zero, sub_self] at h
  have e : ∀ s : ℝ, (1 - 2 * (1 - s)) ^ (2 * k + 1) * ((1 - s) * (1 - (1 - s))) ^ p = -((1 - 2 * s) ^ (2 * k + 1) * (s * (1 - s)) ^ p) := by
    intro s
    rw [show 1 - 2 * (1 - s) = -(1 - 2 * s) by ring, show (1 - s) * (1 - (1 - s)) = s * (1 - s) by ring, Odd.neg_pow ⟨k, rfl⟩]
    ring
  simp only [e, intervalIntegral.integral_neg] at h
  unfold N
  linarith

lemma N_step {p : ℝ} (hp : 0 ≤ p) (k : ℕ) : N p (2 * (k + 1)) = ((k : ℝ) + 1 / 2) / (k + p + 3 / 2) * N p (2 * k) := by
  have hc0 := cont_base hp
  have hi : ∀ n : ℕ, IntervalIntegrable (fun s : ℝ => (1 - 2 * s) ^ n * (s * (1 - s)) ^ p) volume 0 1 := fun n =>
    (Continuous.mul (by fun_prop) hc0).intervalIntegrable _ _
  have hd : ∀ s ∈ Ioo (0:ℝ) 1, HasDerivAt (fun s : ℝ => (1 - 2 * s) ^ (2 * k + 1) * (s * (1 - s)) ^ (p + 1))
      (-(2 * k + 1) / 2 * ((1 - 2 * s) ^ (2 * k) * (s * (1 - s)) ^ p) + ((2 * k + 1) / 2 + (p + 1)) * ((1 - 2 * s) ^ (2 * (k + 1)) * (s * (1 - s)) ^ p)) s := by
    intro s hs
    have hpos : 0 < s * (1 - s) := mul_pos hs.1 (by linarith [hs.2])
    have h1 : HasDerivAt (fun s : ℝ => (1 - 2 * s) ^ (2 * k + 1)) (((2 * k + 1 : ℕ) : ℝ) * (1 - 2 * s) ^ (2 * k) * (-2)) s := by
      have := (((hasDerivAt_id' s).const_mul 2).const_sub 1).pow (2 * k + 1)
      refine this.congr_deriv ?_
      simp
    have h2 : HasDerivAt (fun s : ℝ => s * (1 - s)) (1 - 2 * s) s := by
      refine ((hasDerivAt_id' s).fun_mul ((hasDerivAt_id' s).const_sub 1)).congr_deriv ?_
      ring
    have h3 := h1.fun_mul (h2.rpow_const (p := p + 1) (Or.inl hpos.ne'))
    refine h3.congr_deriv ?_
    rw [add_sub_cancel_right, rpow_add hpos, rpow_one]
    push_cast
    rw [show 2 * (k + 1) = 2 * k + 2 by ring, pow_add, pow_succ]
    ring
  have hcont : ContinuousOn (fun s : ℝ => (1 - 2 * s) ^ (2 * k + 1) * (s * (1 - s)) ^ (p + 1)) (Icc 0 1) :=
    (Continuous.mul (by fun_prop) (cont_base (by linarith))).continuousOn
  have h := intervalIntegral.integral_eq_sub_of_hasDerivAt_of_le zero_le_one hcont hd (((hi _).const_mul _).add ((hi _).const_mul _))
  rw [intervalIntegral.integral_add ((hi _).const_mul _) ((hi _).const_mul _), intervalIntegral.integral_const_mul, intervalIntegral.integral_const_mul] at h
  change -(2 * (k:ℝ) + 1) / 2 * N p (2 * k) + ((2 * k + 1) / 2 + (p + 1)) * N p (2 * (k + 1)) = _ at h
  rw [sub_self, mul_zero, zero_mul, zero_rpow (by linarith), mul_zero, mul_zero, sub_zero] at h
  have : (k : ℝ) + p + 3 / 2 ≠ 0 := by positivity
  field_simp
  linarith

lemma N_zero {p : ℝ} (hp : 0 ≤ p) : N p 0 = Gamma (p + 1) ^ 2 / Gamma (2 * p + 2) := by
  have h := Complex.betaIntegral_eq_Gamma_mul_div (u := ((p + 1 : ℝ) : ℂ)) (v := ((p + 1 : ℝ) : ℂ)) (by simp; linarith) (by simp; linarith)
  unfold Complex.betaIntegral at h
  have e : ∀ s ∈ uIcc (0:ℝ) 1, (s : ℂ) ^ (((p + 1 : ℝ) : ℂ) - 1) * (1 - (s : ℂ)) ^ (((p + 1 : ℝ) : ℂ) - 1) = (((1 - 2 * s) ^ 0 * (s * (1 - s)) ^ p : ℝ) : ℂ) := by
    intro s hs
    rw [uIcc_of_le zero_le_one] at hs
    rw [show ((p + 1 : ℝ) : ℂ) - 1 = ((p : ℝ) : ℂ) by push_cast; ring, show (1 - (s : ℂ)) = ((1 - s : ℝ) : ℂ) by push_cast; ring, ← Complex.ofReal_cpow hs.1,
      ← Complex.ofReal_cpow (by linarith [hs.2]), ← Complex.ofReal_mul, ← mul_rpow hs.1 (by linarith [hs.2]), pow_zero, one_mul]
  rw [intervalIntegral.integral_congr e, intervalIntegral.integral_ofReal, ← Complex.ofReal_add, Complex.Gamma_ofReal, Complex.Gamma_ofReal] at h
  have h' : N p 0 = Gamma (p + 1) * Gamma (p + 1) / Gamma (p + 1 + (p + 1)) := by
    unfold N
    exact_mod_cast h
  rw [h', sq]
  congr 2
  ring

/-- The symmetric exponential beta integral as a power series. -/
lemma hasSum_exp {p : ℝ} (hp : 0 ≤ p) (z : ℝ) :
    HasSum (fun n : ℕ => z ^ n / n.factorial * N p n) (∫ s in (0:ℝ)..1, exp (z * (1 - 2 * s)) * (s * (1 - s)) ^ p) := by
  have hb : ∀ s ∈ uIoc (0:ℝ) 1, |1 - 2 * s| ≤ 1 ∧ |(s * (1 - s)) ^ p| ≤ 1 := by
    intro s hs
    rw [uIoc_of_le zero_le_one] at hs
    refine ⟨abs_le.2 ⟨by linarith [hs.2], by linarith [hs.1]⟩, ?_⟩
    have h0 : 0 ≤ s * (1 - s) := mul_nonneg hs.1.le (by linarith [hs.2])
    rw [abs_of_nonneg (rpow_nonneg h0 p)]
    exact rpow_le_one h0 (by nlinarith [hs.1, hs.2]) hp
  have h := intervalIntegral.hasSum_integral_of_dominated_convergence (μ := volume) (a := 0) (b := 1)
    (F := fun (n : ℕ) s => z ^ n / n.factorial * ((1 - 2 * s) ^ n * (s * (1 - s)) ^ p)) (f := fun s => exp (z * (1 - 2 * s)) * (s * (1 - s)) ^ p)
    (fun n _ => |z| ^ n / n.factorial)
    (fun n => ((Continuous.mul (by fun_prop) (cont_base hp)).const_mul _).aestronglyMeasurable.restrict)
    (fun n => ae_of_all _ fun s hs => ?_) (ae_of_all _ fun s _ => Real.summable_pow_div_factorial |z|) (by simp) (ae_of_all _ fun s _ => ?_)
  · simp only [intervalIntegral.integral_const_mul] at h
    exact h
  · obtain ⟨h1, h2⟩ := hb s hs
    rw [norm_mul, norm_mul, norm_div, norm_pow, norm_pow, Real.norm_eq_abs, Real.norm_eq_abs, Real.norm_eq_abs, Real.norm_eq_abs, Nat.abs_cast]
    have h3 : |1 - 2 * s| ^ n * |(s * (1 - s)) ^ p| ≤ 1 := mul_le_one₀ (pow_le_one₀ (abs_nonneg _) h1) (abs_nonneg _) h2
    exact mul_le_of_le_one_right (by positivity) h3
  · have h1 := NormedSpace.expSeries_div_hasSum_exp (𝔸 := ℝ) (z * (1 - 2 * s))
    rw [← Real.exp_eq_exp_ℝ] at h1
    have h2 := h1.mul_right ((s * (1 - s)) ^ p)
    refine h2.congr_fun ?_ |> fun x => x
    intro n
    rw [mul_pow]
    ring

/-- Poisson's integral. -/
lemma poisson {ν : ℝ} (hν : 1 / 2 ≤ ν) {z : ℝ} (hz : 0 < z) :
    besselI ν z = (z / 2) ^ ν / (Gamma (ν + 1) * N (ν - 1 / 2) 0) * ∫ s in (0:ℝ)..1, exp (z * (1 - 2 * s)) * (s * (1 - s)) ^ (ν - 1 / 2) := by
  have hp : 0 ≤ ν - 1 / 2 := by linarith
  have hN0 : 0 < N (ν - 1 / 2) 0 := by
    rw [N_zero hp]
    have := Gamma_pos_of_pos (show 0 < ν - 1 / 2 + 1 by linarith)
    have := Gamma_pos_of_pos (show 0 < 2 * (ν - 1 / 2) + 2 by linarith)
    positivity
  have hG := Gamma_pos_of_pos (show 0 < ν + 1 by linarith)
  have hterm : ∀ k : ℕ, besselTerm ν z k = (z / 2) ^ ν / (Gamma (ν + 1) * N (ν - 1 / 2) 0) * (z ^ (2 * k) / (2 * k).factorial * N (ν - 1 / 2) (2 * k)) := by
    intro k
    induction k with
    | zero =>
      unfold besselTerm
      rw [Nat.mul_zero]
      generalize N (ν - 1 / 2) 0 = n0 at *
      simp
      field_simp
    | succ k ih =>
      rw [Heston.besselTerm_succ (by linarith) hz, ih, N_step hp, show 2 * (k + 1) = 2 * k + 1 + 1 by ring, Nat.factorial_succ, Nat.factorial_succ]
      push_cast
      have h1 : (k : ℝ) + 1 + ν ≠ 0 := by positivity
      have h2 : (k : ℝ) + (ν - 1 / 2) + 3 / 2 ≠ 0 := by have := Nat.cast_nonneg (α := ℝ) k; linarith
      have h3 : (k : ℝ) + (ν - 1 / 2) + 3 / 2 = k + 1 + ν := by ring
      rw [h3]
      have h4 : ((2 * k).factorial : ℝ) ≠ 0 := by positivity
      field_simp
      ring
  have h := hasSum_exp hp z
  have hev : HasSum (fun k : ℕ => z ^ (2 * k) / (2 * k).factorial * N (ν - 1 / 2) (2 * k)) (∫ s in (0:ℝ)..1, exp (z * (1 - 2 * s)) * (s * (1 - s)) ^ (ν - 1 / 2)) := by
    have hinj : Function.Injective fun k : ℕ => 2 * k := fun a b h => by simpa using h
    refine (hinj.hasSum_iff (f := fun n : ℕ => z ^ n / n.factorial * N (ν - 1 / 2) n) fun n hn => ?_).2 h
    rcases Nat.even_or_odd' n with ⟨k, rfl | rfl⟩
    · exact absurd ⟨k, rfl⟩ hn
    · rw [N_odd, mul_zero]
  unfold besselI
  simp only [hterm]
  exact (hev.mul_left _).tsum_eq

/-- The asymptotics of `I_ν` at infinity, order at least one half. -/
lemma asymp_half {ν : ℝ} (hν : 1 / 2 ≤ ν) : Tendsto (fun z => √(2 * π * z) * exp (-z) * besselI ν z) atTop (𝓝 1) := by
  have hp : 0 ≤ ν - 1 / 2 := by linarith
  have hG1 := Gamma_pos_of_pos (show 0 < ν + 1 by linarith)
  have hG2 := Gamma_pos_of_pos (show 0 < ν + 1 / 2 by linarith)
  have hG3 := Gamma_pos_of_pos (show 0 < 2 * ν + 1 by linarith)
  have hR := Kummer.tendsto_R (a := ((ν + 1 / 2 : ℝ) : ℂ)) (b := ((2 * ν + 1 : ℝ) : ℂ)) (by simp; linarith) (by simp; linarith)
  have hRe := (Complex.continuous_re.tendsto 1).comp (hR.comp (tendsto_id.const_mul_atTop (show (0:ℝ) < 2 by norm_num)))
  simp only [Complex.one_re] at hRe
  refine hRe.congr' ?_
  filter_upwards [eventually_gt_atTop 0] with z hz
  have hX : 0 < 2 * z := by linarith
  have hs := Kummer.integral_rep (a := ((ν + 1 / 2 : ℝ) : ℂ)) (b := ((2 * ν + 1 : ℝ) : ℂ)) (by simp; linarith) (by simp; linarith) (-((2 * z : ℝ) : ℂ))
  have e : ∀ s ∈ uIcc (0:ℝ) 1, Complex.exp (-((2 * z : ℝ) : ℂ) * s) * ((s : ℂ) ^ (((ν + 1 / 2 : ℝ) : ℂ) - 1) * (1 - (s : ℂ)) ^ (((2 * ν + 1 : ℝ) : ℂ) - ((ν + 1 / 2 : ℝ) : ℂ) - 1))
      = ((exp (-z) * (exp (z * (1 - 2 * s)) * (s * (1 - s)) ^ (ν - 1 / 2)) : ℝ) : ℂ) := by
    intro s hs
    rw [uIcc_of_le zero_le_one] at hs
    rw [show ((ν + 1 / 2 : ℝ) : ℂ) - 1 = ((ν - 1 / 2 : ℝ) : ℂ) by push_cast; ring, show ((2 * ν + 1 : ℝ) : ℂ) - ((ν + 1 / 2 : ℝ) : ℂ) - 1 = ((ν - 1 / 2 : ℝ) : ℂ) by push_cast; ring,
      show (1 - (s : ℂ)) = ((1 - s : ℝ) : ℂ) by push_cast; ring, ← Complex.ofReal_cpow hs.1, ← Complex.ofReal_cpow (by linarith [hs.2]), ← Complex.ofReal_mul, ← mul_rpow hs.1 (by linarith [hs.2]),
      ← mul_assoc, ← exp_add, show -z + z * (1 - 2 * s) = -(2 * z) * s by ring]
    push_cast
    rfl
  rw [intervalIntegral.integral_congr e, intervalIntegral.integral_ofReal, intervalIntegral.integral_const_mul] at hs
  have hI := poisson hν hz
  set J := ∫ s in (0:ℝ)..1, exp (z * (1 - 2 * s)) * (s * (1 - s)) ^ (ν - 1 / 2) with hJ
  have hRz : Kummer.R ((ν + 1 / 2 : ℝ) : ℂ) ((2 * ν + 1 : ℝ) : ℂ) (2 * z) = (((2 * z) ^ (ν + 1 / 2) * (exp (-z) * J) / Gamma (ν + 1 / 2) : ℝ) : ℂ) := by
    unfold Kummer.R
    have hne : Complex.Gamma ((ν + 1 / 2 : ℝ) : ℂ) ≠ 0 := by
      rw [Complex.Gamma_ofReal]; exact_mod_cast hG2.ne'
    have h1 : Complex.Gamma (((2 * ν + 1 : ℝ) : ℂ) - ((ν + 1 / 2 : ℝ) : ℂ)) / Complex.Gamma ((2 * ν + 1 : ℝ) : ℂ) * Spec.kummer ((ν + 1 / 2 : ℝ) : ℂ) ((2 * ν + 1 : ℝ) : ℂ) (-((2 * z : ℝ) : ℂ))
        = ((exp (-z) * J : ℝ) : ℂ) / Complex.Gamma ((ν + 1 / 2 : ℝ) : ℂ) := by
      rw [eq_div_iff hne, ← hs]; ring
    rw [mul_assoc, h1, Complex.Gamma_ofReal, ← Complex.ofReal_cpow hX.le]
    push_cast
    ring
  simp only [Function.comp, id]
  rw [hRz, Complex.ofReal_re, hI, N_zero hp]
  have hdup := Real.Gamma_mul_Gamma_add_half (ν + 1 / 2)
  rw [show ν + 1 / 2 + 1 / 2 = ν + 1 by ring, show 2 * (ν + 1 / 2) = 2 * ν + 1 by ring, show (1:ℝ) - (2 * ν + 1) = -(2 * ν) by ring] at hdup
  rw [show ν - 1 / 2 + 1 = ν + 1 / 2 by ring, show 2 * (ν - 1 / 2) + 2 = 2 * ν + 1 by ring]
  have e1 : (2 * z) ^ (ν + 1 / 2) = 2 ^ ν * √2 * (z ^ ν * √z) := by
    rw [mul_rpow (by norm_num) hz.le, rpow_add (by norm_num), rpow_add hz, ← sqrt_eq_rpow, ← sqrt_eq_rpow]
  have e2 : √(2 * π * z) = √2 * √π * √z := by
    rw [sqrt_mul (by positivity), sqrt_mul (by norm_num)]
  have e3 : (z / 2) ^ ν = z ^ ν / 2 ^ ν := div_rpow hz.le (by norm_num) ν
  have e4 : (2:ℝ) ^ (-(2 * ν)) = 1 / (2 ^ ν) ^ 2 := by
    rw [rpow_neg (by norm_num), ← rpow_natCast (2 ^ ν) 2, ← rpow_mul (by norm_num), one_div]
    congr 2
    push_cast; ring
  rw [e4] at hdup
  rw [e1, e2, e3]
  have q1 : (0:ℝ) < 2 ^ ν := by positivity
  have q2 : (0:ℝ) < √π := by positivity
  have hG3' : Gamma (2 * ν + 1) * √π = Gamma (ν + 1 / 2) * Gamma (ν + 1) * (2 ^ ν) ^ 2 := by
    rw [hdup]; field_simp
  generalize Gamma (2 * ν + 1) = A at *
  generalize Gamma (ν + 1 / 2) = B at *
  generalize Gamma (ν + 1) = C at *
  generalize (2:ℝ) ^ ν = D at *
  generalize √π = P at *
  field_simp
  linear_combination (-J : ℝ) * hG3'

lemma rec_I {ν z : ℝ} (hν : -1 < ν) (hz : 0 < z) : besselI ν z = 2 * (ν + 1) / z * besselI (ν + 1) z + besselI (ν + 2) z := by
  have hB : ∀ {μ : ℝ}, -1 < μ → besselI μ z = (z / 2) ^ μ * besselB (μ + 1) ((z / 2) ^ 2) := by
    intro μ hμ
    unfold besselI besselB
    rw [← tsum_mul_left]
    congr 1
    ext k
    unfold besselTerm
    rw [rpow_add (by positivity), show (2 * (k : ℝ)) = ((2 * k : ℕ) : ℝ) by push_cast; rfl, rpow_natCast, pow_mul, show μ + (k : ℝ) + 1 = μ + 1 + k by ring]
    have := (Gamma_pos_of_pos (show 0 < μ + 1 + k by have := Nat.cast_nonneg (α := ℝ) k; linarith)).ne'
    field_simp
  rw [hB hν, hB (by linarith : -1 < ν + 1), hB (by linarith : -1 < ν + 2), besselB_rec (by linarith : 0 < ν + 1), rpow_add (by positivity), rpow_one,
    rpow_add (by positivity), show ((z / 2) ^ (2:ℝ)) = (z / 2) ^ 2 by exact_mod_cast rpow_natCast (z / 2) 2, show ν + 1 + 2 = ν + 2 + 1 by ring]
  field_simp

/-- The asymptotics of `I_ν` at infinity. -/
lemma asymp {ν : ℝ} (hν : -1 / 2 ≤ ν) : Tendsto (fun z => √(2 * π * z) * exp (-z) * besselI ν z) atTop (𝓝 1) := by
  have h1 := asymp_half (ν := ν + 1) (by linarith)
  have h2 := asymp_half (ν := ν + 2) (by linarith)
  have h3 : Tendsto (fun z : ℝ => 2 * (ν + 1) / z) atTop (𝓝 0) := tendsto_const_nhds.div_atTop tendsto_id
  have h := (h3.mul h1).add h2
  rw [zero_mul, zero_add] at h
  refine h.congr' ?_
  filter_upwards [eventually_gt_atTop 0] with z hz
  rw [rec_I (by linarith : -1 < ν) hz]
  ring

/-- Bessel functions of different orders are equivalent at infinity. -/
lemma ratio {ν μ : ℝ} (hν : -1 / 2 ≤ ν) (hμ : -1 / 2 ≤ μ) : Tendsto (fun z => besselI μ z / besselI ν z) atTop (𝓝 1) := by
  have h := (asymp hμ).div (asymp hν) one_ne_zero
  rw [div_one] at h
  refine h.congr' ?_
  filter_upwards [eventually_gt_atTop 0] with z hz
  simp only [Pi.div_apply]
  have h1 : √(2 * π * z) ≠ 0 := (sqrt_pos.2 (by positivity)).ne'
  have h2 := (Heston.besselI_pos (by linarith : -1 < ν) hz).ne'
  field_simp

end PyFENG.BesselAsymp
