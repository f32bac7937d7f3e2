import Verif.Lemmas.Ncx2Lim
import Mathlib.Analysis.SpecialFunctions.Gamma.Beta
import Mathlib.MeasureTheory.Integral.DominatedConvergence
import Mathlib.Topology.Algebra.InfiniteSum.Ring

/-!
# The shifted-Poisson identity behind Kang's CEV sampler
-/

namespace PyFENG

open Real Filter Topology Set MeasureTheory

/-- Gamma density convolved with a Poisson weight. -/
lemma integral_gamma_poisson {nu : ℝ} (hnu : 0 < nu) {y : ℝ} (hy : 0 < y) (n : ℕ) :
    ∫ g in (0 : ℝ)..y, gammaPdf nu g * (exp (-(y - g)) * ((y - g) ^ n / n.factorial)) = gammaPdf (nu + n + 1) y := by
  have hG := Real.Gamma_pos_of_pos hnu
  have e1 : ∀ g : ℝ, gammaPdf nu g * (exp (-(y - g)) * ((y - g) ^ n / n.factorial))
      = exp (-y) / (Real.Gamma nu * n.factorial) * (g ^ (nu - 1) * (y - g) ^ n) := by
    intro g
    unfold gammaPdf
    rw [show -(y - g) = -y + g by ring, exp_add, exp_neg g]
    have := (exp_pos g).ne'
    field_simp
  simp only [e1]
  rw [intervalIntegral.integral_const_mul]
  have hb := Complex.betaIntegral_scaled (nu : ℂ) ((n : ℂ) + 1) hy
  rw [Complex.betaIntegral_eq_Gamma_mul_div] at hb
  · have hc : ∫ x in (0 : ℝ)..y, (x : ℂ) ^ ((nu : ℂ) - 1) * ((y : ℂ) - x) ^ ((n : ℂ) + 1 - 1)
        = ((∫ x in (0 : ℝ)..y, x ^ (nu - 1) * (y - x) ^ n : ℝ) : ℂ) := by
      rw [← intervalIntegral.integral_ofReal]
      refine intervalIntegral.integral_congr fun x hx => ?_
      rw [uIcc_of_le hy.le] at hx
      simp only [add_sub_cancel_right, Complex.cpow_natCast]
      push_cast
      rw [Complex.ofReal_cpow hx.1]
      push_cast
      rfl
    rw [hc, Complex.Gamma_ofReal, show ((n : ℂ) + 1) = (((n : ℝ) + 1 : ℝ) : ℂ) by push_cast; rfl, ← Complex.ofReal_add,
      Complex.Gamma_ofReal, Complex.Gamma_ofReal, Real.Gamma_nat_eq_factorial] at hb
    rw [show ((nu + ((n : ℝ) + 1) : ℝ) : ℂ) - 1 = ((nu + n : ℝ) : ℂ) by push_cast; ring, ← Complex.ofReal_cpow hy.le] at hb
    have hb' : ∫ x in (0 : ℝ)..y, x ^ (nu - 1) * (y - x) ^ n
        = y ^ (nu + n) * (Real.Gamma nu * n.factorial / Real.Gamma (nu + (n + 1))) := by
      exact_mod_cast hb
    rw [hb']
    unfold gammaPdf
    have h2 := (Real.Gamma_pos_of_pos (show 0 < nu + (n + 1) by positivity)).ne'
    have h3 : (n.factorial : ℝ) ≠ 0 := by positivity
    rw [show nu + n + 1 = nu + (n + 1) by ring, show nu + ((n : ℝ) + 1) - 1 = nu + n by ring]
    field_simp
  · simpa using hnu
  · simp; positivity

lemma hasSum_gammaPdf {a : ℝ} (ha : 0 < a) {y : ℝ} (hy : 0 ≤ y) : HasSum (fun j : ℕ => gammaPdf (a + j + 1) y) (gammaInc a y) := by
  rw [hasSum_iff_tendsto_nat_of_nonneg (fun j => gammaPdf_nonneg (by positivity) hy)]
  have hsum : ∀ N : ℕ, ∑ j ∈ Finset.range N, gammaPdf (a + j + 1) y = gammaInc a y - gammaInc (a + N) y := by
    intro N
    induction N with
    | zero => simp
    | succ n ih =>
      rw [Finset.sum_range_succ, ih, ← gammaInc_succ (a := a + n) (by positivity) hy]
      push_cast
      rw [add_assoc a]
      ring
  simp only [hsum]
  have h0 : Tendsto (fun N : ℕ => gammaInc (a + N) y) atTop (𝓝 0) := by
    have h2 : Tendsto (fun N : ℕ => exp y * (1 / 2) ^ a * (1 / 2 : ℝ) ^ N) atTop (𝓝 (exp y * (1 / 2) ^ a * 0)) :=
      (tendsto_pow_atTop_nhds_zero_of_lt_one (by norm_num) (by norm_num)).const_mul _
    rw [mul_zero] at h2
    refine squeeze_zero (fun N => gammaInc_nonneg (by positivity) hy) (fun N => ?_) h2
    have := gammaInc_le_two (a := a + N) (by positivity) hy
    rw [rpow_add (by norm_num), rpow_natCast] at this
    linarith
  simpa using h0.const_sub (gammaInc a y)

lemma gammaInc_one (y : ℝ) : gammaInc 1 y = 1 - exp (-y) := by
  unfold gammaInc
  simp only [sub_self, rpow_zero, one_mul, Real.Gamma_one, div_one]
  rw [intervalIntegral.integral_comp_neg (fun t => exp t), integral_exp]
  simp

/-- Poisson counts: `P(Gamma(n+1) > y) = P(Poisson(y) ≤ n)`. -/
lemma gammaSf_nat {y : ℝ} (hy : 0 ≤ y) (n : ℕ) :
    1 - gammaInc (n + 1) y = ∑ k ∈ Finset.range (n + 1), exp (-y) * (y ^ k / k.factorial) := by
  induction n with
  | zero => simp [gammaInc_one]
  | succ n ih =>
    rw [Finset.sum_range_succ, ← ih]
    have := gammaInc_succ (a := (n : ℝ) + 1) (by positivity) hy
    push_cast
    have e : gammaPdf ((n : ℝ) + 1 + 1) y = exp (-y) * (y ^ (n + 1) / (n + 1).factorial) := by
      unfold gammaPdf
      have h := Real.Gamma_nat_eq_factorial (n + 1)
      push_cast at h
      rw [h, show (n : ℝ) + 1 + 1 - 1 = ((n + 1 : ℕ) : ℝ) by push_cast; ring, rpow_natCast]
      ring
    rw [← e]
    linarith

lemma kang_sum {nu : ℝ} (hnu : 0 < nu) {y0 y : ℝ} (h0 : 0 ≤ y0) (hy : 0 ≤ y) :
    HasSum (fun n : ℕ => gammaPdf (nu + n + 1) y0 * (1 - gammaInc (n + 1) y)) (ncP nu y0 y) := by
  set p : ℕ → ℝ := fun k => exp (-y) * (y ^ k / k.factorial) with hp
  set t : ℕ → ℝ := fun n => gammaPdf (nu + n + 1) y0 with ht
  have hp0 : ∀ k, 0 ≤ p k := fun k => by positivity
  have ht0 : ∀ k, 0 ≤ t k := fun k => gammaPdf_nonneg (by positivity) h0
  have hrow : ∀ k : ℕ, HasSum (fun j : ℕ => p k * t (k + j)) (p k * gammaInc (nu + k) y0) := by
    intro k
    have := (hasSum_gammaPdf (a := nu + k) (by positivity) h0).mul_left (p k)
    refine this.congr_fun fun j => ?_
    simp only [ht]
    push_cast
    rw [show nu + ((k : ℝ) + j) + 1 = nu + k + j + 1 by ring]
  have hcol : HasSum (fun k : ℕ => p k * gammaInc (nu + k) y0) (ncP nu y0 y) := by
    unfold ncP poisMix
    have := ((summable_pow_div_factorial_mul (gammaInc_abs hnu h0) y).hasSum).mul_left (exp (-y))
    refine this.congr_fun fun k => ?_
    simp only [hp]
    ring
  have hs : Summable (fun x : ℕ × ℕ => p x.1 * t (x.1 + x.2)) := by
    refine (summable_prod_of_nonneg fun x => mul_nonneg (hp0 _) (ht0 _)).2 ⟨fun k => (hrow k).summable, ?_⟩
    have : (fun k => ∑' j, p k * t (k + j)) = fun k => p k * gammaInc (nu + k) y0 := by
      ext k; exact (hrow k).tsum_eq
    simpa only [this] using hcol.summable
  have htot : HasSum (fun x : ℕ × ℕ => p x.1 * t (x.1 + x.2)) (ncP nu y0 y) := by
    have h1 := hs.hasSum.prod_fiberwise hrow
    have := hs.hasSum
    rwa [h1.unique hcol] at this
  have hsig := (Finset.HasAntidiagonal.sigmaAntidiagonalEquivProd (A := ℕ)).hasSum_iff.2 htot
  have hfin := hsig.sigma (fun n => hasSum_fintype _)
  refine hfin.congr_fun fun n => ?_
  rw [gammaSf_nat hy]
  have : ∑ c : (Finset.antidiagonal n), p (c : ℕ × ℕ).1 * t ((c : ℕ × ℕ).1 + (c : ℕ × ℕ).2)
      = ∑ c ∈ Finset.antidiagonal n, p c.1 * t (c.1 + c.2) := Finset.sum_coe_sort (Finset.antidiagonal n) (fun c => p c.1 * t (c.1 + c.2))
  simp only [Function.comp_apply, Finset.HasAntidiagonal.sigmaAntidiagonalEquivProd_apply]
  rw [this, Finset.Nat.sum_antidiagonal_eq_sum_range_succ_mk, Finset.mul_sum]
  refine Finset.sum_congr rfl fun k hk => ?_
  rw [show k + (n - k) = n by have := Finset.mem_range.1 hk; omega]
  simp only [hp, ht]
  ring

lemma integrableOn_gammaPdf {a : ℝ} (ha : 0 < a) : IntegrableOn (gammaPdf a) (Ioi 0) := by
  have h := (Real.GammaIntegral_convergent ha).div_const (Real.Gamma a)
  refine h.congr (Eventually.of_forall fun x => ?_)
  unfold gammaPdf
  simp only [mul_comm]

lemma integral_gammaPdf_Ioi {a : ℝ} (ha : 0 < a) {y : ℝ} (hy : 0 ≤ y) : ∫ x in Ioi y, gammaPdf a x = 1 - gammaInc a y := by
  have hi := integrableOn_gammaPdf ha
  have h1 : ∫ x in Ioi 0, gammaPdf a x = 1 := by
    unfold gammaPdf
    rw [integral_div, div_eq_one_iff_eq (Real.Gamma_pos_of_pos ha).ne', Real.Gamma_eq_integral ha]
    simp only [mul_comm]
  have h2 : gammaInc a y = ∫ x in Ioc 0 y, gammaPdf a x := by
    unfold gammaInc gammaPdf
    rw [intervalIntegral.integral_of_le hy, integral_div]
  have h3 : Ioi (0 : ℝ) = Ioc 0 y ∪ Ioi y := (Ioc_union_Ioi_eq_Ioi hy).symm
  rw [h3, setIntegral_union (Set.Ioc_disjoint_Ioi le_rfl) measurableSet_Ioi (hi.mono_set Ioc_subset_Ioi_self)
    (hi.mono_set (Ioi_subset_Ioi hy)), ← h2] at h1
  linarith

/-- Kang's shifted Poisson mixture: subtracting a gamma variable from the noncentrality. -/
lemma kang_integral {nu : ℝ} (hnu : 0 < nu) {y0 y : ℝ} (h0 : 0 < y0) (hy : 0 ≤ y) :
    ∫ g in Ioc 0 y0, gammaPdf nu g * poisMix (fun n => 1 - gammaInc (n + 1) y) (y0 - g) = ncP nu y0 y := by
  have hq : ∀ n : ℕ, 0 ≤ 1 - gammaInc ((n : ℝ) + 1) y ∧ 1 - gammaInc ((n : ℝ) + 1) y ≤ 1 := fun n =>
    ⟨by linarith [gammaInc_le_one (a := (n : ℝ) + 1) (by positivity) hy], by linarith [gammaInc_nonneg (a := (n : ℝ) + 1) (by positivity) hy]⟩
  set F : ℕ → ℝ → ℝ := fun n g => gammaPdf nu g * (exp (-(y0 - g)) * ((y0 - g) ^ n / n.factorial)) * (1 - gammaInc (n + 1) y) with hF
  have hint : ∀ n, IntegrableOn (F n) (Ioc 0 y0) := by
    intro n
    have h1 : IntegrableOn (gammaPdf nu) (Ioc 0 y0) := (integrableOn_gammaPdf hnu).mono_set Ioc_subset_Ioi_self
    refine Integrable.mul_const ?_ _
    refine Integrable.mul_bdd (c := y0 ^ n) h1 ?_ ?_
    · exact Measurable.aestronglyMeasurable (by fun_prop)
    · filter_upwards [ae_restrict_mem measurableSet_Ioc] with g hg
      have hg1 : 0 ≤ y0 - g := by linarith [hg.2]
      rw [Real.norm_eq_abs, abs_of_nonneg (by positivity)]
      calc exp (-(y0 - g)) * ((y0 - g) ^ n / n.factorial) ≤ 1 * ((y0 - g) ^ n / 1) := by
            refine mul_le_mul (exp_le_one_iff.2 (by linarith)) ?_ (by positivity) (by norm_num)
            exact div_le_div_of_nonneg_left (by positivity) one_pos (by exact_mod_cast Nat.one_le_iff_ne_zero.2 n.factorial_ne_zero)
        _ ≤ y0 ^ n := by
            rw [one_mul, div_one]
            exact pow_le_pow_left₀ hg1 (by linarith [hg.1]) n
  have hval : ∀ n, ∫ g in Ioc 0 y0, F n g = gammaPdf (nu + n + 1) y0 * (1 - gammaInc (n + 1) y) := by
    intro n
    simp only [hF]
    rw [integral_mul_const, ← intervalIntegral.integral_of_le h0.le, integral_gamma_poisson hnu h0]
  have hnorm : ∀ n, ∫ g in Ioc 0 y0, ‖F n g‖ = ∫ g in Ioc 0 y0, F n g := by
    intro n
    refine setIntegral_congr_fun measurableSet_Ioc fun g hg => ?_
    have hg1 : 0 ≤ y0 - g := by linarith [hg.2]
    have := gammaPdf_nonneg hnu hg.1.le
    exact Real.norm_of_nonneg (mul_nonneg (by positivity) (hq n).1)
  have hk := kang_sum hnu h0.le hy
  have hs : Summable fun n => ∫ g in Ioc 0 y0, ‖F n g‖ := by
    simp only [hnorm, hval]
    exact hk.summable
  have h := hasSum_integral_of_summable_integral_norm hint hs
  simp only [hval] at h
  rw [← h.unique hk]
  refine setIntegral_congr_fun measurableSet_Ioc fun g _ => ?_
  simp only [hF, poisMix]
  rw [← tsum_mul_left, ← tsum_mul_left]
  congr 1
  ext n
  ring

end PyFENG
