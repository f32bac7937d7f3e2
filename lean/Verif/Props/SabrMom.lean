import Verif.Model.Sabr
import Verif.Lemmas.BmExp
import Verif.Lemmas.Brownian
import Verif.Lemmas.RawMom
import Verif.Lemmas.Cev
import Verif.Props.Dist

/-!
# C61: moments of the SABR average variance
-/

namespace PyFENG

open MeasureTheory ProbabilityTheory Real
open scoped NNReal

/-- The volatility of the SABR model relative to its initial value: `σ_t/σ_0 = exp(ν Z_t - ν² t/2)`. -/
noncomputable def Spec.sabrVol {Ω : Type*} (B : ℝ≥0 → Ω → ℝ) (vov : ℝ) (t : ℝ) (ω : Ω) : ℝ := exp (vov * B t.toNNReal ω - vov ^ 2 * t / 2)

/-- The average variance `(1/T) ∫_0^T (σ_t/σ_0)² dt`. -/
noncomputable def Spec.sabrAvgVar {Ω : Type*} (B : ℝ≥0 → Ω → ℝ) (vov : ℝ) (T : ℝ) (ω : Ω) : ℝ :=
  (∫ t in (0:ℝ)..T, Spec.sabrVol B vov t ω ^ 2) / T

namespace Sabr

section Mom

variable {Ω : Type*} [MeasurableSpace Ω] {P : Measure Ω} {B : ℝ≥0 → Ω → ℝ}

lemma avgVar_eq (vov T : ℝ) (ω : Ω) : Spec.sabrAvgVar B vov T ω = Spec.expFunctional B (2 * vov) (-vov ^ 2) T ω / T := by
  unfold Spec.sabrAvgVar Spec.expFunctional Spec.sabrVol
  congr 1
  refine intervalIntegral.integral_congr fun s _ => ?_
  beta_reduce
  rw [← exp_nat_mul]
  congr 1
  push_cast
  ring

lemma rate_eq (vov : ℝ) (j : ℕ) : BmExp.rate (2 * vov) (-vov ^ 2) 0 j = vov ^ 2 * (2 * j ^ 2 - j) := by
  unfold BmExp.rate; ring

lemma rate_inj {vov : ℝ} (hv : vov ≠ 0) (s : Set ℕ) : Set.InjOn (BmExp.rate (2 * vov) (-vov ^ 2) 0) s := by
  intro i _ j _ h
  rw [rate_eq, rate_eq] at h
  have h2 : vov ^ 2 ≠ 0 := pow_ne_zero _ hv
  have h3 := mul_left_cancel₀ h2 h
  have h4 : ((i:ℝ) - j) * (2 * (i + j) - 1) = 0 := by linear_combination h3
  rcases mul_eq_zero.1 h4 with h5 | h5
  · exact_mod_cast (sub_eq_zero.1 h5)
  · exfalso
    have : (2 * (i + j) : ℝ) = 1 := by linarith
    have h6 : (2 * (i + j) : ℕ) = 1 := by exact_mod_cast this
    omega

lemma mom_avg (hB : Spec.IsBM P B) (vov : ℝ) {T : ℝ} (hT : 0 < T) (n : ℕ) :
    Integrable (fun ω => Spec.sabrAvgVar B vov T ω ^ n) P ∧
    ∫ ω, Spec.sabrAvgVar B vov T ω ^ n ∂P = BmExp.mom (2 * vov) (-vov ^ 2) n 0 T / T ^ n := by
  have h := BmExp.integral_mom hB (2 * vov) (-vov ^ 2) n 0 ⟨T, hT.le⟩
  have e : ∀ ω, Spec.sabrAvgVar B vov T ω ^ n = (Spec.expFunctional B (2 * vov) (-vov ^ 2) T ω ^ n * exp (0 * B ⟨T, hT.le⟩ ω)) / T ^ n := by
    intro ω
    rw [avgVar_eq, div_pow, zero_mul, exp_zero, mul_one]
  simp_rw [e]
  refine ⟨h.1.div_const _, ?_⟩
  rw [integral_div]
  congr 1
  exact h.2

lemma mom_val {vov : ℝ} (hv : vov ≠ 0) {T : ℝ} (hT : 0 < T) :
    BmExp.mom (2 * vov) (-vov ^ 2) 1 0 T / T ^ 1 = (exp (vov ^ 2 * T) - 1) / (vov ^ 2 * T) ∧
    BmExp.mom (2 * vov) (-vov ^ 2) 2 0 T / T ^ 2 = (exp (vov ^ 2 * T) ^ 6 - 6 * exp (vov ^ 2 * T) + 5) / 15 / (vov ^ 2 * T) ^ 2 ∧
    BmExp.mom (2 * vov) (-vov ^ 2) 3 0 T / T ^ 3 =
      (exp (vov ^ 2 * T) ^ 15 - 7 * exp (vov ^ 2 * T) ^ 6 + 27 * exp (vov ^ 2 * T) - 21) / 315 / (vov ^ 2 * T) ^ 3 ∧
    BmExp.mom (2 * vov) (-vov ^ 2) 4 0 T / T ^ 4 = (5 * exp (vov ^ 2 * T) ^ 28 - 44 * exp (vov ^ 2 * T) ^ 15 + 182 * exp (vov ^ 2 * T) ^ 6
      - 572 * exp (vov ^ 2 * T) + 429) / 45045 / (vov ^ 2 * T) ^ 4 := by
  have er : ∀ k : ℕ, exp (vov ^ 2 * (k:ℝ) * T) = exp (vov ^ 2 * T) ^ k := fun k => by
    rw [← exp_nat_mul]; congr 1; ring
  have e0 := er 0
  have e1 := er 1
  have e6 := er 6
  have e15 := er 15
  have e28 := er 28
  norm_num at e0 e1 e6 e15 e28
  have s2 : (Finset.range 2).erase 0 = {1} := by decide
  have s2' : (Finset.range 2).erase 1 = {0} := by decide
  have s3 : (Finset.range 3).erase 0 = {1, 2} := by decide
  have s3' : (Finset.range 3).erase 1 = {0, 2} := by decide
  have s3'' : (Finset.range 3).erase 2 = {0, 1} := by decide
  have a0 : (Finset.range 4).erase 0 = {1, 2, 3} := by decide
  have a1 : (Finset.range 4).erase 1 = {0, 2, 3} := by decide
  have a2 : (Finset.range 4).erase 2 = {0, 1, 3} := by decide
  have a3 : (Finset.range 4).erase 3 = {0, 1, 2} := by decide
  have b0 : (Finset.range 5).erase 0 = {1, 2, 3, 4} := by decide
  have b1 : (Finset.range 5).erase 1 = {0, 2, 3, 4} := by decide
  have b2 : (Finset.range 5).erase 2 = {0, 1, 3, 4} := by decide
  have b3 : (Finset.range 5).erase 3 = {0, 1, 2, 4} := by decide
  have b4 : (Finset.range 5).erase 4 = {0, 1, 2, 3} := by decide
  refine ⟨?_, ?_, ?_, ?_⟩
  · rw [BmExp.mom_closed _ _ _ _ (rate_inj hv _)]
    simp only [rate_eq, Finset.sum_range_succ, Finset.sum_range_zero, zero_add, s2, s2', Finset.prod_singleton, Nat.factorial]
    norm_num [e0, e1]
    field_simp
    ring
  · rw [BmExp.mom_closed _ _ _ _ (rate_inj hv _)]
    simp only [rate_eq, Finset.sum_range_succ, Finset.sum_range_zero, zero_add, s3, s3', s3'', Finset.prod_pair (show (1:ℕ) ≠ 2 by decide),
      Finset.prod_pair (show (0:ℕ) ≠ 2 by decide), Finset.prod_pair (show (0:ℕ) ≠ 1 by decide), Nat.factorial]
    norm_num [e0, e1, e6]
    field_simp
    ring
  · rw [BmExp.mom_closed _ _ _ _ (rate_inj hv _)]
    simp only [rate_eq, Finset.sum_range_succ, Finset.sum_range_zero, zero_add, a0, a1, a2, a3, Nat.factorial]
    norm_num [e0, e1, e6, e15]
    field_simp
    ring
  · rw [BmExp.mom_closed _ _ _ _ (rate_inj hv _)]
    simp only [rate_eq, Finset.sum_range_succ, Finset.sum_range_zero, zero_add, b0, b1, b2, b3, b4, Nat.factorial]
    norm_num [e0, e1, e6, e15, e28]
    field_simp
    ring

/-- **C61.** `avgvar_mnc4(vov*sqrt(T))` returns the first four raw moments of the average variance `(1/T)∫_0^T (σ_t/σ_0)² dt` of the SABR
volatility process, for every Brownian motion driving it, every `vov` and every expiry with `vov² T > 1e-6` (below, the first entry is a
truncated series, see `avgvar_mnc4_small`). -/
theorem avgvar_mnc4_correct (hB : Spec.IsBM P B) {vov T : ℝ} (hT : 0 < T) (hbig : 1e-6 < vov ^ 2 * T) :
    ∫ ω, Spec.sabrAvgVar B vov T ω ∂P = (avgvarMnc4 (vov * √T)).1 ∧
    ∫ ω, Spec.sabrAvgVar B vov T ω ^ 2 ∂P = (avgvarMnc4 (vov * √T)).2.1 ∧
    ∫ ω, Spec.sabrAvgVar B vov T ω ^ 3 ∂P = (avgvarMnc4 (vov * √T)).2.2.1 ∧
    ∫ ω, Spec.sabrAvgVar B vov T ω ^ 4 ∂P = (avgvarMnc4 (vov * √T)).2.2.2 := by
  have hv : vov ≠ 0 := by rintro rfl; norm_num at hbig
  obtain ⟨h1, h2, h3, h4⟩ := mom_val hv hT
  have e : (vov * √T) ^ 2 = vov ^ 2 * T := by rw [mul_pow, sq_sqrt hT.le]
  unfold avgvarMnc4
  simp only [e]
  rw [if_pos hbig]
  refine ⟨?_, ?_, ?_, ?_⟩
  · rw [← h1, ← (mom_avg hB vov hT 1).2]; simp
  · rw [(mom_avg hB vov hT 2).2, h2]
  · rw [(mom_avg hB vov hT 3).2, h3]
  · rw [(mom_avg hB vov hT 4).2, h4]

/-- For `0 < vov² T <= 1e-6` the last three entries of `avgvar_mnc4` are still exact and the first is within `(vov² T)³/18` of the mean. -/
theorem avgvar_mnc4_small (hB : Spec.IsBM P B) {vov T : ℝ} (hT : 0 < T) (hv : vov ≠ 0) (hs : vov ^ 2 * T ≤ 1e-6) :
    |∫ ω, Spec.sabrAvgVar B vov T ω ∂P - (avgvarMnc4 (vov * √T)).1| ≤ (vov ^ 2 * T) ^ 3 / 18 ∧
    ∫ ω, Spec.sabrAvgVar B vov T ω ^ 2 ∂P = (avgvarMnc4 (vov * √T)).2.1 ∧
    ∫ ω, Spec.sabrAvgVar B vov T ω ^ 3 ∂P = (avgvarMnc4 (vov * √T)).2.2.1 ∧
    ∫ ω, Spec.sabrAvgVar B vov T ω ^ 4 ∂P = (avgvarMnc4 (vov * √T)).2.2.2 := by
  obtain ⟨h1, h2, h3, h4⟩ := mom_val hv hT
  have e : (vov * √T) ^ 2 = vov ^ 2 * T := by rw [mul_pow, sq_sqrt hT.le]
  unfold avgvarMnc4
  simp only [e]
  rw [if_neg (not_lt.2 hs)]
  refine ⟨?_, ?_, ?_, ?_⟩
  · have e1 : ∫ ω, Spec.sabrAvgVar B vov T ω ∂P = (exp (vov ^ 2 * T) - 1) / (vov ^ 2 * T) := by
      rw [← h1, ← (mom_avg hB vov hT 1).2]; simp
    rw [e1]
    have hx : 0 < vov ^ 2 * T := by positivity
    set x := vov ^ 2 * T
    have hx1 : |x| ≤ 1 := by rw [abs_of_pos hx]; norm_num at hs; linarith
    have hb := Real.exp_bound hx1 (n := 4) (by norm_num)
    simp [Finset.sum_range_succ, Nat.factorial] at hb
    rw [abs_of_pos hx] at hb
    have e2 : (exp x - 1) / x - (1 + x / 2 * (1 + x / 3)) = (exp x - (1 + x + x ^ 2 / 2 + x ^ 3 / 6)) / x := by
      field_simp
      ring
    rw [e2, abs_div, abs_of_pos hx, div_le_iff₀ hx]
    refine hb.trans ?_
    have : 0 ≤ x ^ 4 := by positivity
    nlinarith
  · rw [(mom_avg hB vov hT 2).2, h2]
  · rw [(mom_avg hB vov hT 3).2, h3]
  · rw [(mom_avg hB vov hT 4).2, h4]

/-- **C61.** `avgvar_mvsk(vov*sqrt(T))` returns the mean, scaled variance, skewness and excess kurtosis of the average variance of the SABR
volatility process, for every driving Brownian motion, every `vov > 0` and every expiry. -/
theorem avgvar_mvsk_correct (hB : Spec.IsBM P B) {vov T : ℝ} (hT : 0 < T) (hv : 0 < vov) :
    Spec.IsScaledMvsk (Spec.sabrAvgVar B vov T) P (avgvarMvsk (vov * √T)).1 (avgvarMvsk (vov * √T)).2.1 (avgvarMvsk (vov * √T)).2.2.1
      (avgvarMvsk (vov * √T)).2.2.2 := by
  have := BmExp.isProb hB
  obtain ⟨h1, h2, h3, h4⟩ := mom_val hv.ne' hT
  have e : (vov * √T) ^ 2 = vov ^ 2 * T := by rw [mul_pow, sq_sqrt hT.le]
  have hx : 0 < vov ^ 2 * T := by positivity
  have i1 : Integrable (Spec.sabrAvgVar B vov T) P := by simpa using (mom_avg hB vov hT 1).1
  have m1 : ∫ ω, Spec.sabrAvgVar B vov T ω ∂P = (exp (vov ^ 2 * T) - 1) / (vov ^ 2 * T) := by
    rw [← h1, ← (mom_avg hB vov hT 1).2]; simp
  obtain ⟨c2, c3, c4⟩ := centralMoment_raw (Spec.sabrAvgVar B vov T) P i1 (mom_avg hB vov hT 2).1 (mom_avg hB vov hT 3).1 (mom_avg hB vov hT 4).1
    m1 ((mom_avg hB vov hT 2).2.trans h2) ((mom_avg hB vov hT 3).2.trans h3) ((mom_avg hB vov hT 4).2.trans h4)
  have hvn : vov * √T = √(vov ^ 2 * T) := by rw [← e, sqrt_sq (by positivity)]
  have hw : 1 < exp (vov ^ 2 * T) := by rw [← exp_zero]; exact exp_lt_exp.2 hx
  unfold avgvarMvsk exprel
  simp only [e, if_neg hx.ne']
  rw [hvn]
  set x := vov ^ 2 * T with hxd
  set w := exp x with hwd
  have ew : (w - 1) / x * x + 1 = w := by field_simp; ring
  rw [ew]
  have hd : 0 < w - 1 := by linarith
  set M := (10 + w * (6 + w * (3 + w))) / 15 with hM
  have hMp : 0 < M := by rw [hM]; positivity
  have k2 : centralMoment (Spec.sabrAvgVar B vov T) 2 P = M * (w - 1) ^ 3 / x ^ 2 := by
    rw [c2, hM]; field_simp; ring
  have k3 : centralMoment (Spec.sabrAvgVar B vov T) 3 P =
      polyval ([1, 5, 15, 35, 70, 126, 210, 330, 432, 456, 336].map (· / 315)) w * (w - 1) ^ 5 / x ^ 3 := by
    rw [c3]; simp only [polyval, List.map, List.foldl]; field_simp; ring
  have k4 : centralMoment (Spec.sabrAvgVar B vov T) 4 P - 3 * centralMoment (Spec.sabrAvgVar B vov T) 2 P ^ 2 =
      polyval ([25, 175, 700, 2100, 5250, 11550, 23100, 42900, 75075, 125125, 200200,
        309400, 461240, 660920, 907400, 1190280, 1483482, 1735734, 1857856,
        1706848, 1246960, 583440].map (· / 225225)) w * (w - 1) ^ 7 / x ^ 4 := by
    rw [c4, c2]; simp only [polyval, List.map, List.foldl]; field_simp; ring
  have hc2 : 0 < centralMoment (Spec.sabrAvgVar B vov T) 2 P := by rw [k2]; positivity
  constructor
  · exact m1
  · rw [k2, m1]; field_simp
  · rw [k3, k2]
    generalize polyval _ w = p
    have es : √(M * (w - 1) ^ 3 / x ^ 2) = √M * ((w - 1) * √(w - 1)) / x := by
      rw [show M * (w - 1) ^ 3 / x ^ 2 = M * (w - 1) * ((w - 1) / x) ^ 2 by field_simp, sqrt_mul (by positivity), sqrt_sq (by positivity),
        sqrt_mul hMp.le]
      ring
    have es2 : √x * √((w - 1) / x) = √(w - 1) := by rw [← sqrt_mul hx.le]; congr 1; field_simp
    rw [es, es2]
    have q := sq_sqrt hd.le
    have hq : 0 < √(w - 1) := sqrt_pos.2 hd
    have hM2 : 0 < √M := sqrt_pos.2 hMp
    rw [div_eq_div_iff (by positivity) (by positivity)]
    field_simp
    rw [q]
  · have : centralMoment (Spec.sabrAvgVar B vov T) 4 P / centralMoment (Spec.sabrAvgVar B vov T) 2 P ^ 2 - 3 =
        (centralMoment (Spec.sabrAvgVar B vov T) 4 P - 3 * centralMoment (Spec.sabrAvgVar B vov T) 2 P ^ 2) / centralMoment (Spec.sabrAvgVar B vov T) 2 P ^ 2 := by
      field_simp
    rw [this, k4, k2]
    generalize polyval _ w = p
    field_simp

/-- At `vovn = 0` the average variance is the constant 1, and `avgvar_mvsk` says so. -/
theorem avgvar_mvsk_zero : avgvarMvsk 0 = (1, 0, 0, 0) := by
  unfold avgvarMvsk exprel
  norm_num

/-- **C61.** The two methods agree: `avgvar_mvsk` is the standardisation of the raw moments of `avgvar_mnc4` (as a statement about the two
methods alone, without probability). -/
theorem avgvar_methods_agree {vovn : ℝ} (hbig : 1e-6 < vovn ^ 2) :
    (avgvarMvsk vovn).1 = (avgvarMnc4 vovn).1 ∧
    (avgvarMvsk vovn).2.1 * (avgvarMnc4 vovn).1 ^ 2 = (avgvarMnc4 vovn).2.1 - (avgvarMnc4 vovn).1 ^ 2 := by
  have hx : 0 < vovn ^ 2 := by norm_num at hbig; linarith
  unfold avgvarMvsk avgvarMnc4 exprel
  simp only [if_neg hx.ne', if_pos hbig]
  set x := vovn ^ 2
  refine ⟨trivial, ?_⟩
  have ew : (exp x - 1) / x * x + 1 = exp x := by field_simp; ring
  rw [ew]
  field_simp
  ring

/-- The hypotheses are met: a Brownian motion exists, and `vov = 0.4`, `T = 1.5` is a typical case. -/
example : ∃ (Ω : Type) (_ : MeasurableSpace Ω) (P : Measure Ω) (B : ℝ≥0 → Ω → ℝ),
    Spec.IsScaledMvsk (Spec.sabrAvgVar B 0.4 1.5) P (avgvarMvsk (0.4 * √1.5)).1 (avgvarMvsk (0.4 * √1.5)).2.1 (avgvarMvsk (0.4 * √1.5)).2.2.1
      (avgvarMvsk (0.4 * √1.5)).2.2.2 := by
  obtain ⟨Ω, _, P, B, hB⟩ := Spec.exists_isBM
  exact ⟨Ω, _, P, B, avgvar_mvsk_correct hB (by norm_num) (by norm_num)⟩

example : (1e-6 : ℝ) < 0.4 ^ 2 * 1.5 := by norm_num

end Mom

end Sabr

end PyFENG
