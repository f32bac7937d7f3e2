import Verif.Model.Cos
import Verif.Lemmas.CosSeries
import Verif.Props.Bsm
import Verif.Props.Levy

/-!
# C53, C54, C73: the COS pricers
-/

namespace PyFENG

open Real MeasureTheory ProbabilityTheory Set Filter Topology

namespace Cos

/-- **C53.**  `_chi` is the integral it documents. -/
theorem chi_integral (u a c d : ℝ) : chi u a c d = ∫ x in c..d, exp x * cos (u * (x - a)) := by
  have hpos : (1 + u ^ 2) ≠ 0 := by positivity
  have hd : ∀ x, HasDerivAt (fun x => (cos (u * (x - a)) * exp x + u * (sin (u * (x - a)) * exp x)) / (1 + u ^ 2))
      (exp x * cos (u * (x - a))) x := by
    intro x
    have hl : HasDerivAt (fun x => u * (x - a)) u x := by
      simpa using ((hasDerivAt_id' x).sub_const a).const_mul u
    have h1 := (hl.cos.mul (Real.hasDerivAt_exp x))
    have h2 := ((hl.sin.mul (Real.hasDerivAt_exp x)).const_mul u)
    refine ((h1.add h2).div_const (1 + u ^ 2)).congr_deriv ?_
    field_simp
    ring
  rw [intervalIntegral.integral_eq_sub_of_hasDerivAt (fun x _ => hd x) ((by fun_prop : Continuous _).intervalIntegrable _ _)]
  unfold chi
  simp only
  rw [← sub_div]
  congr 1
  ring

lemma freq_ne {a b : ℝ} (hab : a < b) {k : ℕ} (hk : k ≠ 0) : freq a b k ≠ 0 := by
  unfold freq
  have : b - a ≠ 0 := by linarith
  have : (k : ℝ) ≠ 0 := by exact_mod_cast hk
  positivity

/-- **C53.**  `_psi` at the grid frequencies is the integral it documents, including `k = 0`. -/
theorem psi_integral {a b : ℝ} (hab : a < b) (k : ℕ) (c d : ℝ) :
    psi k (freq a b k) a c d = ∫ x in c..d, cos (freq a b k * (x - a)) := by
  unfold psi
  by_cases hk : k = 0
  · subst hk
    simp [freq]
  · simp only [hk, if_false]
    have hu := freq_ne hab hk
    set u := freq a b k
    have hd : ∀ x, HasDerivAt (fun x => sin (u * (x - a)) / u) (cos (u * (x - a))) x := by
      intro x
      have hl : HasDerivAt (fun x => u * (x - a)) u x := by
        simpa using ((hasDerivAt_id' x).sub_const a).const_mul u
      refine (hl.sin.div_const u).congr_deriv ?_
      field_simp
    rw [intervalIntegral.integral_eq_sub_of_hasDerivAt (fun x _ => hd x) ((by fun_prop : Continuous _).intervalIntegrable _ _),
      sub_div]

lemma clip_cases {kk a b : ℝ} (hab : a < b) :
    (log kk ≤ a ∧ clip (log kk) a b = a) ∨ (a ≤ log kk ∧ log kk ≤ b ∧ clip (log kk) a b = log kk) ∨
      (b ≤ log kk ∧ clip (log kk) a b = b) := by
  unfold clip
  rcases le_total (log kk) a with h | h
  · left; rw [max_eq_right h, min_eq_left hab.le]; exact ⟨h, rfl⟩
  · right
    rw [max_eq_left h]
    rcases le_total (log kk) b with h2 | h2
    · left; rw [min_eq_left h2]; exact ⟨h, h2, rfl⟩
    · right; rw [min_eq_right h2]; exact ⟨h2, rfl⟩

lemma payoff_call_of_le {kk x : ℝ} (hk : 0 < kk) (h : log kk ≤ x) : Spec.payoff 1 kk (exp x) = exp x - kk := by
  unfold Spec.payoff
  have := (Real.log_le_iff_le_exp hk).1 h
  rw [max_eq_left (by linarith), one_mul]

lemma payoff_call_of_ge {kk x : ℝ} (hk : 0 < kk) (h : x ≤ log kk) : Spec.payoff 1 kk (exp x) = 0 := by
  unfold Spec.payoff
  have := (Real.le_log_iff_exp_le hk).1 h
  rw [max_eq_right (by linarith)]

lemma payoff_put_of_ge {kk x : ℝ} (hk : 0 < kk) (h : x ≤ log kk) : Spec.payoff (-1) kk (exp x) = kk - exp x := by
  unfold Spec.payoff
  have := (Real.le_log_iff_exp_le hk).1 h
  rw [max_eq_left (by linarith)]; ring

lemma payoff_put_of_le {kk x : ℝ} (hk : 0 < kk) (h : log kk ≤ x) : Spec.payoff (-1) kk (exp x) = 0 := by
  unfold Spec.payoff
  have := (Real.log_le_iff_le_exp hk).1 h
  rw [max_eq_right (by linarith)]

lemma payoff_cont (cp kk : ℝ) : Continuous fun x => Spec.payoff cp kk (exp x) := by
  unfold Spec.payoff; fun_prop

/-- **C53.**  The payoff coefficients are the cosine coefficients of the payoff on the truncation interval, for every
strike — inside the interval or beyond either end (where the code clips). -/
theorem payoffCoef_integral {a b kk cp : ℝ} (hab : a < b) (hk : 0 < kk) (hcp : Spec.IsCp cp) (k : ℕ) :
    payoffCoef kk a b cp k
      = 2 / (b - a) * ∫ x in a..b, Spec.payoff cp kk (exp x) * cos (freq a b k * (x - a)) := by
  set u := freq a b k with hu
  have hE : ∀ c d, IntervalIntegrable (fun x => exp x * cos (u * (x - a))) volume c d :=
    fun c d => (by fun_prop : Continuous _).intervalIntegrable _ _
  have hC : ∀ c d, IntervalIntegrable (fun x => kk * cos (u * (x - a))) volume c d :=
    fun c d => (by fun_prop : Continuous _).intervalIntegrable _ _
  have hP : ∀ cp c d, IntervalIntegrable (fun x => Spec.payoff cp kk (exp x) * cos (u * (x - a))) volume c d :=
    fun cp c d => ((payoff_cont cp kk).mul (by fun_prop)).intervalIntegrable _ _
  -- integrals of the linear payoffs
  have hcall : ∀ z ≤ b, log kk ≤ z → ∫ x in z..b, Spec.payoff 1 kk (exp x) * cos (u * (x - a))
      = chi u a z b - kk * psi k u a z b := by
    intro z hz hlz
    rw [chi_integral, psi_integral hab, ← intervalIntegral.integral_const_mul, ← intervalIntegral.integral_sub (hE _ _) (hC _ _)]
    refine intervalIntegral.integral_congr fun x hx => ?_
    rw [uIcc_of_le hz] at hx
    simp only [payoff_call_of_le hk (hlz.trans hx.1)]
    ring
  have hput : ∀ z, a ≤ z → z ≤ log kk → ∫ x in a..z, Spec.payoff (-1) kk (exp x) * cos (u * (x - a))
      = kk * psi k u a a z - chi u a a z := by
    intro z hz hlz
    rw [chi_integral, psi_integral hab, ← intervalIntegral.integral_const_mul, ← intervalIntegral.integral_sub (hC _ _) (hE _ _)]
    refine intervalIntegral.integral_congr fun x hx => ?_
    rw [uIcc_of_le hz] at hx
    simp only [payoff_put_of_ge hk (hx.2.trans hlz)]
    ring
  have hcall0 : ∀ c d, c ≤ d → d ≤ log kk → ∫ x in c..d, Spec.payoff 1 kk (exp x) * cos (u * (x - a)) = 0 := by
    intro c d hcd hd
    rw [intervalIntegral.integral_congr (g := fun _ => 0), intervalIntegral.integral_zero]
    intro x hx
    rw [uIcc_of_le hcd] at hx
    simp only [payoff_call_of_ge hk (hx.2.trans hd), zero_mul]
  have hput0 : ∀ c d, c ≤ d → log kk ≤ c → ∫ x in c..d, Spec.payoff (-1) kk (exp x) * cos (u * (x - a)) = 0 := by
    intro c d hcd hd
    rw [intervalIntegral.integral_congr (g := fun _ => 0), intervalIntegral.integral_zero]
    intro x hx
    rw [uIcc_of_le hcd] at hx
    simp only [payoff_put_of_le hk (hd.trans hx.1), zero_mul]
  unfold payoffCoef
  rcases hcp with rfl | rfl
  · rw [if_pos (by norm_num)]
    unfold callCoef
    simp only [← hu]
    congr 1
    rcases clip_cases (kk := kk) hab with ⟨h, hc⟩ | ⟨h1, h2, hc⟩ | ⟨h, hc⟩
    · rw [hc, hcall a hab.le h]
    · rw [hc, ← intervalIntegral.integral_add_adjacent_intervals (hP 1 a (log kk)) (hP 1 (log kk) b),
        hcall0 a _ h1 le_rfl, hcall _ h2 le_rfl, zero_add]
    · rw [hc, hcall0 a b hab.le h]
      unfold chi psi
      simp
  · rw [if_neg (by norm_num)]
    unfold putCoef
    simp only [← hu]
    congr 1
    rcases clip_cases (kk := kk) hab with ⟨h, hc⟩ | ⟨h1, h2, hc⟩ | ⟨h, hc⟩
    · rw [hc, hput0 a b hab.le h]
      unfold chi psi
      simp
    · rw [hc, ← intervalIntegral.integral_add_adjacent_intervals (hP (-1) a (log kk)) (hP (-1) (log kk) b),
        hput _ h1 le_rfl, hput0 _ b h2 le_rfl, add_zero]
    · rw [hc, hput b hab.le h]

/-- `cf` is the characteristic function of the law `μ` of `log(S_T/F)`. -/
def IsCf (cf : ℝ → ℂ) (μ : Measure ℝ) : Prop := ∀ u : ℝ, cf u = ∫ x, Complex.exp (Complex.I * u * x) ∂μ

lemma densityCoef_eq {cf : ℝ → ℂ} {μ : Measure ℝ} [IsProbabilityMeasure μ] (hcf : IsCf cf μ) (a b : ℝ) (k : ℕ) :
    densityCoef cf a b k = ∫ x, (if k = 0 then 1 / 2 else 1) * cos (freq a b k * (x - a)) ∂μ := by
  set u := freq a b k with hu
  have hexp : ∀ x : ℝ, Complex.exp (Complex.I * u * x) * Complex.exp (-1 * Complex.I * (u : ℝ) * a)
      = Complex.exp (((u * (x - a) : ℝ) : ℂ) * Complex.I) := by
    intro x
    rw [← Complex.exp_add]; congr 1; push_cast; ring
  have hint : Integrable (fun x : ℝ => Complex.exp (((u * (x - a) : ℝ) : ℂ) * Complex.I)) μ := by
    refine Integrable.mono' (integrable_const (1 : ℝ)) (by fun_prop) (Eventually.of_forall fun x => ?_)
    rw [Complex.norm_exp_ofReal_mul_I]
  have hre : (cf u * Complex.exp (-1 * Complex.I * (u : ℝ) * a)).re = ∫ x, cos (u * (x - a)) ∂μ := by
    rw [hcf, ← integral_mul_const]
    simp only [hexp]
    rw [← Complex.reCLM_apply, ← ContinuousLinearMap.integral_comp_comm _ hint]
    refine integral_congr_ae (Eventually.of_forall fun x => ?_)
    simp only [Complex.reCLM_apply, Complex.exp_ofReal_mul_I_re]
  rw [integral_const_mul, ← hre]
  unfold densityCoef
  simp only [← hu]
  split
  · rw [show ((0.5 : ℂ)) = ((1 / 2 : ℝ) : ℂ) by norm_num, mul_comm _ (((1 / 2 : ℝ)) : ℂ), Complex.re_ofReal_mul]
  · rw [one_mul]

/-- **C73**, exactness for every number of terms: the COS price is the discounted expectation, under the model's law, of the
`n`-term cosine partial sum of the payoff on `[a, b]` — nothing else is approximated. -/
theorem priceFO_eq_expectation {cf : ℝ → ℂ} {μ : Measure ℝ} [IsProbabilityMeasure μ] (hcf : IsCf cf μ) {a b : ℝ} (hab : a < b)
    (n : ℕ) (mp : MParams) {K S T cp : ℝ} (hS : 0 < S) (hK : 0 < K) (hcp : Spec.IsCp cp) :
    priceFO cf a b n mp K S T cp = Spec.discount mp.intr T * ∫ x, (∑ k ∈ Finset.range n, (if k = 0 then 1 / 2 else 1) *
      (2 / (b - a) * ∫ y in a..b, Spec.payoff cp K (Spec.forward mp.isFwd mp.intr mp.divr S T * exp y)
        * cos (k * π / (b - a) * (y - a))) * cos (k * π / (b - a) * (x - a))) ∂μ := by
  have hF : 0 < mp.fwd S T := mp.fwd_pos hS T
  rw [← mp.df_eq_spec, ← mp.forward_eq_spec, ← mp.fwd_eq_forward]
  set F := mp.fwd S T with hFd
  have hpay : ∀ y, Spec.payoff cp K (F * exp y) = F * Spec.payoff cp (K / F) (exp y) := by
    intro y
    unfold Spec.payoff
    rw [show cp * (F * exp y - K) = F * (cp * (exp y - K / F)) by field_simp]
    nth_rewrite 1 [show (0 : ℝ) = F * 0 by ring]
    exact (mul_max_of_nonneg _ _ hF.le).symm
  unfold priceFO
  simp only [← hFd]
  rw [mul_assoc]
  congr 1
  rw [integral_finsetSum, Finset.mul_sum]
  · refine Finset.sum_congr rfl fun k _ => ?_
    rw [payoffCoef_integral hab (div_pos hK hF) hcp, densityCoef_eq hcf]
    simp only [hpay, freq]
    rw [← integral_const_mul, ← integral_const_mul]
    refine integral_congr_ae (Eventually.of_forall fun x => ?_)
    simp only [mul_assoc]
    rw [intervalIntegral.integral_const_mul]
    ring
  · intro k _
    refine Integrable.const_mul ?_ _
    exact Integrable.mono' (integrable_const (1 : ℝ)) (by fun_prop) (Eventually.of_forall fun x => by
      rw [Real.norm_eq_abs]; exact Real.abs_cos_le_one _)

end Cos
end PyFENG
