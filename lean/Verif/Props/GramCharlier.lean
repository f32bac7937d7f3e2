import Verif.Lemmas.Moments
import Verif.Model.Util
import Mathlib.RingTheory.Polynomial.Hermite.Basic
import Mathlib.Algebra.Polynomial.HasseDeriv
import Mathlib.Probability.Moments.MGFAnalytic

/-!
# C131: Gram–Charlier A coefficients (`util.StatFuncs.gramcharA_coefs`)
-/

namespace PyFENG

open Real MeasureTheory ProbabilityTheory Filter Topology Polynomial Finset

variable {Ω : Type*} [MeasurableSpace Ω] {P : Measure Ω} {Y : Ω → ℝ}

/-- The cumulant of order `n`: the `n`-th derivative at 0 of the cumulant generating function `log E[e^{tY}]`. -/
noncomputable def Spec.cumulant (Y : Ω → ℝ) (P : Measure Ω) (n : ℕ) : ℝ := iteratedDeriv n (cgf Y P) 0

/-- The (probabilists') Hermite polynomial of order `n`. -/
noncomputable def Spec.He (n : ℕ) (x : ℝ) : ℝ := aeval x (hermite n)

namespace GramCharlier

/-- Hermite polynomials over `ℝ`. -/
noncomputable def heR (n : ℕ) : ℝ[X] := (hermite n).map (Int.castRingHom ℝ)

lemma heR_eval (n : ℕ) (x : ℝ) : (heR n).eval x = Spec.He n x := by
  unfold heR Spec.He
  rw [eval_map, aeval_def]
  rfl

lemma heR_succ (n : ℕ) : heR (n + 1) = X * heR n - derivative (heR n) := by
  unfold heR
  rw [hermite_succ, Polynomial.map_sub, Polynomial.map_mul, map_X, derivative_map]

lemma heR_zero : heR 0 = 1 := by
  unfold heR
  simp

lemma heR_derivative (n : ℕ) : derivative (heR n) = (n : ℝ) • heR (n - 1) := by
  induction n with
  | zero => rw [heR_zero]; simp
  | succ n ih =>
    rw [heR_succ, derivative_sub, derivative_mul, derivative_X, one_mul, ih, derivative_smul]
    cases n with
    | zero => simp [heR_zero]
    | succ n =>
      have := heR_succ n
      rw [Nat.add_sub_cancel, Nat.add_sub_cancel] 
      rw [this]
      push_cast
      simp only [smul_eq_C_mul, map_add, map_one]
      ring

lemma heR_iter (j n : ℕ) : derivative^[j] (heR n) = (n.descFactorial j : ℝ) • heR (n - j) := by
  induction j with
  | zero => simp
  | succ j ih =>
    rw [Function.iterate_succ_apply', ih, derivative_smul, heR_derivative, smul_smul, Nat.descFactorial_succ, Nat.sub_sub]
    push_cast
    ring_nf

lemma exp_center [IsProbabilityMeasure P] (h : 0 ∈ interior (integrableExpSet Y P)) (c : ℝ) : 0 ∈ interior (integrableExpSet (fun ω => Y ω + c) P) := by
  refine interior_mono (fun t ht => ?_) h
  have ht' : Integrable (fun ω => exp (t * Y ω)) P := ht
  show Integrable (fun ω => exp (t * (Y ω + c))) P
  refine (ht'.const_mul (exp (t * c))).congr (ae_of_all _ fun ω => ?_)
  simp only
  rw [← exp_add]
  congr 1
  ring

/-- The moment–cumulant relation for centred moments. -/
lemma moment_cumulant [IsProbabilityMeasure P] (h : 0 ∈ interior (integrableExpSet Y P)) (n : ℕ) :
    ∫ ω, (Y ω - ∫ ω, Y ω ∂P) ^ (n + 1) ∂P =
      ∑ i ∈ range (n + 1), (n.choose i : ℝ) * (if i = 0 then 0 else Spec.cumulant Y P (i + 1)) * ∫ ω, (Y ω - ∫ ω, Y ω ∂P) ^ (n - i) ∂P := by
  obtain ⟨c, hc⟩ : ∃ c, c = ∫ ω, Y ω ∂P := ⟨_, rfl⟩
  rw [← hc]
  have h0 := exp_center h (-c)
  have hm : ∀ n, (∫ ω, (Y ω - c) ^ n ∂P) = iteratedDeriv n (mgf (fun ω => Y ω + -c) P) 0 := fun n => (iteratedDeriv_mgf_zero h0 n).symm
  have hev : deriv (mgf (fun ω => Y ω + -c) P) =ᶠ[𝓝 0] fun t => (deriv (cgf Y P) t - c) * mgf (fun ω => Y ω + -c) P t := by
    filter_upwards [isOpen_interior.mem_nhds h] with t ht
    have e : mgf (fun ω => Y ω + -c) P = fun t => mgf Y P t * exp (t * -c) := funext fun t => mgf_add_const _
    have hne : mgf Y P t ≠ 0 := by
      have hi : t ∈ integrableExpSet Y P := interior_subset ht
      exact (mgf_pos' (IsProbabilityMeasure.ne_zero P) hi).ne'
    have hd : HasDerivAt (fun t => mgf Y P t * exp (t * -c)) (_ * exp (t * -c) + mgf Y P t * (exp (t * -c) * (1 * -c))) t :=
      (hasDerivAt_mgf ht).mul (((hasDerivAt_id' t).mul_const (-c)).exp)
    rw [e, hd.deriv, deriv_cgf ht]
    generalize (∫ ω, Y ω * exp (t * Y ω) ∂P) = J
    field_simp
    ring
  rw [hm, iteratedDeriv_succ', hev.iteratedDeriv_eq]
  have hf : ContDiffAt ℝ n (fun t => deriv (cgf Y P) t - c) 0 := ((analyticAt_cgf h).deriv.contDiffAt).sub contDiffAt_const
  have hg : ContDiffAt ℝ n (mgf (fun ω => Y ω + -c) P) 0 := (analyticAt_mgf h0).contDiffAt
  have := iteratedDeriv_fun_mul hf hg
  rw [this]
  refine sum_congr rfl fun i _ => ?_
  rw [hm]
  congr 2
  cases i with
  | zero => rw [iteratedDeriv_zero, deriv_cgf_zero h, hc]; simp
  | succ i =>
    rw [if_neg (Nat.succ_ne_zero i), Spec.cumulant, iteratedDeriv_succ', iteratedDeriv_succ', iteratedDeriv_succ']
    congr 1
    ext t
    exact deriv_sub_const _

/-- The centred and scaled variable. -/
noncomputable def std (Y : Ω → ℝ) (P : Measure Ω) (σ : ℝ) (ω : Ω) : ℝ := (Y ω - ∫ ω, Y ω ∂P) / σ

lemma int_pow [IsProbabilityMeasure P] (h : 0 ∈ interior (integrableExpSet Y P)) (σ : ℝ) (n : ℕ) : Integrable (fun ω => std Y P σ ω ^ n) P := by
  have := (integrable_pow_of_mem_interior_integrableExpSet (exp_center h (-∫ ω, Y ω ∂P)) n).const_mul ((1 / σ) ^ n)
  refine this.congr (ae_of_all _ fun ω => ?_)
  simp only [std]
  rw [← mul_pow]
  congr 1
  ring

lemma int_poly [IsProbabilityMeasure P] (h : 0 ∈ interior (integrableExpSet Y P)) (σ : ℝ) (p : ℝ[X]) : Integrable (fun ω => p.eval (std Y P σ ω)) P := by
  simp only [eval_eq_sum_range]
  exact integrable_finsetSum _ fun i _ => (int_pow h σ i).const_mul _

/-- `E[p(Z)]` as a linear map. -/
noncomputable def L [IsProbabilityMeasure P] (h : 0 ∈ interior (integrableExpSet Y P)) (σ : ℝ) : ℝ[X] →ₗ[ℝ] ℝ where
  toFun p := ∫ ω, p.eval (std Y P σ ω) ∂P
  map_add' p q := by
    simp only [eval_add]
    exact integral_add (int_poly h σ p) (int_poly h σ q)
  map_smul' c p := by
    simp only [eval_smul, smul_eq_mul, RingHom.id_apply]
    exact integral_const_mul _ _

/-- Cumulants of the standardised variable, the first set to zero. -/
noncomputable def kap (Y : Ω → ℝ) (P : Measure Ω) (σ : ℝ) (n : ℕ) : ℝ := if n = 1 then 0 else Spec.cumulant Y P n / σ ^ n

lemma moment_std [IsProbabilityMeasure P] (h : 0 ∈ interior (integrableExpSet Y P)) {σ : ℝ} (hσ : σ ≠ 0) (n : ℕ) :
    L h σ (Polynomial.X ^ (n + 1)) = ∑ i ∈ range (n + 1), (n.choose i : ℝ) * kap Y P σ (i + 1) * L h σ (Polynomial.X ^ (n - i)) := by
  have e : ∀ k, L h σ (Polynomial.X ^ k) = (∫ ω, (Y ω - ∫ ω, Y ω ∂P) ^ k ∂P) / σ ^ k := fun k => by
    show (∫ ω, (Polynomial.X ^ k).eval (std Y P σ ω) ∂P) = _
    simp only [eval_pow, eval_X, std, div_pow]
    exact integral_div _ _
  rw [e, moment_cumulant h, sum_div]
  refine sum_congr rfl fun i hi => ?_
  rw [e]
  have hi' : i ≤ n := Nat.lt_succ_iff.1 (mem_range.1 hi)
  have hs : σ ^ (n + 1) = σ ^ (i + 1) * σ ^ (n - i) := by rw [← pow_add]; congr 1; omega
  rw [hs]
  unfold kap
  by_cases h0 : i = 0
  · simp [h0]
  · rw [if_neg h0, if_neg (by omega)]
    field_simp

lemma L_X_mul [IsProbabilityMeasure P] (h : 0 ∈ interior (integrableExpSet Y P)) {σ : ℝ} (hσ : σ ≠ 0) (N : ℕ) (p : ℝ[X]) (hp : p.natDegree < N) :
    L h σ (Polynomial.X * p) = ∑ j ∈ range N, kap Y P σ (j + 1) * L h σ (hasseDeriv j p) := by
  rw [p.as_sum_range' N hp]
  simp only [mul_sum, map_sum]
  rw [sum_comm]
  refine sum_congr rfl fun n hn => ?_
  have e1 : ∀ (k : ℕ) (r : ℝ), monomial k r = r • (Polynomial.X ^ k : ℝ[X]) := fun k r => by rw [← C_mul_X_pow_eq_monomial, smul_eq_C_mul]
  simp only [hasseDeriv_monomial]
  rw [X_mul_monomial, e1, map_smul, moment_std h hσ, smul_eq_mul, mul_sum]
  have hle : range (n + 1) ⊆ range N := range_subset_range.2 (mem_range.1 hn)
  rw [← sum_subset hle]
  · refine sum_congr rfl fun i _ => ?_
    rw [e1, map_smul, smul_eq_mul]
    ring
  · intro i _ hi
    have : n < i := by rw [mem_range] at hi; omega
    rw [Nat.choose_eq_zero_of_lt this]
    simp

/-- `E[He_n(Z)]` satisfies the recursion of the moments with the second cumulant lowered by one. -/
lemma he_rec [IsProbabilityMeasure P] (h : 0 ∈ interior (integrableExpSet Y P)) {σ : ℝ} (hσ : σ ≠ 0) (n : ℕ) :
    L h σ (heR (n + 1)) = ∑ k ∈ range (n + 1), (n.choose k : ℝ) * (kap Y P σ (n + 1 - k) - if n + 1 - k = 2 then 1 else 0) * L h σ (heR k) := by
  have hh : ∀ j, hasseDeriv j (heR n) = (n.choose j : ℝ) • heR (n - j) := fun j => by
    have := factorial_smul_hasseDeriv (R := ℝ) j
    have h1 : (j.factorial : ℝ) • hasseDeriv j (heR n) = (n.descFactorial j : ℝ) • heR (n - j) := by
      rw [← heR_iter, ← this]
      simp [Nat.cast_smul_eq_nsmul]
    have h2 : (n.descFactorial j : ℝ) = (j.factorial : ℝ) * n.choose j := by rw [Nat.descFactorial_eq_factorial_mul_choose]; push_cast; ring
    rw [h2, mul_smul] at h1
    exact (smul_right_injective _ (Nat.cast_ne_zero.2 j.factorial_ne_zero)) h1
  have hd : (heR n).natDegree < n + 1 := by
    unfold heR
    exact Nat.lt_succ_iff.2 ((natDegree_map_le).trans natDegree_hermite.le)
  rw [heR_succ, map_sub, L_X_mul h hσ (n + 1) _ hd, heR_derivative, map_smul, ← sum_range_reflect]
  simp only [hh, map_smul, smul_eq_mul]
  simp only [mul_sub, sub_mul, sum_sub_distrib]
  congr 1
  · refine sum_congr rfl fun k hk => ?_
    have hk' : k ≤ n := Nat.lt_succ_iff.1 (mem_range.1 hk)
    rw [show n + 1 - 1 - k = n - k by omega, Nat.choose_symm hk', show n - (n - k) = k by omega, show n - k + 1 = n + 1 - k by omega]
    ring
  · cases n with
    | zero => simp
    | succ n =>
      rw [sum_eq_single n]
      · rw [if_pos (by omega), Nat.choose_succ_self_right, Nat.add_sub_cancel]
        push_cast
        ring
      · intro k _ hk
        rw [if_neg (by omega)]
        ring
      · intro hk
        exact absurd (mem_range.2 (by omega)) hk

/-- `cum2mc` of the excess cumulants gives `E[He_n(Z)]`. -/
lemma he_eq [IsProbabilityMeasure P] (h : 0 ∈ interior (integrableExpSet Y P)) {σ : ℝ} (hσ : σ ≠ 0) (h2 : Spec.cumulant Y P 2 = σ ^ 2) (κ : ℕ → ℝ) (N : ℕ)
    (hκ2 : κ 2 = 0) (hκ : ∀ n, 3 ≤ n → n ≤ N → κ n = Spec.cumulant Y P n / σ ^ n) (n : ℕ) (hn : n ≤ N) : L h σ (heR n) = cum2mcAux κ n := by
  induction n using Nat.strong_induction_on with
  | _ n ih =>
    match n with
    | 0 =>
      rw [heR_zero, cum2mcAux]
      show (∫ ω, (1 : ℝ[X]).eval (std Y P σ ω) ∂P) = 1
      simp
    | 1 =>
      rw [he_rec h hσ, cum2mcAux]
      simp [kap]
    | n + 2 =>
      rw [he_rec h hσ, cum2mcAux, Fin.sum_univ_eq_sum_range (fun k => ((n + 1).choose k : ℝ) * κ (n + 2 - k) * cum2mcAux κ k) (n + 1), sum_range_succ]
      have e1 : kap Y P σ (n + 1 + 1 - (n + 1)) = 0 := by rw [show n + 1 + 1 - (n + 1) = 1 by omega]; simp [kap]
      rw [e1, if_neg (by omega), sub_zero, mul_zero, zero_mul, add_zero]
      refine sum_congr rfl fun k hk => ?_
      have hk' := mem_range.1 hk
      rw [ih k (by omega) (by omega)]
      congr 2
      by_cases hk2 : n + 1 + 1 - k = 2
      · rw [if_pos hk2, hk2, hκ2]
        unfold kap
        rw [if_neg (by norm_num), h2, div_self (pow_ne_zero 2 hσ), sub_self]
      · rw [if_neg hk2, sub_zero, hκ _ (by omega) (by omega)]
        unfold kap
        rw [if_neg (by omega)]

lemma He_eq [IsProbabilityMeasure P] (h : 0 ∈ interior (integrableExpSet Y P)) (σ : ℝ) (n : ℕ) : L h σ (heR n) = ∫ ω, Spec.He n ((Y ω - ∫ ω, Y ω ∂P) / σ) ∂P := by
  show (∫ ω, (heR n).eval (std Y P σ ω) ∂P) = _
  simp only [heR_eval, std]

/-! ### The normal side -/

lemma gauss_int (p : ℝ[X]) : Integrable (fun z => p.eval z) (gaussianReal 0 1) := by
  simp only [eval_eq_sum_range]
  exact integrable_finsetSum _ fun i _ => (integrable_pow_gauss i).const_mul _

/-- `E[p(Z)]` for a standard normal variable. -/
noncomputable def G : ℝ[X] →ₗ[ℝ] ℝ where
  toFun p := Spec.gaussE fun z => p.eval z
  map_add' p q := by
    simp only [eval_add]
    exact integral_add (gauss_int p) (gauss_int q)
  map_smul' c p := by
    simp only [eval_smul, smul_eq_mul, RingHom.id_apply]
    exact integral_const_mul _ _

lemma G_stein (p : ℝ[X]) : G (Polynomial.X * p) = G (derivative p) := by
  induction p using Polynomial.induction_on' with
  | add p q hp hq => rw [mul_add, map_add, hp, hq, derivative_add, map_add]
  | monomial n a =>
    have e : ∀ k (r : ℝ), G (monomial k r) = r * Spec.gaussE fun z => z ^ k := fun k r => by
      rw [← C_mul_X_pow_eq_monomial, ← smul_eq_C_mul, map_smul, smul_eq_mul]
      show r * Spec.gaussE (fun z => (Polynomial.X ^ k : ℝ[X]).eval z) = _
      simp
    rw [X_mul_monomial, derivative_monomial, e, e]
    cases n with
    | zero => rw [gaussE_pow_one]; simp
    | succ n =>
      rw [gaussE_pow_succ_succ]
      push_cast
      ring_nf

lemma G_he (n : ℕ) (p : ℝ[X]) : G (heR n * p) = G (derivative^[n] p) := by
  induction n generalizing p with
  | zero => rw [heR_zero, one_mul]; rfl
  | succ n ih =>
    rw [heR_succ, Function.iterate_succ_apply, ← ih, sub_mul, mul_assoc, map_sub, G_stein, derivative_mul, map_add]
    ring

lemma G_he_zero (k : ℕ) : G (heR k) = if k = 0 then 1 else 0 := by
  have := G_he k 1
  rw [mul_one] at this
  rw [this]
  cases k with
  | zero =>
    show Spec.gaussE (fun z => (1 : ℝ[X]).eval z) = _
    simp [Spec.gaussE]
  | succ k => rw [Function.iterate_succ_apply, derivative_one, iterate_derivative_zero]; simp

lemma match_he [IsProbabilityMeasure P] (h : 0 ∈ interior (integrableExpSet Y P)) (σ : ℝ) {m N : ℕ} (hm : m ≤ N) :
    L h σ (heR m) = ∑ n ∈ range (N + 1), L h σ (heR n) / n.factorial * G (heR n * heR m) := by
  rw [sum_eq_single m]
  · rw [G_he, heR_iter, map_smul, G_he_zero, if_pos (by omega), Nat.descFactorial_self, smul_eq_mul]
    have : (m.factorial : ℝ) ≠ 0 := Nat.cast_ne_zero.2 m.factorial_ne_zero
    field_simp
  · intro n _ hn
    rw [G_he, heR_iter, map_smul, G_he_zero]
    rcases lt_or_gt_of_ne hn with hlt | hlt
    · rw [if_neg (by omega)]; simp
    · rw [Nat.descFactorial_of_lt hlt]; simp
  · intro hn
    exact absurd (mem_range.2 (by omega)) hn

lemma match_poly [IsProbabilityMeasure P] (h : 0 ∈ interior (integrableExpSet Y P)) (σ : ℝ) {N : ℕ} (d : ℕ) (hd : d ≤ N) (p : ℝ[X]) (hp : p.natDegree ≤ d) :
    L h σ p = ∑ n ∈ range (N + 1), L h σ (heR n) / n.factorial * G (heR n * p) := by
  induction d generalizing p with
  | zero =>
    rw [eq_C_of_natDegree_le_zero hp, show (C (p.coeff 0) : ℝ[X]) = p.coeff 0 • heR 0 by rw [heR_zero, smul_eq_C_mul, mul_one], map_smul, match_he h σ (Nat.zero_le N), smul_eq_mul, mul_sum]
    refine sum_congr rfl fun n _ => ?_
    rw [mul_smul_comm, map_smul, smul_eq_mul]
    ring
  | succ d ih =>
    have h1 : (p - p.coeff (d + 1) • heR (d + 1)).natDegree ≤ d := by
      rw [natDegree_le_iff_coeff_eq_zero]
      intro k hk
      rw [coeff_sub, coeff_smul, smul_eq_mul]
      unfold heR
      rw [coeff_map]
      rcases Nat.lt_or_ge (d + 1) k with hk' | hk'
      · rw [coeff_hermite_of_lt hk', coeff_eq_zero_of_natDegree_lt (lt_of_le_of_lt hp hk')]
        simp
      · rw [show k = d + 1 by omega, coeff_hermite_self]
        simp
    have h2 := ih (by omega) _ h1
    rw [map_sub, map_smul, sub_eq_iff_eq_add] at h2
    rw [h2, smul_eq_mul, match_he h σ hd, mul_sum, ← sum_add_distrib]
    refine sum_congr rfl fun n _ => ?_
    rw [mul_sub, map_sub, mul_smul_comm, map_smul, smul_eq_mul]
    ring

end GramCharlier

open GramCharlier

/-- The first `m` cumulants of `Y` as the argument of `gramcharA_coefs`. -/
noncomputable def Spec.cumulants (Y : Ω → ℝ) (P : Measure Ω) (m : ℕ) : List ℝ := (List.range m).map fun k => Spec.cumulant Y P (k + 1)

lemma gramcharA_ok [IsProbabilityMeasure P] (h : 0 ∈ interior (integrableExpSet Y P)) {m : ℕ} (hm : 2 ≤ m) (hv : 0 < Spec.cumulant Y P 2) :
    ∃ c, gramcharA (Spec.cumulants Y P m) none = .ok (c, √(Spec.cumulant Y P 2)) ∧ c.length = m ∧
      ∀ k (hk : k < c.length), c[k] = L h (√(Spec.cumulant Y P 2)) (heR (k + 1)) / (k + 1).factorial := by
  have hl : (Spec.cumulants Y P m).length = m := by simp [Spec.cumulants]
  have h1 : (Spec.cumulants Y P m)[1]? = some (Spec.cumulant Y P 2) := by
    unfold Spec.cumulants
    rw [List.getElem?_map, List.getElem?_range (by omega)]
    rfl
  have hs : √(Spec.cumulant Y P 2) ≠ 0 := (sqrt_pos.2 hv).ne'
  have hres : gramcharA (Spec.cumulants Y P m) none = .ok ((List.range m).map fun k => 1.0 / ((k + 1).factorial : ℝ) *
      cum2mc (fun n => (fun k => if k < 2 then 0 else (1 / √(Spec.cumulant Y P 2)) ^ (k + 1) * (Spec.cumulants Y P m).getD k 0) (n - 1)) (k + 1), √(Spec.cumulant Y P 2)) := by
    unfold gramcharA
    simp only [h1, if_neg (not_le.2 hv), hl, if_neg (show ¬ m = 0 by omega), Bind.bind, Except.bind]
  refine ⟨_, hres, by simp, ?_⟩
  · intro k hk
    simp only [List.length_map, List.length_range] at hk
    simp only [List.getElem_map, List.getElem_range]
    have h2 : Spec.cumulant Y P 2 = √(Spec.cumulant Y P 2) ^ 2 := (sq_sqrt hv.le).symm
    have h3 : ∀ κ : ℕ → ℝ, κ 1 = 0 → cum2mc κ (k + 1) = cum2mcAux κ (k + 1) := fun κ hκ => by
      unfold cum2mc
      split_ifs with h
      · have : k = 0 := by omega
        rw [this, hκ, cum2mcAux]
      · rfl
    rw [h3 _ (by simp), ← he_eq h hs h2 _ m (by simp) (fun n hn hn' => ?_) (k + 1) (by omega)]
    · norm_num
      ring
    · rw [if_neg (by omega), List.getD_eq_getElem?_getD]
      unfold Spec.cumulants
      rw [List.getElem?_map, List.getElem?_range (by omega), Option.map_some, Option.getD_some, show n - 1 + 1 = n by omega, one_div, inv_pow, mul_comm, div_eq_mul_inv]

/-- **C131.** `gramcharA_coefs` with the cumulants of a random variable `Y` (finite exponential moments near 0, positive variance) gives `sigma = sqrt(Var Y)` and, in entry `k`, the coefficient of order `k + 1` in the
expansion of the density of `Z = (Y - E Y)/sigma` in Hermite polynomials: `E[He_{k+1}(Z)]/(k+1)!`. -/
theorem gramcharA_coefs_correct [IsProbabilityMeasure P] (h : 0 ∈ interior (integrableExpSet Y P)) {m : ℕ} (hm : 2 ≤ m) (hv : 0 < variance Y P) :
    ∃ c, gramcharA (Spec.cumulants Y P m) none = .ok (c, √(variance Y P)) ∧ c.length = m ∧
      ∀ k (hk : k < c.length), c[k] = (∫ ω, Spec.He (k + 1) ((Y ω - ∫ ω, Y ω ∂P) / √(variance Y P)) ∂P) / (k + 1).factorial := by
  have e : Spec.cumulant Y P 2 = variance Y P := by
    have hY : AEMeasurable Y P := aemeasurable_of_mem_interior_integrableExpSet h
    rw [variance_eq_integral hY]
    have := moment_cumulant h 1
    simp [sum_range_succ] at this
    exact this.symm
  obtain ⟨c, h1, h2, h3⟩ := gramcharA_ok h hm (e ▸ hv)
  rw [e] at h1 h3
  exact ⟨c, h1, h2, fun k hk => by rw [h3 k hk, He_eq]⟩

/-- **C131.** The truncated Gram–Charlier density `φ(z) (1 + Σ_k c[k] He_{k+1}(z))` has the same expectation as `Z = (Y - E Y)/sigma` for every polynomial of degree at most `m`: mean, variance, and all the moments
up to the number of cumulants given are matched. -/
theorem gramcharA_moments [IsProbabilityMeasure P] (h : 0 ∈ interior (integrableExpSet Y P)) {m : ℕ} (hm : 2 ≤ m) (hv : 0 < variance Y P) :
    ∃ c, gramcharA (Spec.cumulants Y P m) none = .ok (c, √(variance Y P)) ∧
      ∀ p : ℝ[X], p.natDegree ≤ m → Spec.gaussE (fun z => p.eval z * (1 + ∑ k : Fin c.length, c[k] * Spec.He (k + 1) z)) = ∫ ω, p.eval ((Y ω - ∫ ω, Y ω ∂P) / √(variance Y P)) ∂P := by
  obtain ⟨c, h1, h2, h3⟩ := gramcharA_coefs_correct h hm hv
  refine ⟨c, h1, fun p hp => ?_⟩
  have h4 := match_poly h (√(variance Y P)) m le_rfl p hp
  have h5 : L h (√(variance Y P)) p = ∫ ω, p.eval ((Y ω - ∫ ω, Y ω ∂P) / √(variance Y P)) ∂P := rfl
  rw [← h5, h4, sum_range_succ']
  have h6 : L h (√(variance Y P)) (heR 0) = 1 := by
    rw [heR_zero]
    show (∫ ω, (1 : ℝ[X]).eval (std Y P (√(variance Y P)) ω) ∂P) = 1
    simp
  have h7 : (fun z => p.eval z * (1 + ∑ k : Fin c.length, c[k] * Spec.He (k + 1) z)) = fun z => (heR 0 * p + ∑ k ∈ range m, (L h (√(variance Y P)) (heR (k + 1)) / (k + 1).factorial) • (heR (k + 1) * p)).eval z := by
    ext z
    rw [eval_add, eval_finsetSum, heR_zero, one_mul, mul_add, mul_one, mul_sum, ← h2, ← Fin.sum_univ_eq_sum_range (fun k => eval z ((L h (√(variance Y P)) (heR (k + 1)) / (k + 1).factorial) • (heR (k + 1) * p)))]
    congr 1
    refine sum_congr rfl fun k _ => ?_
    rw [eval_smul, eval_mul, heR_eval, smul_eq_mul, He_eq, Fin.getElem_fin, h3 k k.2]
    ring
  rw [h7]
  show G _ = _
  rw [map_add, map_sum, h6]
  simp only [map_smul, smul_eq_mul]
  simp
  ring

/-- **C131.** When it fails: without `sigma`, fewer than two cumulants raise `IndexError` and a second cumulant that is not positive raises `ValueError`. -/
theorem gramcharA_rejects (cumuls : List ℝ) :
    (cumuls.length < 2 → gramcharA cumuls none = .error .indexError) ∧ (∀ c, cumuls[1]? = some c → c ≤ 0 → gramcharA cumuls none = .error .valueError) := by
  constructor
  · intro h
    have : cumuls[1]? = none := List.getElem?_eq_none (by omega)
    simp only [gramcharA, this, Bind.bind, Except.bind]
  · intro c h hc
    simp only [gramcharA, h, if_pos hc, Bind.bind, Except.bind]

/-- **C131.** With an explicit `sigma` the second coefficient is still zero, so the expansion has the variance of `Y` only if `sigma² = Var Y`: the coefficient should be `(Var Y/sigma² - 1)/2`. -/
theorem gramcharA_sigma_defect [IsProbabilityMeasure P] (h : 0 ∈ interior (integrableExpSet Y P)) {m : ℕ} (hm : 2 ≤ m) {s : ℝ} (hs : 0 < s) :
    ∃ c, gramcharA (Spec.cumulants Y P m) (some s) = .ok (c, s) ∧ ∃ h1 : 1 < c.length,
      (c[1] = (∫ ω, Spec.He 2 ((Y ω - ∫ ω, Y ω ∂P) / s) ∂P) / Nat.factorial 2 ↔ s ^ 2 = variance Y P) := by
  have hl : (Spec.cumulants Y P m).length = m := by simp [Spec.cumulants]
  have hres : gramcharA (Spec.cumulants Y P m) (some s) = .ok ((List.range m).map fun k => 1.0 / ((k + 1).factorial : ℝ) *
      cum2mc (fun n => (fun k => if k < 2 then 0 else (1 / s) ^ (k + 1) * (Spec.cumulants Y P m).getD k 0) (n - 1)) (k + 1), s) := by
    unfold gramcharA
    simp only [hl, if_neg (show ¬ m = 0 by omega), Bind.bind, Except.bind]
  refine ⟨_, hres, by simp; omega, ?_⟩
  have hY : AEMeasurable Y P := aemeasurable_of_mem_interior_integrableExpSet h
  have h2 : (∫ ω, Spec.He 2 ((Y ω - ∫ ω, Y ω ∂P) / s) ∂P) = variance Y P / s ^ 2 - 1 := by
    have e : ∀ x, Spec.He 2 x = x ^ 2 - 1 := fun x => by
      rw [← heR_eval, heR_succ, heR_succ, heR_zero]
      simp
      ring
    simp only [e]
    rw [integral_sub (show Integrable (fun ω => ((Y ω - ∫ ω, Y ω ∂P) / s) ^ 2) P from int_pow h s 2) (integrable_const _), variance_eq_integral hY]
    simp only [div_pow, integral_div]
    simp
  rw [h2]
  have h3 : ∀ κ : ℕ → ℝ, κ 2 = 0 → cum2mc κ 2 = 0 := fun κ hκ => by
    unfold cum2mc
    rw [if_neg (by norm_num), cum2mcAux]
    simp [hκ]
  simp only [List.getElem_map, List.getElem_range]
  rw [h3 _ (by simp), mul_zero, eq_comm, div_eq_zero_iff, or_iff_left (by norm_num), sub_eq_zero, div_eq_one_iff_eq (pow_pos hs 2).ne', eq_comm]

/-- **C131.** The formula `c[k] = cumul_{k+1} / ((k+1)! sigma^{k+1})` of the documentation holds for the orders 3 to 5 only: the coefficient of order 6 has the further term `10 (cumul_3/sigma³)²/6!`. -/
theorem gramcharA_order_six (k1 k2 k3 k4 k5 k6 : ℝ) (h2 : 0 < k2) :
    gramcharA [k1, k2, k3, k4, k5, k6] none = .ok ([0, 0, k3 / (6 * √k2 ^ 3), k4 / (24 * √k2 ^ 4), k5 / (120 * √k2 ^ 5), (k6 / √k2 ^ 6 + 10 * (k3 / √k2 ^ 3) ^ 2) / 720], √k2) := by
  have h0 : √k2 ≠ 0 := (sqrt_pos.2 h2).ne'
  have h1 : [k1, k2, k3, k4, k5, k6][1]? = some k2 := rfl
  unfold gramcharA
  simp only [h1, if_neg (not_le.2 h2), Bind.bind, Except.bind]
  generalize √k2 = s at h0 ⊢
  simp [List.range, List.range.loop, cum2mc, cum2mcAux, Fin.sum_univ_succ, Nat.choose, Nat.factorial]
  norm_num
  refine ⟨?_, ?_, ?_, ?_⟩ <;> field_simp

/-- The hypotheses are met by a normal variable. -/
example : (0:ℝ) ∈ interior (integrableExpSet id (gaussianReal 1 2)) ∧ 0 < variance id (gaussianReal 1 2) := by
  rw [integrableExpSet_id_gaussianReal, variance_id_gaussianReal]
  simp

end PyFENG
