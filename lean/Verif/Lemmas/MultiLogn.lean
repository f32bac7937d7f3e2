import Verif.Lemmas.MvGauss
import Verif.Lemmas.Black
import Verif.Lemmas.Bach

/-!
# Multivariate lognormal prices: change of numeraire, half-space probabilities, exchange options
-/

namespace PyFENG

open MeasureTheory ProbabilityTheory Matrix Real

set_option linter.unusedSectionVars false

/-- Specification: terminal prices of the multi-asset Black-Scholes model with forwards `F` and total log-covariance matrix
`S` (`S i j = ρ_ij σ_i σ_j T`): asset `i` ends at `F_i exp(z_i - S_ii/2)` where `z` is a centred Gaussian vector with
covariance `S`. -/
noncomputable def Spec.gbmVec {ι : Type*} (F : ι → ℝ) (S : Matrix ι ι ℝ) (z : ι → ℝ) (i : ι) : ℝ :=
  F i * exp (z i - S i i / 2)

namespace MultiLogn

variable {ι : Type*} [Fintype ι] [DecidableEq ι]

lemma quad_single (S : Matrix ι ι ℝ) (i j : ι) : (Pi.single i 1 : ι → ℝ) ⬝ᵥ S *ᵥ Pi.single j 1 = S i j := by
  simp

lemma measurable_gbmVec (F : ι → ℝ) (S : Matrix ι ι ℝ) (i : ι) : Measurable fun z => Spec.gbmVec F S z i := by
  unfold Spec.gbmVec; fun_prop

lemma gbmVec_pos {F : ι → ℝ} (S : Matrix ι ι ℝ) (z : ι → ℝ) {i : ι} (hF : 0 < F i) : 0 < Spec.gbmVec F S z i :=
  mul_pos hF (exp_pos _)

/-- Change of numeraire: weighting by the terminal price of asset `i` shifts the Gaussian vector by row `i` of the covariance. -/
lemma tilt_single {S : Matrix ι ι ℝ} (hS : S.PosSemidef) (F : ι → ℝ) (i : ι) {f : (ι → ℝ) → ℝ} (hf : Measurable f) :
    ∫ z, Spec.gbmVec F S z i * f z ∂(Spec.mvn S) = F i * ∫ z, f (z + fun j => S j i) ∂(Spec.mvn S) := by
  have h := MvGauss.tilt_mvn hS (Pi.single i 1) hf
  rw [quad_single] at h
  have e : S *ᵥ (Pi.single i 1) = fun j => S j i := by
    ext j; simp
  rw [e] at h
  rw [← h, ← integral_const_mul]
  congr 1
  ext z
  unfold Spec.gbmVec
  rw [single_one_dotProduct]
  ring

lemma integrable_gbmVec {S : Matrix ι ι ℝ} (hS : S.PosSemidef) (F : ι → ℝ) (i : ι) :
    Integrable (fun z => Spec.gbmVec F S z i) (Spec.mvn S) := by
  have h := MvGauss.integrable_exp_mvn hS (Pi.single i 1)
  have h2 := h.const_mul (F i * exp (-S i i / 2))
  refine h2.congr (ae_of_all _ fun z => ?_)
  unfold Spec.gbmVec
  beta_reduce
  rw [single_one_dotProduct, mul_assoc, ← exp_add]
  ring_nf

lemma integral_gbmVec {S : Matrix ι ι ℝ} (hS : S.PosSemidef) (F : ι → ℝ) (i : ι) :
    ∫ z, Spec.gbmVec F S z i ∂(Spec.mvn S) = F i := by
  have h := tilt_single hS F i (f := fun _ => 1) measurable_const
  simpa using h

lemma gaussE_halfline {cp c s : ℝ} (hcp : Spec.IsCp cp) (hs : 0 < s) :
    Spec.gaussE (fun x => if 0 ≤ cp * (s * x + c) then 1 else 0) = ncdf (cp * (c / s)) := by
  have h := gaussP_exercise_abm (cp := cp) (F := c) (K := 0) hcp hs
  unfold Spec.gaussE
  rw [sub_zero] at h
  rw [← h]
  unfold Spec.gaussP
  have hset : MeasurableSet {z | 0 ≤ cp * (s * z + c)} := measurableSet_le measurable_const (by fun_prop)
  rw [show (fun x : ℝ => if 0 ≤ cp * (s * x + c) then (1:ℝ) else 0) = {z | 0 ≤ cp * (s * z + c)}.indicator 1 from by
    ext x; simp [Set.indicator_apply]]
  rw [integral_indicator_one hset]
  congr 1
  ext z
  simp [Spec.abm, add_comm]

/-- Probability of a half-space. -/
lemma halfspace {S : Matrix ι ι ℝ} (hS : S.PosSemidef) (a : ι → ℝ) {cp : ℝ} (c : ℝ) (hcp : Spec.IsCp cp) (hs : 0 < a ⬝ᵥ S *ᵥ a) :
    ∫ z, (if 0 ≤ cp * (a ⬝ᵥ z + c) then 1 else 0) ∂(Spec.mvn S) = ncdf (cp * (c / √(a ⬝ᵥ S *ᵥ a))) := by
  rw [← gaussE_halfline hcp (sqrt_pos.2 hs)]
  exact MvGauss.integral_dot_mvn hS a (f := fun y => if 0 ≤ cp * (y + c) then (1:ℝ) else 0)
    (Measurable.ite (measurableSet_le measurable_const (by fun_prop)) measurable_const measurable_const)

lemma measurable_ite_dot (a : ι → ℝ) (cp c : ℝ) : Measurable fun z : ι → ℝ => if 0 ≤ cp * (a ⬝ᵥ z + c) then (1:ℝ) else 0 :=
  Measurable.ite (measurableSet_le measurable_const (((MvGauss.measurable_dot a).add_const c).const_mul cp)) measurable_const measurable_const

/-- Price of asset `i` delivered on a half-space. -/
lemma asset_halfspace {S : Matrix ι ι ℝ} (hS : S.PosSemidef) (F a : ι → ℝ) (i : ι) {cp : ℝ} (c : ℝ) (hcp : Spec.IsCp cp)
    (hs : 0 < a ⬝ᵥ S *ᵥ a) :
    ∫ z, Spec.gbmVec F S z i * (if 0 ≤ cp * (a ⬝ᵥ z + c) then 1 else 0) ∂(Spec.mvn S) =
      F i * ncdf (cp * ((c + ∑ j, a j * S j i) / √(a ⬝ᵥ S *ᵥ a))) := by
  rw [tilt_single hS F i (measurable_ite_dot a cp c), ← halfspace hS a _ hcp hs]
  congr 3
  ext z
  have : a ⬝ᵥ (z + fun j => S j i) + c = a ⬝ᵥ z + (c + ∑ j, a j * S j i) := by
    rw [dotProduct_add]; simp only [dotProduct]; ring
  rw [this]

lemma payoff_scale {cp c : ℝ} (hc : 0 ≤ c) (K s : ℝ) : Spec.payoff cp (c * K) (c * s) = c * Spec.payoff cp K s := by
  unfold Spec.payoff
  rw [← mul_sub, mul_left_comm, mul_max_of_nonneg _ _ hc, mul_zero]

lemma continuous_payoff (cp K : ℝ) : Continuous (Spec.payoff cp K) := by unfold Spec.payoff; fun_prop

/-- Exchange option (Margrabe 1978): exchanging asset `j` for asset `i` is a one-dimensional lognormal option. -/
lemma exchange {S : Matrix ι ι ℝ} (hS : S.PosSemidef) {F : ι → ℝ} (i j : ι) (hj : 0 < F j) (cp : ℝ) :
    ∫ z, Spec.payoff cp (Spec.gbmVec F S z j) (Spec.gbmVec F S z i) ∂(Spec.mvn S) =
      Spec.gaussE fun x => Spec.payoff cp (F j) (Spec.gbm (F i) (√(S i i - 2 * S i j + S j j)) x) := by
  have hsym : ∀ k l, S k l = S l k := fun k l => by
    have := hS.1.apply k l; simpa using this.symm
  set a : ι → ℝ := Pi.single i 1 - Pi.single j 1 with ha
  have hq : a ⬝ᵥ S *ᵥ a = S i i - 2 * S i j + S j j := by
    rw [ha, sub_dotProduct, Matrix.mulVec_sub, dotProduct_sub, dotProduct_sub, quad_single, quad_single, quad_single, quad_single, hsym j i]
    ring
  have e1 : ∀ z : ι → ℝ, Spec.payoff cp (Spec.gbmVec F S z j) (Spec.gbmVec F S z i) =
      Spec.gbmVec F S z j * Spec.payoff cp 1 (F i / F j * exp (a ⬝ᵥ z - S i i / 2 + S j j / 2)) := by
    intro z
    rw [← payoff_scale (gbmVec_pos S z hj).le, mul_one]
    congr 1
    unfold Spec.gbmVec
    rw [ha, sub_dotProduct, single_one_dotProduct, single_one_dotProduct]
    have : exp (z i - S i i / 2) = exp (z j - S j j / 2) * exp (z i - z j - S i i / 2 + S j j / 2) := by
      rw [← exp_add]; ring_nf
    rw [this]
    field_simp
  simp_rw [e1]
  have hm : Measurable fun y : ℝ => Spec.payoff cp 1 (F i / F j * exp (y - S i i / 2 + S j j / 2)) :=
    (continuous_payoff cp 1).measurable.comp (by fun_prop)
  have ht := tilt_single hS F j (hm.comp (MvGauss.measurable_dot a))
  simp only [Function.comp_def] at ht
  rw [ht]
  have e2 : ∀ z : ι → ℝ, Spec.payoff cp 1 (F i / F j * exp (a ⬝ᵥ (z + fun k => S k j) - S i i / 2 + S j j / 2)) =
      Spec.payoff cp 1 (F i / F j * exp (a ⬝ᵥ z - (S i i - 2 * S i j + S j j) / 2)) := by
    intro z
    rw [dotProduct_add]
    have : a ⬝ᵥ (fun k => S k j) = S i j - S j j := by
      rw [ha, sub_dotProduct, single_one_dotProduct, single_one_dotProduct]
    rw [this]
    ring_nf
  simp only [e2]
  have hm2 : Measurable fun y : ℝ => Spec.payoff cp 1 (F i / F j * exp (y - (S i i - 2 * S i j + S j j) / 2)) :=
    (continuous_payoff cp 1).measurable.comp (by fun_prop)
  rw [MvGauss.integral_dot_mvn hS a hm2, hq]
  unfold Spec.gaussE
  rw [← integral_const_mul]
  congr 1
  ext x
  rw [← payoff_scale hj.le, mul_one]
  congr 1
  unfold Spec.gbm
  rw [sq_sqrt (by rw [← hq]; exact MvGauss.quad_nonneg hS a)]
  field_simp

/-- Linear images of a Gaussian vector. -/
lemma map_mulVec_mvn {κ : Type*} [Fintype κ] [DecidableEq κ] {S : Matrix ι ι ℝ} (hS : S.PosSemidef) (B : Matrix κ ι ℝ) :
    (Spec.mvn S).map (fun z => B *ᵥ z) = Spec.mvn (B * S * Bᵀ) := by
  obtain ⟨A, rfl⟩ := MvGauss.exists_factor hS
  have e : B * (A * Aᵀ) * Bᵀ = (B * A) * (B * A)ᵀ := by
    rw [transpose_mul]; simp only [Matrix.mul_assoc]
  rw [e, MvGauss.mvn_eq_map, MvGauss.mvn_eq_map, Measure.map_map (by fun_prop) (by fun_prop)]
  congr 1
  ext x i
  simp [mulVec_mulVec]

/-- A hyperplane not containing a degenerate direction has probability zero. -/
lemma hyperplane_null {S : Matrix ι ι ℝ} (hS : S.PosSemidef) (a : ι → ℝ) (c : ℝ) (hs : 0 < a ⬝ᵥ S *ᵥ a) :
    ∀ᵐ z ∂(Spec.mvn S), a ⬝ᵥ z ≠ c := by
  have h : (Spec.mvn S).map (fun z => a ⬝ᵥ z) {c} = 0 := by
    rw [MvGauss.map_dot_mvn hS a, Measure.map_apply (by fun_prop) (measurableSet_singleton c)]
    have : NullSingletonClass (gaussianReal 0 1) := nullSingletonClass_gaussianReal (by norm_num)
    refine measure_mono_null (t := {c / √(a ⬝ᵥ S *ᵥ a)}) (fun x hx => ?_) (measure_singleton _)
    have hx' : √(a ⬝ᵥ S *ᵥ a) * x = c := hx
    have := (sqrt_pos.2 hs).ne'
    change x = _
    rw [← hx']
    field_simp
  rw [Measure.map_apply (MvGauss.measurable_dot a) (measurableSet_singleton c)] at h
  rw [ae_iff]
  simp only [ne_eq, not_not]
  exact h

/-- Joint probability of two half-spaces. -/
lemma halfspace2 {S : Matrix ι ι ℝ} (hS : S.PosSemidef) (a b : ι → ℝ) (x y : ℝ) (ha : 0 < a ⬝ᵥ S *ᵥ a) (hb : 0 < b ⬝ᵥ S *ᵥ b) :
    (Spec.mvn S).real {z | a ⬝ᵥ z ≤ √(a ⬝ᵥ S *ᵥ a) * x ∧ b ⬝ᵥ z ≤ √(b ⬝ᵥ S *ᵥ b) * y} =
      (Spec.mvn !![1, a ⬝ᵥ S *ᵥ b / (√(a ⬝ᵥ S *ᵥ a) * √(b ⬝ᵥ S *ᵥ b)); a ⬝ᵥ S *ᵥ b / (√(a ⬝ᵥ S *ᵥ a) * √(b ⬝ᵥ S *ᵥ b)), 1]).real
        {z : Fin 2 → ℝ | z 0 ≤ x ∧ z 1 ≤ y} := by
  set p := √(a ⬝ᵥ S *ᵥ a) with hp
  set q := √(b ⬝ᵥ S *ᵥ b) with hq
  have hpp : 0 < p := sqrt_pos.2 ha
  have hqq : 0 < q := sqrt_pos.2 hb
  have hp2 : p ^ 2 = a ⬝ᵥ S *ᵥ a := sq_sqrt ha.le
  have hq2 : q ^ 2 = b ⬝ᵥ S *ᵥ b := sq_sqrt hb.le
  have hsym : b ⬝ᵥ S *ᵥ a = a ⬝ᵥ S *ᵥ b := by
    have ht : Sᵀ = S := by
      have := hS.1; rwa [IsHermitian, conjTranspose_eq_transpose_of_trivial] at this
    rw [dotProduct_mulVec, ← mulVec_transpose, ht, dotProduct_comm]
  set B : Matrix (Fin 2) ι ℝ := Matrix.of ![fun i => a i / p, fun i => b i / q] with hB
  have hBz : ∀ z : ι → ℝ, B *ᵥ z = ![a ⬝ᵥ z / p, b ⬝ᵥ z / q] := by
    intro z
    ext k
    fin_cases k <;> simp [hB, mulVec, dotProduct, Finset.sum_div] <;> exact Finset.sum_congr rfl fun i _ => by ring
  have hent : ∀ k l, (B * S * Bᵀ) k l = B k ⬝ᵥ S *ᵥ B l := by
    intro k l
    rw [Matrix.mul_assoc]
    simp [Matrix.mul_apply, dotProduct, mulVec]
  have hsc : ∀ (u w : ι → ℝ) (r s : ℝ), (fun i => u i / r) ⬝ᵥ S *ᵥ (fun i => w i / s) = u ⬝ᵥ S *ᵥ w / (r * s) := by
    intro u w r s
    have e1 : (fun i => u i / r) = (1 / r) • u := by ext i; simp; ring
    have e2 : (fun i => w i / s) = (1 / s) • w := by ext i; simp; ring
    rw [e1, e2, mulVec_smul, smul_dotProduct, dotProduct_smul, smul_eq_mul, smul_eq_mul]
    field_simp
  have hM : B * S * Bᵀ = !![1, a ⬝ᵥ S *ᵥ b / (p * q); a ⬝ᵥ S *ᵥ b / (p * q), 1] := by
    have h0 : B 0 = fun i => a i / p := rfl
    have h1 : B 1 = fun i => b i / q := rfl
    ext k l
    rw [hent]
    fin_cases k <;> fin_cases l
    · change B 0 ⬝ᵥ S *ᵥ B 0 = 1
      rw [h0, hsc, ← hp2]; field_simp
    · change B 0 ⬝ᵥ S *ᵥ B 1 = _
      rw [h0, h1, hsc]; rfl
    · change B 1 ⬝ᵥ S *ᵥ B 0 = _
      rw [h0, h1, hsc, hsym, mul_comm q p]; rfl
    · change B 1 ⬝ᵥ S *ᵥ B 1 = 1
      rw [h1, hsc, ← hq2]; field_simp
  have hms : MeasurableSet {z : Fin 2 → ℝ | z 0 ≤ x ∧ z 1 ≤ y} :=
    (measurableSet_le (measurable_pi_apply 0) measurable_const).inter (measurableSet_le (measurable_pi_apply 1) measurable_const)
  rw [← hM, ← map_mulVec_mvn hS B, map_measureReal_apply (by fun_prop) hms]
  congr 1
  ext z
  simp only [Set.mem_ofPred_eq, Set.mem_preimage, hBz]
  simp only [cons_val_zero, cons_val_one, cons_val_fin_one, div_le_iff₀ hpp, div_le_iff₀ hqq]
  rw [mul_comm p x, mul_comm q y]

end MultiLogn

end PyFENG
