import Verif.Props.Basket2
import Verif.Lemmas.CallMoments
import Verif.Lemmas.JuMoments

/-!
# The Ju (2002) basket price reproduces the moments of the basket: second exactly, third and fourth to fourth order (C94)
-/

namespace PyFENG

open MeasureTheory ProbabilityTheory Matrix Real Set

namespace Basket

variable {n : ℕ} (o : Ma n)

lemma correction_gbm {F s : ℝ} (hF : 0 < F) (hs : 0 < s) (z : ℝ) : log (F / Spec.gbm F s z) / s - 0.5 * s = -z := by
  unfold Spec.gbm
  rw [← div_div, div_self hF.ne', one_div, ← exp_neg, log_exp]
  field_simp
  ring

/-- Ju's correction integrated against a power of the strike. -/
lemma correction_int {T : ℝ} {fwd : Fin n → ℝ} (hm : 0 < BasketABC.m1 o fwd) (hs : 0 < BasketLevy.std o fwd T) (m : ℕ) :
    let j := BasketJu.jd (BasketJu.sums o fwd T)
    IntegrableOn (fun K => K ^ m * BasketJu.correction o K fwd T) (Ioi 0) ∧
    ∫ K in Ioi (0:ℝ), K ^ m * BasketJu.correction o K fwd T =
      (j.1 - j.2.1 + j.2.2 - (m + 2) * (j.2.1 - j.2.2) + (m + 2) ^ 2 * j.2.2) *
        (BasketABC.m1 o fwd ^ (m + 2) * exp (BasketLevy.std o fwd T ^ 2) ^ (((m + 2) * (m + 1) : ℝ) / 2)) := by
  intro j
  obtain ⟨h1, h2⟩ := CallMoments.subst hm hs fun K => K ^ m * BasketJu.correction o K fwd T
  have hq := CallMoments.quad (F := BasketABC.m1 o fwd) hs (m + 2) (j.1 - j.2.1 + j.2.2) (j.2.1 - j.2.2) j.2.2
  have e : (fun z => BasketLevy.std o fwd T * Spec.gbm (BasketABC.m1 o fwd) (BasketLevy.std o fwd T) z *
      (Spec.gbm (BasketABC.m1 o fwd) (BasketLevy.std o fwd T) z ^ m *
        BasketJu.correction o (Spec.gbm (BasketABC.m1 o fwd) (BasketLevy.std o fwd T) z) fwd T)) =
      fun z => npdf z * ((j.1 - j.2.1 + j.2.2 - (j.2.1 - j.2.2) * z / BasketLevy.std o fwd T
        + j.2.2 * (z ^ 2 - 1) / BasketLevy.std o fwd T ^ 2) * Spec.gbm (BasketABC.m1 o fwd) (BasketLevy.std o fwd T) z ^ (m + 2)) := by
    funext z
    unfold BasketJu.correction
    simp only
    rw [correction_gbm hm hs z, npdf_neg]
    change _ * (_ * (_ * ((j.1 - j.2.1 + j.2.2) * _ + (j.2.1 - j.2.2) * _ + j.2.2 * _))) = _
    have := hs.ne'
    field_simp
    ring
  simp only [e] at h1 h2
  refine ⟨h1.2 ((integrable_gauss_iff _).1 hq.1), ?_⟩
  rw [h2, ← integral_gauss]
  refine hq.2.trans ?_
  push_cast
  ring_nf

lemma levy_int {F s : ℝ} (hF : 0 < F) (hs : 0 < s) (m : ℕ) :
    IntegrableOn (fun K => K ^ m * black 1 F K s) (Ioi 0) ∧
    ∫ K in Ioi (0:ℝ), K ^ m * black 1 F K s = F ^ (m + 2) * exp (s ^ 2) ^ (((m + 2) * (m + 1) : ℝ) / 2) / ((m + 1) * (m + 2)) := by
  have hq := CallMoments.quad (F := F) hs (m + 2) 1 0 0
  simp only [zero_mul, zero_div, sub_zero, add_zero, one_mul, mul_zero] at hq
  have hsp := CallMoments.span (μ := gaussianReal 0 1) (A := fun z => Spec.gbm F s z) (by unfold Spec.gbm; fun_prop)
    (fun z => (mul_pos hF (exp_pos _)).le) m hq.1
  have e : ∀ K ∈ Ioi (0:ℝ), K ^ m * ∫ z, max (Spec.gbm F s z - K) 0 ∂(gaussianReal 0 1) = K ^ m * black 1 F K s := fun K hK => by
    rw [← gaussE_black (Or.inl rfl) hF hK hs]
    unfold Spec.gaussE Spec.payoff
    simp only [one_mul]
  refine ⟨hsp.1.congr_fun e measurableSet_Ioi, ?_⟩
  rw [← setIntegral_congr_fun measurableSet_Ioi e, hsp.2]
  congr 1
  refine hq.2.trans ?_
  push_cast
  ring_nf

/-- The moments spanned by the prices of `BsmBasketJu2002`. -/
lemma ju_callMoment {T : ℝ} {spot : Fin n → ℝ} (hF : 0 < ∑ i, o.weight i * Spec.forwards o.isFwd o.intr o.divr spot T i)
    (hv : eps ≤ BasketLevy.std o (Spec.forwards o.isFwd o.intr o.divr spot T) T) (m : ℕ) :
    let F := Spec.forwards o.isFwd o.intr o.divr spot T
    let j := BasketJu.jd (BasketJu.sums o F T)
    Spec.callMoment (fun K => BasketJu.price o K spot T 1) (Spec.discount o.intr T) (m + 2) =
      BasketABC.m1 o F ^ (m + 2) * exp (BasketLevy.std o F T ^ 2) ^ (((m + 2) * (m + 1) : ℝ) / 2) *
        (1 + (m + 2) * (m + 1) * (j.1 - (m + 3) * j.2.1 + (m ^ 2 + 5 * m + 7) * j.2.2)) := by
  intro F j
  have hs := eps_pos.trans_le hv
  have hm : 0 < BasketABC.m1 o F := by rw [m1_eq]; exact hF
  obtain ⟨i1, v1⟩ := levy_int hm hs m
  obtain ⟨i2, v2⟩ := correction_int o hm hs m
  have hd : Spec.discount o.intr T ≠ 0 := (exp_pos _).ne'
  unfold Spec.callMoment
  have e : ∀ K ∈ Ioi (0:ℝ), ((m + 2 : ℕ) : ℝ) * (((m + 2 : ℕ) : ℝ) - 1) * K ^ (m + 2 - 2) * (BasketJu.price o K spot T 1 / Spec.discount o.intr T) =
      (m + 2) * (m + 1) * (K ^ m * black 1 (BasketABC.m1 o F) K (BasketLevy.std o F T) + K ^ m * BasketJu.correction o K F T) := fun K hK => by
    unfold BasketJu.price BasketLevy.price
    rw [SpreadOpt.priceFormula_black, fwd_eq, sigmaStd_of_le (by rw [sqrt_one, mul_one]; exact hv), sqrt_one, mul_one, df_eq]
    change _ = _
    rw [← mul_add, mul_div_cancel_left₀ _ hd]
    push_cast
    ring
  rw [setIntegral_congr_fun measurableSet_Ioi e, integral_const_mul, integral_add i1 i2, v1, v2]
  have h1 : (m:ℝ) + 1 ≠ 0 := by positivity
  have h2 : (m:ℝ) + 2 ≠ 0 := by positivity
  generalize exp (BasketLevy.std o F T ^ 2) ^ (((m + 2) * (m + 1) : ℝ) / 2) = E
  change _ * (_ + (j.1 - j.2.1 + j.2.2 - (m + 2) * (j.2.1 - j.2.2) + (m + 2) ^ 2 * j.2.2) * _) = _
  field_simp
  ring

/-- **C94.** The specification of the spanned moment is the moment: for a long basket and the exact option prices it is `E[A^k]`. -/
theorem callMoment_basket (ho : o.Valid) {T : ℝ} (hT : 0 ≤ T) {F : Fin n → ℝ} (hpos : ∀ i, 0 ≤ F i * o.weight i) {df : ℝ} (hdf : df ≠ 0) (m : ℕ)
    (hm : m ≤ 2) :
    Spec.callMoment (fun K => Spec.basketPrice o.weight F (T • o.cov) df K 1) df (m + 2) =
      ∫ z, Spec.basket o.weight F (T • o.cov) z ^ (m + 2) ∂(Spec.mvn (T • o.cov)) := by
  have hS := posSemidef_smul ho.posSemidef hT
  have hi : Integrable (fun z => Spec.basket o.weight F (T • o.cov) z ^ (m + 2)) (Spec.mvn (T • o.cov)) := by
    simp only [basket_eq]
    interval_cases m
    · exact (basket2 hS _).1
    · exact (basket3 hS _).1
    · exact (basket4 hS _).1
  haveI : IsProbabilityMeasure (Spec.mvn (T • o.cov)) := by unfold Spec.mvn; exact Measure.isProbabilityMeasure_map (by fun_prop)
  have h := CallMoments.span (measurable_basket o.weight F (T • o.cov)) (fun z => by
    rw [basket_eq]
    exact Finset.sum_nonneg fun i _ => mul_nonneg (hpos i) (exp_pos _).le) m hi
  unfold Spec.callMoment
  have h1 : (m:ℝ) + 1 ≠ 0 := by positivity
  have h2 : (m:ℝ) + 2 ≠ 0 := by positivity
  have e : ∀ K ∈ Ioi (0:ℝ), ((m + 2 : ℕ) : ℝ) * (((m + 2 : ℕ) : ℝ) - 1) * K ^ (m + 2 - 2) *
      (Spec.basketPrice o.weight F (T • o.cov) df K 1 / df) =
      (m + 2) * (m + 1) * (K ^ m * ∫ z, max (Spec.basket o.weight F (T • o.cov) z - K) 0 ∂(Spec.mvn (T • o.cov))) := fun K _ => by
    unfold Spec.basketPrice Spec.payoff
    rw [mul_div_cancel_left₀ _ hdf, show m + 2 - 2 = m by omega]
    simp only [one_mul]
    push_cast
    ring
  rw [setIntegral_congr_fun measurableSet_Ioi e, integral_const_mul, h.2]
  field_simp

/-- **C94.** The mean and the second moment spanned by the Ju prices are exactly those of the basket, for weights of any sign with a
positive basket forward (the mean is the parity theorem `ju_parity`). -/
theorem ju_second_moment (ho : o.Valid) {T : ℝ} (hT : 0 ≤ T) {spot : Fin n → ℝ}
    (hF : 0 < ∑ i, o.weight i * Spec.forwards o.isFwd o.intr o.divr spot T i)
    (hv : eps ≤ BasketLevy.std o (Spec.forwards o.isFwd o.intr o.divr spot T) T) :
    Spec.callMoment (fun K => BasketJu.price o K spot T 1) (Spec.discount o.intr T) 2 =
      ∫ z, Spec.basket o.weight (Spec.forwards o.isFwd o.intr o.divr spot T) (T • o.cov) z ^ 2 ∂(Spec.mvn (T • o.cov)) := by
  have h := ju_callMoment o hF hv 0
  set F := Spec.forwards o.isFwd o.intr o.divr spot T with hFd
  have hm : BasketABC.m1 o F ≠ 0 := by rw [m1_eq]; exact hF.ne'
  simp only [zero_add, Nat.cast_zero] at h
  rw [h, (basket_raw_moments o ho hT F).2.1]
  have hj : ∀ s : BasketJu.Sums, (BasketJu.jd s).1 - 3 * (BasketJu.jd s).2.1 + (0 ^ 2 + 5 * 0 + 7) * (BasketJu.jd s).2.2 = 0 := fun s => by
    unfold BasketJu.jd
    simp only
    ring
  rw [hj, show ((2 * 1 : ℝ) / 2) = 1 by norm_num, rpow_one, exp_std_sq ho hT F hm (eps_pos.trans_le hv)]
  field_simp
  ring

open JuSums in
/-- The sums computed by the code are the contracted sums. -/
lemma ju_sums_eq (ho : o.Valid) (T : ℝ) (fwd : Fin n → ℝ) (hpos : ∀ i, 0 ≤ fwd i * o.weight i) :
    let f : Fin n → ℝ := fun i => fwd i * o.weight i
    let c : Fin n → Fin n → ℝ := fun i j => o.cov i j * T
    BasketJu.sums o fwd T =
      { m1 := mm f, u21 := u1 f c, u22 := u2 f c, u23 := u3 f c, a12a2 := 2 * H f c, a13a3 := 6 * Star f c,
        a12a22 := 8 * Path f c + 2 * u1 f c * u2 f c, a1a2a3 := 6 * G f c, a23 := 8 * Tri f c } := by
  intro f c
  have hcs : ∀ i j, c i j = c j i := fun i j => by simp only [c]; rw [cov_symm ho i j]
  have hA : ∀ i, (f ᵥ* (Matrix.of c)) i = A f c i := fun i => by
    simp only [Matrix.vecMul, dotProduct, A, Matrix.of_apply]
    exact Finset.sum_congr rfl fun j _ => by rw [hcs j i]
  have hQ : ∀ i, (f ᵥ* (Matrix.of fun i j => c i j ^ 2)) i = Q f c i := fun i => by
    simp only [Matrix.vecMul, dotProduct, Q, Matrix.of_apply]
    exact Finset.sum_congr rfl fun j _ => by rw [hcs j i]
  have h3 : ∀ i, (f ᵥ* (Matrix.of fun i j => c i j ^ 3)) i = ∑ j, f j * c i j ^ 3 := fun i => by
    simp only [Matrix.vecMul, dotProduct, Matrix.of_apply]
    exact Finset.sum_congr rfl fun j _ => by rw [hcs j i]
  have e1 : ∑ i, (f ᵥ* (Matrix.of c)) i * f i = u1 f c := Finset.sum_congr rfl fun i _ => by rw [hA]; ring
  have e2 : ∑ i, (f ᵥ* (Matrix.of fun i j => c i j ^ 2)) i * f i = u2 f c := Finset.sum_congr rfl fun i _ => by rw [hQ]; ring
  have e3 : ∑ i, (f ᵥ* (Matrix.of fun i j => c i j ^ 3)) i * f i = u3 f c := Finset.sum_congr rfl fun i _ => by rw [h3]; ring
  have e4 : ∑ i, f i * (f ᵥ* (Matrix.of c)) i ^ 2 = H f c := Finset.sum_congr rfl fun i _ => by rw [hA]
  have e5 : ∑ i, f i * (f ᵥ* (Matrix.of c)) i ^ 3 = Star f c := Finset.sum_congr rfl fun i _ => by rw [hA]
  have e6 : ∑ i, ((fun i => (f ᵥ* (Matrix.of c)) i * f i) ᵥ* (Matrix.of c)) i * ((f ᵥ* (Matrix.of c)) i * f i) = Path f c := by
    refine Finset.sum_congr rfl fun i _ => ?_
    simp only [hA]
    simp only [Matrix.vecMul, dotProduct, Matrix.of_apply]
    rw [Finset.sum_mul]
    exact Finset.sum_congr rfl fun j _ => by rw [hcs j i]; ring
  have e7 : ∑ i, (f ᵥ* (Matrix.of fun i j => c i j ^ 2)) i * ((f ᵥ* (Matrix.of c)) i * f i) = G f c :=
    Finset.sum_congr rfl fun i _ => by rw [hA, hQ]; ring
  have e8 : ∑ i, ∑ j, ∑ k, (√(f i) * c i j * √(f j)) * (√(f j) * c j k * √(f k)) * (√(f k) * c k i * √(f i)) = Tri f c := by
    refine Finset.sum_congr rfl fun i _ => Finset.sum_congr rfl fun j _ => Finset.sum_congr rfl fun k _ => ?_
    have h1 := mul_self_sqrt (hpos i)
    have h2 := mul_self_sqrt (hpos j)
    have h3 := mul_self_sqrt (hpos k)
    calc _ = (√(f i) * √(f i)) * ((√(f j) * √(f j)) * ((√(f k) * √(f k)) * (c i j * c k i * c j k))) := by ring
      _ = _ := by rw [h1, h2, h3, hcs k i]
  unfold BasketJu.sums
  simp only
  exact congr (congr (congr (congr (congr (congr (congr (congr (congrArg _ rfl) e1) e2) e3) (congrArg (2 * ·) e4)) (congrArg (6 * ·) e5))
    (by rw [← e6, ← e1, ← e2]; rfl)) (congrArg (6 * ·) e7)) (congrArg (8 * ·) e8)

open JuSums in
/-- **C94.** Third and fourth moments.  For a long basket with all covariances `|ρ_ij σ_i σ_j| T ≤ δ ≤ 1/6`, the third and fourth moments spanned
by the prices of `BsmBasketJu2002` differ from those of the basket by at most `150 δ⁴ F³` and `3000 δ⁴ F⁴` (`F` the basket forward). -/
theorem ju_third_fourth_moment (ho : o.Valid) {T δ : ℝ} (hT : 0 ≤ T) {spot : Fin n → ℝ}
    (hpos : ∀ i, 0 ≤ Spec.forwards o.isFwd o.intr o.divr spot T i * o.weight i)
    (hF : 0 < ∑ i, o.weight i * Spec.forwards o.isFwd o.intr o.divr spot T i)
    (hv : eps ≤ BasketLevy.std o (Spec.forwards o.isFwd o.intr o.divr spot T) T)
    (hδ0 : 0 ≤ δ) (hδ : δ ≤ 1 / 6) (hc : ∀ i j, |o.cov i j * T| ≤ δ) :
    let F := Spec.forwards o.isFwd o.intr o.divr spot T
    |Spec.callMoment (fun K => BasketJu.price o K spot T 1) (Spec.discount o.intr T) 3 -
      ∫ z, Spec.basket o.weight F (T • o.cov) z ^ 3 ∂(Spec.mvn (T • o.cov))| ≤ 150 * δ ^ 4 * (∑ i, o.weight i * F i) ^ 3 ∧
    |Spec.callMoment (fun K => BasketJu.price o K spot T 1) (Spec.discount o.intr T) 4 -
      ∫ z, Spec.basket o.weight F (T • o.cov) z ^ 4 ∂(Spec.mvn (T • o.cov))| ≤ 3000 * δ ^ 4 * (∑ i, o.weight i * F i) ^ 4 := by
  intro F
  have h3 := ju_callMoment o hF hv 1
  have h4 := ju_callMoment o hF hv 2
  have hm : 0 < BasketABC.m1 o F := by rw [m1_eq]; exact hF
  have hE := exp_std_sq ho hT F hm.ne' (eps_pos.trans_le hv)
  change ∀ i, 0 ≤ F i * o.weight i at hpos
  set f : Fin n → ℝ := fun i => F i * o.weight i with hf
  set c : Fin n → Fin n → ℝ := fun i j => o.cov i j * T with hcd
  have hcs : ∀ i j, c i j = c j i := fun i j => by simp only [hcd]; rw [cov_symm ho i j]
  have hmm : BasketABC.m1 o F = mm f := rfl
  have hm' : 0 < mm f := hm
  have hS := posSemidef_smul ho.posSemidef hT
  have eS : ∀ i j, (T • o.cov) i j = c i j := fun i j => by simp [hcd, mul_comm]
  have m3 : ∫ z, Spec.basket o.weight F (T • o.cov) z ^ 3 ∂(Spec.mvn (T • o.cov)) = S3 f (fun i j k => exp (c i j + c i k + c j k)) := by
    simp only [basket_eq]
    rw [(basket3 hS _).2]
    refine Finset.sum_congr rfl fun i _ => Finset.sum_congr rfl fun j _ => Finset.sum_congr rfl fun k _ => ?_
    simp only [eS]
    rw [hcs j i, hcs k i, hcs k j, exp_add, exp_add]
    ring
  have m4 : ∫ z, Spec.basket o.weight F (T • o.cov) z ^ 4 ∂(Spec.mvn (T • o.cov)) =
      S4 f (fun i j k l => exp (c i j + c i k + c i l + c j k + c j l + c k l)) := by
    simp only [basket_eq]
    rw [(basket4 hS _).2]
    refine Finset.sum_congr rfl fun i _ => Finset.sum_congr rfl fun j _ => Finset.sum_congr rfl fun k _ => Finset.sum_congr rfl fun l _ => ?_
    simp only [eS]
    rw [hcs j i, hcs k i, hcs l i, hcs k j, hcs l j, hcs l k, exp_add, exp_add, exp_add, exp_add, exp_add]
    ring
  have hv3 : exp (BasketLevy.std o F T ^ 2) = S3 f (fun i j _ => exp (c i j)) / mm f ^ 3 := by
    rw [hE, hmm]
    have e : S3 f (fun i j _ => exp (c i j)) = mm f * BasketABC.m2 o F T := by
      unfold S3 BasketABC.m2
      rw [Finset.mul_sum]
      refine Finset.sum_congr rfl fun i _ => ?_
      rw [Finset.mul_sum]
      refine Finset.sum_congr rfl fun j _ => ?_
      rw [mm, Finset.sum_mul]
      exact Finset.sum_congr rfl fun k _ => by
        simp only [BasketABC.M2, BasketABC.P, BasketABC.v, hf, hcd]; ring
    rw [e]
    field_simp
  have hsum : BasketJu.sums o F T =
      { m1 := mm f, u21 := u1 f c, u22 := u2 f c, u23 := u3 f c, a12a2 := 2 * H f c, a13a3 := 6 * Star f c,
        a12a22 := 8 * Path f c + 2 * u1 f c * u2 f c, a1a2a3 := 6 * G f c, a23 := 8 * Tri f c } := ju_sums_eq o ho T F hpos
  have hmn := hm'.ne'
  change 0 < ∑ i, o.weight i * F i at hF
  rw [← m1_eq o F, hmm]
  set v := exp (BasketLevy.std o F T ^ 2) with hvd
  have t3 := third (f := f) (c := c) hpos hm' hcs hc hδ0 hδ hv3 rfl
  have t4 := fourth (f := f) (c := c) hpos hm' hcs hc hδ0 hδ hv3 rfl
  constructor
  · simp only at h3
    rw [show (1 + 2 : ℕ) = 3 from rfl] at h3
    rw [h3, m3, hsum, hmm]
    have e1 : v ^ (((((1:ℕ):ℝ) + 2) * (((1:ℕ):ℝ) + 1)) / 2) = v ^ 3 := by
      rw [show ((((1:ℕ):ℝ) + 2) * (((1:ℕ):ℝ) + 1)) / 2 = ((3:ℕ):ℝ) by norm_num, rpow_natCast]
    rw [e1]
    have hp : 0 < mm f ^ 3 := by positivity
    have key : ∀ X D D' : ℝ, D = D' → |v ^ 3 * D' - X / mm f ^ 3| ≤ 150 * δ ^ 4 → |mm f ^ 3 * v ^ 3 * D - X| ≤ 150 * δ ^ 4 * mm f ^ 3 := by
      rintro X D D' rfl h
      have e : mm f ^ 3 * v ^ 3 * D - X = (v ^ 3 * D - X / mm f ^ 3) * mm f ^ 3 := by field_simp
      rw [e, abs_mul, abs_of_pos hp]
      exact mul_le_mul_of_nonneg_right h hp.le
    refine key _ _ _ ?_ t3
    unfold BasketJu.jd BasketJu.a3 BasketJu.a2 BasketJu.a1
    simp only
    clear_value f c
    generalize mm f = M at *
    push_cast
    field_simp
    ring
  · simp only at h4
    rw [show (2 + 2 : ℕ) = 4 from rfl] at h4
    rw [h4, m4, hsum, hmm]
    have e1 : v ^ (((((2:ℕ):ℝ) + 2) * (((2:ℕ):ℝ) + 1)) / 2) = v ^ 6 := by
      rw [show ((((2:ℕ):ℝ) + 2) * (((2:ℕ):ℝ) + 1)) / 2 = ((6:ℕ):ℝ) by norm_num, rpow_natCast]
    rw [e1]
    have hp : 0 < mm f ^ 4 := by positivity
    have key : ∀ X D D' : ℝ, D = D' → |v ^ 6 * D' - X / mm f ^ 4| ≤ 3000 * δ ^ 4 → |mm f ^ 4 * v ^ 6 * D - X| ≤ 3000 * δ ^ 4 * mm f ^ 4 := by
      rintro X D D' rfl h
      have e : mm f ^ 4 * v ^ 6 * D - X = (v ^ 6 * D - X / mm f ^ 4) * mm f ^ 4 := by field_simp
      rw [e, abs_mul, abs_of_pos hp]
      exact mul_le_mul_of_nonneg_right h hp.le
    refine key _ _ _ ?_ t4
    unfold BasketJu.jd BasketJu.a3 BasketJu.a2 BasketJu.a1
    simp only
    clear_value f c
    generalize mm f = M at *
    push_cast
    field_simp
    ring

/-- Two uncorrelated assets with volatilities 30% and 20%, equally weighted. -/
noncomputable def juEx : Ma 2 where
  sigma := ![3 / 10, 1 / 5]
  cov := !![9 / 100, 0; 0, 1 / 25]
  chol := !![3 / 10, 0; 0, 1 / 5]
  weight := ![1 / 2, 1 / 2]
  intr := 0
  divr := 0
  isFwd := false

/-- The hypotheses of the moment theorems hold for a one-year option on `juEx`, with `δ = 9/100`. -/
example : juEx.Valid ∧ (∀ i, 0 ≤ Spec.forwards juEx.isFwd juEx.intr juEx.divr ![100, 100] 1 i * juEx.weight i) ∧
    0 < ∑ i, juEx.weight i * Spec.forwards juEx.isFwd juEx.intr juEx.divr ![100, 100] 1 i ∧
    eps ≤ BasketLevy.std juEx (Spec.forwards juEx.isFwd juEx.intr juEx.divr ![100, 100] 1) 1 ∧ (∀ i j, |juEx.cov i j * 1| ≤ 9 / 100) := by
  have hF : Spec.forwards juEx.isFwd juEx.intr juEx.divr ![100, 100] 1 = ![100, 100] := by
    ext i; unfold Spec.forwards Spec.forward juEx; simp
  rw [hF]
  refine ⟨⟨?_, ?_⟩, ?_, ?_, ?_, ?_⟩
  · intro i; fin_cases i <;> norm_num [juEx]
  · ext i j; fin_cases i <;> fin_cases j <;> norm_num [juEx, Matrix.mul_apply, Fin.sum_univ_two]
  · intro i; fin_cases i <;> norm_num [juEx]
  · norm_num [juEx, Fin.sum_univ_two]
  · have hv : 1 / 50 ≤ BasketABC.varScaled juEx ![100, 100] 1 := by
      unfold BasketABC.varScaled BasketABC.m2 BasketABC.m1 BasketABC.M2 BasketABC.P BasketABC.v
      simp only [Fin.sum_univ_two, juEx, Matrix.cons_val_zero, Matrix.cons_val_one, Matrix.of_apply, mul_one]
      simp only [Matrix.cons_val', Matrix.cons_val_zero, Matrix.cons_val_one, Matrix.cons_val_fin_one, exp_zero]
      have h1 := add_one_le_exp (9 / 100 : ℝ)
      have h2 := add_one_le_exp (1 / 25 : ℝ)
      norm_num
      linarith
    have hl : 1 / 100 ≤ log (1 + BasketABC.varScaled juEx ![100, 100] 1) := by
      have h := one_sub_inv_le_log_of_pos (show (0:ℝ) < 1 + BasketABC.varScaled juEx ![100, 100] 1 by linarith)
      have h2 : (1 + BasketABC.varScaled juEx ![100, 100] 1)⁻¹ ≤ (51 / 50)⁻¹ := inv_anti₀ (by norm_num) (by linarith)
      norm_num at h2
      linarith
    unfold BasketLevy.std
    refine le_trans ?_ (sqrt_le_sqrt hl)
    rw [show (1 / 100 : ℝ) = (1 / 10) ^ 2 by norm_num, sqrt_sq (by norm_num)]
    have := eps_lt
    linarith
  · intro i j; fin_cases i <;> fin_cases j <;> norm_num [juEx, abs_le]

end Basket

end PyFENG
