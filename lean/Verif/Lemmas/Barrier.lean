import Verif.Model.Barrier
import Verif.Lemmas.BlackMore

/-! # Helper lemmas for barrier options: method of images -/

open MeasureTheory ProbabilityTheory Set Filter Topology Real

namespace PyFENG

/-- payoff `cp (x - K)` received when `cp (x - K2) > 0` -/
noncomputable def subPay (cp K K2 x : ℝ) : ℝ := if 0 < cp * (x - K2) then cp * (x - K) else 0

lemma subPay_self (cp K x : ℝ) : subPay cp K K x = Spec.payoff cp K x := by
  unfold subPay Spec.payoff
  split_ifs with h
  · rw [max_eq_left h.le]
  · rw [max_eq_right (not_lt.1 h)]

lemma integrable_subPay {μ : Measure ℝ} [IsFiniteMeasure μ] {X : ℝ → ℝ} (hX : Integrable X μ)
    (hm : Measurable X) (cp K K2 : ℝ) : Integrable (fun z => subPay cp K K2 (X z)) μ := by
  have hs : MeasurableSet {z | 0 < cp * (X z - K2)} :=
    measurableSet_lt measurable_const ((hm.sub_const K2).const_mul cp)
  have := ((hX.sub (integrable_const K)).const_mul cp).indicator hs
  refine this.congr (ae_of_all _ fun z => ?_)
  simp only [subPay, indicator, mem_ofPred_eq, Pi.sub_apply]

/-- abstract knock-out representation -/
lemma barrier_ko_abstract {sub : ℝ → ℝ → ℝ → ℝ → ℝ} {psi S' D K B S cp io c : ℝ} {X X' w : ℝ → ℝ}
    (hcp : Spec.IsCp cp) (hio : io ≤ 0)
    (hsub : ∀ K2, K2 = K ∨ K2 = B →
      sub K S cp K2 = D * Spec.gaussE fun z => subPay cp K K2 (X z))
    (hsub' : ∀ K2, K2 = K ∨ K2 = B →
      sub K S' cp K2 = D * Spec.gaussE fun z => subPay cp K K2 (X' z))
    (hpar : ∀ K2, cp * (sub K S' cp K2 - sub K S' (-cp) K2) = c)
    (hX : Integrable X (gaussianReal 0 1)) (hXm : Measurable X)
    (hX' : Integrable X' (gaussianReal 0 1)) (hXm' : Measurable X')
    (himg : ∀ g : ℝ → ℝ, psi * Spec.gaussE (fun z => g (X' z)) = Spec.gaussE fun z => g (X z) * w z)
    (himgI : ∀ g : ℝ → ℝ, Integrable (fun z => g (X' z)) (gaussianReal 0 1) →
      Integrable (fun z => g (X z) * w z) (gaussianReal 0 1))
    (hw : ∀ z, S = B ∨ X z = B → w z = 1)
    (hdead : (cp = 1 → B < S → B ≤ K) ∧ (cp = -1 → S ≤ B → K ≤ B)) :
    priceBarrierWith sub psi S' K B S cp io = D * Spec.gaussE fun z =>
      Spec.payoff cp K (X z) * (if 0 < (S - B) * (X z - B) then 1 - w z else 0) := by
  have key : ∀ g : ℝ → ℝ, Integrable (fun z => g (X z)) (gaussianReal 0 1) →
      Integrable (fun z => g (X' z)) (gaussianReal 0 1) →
      (∀ z, g (X z) * (1 - w z) = Spec.payoff cp K (X z) *
        (if 0 < (S - B) * (X z - B) then 1 - w z else 0)) →
      D * Spec.gaussE (fun z => g (X z)) - psi * (D * Spec.gaussE fun z => g (X' z))
        = D * Spec.gaussE fun z =>
          Spec.payoff cp K (X z) * (if 0 < (S - B) * (X z - B) then 1 - w z else 0) := by
    intro g h1 h2 h3
    have : psi * (D * Spec.gaussE fun z => g (X' z)) = D * (psi * Spec.gaussE fun z => g (X' z)) := by
      ring
    rw [this, himg, ← mul_sub]
    congr 1
    simp_rw [← h3]
    unfold Spec.gaussE
    rw [← integral_sub h1 (himgI g h2)]
    congr 1; ext z; ring
  have hI := integrable_subPay hX hXm
  have hI' := integrable_subPay hX' hXm'
  -- the mirrored legs
  have hmir : ∀ K2, sub K S' (-cp) K - sub K S' (-cp) K2 = sub K S' cp K - sub K S' cp K2 := by
    intro K2
    have h1 := hpar K
    have h2 := hpar K2
    rcases hcp with rfl | rfl <;> linarith
  unfold priceBarrierWith
  rcases hcp with rfl | rfl
  · by_cases hBS : B < S
    · -- call, barrier below spot
      have hBK := hdead.1 rfl hBS
      simp only [hBS, if_true, mul_one, one_mul, show (1:ℝ) > 0 by norm_num, not_lt.2 hio,
        if_false, sub_zero, zero_add]
      rw [hsub K (Or.inl rfl), hsub' K (Or.inl rfl)]
      apply key _ (hI _ _ _) (hI' _ _ _)
      intro z
      rw [subPay_self]
      by_cases hz : B < X z
      · rw [if_pos (mul_pos (by linarith) (by linarith))]
      · have : Spec.payoff 1 K (X z) = 0 := by
          unfold Spec.payoff; rw [max_eq_right]; linarith [not_lt.1 hz]
        rw [this]; ring
    · -- call, barrier at or above spot
      have hSB := not_lt.1 hBS
      simp only [hBS, if_false, mul_one, one_mul, not_lt.2 hio, gt_iff_lt,
        show ¬ (0:ℝ) < -1 by norm_num]
      have hB' : max K B = K ∨ max K B = B := by
        rcases le_total K B with h | h
        · right; exact max_eq_right h
        · left; exact max_eq_left h
      rw [hmir, hsub K (Or.inl rfl), hsub _ hB', hsub' K (Or.inl rfl), hsub' _ hB']
      have := key (fun x => subPay 1 K K x - subPay 1 K (max K B) x)
        ((hI _ _ _).sub (hI _ _ _)) ((hI' _ _ _).sub (hI' _ _ _)) ?_
      · rw [← this]
        unfold Spec.gaussE
        rw [integral_sub (hI _ _ _) (hI _ _ _), integral_sub (hI' _ _ _) (hI' _ _ _)]
        ring
      · intro z
        rw [subPay_self]
        rcases hSB.eq_or_lt with h | h
        · rw [hw z (Or.inl h)]; simp
        · rcases lt_trichotomy (X z) B with hz | hz | hz
          · rw [if_pos (mul_pos_of_neg_of_neg (by linarith) (by linarith))]
            have : subPay 1 K (max K B) (X z) = 0 := by
              unfold subPay; rw [if_neg]; have := le_max_right K B; linarith
            rw [this, sub_zero]
          · rw [hw z (Or.inr hz)]; simp
          · rw [if_neg (by nlinarith)]
            unfold Spec.payoff subPay
            rcases le_total K B with hk | hk
            · rw [max_eq_right hk, if_pos (by linarith), max_eq_left (by linarith)]; ring
            · rw [max_eq_left hk]
              by_cases hk2 : 0 < 1 * (X z - K)
              · rw [if_pos hk2, max_eq_left hk2.le]; ring
              · rw [if_neg hk2, max_eq_right (not_lt.1 hk2)]; ring
  · by_cases hBS : B < S
    · -- put, barrier below spot
      have e1 : ((1:ℝ) * -1) = -1 := by norm_num
      have e2 : ((-1:ℝ) * -1) = 1 := by norm_num
      have e3 : -1 * max (-1 * K) (-1 * B) = min K B := by
        rw [neg_one_mul, neg_one_mul, neg_one_mul, max_neg_neg, neg_neg]
      simp only [hBS, if_true, e1, not_lt.2 hio, gt_iff_lt, e2, e3,
        if_false, show ¬ (0:ℝ) < -1 by norm_num]
      have hB' : min K B = K ∨ min K B = B := by
        rcases le_total K B with h | h
        · left; exact min_eq_left h
        · right; exact min_eq_right h
      have hm2 := hmir (min K B)
      rw [neg_neg] at hm2
      rw [hm2, hsub K (Or.inl rfl), hsub _ hB', hsub' K (Or.inl rfl), hsub' _ hB']
      have := key (fun x => subPay (-1) K K x - subPay (-1) K (min K B) x)
        ((hI _ _ _).sub (hI _ _ _)) ((hI' _ _ _).sub (hI' _ _ _)) ?_
      · rw [← this]
        unfold Spec.gaussE
        rw [integral_sub (hI _ _ _) (hI _ _ _), integral_sub (hI' _ _ _) (hI' _ _ _)]
        ring
      · intro z
        rw [subPay_self]
        rcases lt_trichotomy (X z) B with hz | hz | hz
        · rw [if_neg (by nlinarith)]
          unfold Spec.payoff subPay
          rcases le_total K B with hk | hk
          · rw [min_eq_left hk]
            by_cases hk2 : 0 < -1 * (X z - K)
            · rw [if_pos hk2, max_eq_left hk2.le]; ring
            · rw [if_neg hk2, max_eq_right (not_lt.1 hk2)]; ring
          · rw [min_eq_right hk, if_pos (by linarith), max_eq_left (by linarith)]; ring
        · rw [hw z (Or.inr hz)]; simp
        · rw [if_pos (mul_pos (by linarith) (by linarith))]
          have : subPay (-1) K (min K B) (X z) = 0 := by
            unfold subPay; rw [if_neg]; have := min_le_right K B; linarith
          rw [this, sub_zero]
    · -- put, barrier at or above spot
      have hSB := not_lt.1 hBS
      have hBK := hdead.2 rfl hSB
      have e2 : ((-1:ℝ) * -1) = 1 := by norm_num
      simp only [hBS, if_false, e2, not_lt.2 hio, gt_iff_lt, show (0:ℝ) < 1 by norm_num, if_true,
        one_mul, sub_zero, zero_add]
      rw [hsub K (Or.inl rfl), hsub' K (Or.inl rfl)]
      apply key _ (hI _ _ _) (hI' _ _ _)
      intro z
      rw [subPay_self]
      rcases hSB.eq_or_lt with h | h
      · rw [hw z (Or.inl h)]; simp
      · by_cases hz : X z < B
        · rw [if_pos (mul_pos_of_neg_of_neg (by linarith) (by linarith))]
        · have : Spec.payoff (-1) K (X z) = 0 := by
            unfold Spec.payoff; rw [max_eq_right]; linarith [not_lt.1 hz]
          rw [this]; ring

/-- value of the code's knock-out price in the non-reverse cases, whatever the strike -/
lemma barrier_ko_mirror {sub : ℝ → ℝ → ℝ → ℝ → ℝ} {psi S' K B S cp io : ℝ}
    (hio : io ≤ 0) (h : (cp = 1 ∧ B < S) ∨ (cp = -1 ∧ S ≤ B)) :
    priceBarrierWith sub psi S' K B S cp io = sub K S cp K - psi * sub K S' cp K := by
  unfold priceBarrierWith
  rcases h with ⟨rfl, h⟩ | ⟨rfl, h⟩
  · simp [h, not_lt.2 hio]
  · simp [not_lt.2 h, not_lt.2 hio]

/-- Cameron-Martin shift of the standard Gaussian. -/
lemma gaussE_shift (h : ℝ → ℝ) (c : ℝ) :
    Spec.gaussE (fun z => h (z + c)) = Spec.gaussE fun z => h z * exp (c * z - c ^ 2 / 2) := by
  unfold Spec.gaussE
  rw [integral_gauss, integral_gauss, ← integral_sub_right_eq_self _ c]
  congr 1; ext z
  have : npdf (z - c) = npdf z * exp (c * z - c ^ 2 / 2) := by
    unfold npdf
    rw [div_mul_eq_mul_div, ← exp_add]; congr 2; ring
  rw [this, sub_add_cancel]; ring

lemma integrable_shift (h : ℝ → ℝ) (c : ℝ)
    (hI : Integrable (fun z => h (z + c)) (gaussianReal 0 1)) :
    Integrable (fun z => h z * exp (c * z - c ^ 2 / 2)) (gaussianReal 0 1) := by
  rw [integrable_gauss_iff] at hI ⊢
  have := hI.comp_sub_right c
  refine this.congr (ae_of_all _ fun z => ?_)
  have : npdf (z - c) = npdf z * exp (c * z - c ^ 2 / 2) := by
    unfold npdf
    rw [div_mul_eq_mul_div, ← exp_add]; congr 2; ring
  simp only [sub_add_cancel, this]; ring

end PyFENG
