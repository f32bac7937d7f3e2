import Verif.Model.Params
import Mathlib.Algebra.Order.Chebyshev

/-!
# C31: multi-asset covariance / correlation construction
-/

namespace PyFENG

open Real

namespace Ma

lemma choleskyArg_of_symm {n : ℕ} {cov : Matrix (Fin n) (Fin n) ℝ} (h : ∀ i j, cov i j = cov j i) : choleskyArg cov = cov := by
  funext i j; unfold choleskyArg; split
  · rfl
  · exact h j i

/-- What a successful construction went through. -/
lemma init_ok {a : MaArgs} {n : ℕ} {o : MaObj n} (h : a.init = .ok ⟨n, o⟩) :
    ¬ a.nGiven > 1 ∧
    ∃ sigma : Fin n → ℝ, maSigma a = .ok ⟨n, sigma⟩ ∧ maCov a sigma = .ok (o.sigma, o.rho, o.corM, o.covM) ∧
      (choleskyArg o.covM).PosDef ∧ maWeight a n = .ok o.weight ∧ o.intr = a.intr ∧ o.divr = a.divr ∧ o.isFwd = a.isFwd := by
  unfold MaArgs.init at h
  split at h
  · simp at h
  rename_i hg
  refine ⟨hg, ?_⟩
  cases hs : maSigma a with
  | error e => rw [hs] at h; simp at h
  | ok s =>
  obtain ⟨k, sigma⟩ := s
  rw [hs] at h
  simp only at h
  cases hc : maCov a sigma with
  | error e => rw [hc] at h; simp at h
  | ok r =>
  obtain ⟨s, rho, cor, cov⟩ := r
  rw [hc] at h
  simp only at h
  split at h
  · simp at h
  rename_i hp
  cases hw : maWeight a k with
  | error e => rw [hw] at h; simp at h
  | ok w =>
  rw [hw] at h
  simp only [Except.ok.injEq, Sigma.mk.injEq] at h
  obtain ⟨rfl, h⟩ := h
  have h := eq_of_heq h
  subst h
  exact ⟨sigma, rfl, hc, not_not.1 hp, hw, rfl, rfl, rfl⟩

lemma init_of_parts {a : MaArgs} {n : ℕ} {sigma : Fin n → ℝ} {o : MaObj n}
    (hg : ¬ a.nGiven > 1)
    (hs : maSigma a = .ok ⟨n, sigma⟩) (hc : maCov a sigma = .ok (o.sigma, o.rho, o.corM, o.covM))
    (hp : (choleskyArg o.covM).PosDef) (hw : maWeight a n = .ok o.weight) (h1 : o.intr = a.intr) (h2 : o.divr = a.divr)
    (h3 : o.isFwd = a.isFwd) : a.init = .ok ⟨n, o⟩ := by
  unfold MaArgs.init
  rw [if_neg hg, hs]
  simp only
  rw [hc]
  simp only
  rw [if_neg (not_not.2 hp), hw]
  simp only [← h1, ← h2, ← h3]

/-- **C31**, exclusivity: giving two or three of `rho`, `cor_m`, `cov_m` is a `ValueError`. -/
theorem more_than_one_rejected (a : MaArgs)
    (h : (a.rho.isSome ∧ a.corM.isSome) ∨ (a.rho.isSome ∧ a.covM.isSome) ∨ (a.corM.isSome ∧ a.covM.isSome)) :
    a.init = .error .valueError := by
  unfold MaArgs.init
  rw [if_pos]
  unfold MaArgs.nGiven
  rcases h with ⟨h1, h2⟩ | ⟨h1, h2⟩ | ⟨h1, h2⟩ <;> simp only [h1, h2, if_true] <;> omega

/-- **C31**: without `sigma` and without `cov_m` construction is a `ValueError`. -/
theorem sigma_required (a : MaArgs) (h1 : a.sigma = none) (h2 : a.covM = none) : a.init = .error .valueError := by
  unfold MaArgs.init
  split
  · rfl
  · simp [maSigma, h1, h2]

/-- **C31**: wrongly shaped matrices are a `ValueError` (a `cov_m` without `sigma` must be square). -/
theorem shape_rejected (a : MaArgs) {n : ℕ} (sigma : Fin n → ℝ) (hs : a.sigma = some ⟨n, sigma⟩) (r c : ℕ)
    (hrc : ¬ (r = n ∧ c = n)) (m : Matrix (Fin r) (Fin c) ℝ)
    (h : a.covM = some ⟨(r, c), m⟩ ∨ (a.covM = none ∧ a.corM = some ⟨(r, c), m⟩)) : a.init = .error .valueError := by
  unfold MaArgs.init
  split
  · rfl
  · have hsig : maSigma a = .ok ⟨n, sigma⟩ := by unfold maSigma; rw [hs]
    rw [hsig]
    simp only
    have : maCov a sigma = .error .valueError := by
      rcases h with h | ⟨h1, h2⟩
      · unfold maCov; rw [h]; simp [hrc]
      · unfold maCov; rw [h1, h2]; simp [hrc]
    rw [this]

/-- **C31**, consistency: on every object that can be constructed, covariance, correlation and volatilities satisfy
`cov_ij = sigma_i * cor_ij * sigma_j`, the volatilities are non-zero, and the asset weights default to `1/n`. -/
theorem cov_eq (a : MaArgs) {n : ℕ} {o : MaObj n} (h : a.init = .ok ⟨n, o⟩) :
    (∀ i j, o.covM i j = o.sigma i * o.corM i j * o.sigma j) ∧ (∀ i, o.sigma i ≠ 0) ∧
    (a.weight = none → (∀ i, o.weight i = 1 / n) ∧ (0 < n → ∑ i, o.weight i = 1)) := by
  obtain ⟨-, sigma, hs, hc, hp, hw, -⟩ := init_ok h
  have hdiag : ∀ i, 0 < o.covM i i := by
    intro i
    have := hp.diag_pos (i := i)
    simpa [choleskyArg] using this
  have hsg : (∀ i j, o.covM i j = o.sigma i * o.corM i j * o.sigma j) ∧ (∀ i, o.sigma i ≠ 0) := by
    unfold maCov at hc
    split at hc
    · split at hc
      · have hc := Except.ok.inj hc
        have e1 := congrArg (·.1) hc
        have e3 := congrArg (·.2.2.1) hc
        have e4 := congrArg (·.2.2.2) hc
        simp only at e1 e3 e4
        have hpos : ∀ i, 0 < o.sigma i := by
          intro i
          rw [← e1]
          refine Real.sqrt_pos.2 ?_
          have := hdiag i
          rw [← e4] at this
          exact this
        refine ⟨fun i j => ?_, fun i => (hpos i).ne'⟩
        have e5 : o.corM i j = o.covM i j / (o.sigma i * o.sigma j) := by rw [← e3, ← e4, ← e1]
        rw [e5]
        field_simp [(hpos i).ne', (hpos j).ne']
      · simp at hc
    · split at hc
      · have hc := Except.ok.inj hc
        have e1 := congrArg (·.1) hc
        have e3 := congrArg (·.2.2.1) hc
        have e4 := congrArg (·.2.2.2) hc
        simp only at e1 e3 e4
        have e5 : ∀ i j, o.covM i j = o.sigma i * o.corM i j * o.sigma j := by
          intro i j; rw [← e4, ← e3, ← e1]; ring
        refine ⟨e5, fun i h0 => ?_⟩
        have := hdiag i
        rw [e5, h0] at this
        simp at this
      · simp at hc
    · have hc := Except.ok.inj hc
      have e1 := congrArg (·.1) hc
      have e3 := congrArg (·.2.2.1) hc
      have e4 := congrArg (·.2.2.2) hc
      simp only at e1 e3 e4
      have e5 : ∀ i j, o.covM i j = o.sigma i * o.corM i j * o.sigma j := by
        intro i j; rw [← e4, ← e3, ← e1]; ring
      refine ⟨e5, fun i h0 => ?_⟩
      have := hdiag i
      rw [e5, h0] at this
      simp at this
  refine ⟨hsg.1, hsg.2, fun hwn => ?_⟩
  unfold maWeight at hw
  rw [hwn] at hw
  simp only [Except.ok.injEq] at hw
  rw [← hw]
  refine ⟨fun _ => rfl, fun hn => ?_⟩
  simp only [Finset.sum_const, Finset.card_univ, Fintype.card_fin, nsmul_eq_mul]
  have : (n : ℝ) ≠ 0 := by positivity
  field_simp

/-- **C31**: with `cov_m` given, the stored volatilities are the square roots of its diagonal, the correlation matrix has
unit diagonal, and `cov_m` is stored unchanged. -/
theorem from_cov (a : MaArgs) {n : ℕ} {o : MaObj n} (m : Matrix (Fin n) (Fin n) ℝ) (ha : a.covM = some ⟨(n, n), m⟩)
    (h : a.init = .ok ⟨n, o⟩) :
    o.covM = m ∧ (∀ i, 0 < o.sigma i) ∧ (∀ i, o.sigma i ^ 2 = m i i) ∧ (∀ i, o.corM i i = 1) := by
  obtain ⟨-, sigma, hs, hc, hp, -⟩ := init_ok h
  have hdiag : ∀ i, 0 < o.covM i i := by
    intro i; simpa [choleskyArg] using hp.diag_pos (i := i)
  unfold maCov at hc
  rw [ha] at hc
  simp only [and_self, dif_pos] at hc
  have hc := Except.ok.inj hc
  have e1 := congrArg (·.1) hc
  have e3 := congrArg (·.2.2.1) hc
  have e4 := congrArg (·.2.2.2) hc
  simp only at e1 e3 e4
  have hcov : o.covM = m := by rw [← e4]; rfl
  have hpos : ∀ i, 0 < o.sigma i := by
    intro i; rw [← e1]; refine Real.sqrt_pos.2 ?_
    have := hdiag i; rwa [hcov] at this
  have hsq : ∀ i, o.sigma i ^ 2 = m i i := by
    intro i; rw [← e1]; refine Real.sq_sqrt ?_
    have := hdiag i; rw [hcov] at this; exact this.le
  refine ⟨hcov, hpos, hsq, fun i => ?_⟩
  have e5 : o.corM i i = o.covM i i / (o.sigma i * o.sigma i) := by rw [← e3, ← e4, ← e1]
  rw [e5, ← sq, hsq, hcov, div_self]
  have := hdiag i; rw [hcov] at this; exact this.ne'

/-- Symmetry is inherited from the input, and is automatic on the scalar-`rho` path. -/
theorem cov_symm (a : MaArgs) {n : ℕ} {o : MaObj n} (h : a.init = .ok ⟨n, o⟩) (h1 : a.corM = none) (h2 : a.covM = none) :
    (∀ i j, o.covM i j = o.covM j i) ∧ (∀ i, o.corM i i = 1) ∧ (∀ i j, i ≠ j → o.corM i j = a.rho.getD 0) ∧
      o.rho = a.rho := by
  obtain ⟨-, sigma, hs, hc, -⟩ := init_ok h
  unfold maCov at hc
  rw [h1, h2] at hc
  have hc := Except.ok.inj hc
  have e1 := congrArg (·.1) hc
  have e2 := congrArg (·.2.1) hc
  have e3 := congrArg (·.2.2.1) hc
  have e4 := congrArg (·.2.2.2) hc
  simp only at e1 e2 e3 e4
  refine ⟨fun i j => ?_, fun i => ?_, fun i j hij => ?_, e2.symm⟩
  · rw [← e4]; simp only [eq_comm (a := i) (b := j)]; ring
  · rw [← e3]; simp
  · rw [← e3]; simp [hij]

/-- Quadratic form of the equicorrelation covariance. -/
lemma equicor_form {n : ℕ} (sigma x : Fin n → ℝ) (rho : ℝ) :
    ∑ i, ∑ j, x i * (sigma j * (rho * 1 + (1 - rho) * (if i = j then 1 else 0)) * sigma i) * x j
      = (1 - rho) * ∑ i, (sigma i * x i) ^ 2 + rho * (∑ i, sigma i * x i) ^ 2 := by
  have h1 : (∑ i, sigma i * x i) ^ 2 = ∑ i, ∑ j, (sigma i * x i) * (sigma j * x j) := by
    rw [sq, Finset.sum_mul_sum]
  have h2 : ∑ i, (sigma i * x i) ^ 2 = ∑ i, ∑ j, (if i = j then (sigma i * x i) * (sigma j * x j) else 0) := by
    refine Finset.sum_congr rfl fun i _ => ?_
    simp [sq]
  rw [h1, h2, Finset.mul_sum, Finset.mul_sum, ← Finset.sum_add_distrib]
  refine Finset.sum_congr rfl fun i _ => ?_
  rw [Finset.mul_sum, Finset.mul_sum, ← Finset.sum_add_distrib]
  refine Finset.sum_congr rfl fun j _ => ?_
  split <;> ring

/-- **C31**, which uniform correlations are accepted: for `n ≥ 2` assets the constructor with a scalar `rho` (or none,
read as 0) succeeds exactly when every volatility is non-zero and `-1/(n-1) < rho < 1`; otherwise it raises `ValueError`
(from the Cholesky factorisation). -/
theorem rho_accepted_iff {n : ℕ} (hn : 2 ≤ n) (sigma : Fin n → ℝ) (rho : Option ℝ) :
    let a : MaArgs := { sigma := some ⟨n, sigma⟩, rho := rho, corM := none, covM := none, weight := none }
    ((∃ o : MaObj n, a.init = .ok ⟨n, o⟩ ∧ o.sigma = sigma) ↔
      (∀ i, sigma i ≠ 0) ∧ -1 / ((n : ℝ) - 1) < rho.getD 0 ∧ rho.getD 0 < 1) ∧
    (¬ ((∀ i, sigma i ≠ 0) ∧ -1 / ((n : ℝ) - 1) < rho.getD 0 ∧ rho.getD 0 < 1) → a.init = .error .valueError) := by
  intro a
  set r := rho.getD 0 with hr
  let cor : Matrix (Fin n) (Fin n) ℝ := fun i j => r * 1 + (1 - r) * (if i = j then 1 else 0)
  let cov : Matrix (Fin n) (Fin n) ℝ := fun i j => sigma j * cor i j * sigma i
  have hsymm : ∀ i j, cov i j = cov j i := by
    intro i j; simp only [cov, cor, eq_comm (a := i) (b := j)]; ring
  have hn1 : (0 : ℝ) < (n : ℝ) - 1 := by
    have : (2 : ℝ) ≤ n := by exact_mod_cast hn
    linarith
  have hcards : (∑ _i : Fin n, (1 : ℝ)) = n := by simp
  have hform : ∀ x : Fin n → ℝ, star x ⬝ᵥ (cov.mulVec x)
      = (1 - r) * ∑ i, (sigma i * x i) ^ 2 + r * (∑ i, sigma i * x i) ^ 2 := by
    intro x
    rw [← equicor_form]
    simp only [dotProduct, Matrix.mulVec, star_trivial, Pi.star_apply]
    refine Finset.sum_congr rfl fun i _ => ?_
    rw [Finset.mul_sum]
    refine Finset.sum_congr rfl fun j _ => ?_
    simp only [cov, cor]; ring
  have hpd : cov.PosDef ↔ (∀ i, sigma i ≠ 0) ∧ -1 / ((n : ℝ) - 1) < r ∧ r < 1 := by
    constructor
    · intro hp
      have hs0 : ∀ i, sigma i ≠ 0 := by
        intro i h0
        have := hp.diag_pos (i := i)
        simp [cov, h0] at this
      refine ⟨hs0, ?_, ?_⟩
      · -- test vector 1/sigma
        have hx : (fun i => 1 / sigma i : Fin n → ℝ) ≠ 0 := by
          intro h0
          have := congrFun h0 ⟨0, by omega⟩
          simp at this
          exact hs0 _ this
        have := hp.dotProduct_mulVec_pos hx
        rw [hform] at this
        have e1 : ∀ i, sigma i * (1 / sigma i) = 1 := fun i => mul_one_div_cancel (hs0 i)
        simp only [e1, one_pow, hcards] at this
        rw [div_lt_iff₀ hn1]
        have hnp : (0 : ℝ) < n := by linarith
        have h3 : 0 < (n : ℝ) * ((1 - r) + r * n) := by nlinarith
        have := (pos_iff_pos_of_mul_pos h3).1 hnp
        nlinarith
      · -- test vector e0/sigma0 - e1/sigma1
        let i0 : Fin n := ⟨0, by omega⟩
        let i1 : Fin n := ⟨1, by omega⟩
        have h01 : i0 ≠ i1 := by simp [i0, i1]
        let x : Fin n → ℝ := fun i => if i = i0 then 1 / sigma i0 else if i = i1 then -(1 / sigma i1) else 0
        have hx : x ≠ 0 := by
          intro h0
          have := congrFun h0 i0
          simp [x] at this
          exact hs0 _ this
        have := hp.dotProduct_mulVec_pos hx
        rw [hform] at this
        have e1 : ∀ i, sigma i * x i = (if i = i0 then 1 else 0) - (if i = i1 then 1 else 0) := by
          intro i
          by_cases ha : i = i0
          · subst ha; simp [x, h01, mul_inv_cancel₀ (hs0 _)]
          · by_cases hb : i = i1
            · subst hb; simp [x, Ne.symm h01, mul_inv_cancel₀ (hs0 _)]
            · simp [x, ha, hb]
        have e2 : ∑ i, sigma i * x i = 0 := by simp [e1]
        have e3 : ∀ i, (sigma i * x i) ^ 2 = (if i = i0 then 1 else 0) + (if i = i1 then 1 else 0) := by
          intro i
          rw [e1]
          by_cases ha : i = i0
          · subst ha; simp [h01]
          · by_cases hb : i = i1
            · subst hb; simp [Ne.symm h01]
            · simp [ha, hb]
        have e4 : ∑ i, (sigma i * x i) ^ 2 = 2 := by
          simp only [e3, Finset.sum_add_distrib, Finset.sum_ite_eq', Finset.mem_univ, if_true]; norm_num
        rw [e2, e4] at this
        nlinarith
    · rintro ⟨hs0, h1, h2⟩
      refine Matrix.PosDef.of_dotProduct_mulVec_pos ?_ ?_
      · ext i j; simp only [Matrix.conjTranspose_apply, star_trivial]; exact hsymm j i
      · intro x hx
        rw [hform]
        obtain ⟨k, hk⟩ := Function.ne_iff.1 hx
        have hk' : (0 : ℝ) < (sigma k * x k) ^ 2 := by
          have : sigma k * x k ≠ 0 := mul_ne_zero (hs0 k) hk
          positivity
        have hsum : 0 < ∑ i, (sigma i * x i) ^ 2 :=
          lt_of_lt_of_le hk' (Finset.single_le_sum (f := fun i => (sigma i * x i) ^ 2)
            (fun i _ => sq_nonneg _) (Finset.mem_univ k))
        have hcs : (∑ i, sigma i * x i) ^ 2 ≤ n * ∑ i, (sigma i * x i) ^ 2 := by
          have := sq_sum_le_card_mul_sum_sq (s := (Finset.univ : Finset (Fin n))) (f := fun i => sigma i * x i)
          simpa using this
        rw [div_lt_iff₀ hn1] at h1
        by_cases hr0 : 0 ≤ r
        · have := mul_nonneg hr0 (sq_nonneg (∑ i, sigma i * x i))
          have := mul_pos (sub_pos.2 h2) hsum
          linarith
        · have h3 := mul_le_mul_of_nonpos_left hcs (not_le.1 hr0).le
          have h4 : 0 < ((1 - r) + r * n) * ∑ i, (sigma i * x i) ^ 2 := mul_pos (by nlinarith) hsum
          nlinarith
  have hg : ¬ a.nGiven > 1 := by
    cases rho <;> simp [a, MaArgs.nGiven]
  have hlow : choleskyArg cov = cov := choleskyArg_of_symm hsymm
  let w : Fin n → ℝ := fun _ => 1 / n
  let o : MaObj n := ⟨sigma, rho, cor, cov, w, 0, 0, false⟩
  have hbad : ¬ cov.PosDef → a.init = .error .valueError := by
    intro hnp
    have hnp' : ¬ (choleskyArg cov).PosDef := by rwa [hlow]
    unfold MaArgs.init
    rw [if_neg hg]
    exact if_pos hnp'
  refine ⟨⟨?_, ?_⟩, ?_⟩
  · rintro ⟨o', ho', -⟩
    by_contra hcon
    rw [hbad (fun hp => hcon (hpd.1 hp))] at ho'
    simp at ho'
  · intro h
    exact ⟨o, init_of_parts (sigma := sigma) hg rfl rfl (by show (choleskyArg cov).PosDef; rw [hlow]; exact hpd.2 h) rfl rfl rfl rfl, rfl⟩
  · intro h
    exact hbad (fun hp => h (hpd.1 hp))

/-- The documentation says that omitting `rho`, `cor_m` and `cov_m` with more than one asset raises `ValueError`; it does
not: uncorrelated assets are assumed. -/
theorem omitting_correlation_is_accepted {n : ℕ} (hn : 2 ≤ n) (sigma : Fin n → ℝ) (hs : ∀ i, sigma i ≠ 0) :
    ∃ o : MaObj n, MaArgs.init { sigma := some ⟨n, sigma⟩, rho := none, corM := none, covM := none, weight := none }
      = .ok ⟨n, o⟩ ∧ ∀ i j, i ≠ j → o.corM i j = 0 := by
  have hn1 : (0 : ℝ) < (n : ℝ) - 1 := by
    have : (2 : ℝ) ≤ n := by exact_mod_cast hn
    linarith
  obtain ⟨o, ho, -⟩ := ((rho_accepted_iff hn sigma none).1).2
    ⟨hs, by simp only [Option.getD_none]; exact div_neg_of_neg_of_pos (by norm_num) hn1, by norm_num⟩
  exact ⟨o, ho, fun i j hij => (cov_symm _ ho rfl rfl).2.2.1 i j hij⟩

/-- **C31/C29**, round trip: copying any constructed multi-asset model through `from_model` succeeds, keeps covariance,
weights and market data, and turns the volatilities into their absolute values when the correlation matrix has unit
diagonal. -/
theorem from_model_round_trip (a : MaArgs) {n : ℕ} {o : MaObj n} (h : a.init = .ok ⟨n, o⟩) :
    ∃ o' : MaObj n, o.fromModelArgs.init = .ok ⟨n, o'⟩ ∧ o'.covM = o.covM ∧ o'.weight = o.weight ∧ o'.intr = o.intr ∧
      o'.divr = o.divr ∧ o'.isFwd = o.isFwd ∧ (∀ i, o'.sigma i = √(o.covM i i)) ∧
      ((∀ i, o.corM i i = 1) → ∀ i, o'.sigma i = |o.sigma i|) ∧
      ((∀ i, o.corM i i = 1) → (∀ i, 0 < o.sigma i) → o'.sigma = o.sigma ∧ o'.corM = o.corM) ∧
      (n ≠ 2 → o'.rho = none) := by
  obtain ⟨-, sigma, hs, hc, hp, hw, -⟩ := init_ok h
  obtain ⟨hcov, hne, -⟩ := cov_eq a h
  let s : Fin n → ℝ := fun i => √(o.covM i i)
  let cor : Matrix (Fin n) (Fin n) ℝ := fun i j => o.covM i j / (s i * s j)
  let o' : MaObj n := ⟨s, maRho cor, cor, o.covM, o.weight, o.intr, o.divr, o.isFwd⟩
  have hsabs : (∀ i, o.corM i i = 1) → ∀ i, s i = |o.sigma i| := by
    intro h1 i
    simp only [s]
    rw [hcov, h1, mul_one, ← sq, Real.sqrt_sq_eq_abs]
  refine ⟨o', init_of_parts (sigma := o.sigma) (by simp [MaObj.fromModelArgs, MaArgs.nGiven]) rfl ?_ hp ?_ rfl rfl rfl, rfl, rfl, rfl, rfl, rfl,
    fun i => rfl, hsabs, ?_, ?_⟩
  · unfold maCov MaObj.fromModelArgs
    simp only [and_self, dif_pos]
    rfl
  · unfold maWeight MaObj.fromModelArgs
    simp only [dif_pos]
    rfl
  · intro h1 hpos
    have hse : s = o.sigma := by funext i; rw [hsabs h1 i, abs_of_pos (hpos i)]
    refine ⟨hse, ?_⟩
    funext i j
    show o.covM i j / (s i * s j) = o.corM i j
    rw [hse, hcov]
    have := hne i; have := hne j
    field_simp
  · intro h2
    show maRho cor = none
    unfold maRho
    rw [dif_neg h2]

/-- `params_kw` loses the scalar correlation: a model built with a uniform `rho` for three or more assets has
`rho = None` after `from_model`. -/
theorem from_model_loses_rho {n : ℕ} (hn : 3 ≤ n) (sigma : Fin n → ℝ) (hs : ∀ i, sigma i ≠ 0) (rho : ℝ)
    (h0 : 0 ≤ rho) (h1 : rho < 1) :
    ∃ o o' : MaObj n, MaArgs.init { sigma := some ⟨n, sigma⟩, rho := some rho, corM := none, covM := none, weight := none }
      = .ok ⟨n, o⟩ ∧ o.fromModelArgs.init = .ok ⟨n, o'⟩ ∧ o.rho = some rho ∧ o'.rho = none := by
  have hn1 : (0 : ℝ) < (n : ℝ) - 1 := by
    have : (3 : ℝ) ≤ n := by exact_mod_cast hn
    linarith
  obtain ⟨o, ho, -⟩ := ((rho_accepted_iff (by omega) sigma (some rho)).1).2
    ⟨hs, by simp only [Option.getD_some]; exact lt_of_lt_of_le (div_neg_of_neg_of_pos (by norm_num) hn1) h0, by simpa using h1⟩
  obtain ⟨o', ho', -, -, -, -, -, -, -, -, hr⟩ := from_model_round_trip _ ho
  exact ⟨o, o', ho, ho', (cov_symm _ ho rfl rfl).2.2.2, hr (by omega)⟩

/-- An asymmetric correlation matrix is accepted: only its lower triangle is checked.  (Two assets, `cor_m[0,1] = 0`,
`cor_m[1,0] = 1/2`.) -/
theorem asymmetric_cor_accepted :
    ∃ o : MaObj 2, MaArgs.init ⟨some ⟨2, fun _ => 1⟩, none, some ⟨(2, 2), !![1, 0; 1 / 2, 1]⟩, none, none, 0, 0, false⟩ = .ok ⟨2, o⟩ ∧ o.covM 0 1 ≠ o.covM 1 0 := by
  let m : Matrix (Fin 2) (Fin 2) ℝ := !![1, 0; 1 / 2, 1]
  let cov : Matrix (Fin 2) (Fin 2) ℝ := fun i j => 1 * m i j * 1
  let o : MaObj 2 := ⟨fun _ => 1, maRho m, m, cov, fun _ => 1 / (2 : ℕ), 0, 0, false⟩
  refine ⟨o, init_of_parts (sigma := fun _ => 1) (by simp [MaArgs.nGiven]) rfl rfl ?_ rfl rfl rfl rfl, ?_⟩
  · show (choleskyArg cov).PosDef
    refine Matrix.PosDef.of_dotProduct_mulVec_pos ?_ ?_
    · ext i j; fin_cases i <;> fin_cases j <;> simp [choleskyArg, cov, m]
    · intro x hx
      have e : star x ⬝ᵥ ((choleskyArg cov).mulVec x) = x 0 ^ 2 + x 0 * x 1 + x 1 ^ 2 := by
        simp [dotProduct, Matrix.mulVec, Fin.sum_univ_two, choleskyArg, cov, m]; ring
      rw [e]
      by_contra hcon
      have h1 : x 0 ^ 2 + x 0 * x 1 + x 1 ^ 2 ≤ 0 := not_lt.1 hcon
      have hx1 : x 1 = 0 := by nlinarith [sq_nonneg (x 0 + x 1 / 2), sq_nonneg (x 1)]
      have hx0 : x 0 = 0 := by rw [hx1] at h1; nlinarith [sq_nonneg (x 0)]
      exact hx (by funext i; fin_cases i <;> simp [hx0, hx1])
  · simp [o, cov, m]

/-- Concrete instance of the hypotheses above: three assets, uniform correlation 0.3. -/
example : ∃ o : MaObj 3, MaArgs.init { sigma := some ⟨3, (![0.2, 0.3, 0.4] : Fin 3 → ℝ)⟩, rho := some (0.3 : ℝ), corM := none, covM := none, weight := none }
    = .ok ⟨3, o⟩ :=
  let ⟨o, ho, _⟩ := ((rho_accepted_iff (by norm_num) ![0.2, 0.3, 0.4] (some 0.3)).1).2
    ⟨by intro i; fin_cases i <;> norm_num, by norm_num, by norm_num⟩
  ⟨o, ho⟩

end Ma
end PyFENG
