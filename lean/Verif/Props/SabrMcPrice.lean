import Verif.Props.SabrMc
import Verif.Props.CevLaw

/-!
# C123: prices, log returns, change of measure and mass at zero from simulated SABR paths
-/

namespace PyFENG

open Real MeasureTheory ProbabilityTheory Filter Set Topology Spec
open scoped NNReal

/-- The increments of the normalised observation times. -/
noncomputable def Spec.normIncr {n : ℕ} (τ : Fin (n + 1) → ℝ) (i : Fin (n + 1)) : ℝ := (τ i - if h : (i : ℕ) = 0 then 0 else τ ⟨i - 1, by omega⟩) / τ (Fin.last n)

/-- The Brownian values at the normalised times built from standard normal increments. -/
noncomputable def Spec.bmValues {n : ℕ} (τ : Fin (n + 1) → ℝ) (z : Fin (n + 1) → ℝ) (k : Fin (n + 1)) : ℝ := ∑ i with i ≤ k, √(normIncr τ i) * z i

namespace Sabr

variable {ι : Type*} [Fintype ι]

lemma mcResult_logn (m : Sabr) (hb : m.beta = 1) {T : ℝ} (hT : T ≠ 0) (F x a : ℝ) :
    m.mcResult T F (x, T * a) = (exp (m.rho * m.sigma / m.vov * (x - 1) - (m.rho * m.sigma) ^ 2 * T * a / 2), √(1 - m.rho ^ 2) * √a) := by
  have h1 : ¬ npIsclose m.beta 0 := by rw [hb]; unfold npIsclose; norm_num
  unfold mcResult vars
  simp only [if_neg h1, hb, sub_self, rpow_zero, div_one, mul_div_cancel_left₀ _ hT]
  refine Prod.ext ?_ rfl
  simp only
  congr 1
  norm_num
  ring

lemma mcResult_norm (m : Sabr) (hb : m.beta = 0) {T : ℝ} (hT : T ≠ 0) (F x a : ℝ) :
    m.mcResult T F (x, T * a) = (1 + m.rho * (m.sigma / F) / m.vov * (x - 1), √(1 - m.rho ^ 2) * √a) := by
  have h1 : npIsclose m.beta 0 := by rw [hb]; exact close_self 0
  unfold mcResult vars
  simp only [if_pos h1, hb, sub_zero, rpow_one, mul_div_cancel_left₀ _ hT]

/-- **C123.** `price` for `beta = 1` (no forward correction): the average over the paths of the exact conditional prices given the terminal volatility `x` and the average variance `a` of each path,
provided no path is dropped (forward ratio above `1e-16`) and the conditional volatility is not below machine epsilon. -/
theorem mc_price_logn (m : Sabr) (hb : m.beta = 1) (hr : m.rho ∈ Icc (-1) 1) (x a : ι → ℝ) (ha : ∀ i, 0 ≤ a i) {K S T cp : ℝ} (hcp : IsCp cp) (hK : 0 < K) (hS : 0 < S) (hT : 0 < T)
    (hv : ∀ i, eps ≤ m.sigma * (√(1 - m.rho ^ 2) * √(a i)) * √T)
    (hk : ∀ i, 1e-16 < exp (m.rho * m.sigma / m.vov * (x i - 1) - (m.rho * m.sigma) ^ 2 * T * a i / 2)) :
    let F := forward m.isFwd m.intr m.divr S T
    m.mcPrice false (fun i => (m.mcResult T F (x i, T * a i)).1) (fun i => (m.mcResult T F (x i, T * a i)).2) K S T cp =
      (∑ i, discount m.intr T * gaussE fun z => payoff cp K (Spec.sabrLogn F m.sigma m.vov m.rho T (x i) (a i) z)) / Fintype.card ι := by
  classical
  intro F
  have hF0 : 0 < F := by
    show 0 < forward m.isFwd m.intr m.divr S T
    unfold forward; split_ifs
    · exact hS
    · positivity
  have hcl1 : npIsclose m.beta 1 := by rw [hb]; exact close_self 1
  have hbp : m.beta > 0 := by rw [hb]; norm_num
  simp only [mcResult_logn m hb hT.ne']
  unfold mcPrice mcFwd basePrice
  have hFF : m.mp.forward S T = F := mp_fwd m S T
  simp only [hFF, Bool.false_eq_true, if_false, if_pos hbp, Option.getD_none, if_pos hcl1]
  have hal : (m.vars F T).alpha = m.sigma := by unfold vars; simp [hb]
  have hfil : (Finset.univ.filter fun i => exp (m.rho * m.sigma / m.vov * (x i - 1) - (m.rho * m.sigma) ^ 2 * T * a i / 2) > 1e-16) = Finset.univ := Finset.filter_true_of_mem fun i _ => hk i
  rw [hal, hfil, Finset.mul_sum]
  congr 1
  refine Finset.sum_congr rfl fun i _ => ?_
  rw [bsm_price_eq_expectation _ hcp (div_pos hK hF0) (exp_pos _) (hv i)]
  have hai := ha i
  generalize x i = x
  generalize a i = a at hai
  have e2 : ∀ z, payoff cp K (Spec.sabrLogn F m.sigma m.vov m.rho T x a z) = F * payoff cp (K / F)
      (gbm (exp (m.rho * m.sigma / m.vov * (x - 1) - (m.rho * m.sigma) ^ 2 * T * a / 2)) (m.sigma * (√(1 - m.rho ^ 2) * √a) * √T) z) := by
    intro z
    unfold payoff
    rw [mul_max_of_nonneg _ _ hF0.le, mul_zero]
    congr 1
    have h1r : (0:ℝ) ≤ 1 - m.rho ^ 2 := by nlinarith [hr.1, hr.2]
    have e3 : (m.sigma * (√(1 - m.rho ^ 2) * √a) * √T) ^ 2 = m.sigma ^ 2 * ((1 - m.rho ^ 2) * a) * T := by
      rw [mul_pow, mul_pow, mul_pow, sq_sqrt h1r, sq_sqrt hai, sq_sqrt hT.le]
    have e4 : Spec.sabrLogn F m.sigma m.vov m.rho T x a z
        = F * gbm (exp (m.rho * m.sigma / m.vov * (x - 1) - (m.rho * m.sigma) ^ 2 * T * a / 2)) (m.sigma * (√(1 - m.rho ^ 2) * √a) * √T) z := by
      unfold Spec.sabrLogn gbm
      rw [e3, ← exp_add]
      congr 2
      ring
    rw [e4]
    field_simp
  simp only [e2, gaussE, forward, if_true]
  rw [integral_const_mul]
  ring

/-- **C123.** `price` for `beta = 0` (no forward correction): the average over the paths of the exact conditional (normal) prices. -/
theorem mc_price_norm (m : Sabr) (hb : m.beta = 0) (x a : ι → ℝ) {K S T cp : ℝ} (hcp : IsCp cp) (hT : 0 < T)
    (hF : 0 < forward m.isFwd m.intr m.divr S T)
    (hv : ∀ i, eps ≤ m.sigma / forward m.isFwd m.intr m.divr S T * (√(1 - m.rho ^ 2) * √(a i)) * √T)
    (hk : ∀ i, -999 < 1 + m.rho * (m.sigma / forward m.isFwd m.intr m.divr S T) / m.vov * (x i - 1)) :
    let F := forward m.isFwd m.intr m.divr S T
    m.mcPrice false (fun i => (m.mcResult T F (x i, T * a i)).1) (fun i => (m.mcResult T F (x i, T * a i)).2) K S T cp =
      (∑ i, discount m.intr T * gaussE fun z => payoff cp K (Spec.sabrNorm F m.sigma m.vov m.rho T (x i) (a i) z)) / Fintype.card ι := by
  classical
  intro F
  have hF0 : 0 < F := hF
  have hcl : npIsclose m.beta 0 := by rw [hb]; exact close_self 0
  have hcl1 : ¬ npIsclose m.beta 1 := by rw [hb]; exact not_close_zero_one
  have hbp : ¬ m.beta > 0 := by rw [hb]; norm_num
  simp only [mcResult_norm m hb hT.ne']
  unfold mcPrice mcFwd basePrice
  have hFF : m.mp.forward S T = F := mp_fwd m S T
  simp only [hFF, Bool.false_eq_true, if_false, if_neg hbp, Option.getD_none, if_neg hcl1, if_pos hcl]
  have hal : (m.vars F T).alpha = m.sigma / F := by unfold vars; simp [hb]
  have hfil : (Finset.univ.filter fun i => 1 + m.rho * (m.sigma / F) / m.vov * (x i - 1) > -999) = Finset.univ := Finset.filter_true_of_mem fun i _ => hk i
  rw [hal, hfil, Finset.mul_sum]
  congr 1
  refine Finset.sum_congr rfl fun i _ => ?_
  rw [norm_price_eq_expectation ⟨m.sigma / F * (√(1 - m.rho ^ 2) * √(a i)), m.intr, m.divr, true⟩ hcp (hv i)]
  generalize x i = x
  generalize a i = a
  have e2 : ∀ z, payoff cp K (Spec.sabrNorm F m.sigma m.vov m.rho T x a z) = F * payoff cp (K / F)
      (abm (1 + m.rho * (m.sigma / F) / m.vov * (x - 1)) (m.sigma / F * (√(1 - m.rho ^ 2) * √a) * √T) z) := by
    intro z
    unfold payoff
    rw [mul_max_of_nonneg _ _ hF0.le, mul_zero]
    congr 1
    unfold Spec.sabrNorm abm
    rw [show m.rho * (m.sigma / F) / m.vov * (x - 1) = m.rho * m.sigma / m.vov * (x - 1) / F by ring]
    field_simp
  simp only [e2, gaussE, forward, if_true]
  rw [integral_const_mul]
  ring

/-- **C123.** `price` for `0 < beta < 1` and `rho = 0`: the average over the paths of the CEV prices on the forward, with the volatility `sigma √a` of the path. -/
theorem mc_price_cev (m : Sabr) (hb : ¬ npIsclose m.beta 1) (hb0 : ¬ npIsclose m.beta 0) (hbp : 0 < m.beta) (hr : m.rho = 0) (x a : ι → ℝ) {K S T cp : ℝ} (hT : 0 < T) (hS : 0 < S) :
    let F := forward m.isFwd m.intr m.divr S T
    m.mcPrice false (fun i => (m.mcResult T F (x i, T * a i)).1) (fun i => (m.mcResult T F (x i, T * a i)).2) K S T cp =
      (∑ i, Cev.price ⟨m.sigma * √(a i), m.beta, m.intr, m.divr, true⟩ K F T cp) / Fintype.card ι := by
  classical
  intro F
  have hF0 : 0 < F := by
    show 0 < forward m.isFwd m.intr m.divr S T
    unfold forward; split_ifs
    · exact hS
    · positivity
  have e1 : ∀ i, m.mcResult T F (x i, T * a i) = (1, √(a i)) := fun i => by
    unfold mcResult vars
    simp only [if_neg hb0, hr, zero_mul, mul_zero, exp_zero, mul_div_cancel_left₀ _ hT.ne']
    norm_num
  simp only [e1]
  unfold mcPrice mcFwd basePrice
  have hFF : m.mp.forward S T = F := mp_fwd m S T
  simp only [hFF, Bool.false_eq_true, if_false, if_pos (show m.beta > 0 from hbp), Option.getD_none, if_neg hb, if_neg hb0]
  have hal : (m.vars F T).alpha = m.sigma / F ^ (1 - m.beta) := rfl
  have hfil : (Finset.univ.filter fun _ : ι => (1:ℝ) > 1e-16) = Finset.univ := Finset.filter_true_of_mem fun i _ => by norm_num
  rw [hal, hfil, Finset.mul_sum]
  congr 1
  refine Finset.sum_congr rfl fun i _ => ?_
  unfold Cev.price
  simp only [if_true, mul_one, one_rpow, div_one]
  have e2 : m.sigma / F ^ (1 - m.beta) * √(a i) = m.sigma * √(a i) / F ^ (1 - m.beta) := by ring
  rw [e2]
  generalize m.sigma * √(a i) / F ^ (1 - m.beta) = al
  split_ifs <;> (field_simp)

/-- **C123.** Put-call parity of the simulated price: call minus put is the discounted (forward times the sum of the kept ratios over the number of paths, minus strike times the fraction of kept paths), whatever the paths. -/
theorem mc_parity_defect (m : Sabr) (correct : Bool) (fr vr : ι → ℝ) {K S T : ℝ} (hF : forward m.isFwd m.intr m.divr S T ≠ 0)
    (hn : ¬ npIsclose m.beta 1 → npIsclose m.beta 0 → ∀ i, eps ≤ m.sigma / forward m.isFwd m.intr m.divr S T ^ (1 - m.beta) * vr i * √T) :
    ∃ kept : Finset ι, (∀ i, i ∈ kept ↔ if 0 < m.beta then 1e-16 < mcFwd correct fr i else -999 < mcFwd correct fr i) ∧
      m.mcPrice correct fr vr K S T 1 - m.mcPrice correct fr vr K S T (-1) =
        discount m.intr T * (forward m.isFwd m.intr m.divr S T * ((∑ i ∈ kept, mcFwd correct fr i) / Fintype.card ι) - K * (kept.card / Fintype.card ι)) := by
  classical
  refine ⟨Finset.univ.filter fun i => if m.beta > 0 then mcFwd correct fr i > 1e-16 else mcFwd correct fr i > -999, fun i => by simp [gt_iff_lt], ?_⟩
  unfold mcPrice
  simp only [mp_fwd, vars]
  generalize hFd : forward m.isFwd m.intr m.divr S T = F at *
  generalize (Finset.univ.filter fun i => if m.beta > 0 then mcFwd correct fr i > 1e-16 else mcFwd correct fr i > -999) = kept
  rw [← sub_div, ← mul_sub, ← Finset.sum_sub_distrib]
  have e : ∀ i, ({ m with isFwd := true } : Sabr).basePrice none (m.sigma / F ^ (1 - m.beta) * vr i) (K / F) (mcFwd correct fr i) T 1
      - ({ m with isFwd := true } : Sabr).basePrice none (m.sigma / F ^ (1 - m.beta) * vr i) (K / F) (mcFwd correct fr i) T (-1)
      = discount m.intr T * (mcFwd correct fr i - K / F) := by
    intro i
    have h := base_parity { m with isFwd := true } none (m.sigma / F ^ (1 - m.beta) * vr i) (K / F) (mcFwd correct fr i) T (fun h1 h2 => hn h1 h2 i)
    unfold Parity at h
    rw [h]
    simp only [forward, if_true]
  simp only [e]
  rw [← Finset.mul_sum, Finset.sum_sub_distrib, Finset.sum_const, nsmul_eq_mul]
  field_simp

/-- **C123.** With `correct_fwd` and no dropped path, put-call parity is exact at every number of paths. -/
theorem mc_parity_corrected [Nonempty ι] (m : Sabr) (fr vr : ι → ℝ) {K S T : ℝ} (hF : forward m.isFwd m.intr m.divr S T ≠ 0) (hs : ∑ i, fr i ≠ 0)
    (hn : ¬ npIsclose m.beta 1 → npIsclose m.beta 0 → ∀ i, eps ≤ m.sigma / forward m.isFwd m.intr m.divr S T ^ (1 - m.beta) * vr i * √T)
    (hk : ∀ i, if 0 < m.beta then 1e-16 < mcFwd true fr i else -999 < mcFwd true fr i) :
    Parity (m.mcPrice true fr vr K S T 1) (m.mcPrice true fr vr K S T (-1)) (discount m.intr T) (forward m.isFwd m.intr m.divr S T) K := by
  obtain ⟨kept, h1, h2⟩ := m.mc_parity_defect true fr vr hF hn (K := K)
  have hu : kept = Finset.univ := Finset.eq_univ_iff_forall.2 fun i => (h1 i).2 (hk i)
  have hc : (Fintype.card ι : ℝ) ≠ 0 := by exact_mod_cast Fintype.card_ne_zero
  unfold Parity
  rw [h2, hu, Finset.card_univ, div_self hc, mul_one]
  have e : (∑ i, mcFwd true fr i) / Fintype.card ι = 1 := by
    unfold mcFwd
    simp only [if_true]
    rw [← Finset.sum_div]
    field_simp
  rw [e, mul_one]

/-- **C123.** `draw_log_return` (only for `beta` close to 1; otherwise an assertion error): the draw is the logarithm of the exact SABR price ratio over the step given the volatilities at both ends and the average variance. -/
theorem draw_log_return_correct (m : Sabr) {dt σ0 σt avg : ℝ} (h0 : 0 < σ0) (ha : 0 ≤ avg) (hdt : 0 ≤ dt) (hr : m.rho ∈ Icc (-1) 1) :
    (npIsclose m.beta 1 → ∃ D, drawLogReturn rngEx m dt σ0 σt avg = .ok D ∧
      ∀ φ : ℝ → ℝ, D φ = gaussE fun z => φ (log (Spec.sabrLogn (exp ((m.intr - m.divr) * dt)) σ0 m.vov m.rho dt (σt / σ0) (avg / σ0 ^ 2) z))) ∧
    (¬ npIsclose m.beta 1 → drawLogReturn rngEx m dt σ0 σt avg = .error .assertionError) := by
  refine ⟨fun hb => ⟨_, by rw [drawLogReturn, if_pos hb], fun φ => ?_⟩, fun hb => by rw [drawLogReturn, if_neg hb]⟩
  show gaussE (fun z => φ ((m.intr - m.divr) * dt + m.rho / m.vov * (σt - σ0) - 0.5 * avg * dt + √((1 - m.rho ^ 2) * dt * avg) * z)) = _
  congr 1
  funext z
  congr 1
  unfold Spec.sabrLogn
  rw [← exp_add, log_exp]
  have h1r : (0:ℝ) ≤ 1 - m.rho ^ 2 := by nlinarith [hr.1, hr.2]
  have e1 : √((1 - m.rho ^ 2) * dt * avg) = √(1 - m.rho ^ 2) * σ0 * √(avg / σ0 ^ 2) * √dt := by
    rw [sqrt_mul (by positivity), sqrt_mul h1r, sqrt_div ha, sqrt_sq h0.le]
    field_simp
  rw [e1]
  norm_num
  field_simp
  ring

lemma normIncr_sum {n : ℕ} (τ : Fin (n + 1) → ℝ) (k : Fin (n + 1)) : ∑ i with i ≤ k, normIncr τ i = τ k / τ (Fin.last n) := by
  set f : ℕ → ℝ := fun j => if h : j = 0 then 0 else if h' : j - 1 < n + 1 then τ ⟨j - 1, h'⟩ else 0 with hf
  have e1 : ∀ i : Fin (n + 1), normIncr τ i = (f (i + 1) - f i) / τ (Fin.last n) := fun i => by
    unfold normIncr
    congr 2
    · simp [hf]
      intro h
      have := i.2
      omega
    · by_cases h : (i : ℕ) = 0
      · simp [hf, h]
      · have : (i : ℕ) - 1 < n + 1 := by omega
        simp [hf, h]
  have e2 : ∑ i : Fin (n + 1) with i ≤ k, normIncr τ i = ∑ j ∈ Finset.range (k + 1), (f (j + 1) - f j) / τ (Fin.last n) := by
    simp only [e1]
    refine Finset.sum_bij (fun i _ => (i : ℕ)) (fun i hi => ?_) (fun a _ b _ h => Fin.ext h) (fun j hj => ?_) (fun i _ => rfl)
    · have := (Finset.mem_filter.1 hi).2
      rw [Finset.mem_range]; exact Nat.lt_succ_of_le this
    · have hj' := Finset.mem_range.1 hj
      refine ⟨⟨j, by omega⟩, Finset.mem_filter.2 ⟨Finset.mem_univ _, ?_⟩, rfl⟩
      exact Fin.le_def.2 (Nat.lt_succ_iff.1 hj')
  rw [e2, ← Finset.sum_div, Finset.sum_range_sub]
  congr 1
  simp [hf]
  intro h
  have := k.2
  omega

/-- **C123.** `vol_paths(tobs, mu)`: shifting the Brownian motion by `mu` and weighting by `exp(log_rn_deriv)` does not change any expectation of the volatility path: for every observation grid, every `mu` and every functional of the path. -/
theorem vol_paths_measure_change (m : Sabr) {n : ℕ} (τ : Fin (n + 1) → ℝ) (h0 : ∀ i, 0 < τ i) (hm : Monotone τ) (mu : ℝ) (f : List ℝ → ℝ) :
    ∫ z, f (m.volPathMu (List.ofFn τ) (List.ofFn (bmValues τ z)) mu).1 * exp (m.volPathMu (List.ofFn τ) (List.ofFn (bmValues τ z)) mu).2 ∂(_root_.PyFENG.Spec.iid (Fin (n + 1))) =
      ∫ z, f (m.volPathMu (List.ofFn τ) (List.ofFn (bmValues τ z)) 0).1 ∂(_root_.PyFENG.Spec.iid (Fin (n + 1))) := by
  have hd : ∀ i, 0 ≤ normIncr τ i := fun i => by
    unfold normIncr
    refine div_nonneg ?_ (h0 _).le
    split_ifs with h
    · rw [sub_zero]; exact (h0 i).le
    · exact sub_nonneg.2 (hm (Fin.le_def.2 (Nat.sub_le _ _)))
  have hlast : (List.ofFn τ).getLastD 0 = τ (Fin.last n) := by
    rw [List.getLastD_eq_getLast?, List.getLast?_eq_getElem?]; simp [Fin.last, -List.ofFn_succ]
  have hlb : ∀ z, (List.ofFn (bmValues τ z)).getLastD 0 = bmValues τ z (Fin.last n) := fun z => by
    rw [List.getLastD_eq_getLast?, List.getLast?_eq_getElem?]; simp [Fin.last, -List.ofFn_succ]
  have hone : ∑ i, normIncr τ i = 1 := by
    have := normIncr_sum τ (Fin.last n)
    rw [div_self (h0 _).ne'] at this
    rw [← this]
    refine (Finset.sum_congr ?_ fun _ _ => rfl)
    exact (Finset.filter_true_of_mem fun i _ => Fin.le_last i).symm
  have hbl : ∀ z, bmValues τ z (Fin.last n) = ∑ i, √(normIncr τ i) * z i := fun z => by
    unfold bmValues
    refine Finset.sum_congr (Finset.filter_true_of_mem fun i _ => Fin.le_last i) fun _ _ => rfl
  set a : Fin (n + 1) → ℝ := fun i => -mu * √(normIncr τ i) with ha
  have hshift : ∀ z k, bmValues τ (z + a) k = bmValues τ z k - mu * (τ k / τ (Fin.last n)) := fun z k => by
    unfold bmValues
    rw [← normIncr_sum, Finset.mul_sum, ← Finset.sum_sub_distrib]
    refine Finset.sum_congr rfl fun i _ => ?_
    rw [Pi.add_apply, ha]
    simp only
    linear_combination (-mu) * mul_self_sqrt (hd i)
  have hrn : ∀ z, exp (m.volPathMu (List.ofFn τ) (List.ofFn (bmValues τ z)) mu).2 = exp (∑ k, (a k * z k - a k ^ 2 / 2)) := fun z => by
    congr 1
    have e : ∑ k, (a k * z k - a k ^ 2 / 2) = -mu * (bmValues τ z (Fin.last n) + 0.5 * mu) := by
      rw [hbl, Finset.sum_sub_distrib]
      have e1 : ∑ k, a k * z k = -mu * ∑ i, √(normIncr τ i) * z i := by
        rw [Finset.mul_sum]; exact Finset.sum_congr rfl fun i _ => by rw [ha]; ring
      have e2 : ∑ k, a k ^ 2 / 2 = mu ^ 2 / 2 := by
        rw [← mul_one (mu ^ 2 / 2), ← hone, Finset.mul_sum]
        refine Finset.sum_congr rfl fun i _ => ?_
        rw [ha]
        simp only
        rw [mul_pow, sq_sqrt (hd i)]
        ring
      rw [e1, e2]; norm_num; ring
    rw [e]
    unfold volPathMu
    simp only [hlb]
    split_ifs with h
    · rw [h]; simp
    · rfl
  have hpath : ∀ z, (m.volPathMu (List.ofFn τ) (List.ofFn (bmValues τ (z + a))) mu).1 = (m.volPathMu (List.ofFn τ) (List.ofFn (bmValues τ z)) 0).1 := fun z => by
    unfold volPathMu
    simp only [hlast]
    congr 1
    refine List.ext_getElem (by simp) fun k hk1 hk2 => ?_
    simp only [List.getElem_zipWith, List.getElem_ofFn, hshift]
    congr 1
    ring
  have key := MvGauss.tilt_iid a fun z => f (m.volPathMu (List.ofFn τ) (List.ofFn (bmValues τ z)) mu).1
  simp only [hpath] at key
  rw [← key]
  refine integral_congr_ae (ae_of_all _ fun z => ?_)
  simp only
  rw [hrn z, mul_comm]

/-- **C123.** `cond_spot_sigma_volpath` (kept for backward compatibility) agrees with `cond_spot_sigma` for `beta = 1`. -/
theorem volpath_logn (m : Sabr) (hb : m.beta = 1) {T : ℝ} (hT : T ≠ 0) (F x a : ℝ) : m.volpathResult T m.sigma x a = m.mcResult T F (x, T * a) := by
  have h1 : ¬ npIsclose m.beta 0 := by rw [hb]; unfold npIsclose; norm_num
  rw [mcResult_logn m hb hT]
  unfold volpathResult
  simp only [if_neg h1]
  refine Prod.ext ?_ rfl
  simp only
  congr 1
  norm_num
  ring

/-- **C123 (disagreement).** For `beta = 0` `cond_spot_sigma_volpath` returns the ratio of `cond_spot_sigma` minus one. -/
theorem volpath_norm_lacks_one (m : Sabr) (hb : m.beta = 0) {T : ℝ} (hT : T ≠ 0) (F x a : ℝ) :
    (m.volpathResult T (m.sigma / F) x a).1 = (m.mcResult T F (x, T * a)).1 - 1 ∧ (m.volpathResult T (m.sigma / F) x a).2 = (m.mcResult T F (x, T * a)).2 := by
  have h1 : npIsclose m.beta 0 := by rw [hb]; exact close_self 0
  rw [mcResult_norm m hb hT]
  unfold volpathResult
  simp only [if_pos h1]
  exact ⟨by ring, trivial⟩

/-- **C123.** `mass_zero` for `0 < beta < 1` and `rho = 0`: the average over the paths of the CEV masses at zero on the forward; it is a probability; any other `beta`, or a `rho` not close to zero, is an assertion error. -/
theorem mc_mass_correct [Nonempty ι] (m : Sabr) (x a : ι → ℝ) {S T : ℝ} (hT : 0 < T) (hS : 0 < S) :
    let F := forward m.isFwd m.intr m.divr S T
    (0 < m.beta → m.beta < 1 → ¬ npIsclose m.beta 0 → m.rho = 0 →
      ∃ q : ι → ℝ, (∀ i, (⟨m.sigma * √(a i), m.beta, m.intr, m.divr, true⟩ : Cev).massZero F T = some (q i)) ∧
        m.mcMass (fun i => (m.mcResult T F (x i, T * a i)).1) (fun i => (m.mcResult T F (x i, T * a i)).2) S T = .ok ((∑ i, q i) / Fintype.card ι)) ∧
    (∀ fr vr : ι → ℝ, ¬ (0 < m.beta ∧ m.beta < 1) ∨ ¬ npIsclose m.rho 0 → m.mcMass fr vr S T = .error .assertionError) := by
  classical
  intro F
  refine ⟨fun hb hb1 hb0 hr => ?_, fun fr vr h => ?_⟩
  · have hF0 : 0 < F := by
      show 0 < forward m.isFwd m.intr m.divr S T
      unfold forward; split_ifs
      · exact hS
      · positivity
    have e1 : ∀ i, m.mcResult T F (x i, T * a i) = (1, √(a i)) := fun i => by
      unfold mcResult vars
      simp only [if_neg hb0, hr, zero_mul, mul_zero, exp_zero, mul_div_cancel_left₀ _ hT.ne']
      norm_num
    have hbc : ¬ 0.5 / (1 - m.beta) ≤ 0 := not_le.2 (div_pos (by norm_num) (by linarith))
    have hFt : ∀ σ s : ℝ, (⟨σ, m.beta, m.intr, m.divr, true⟩ : Cev).mp.forward s T = s := fun σ s => by
      rw [MParams.forward_eq_spec]; unfold forward Cev.mp; simp
    refine ⟨fun i => ((⟨m.sigma * √(a i), m.beta, m.intr, m.divr, true⟩ : Cev).massZero F T).getD 0, fun i => ?_, ?_⟩
    · unfold Cev.massZero
      simp only [if_neg hbc, Option.getD_some]
    · unfold mcMass
      have hFF : m.mp.forward S T = F := mp_fwd m S T
      rw [if_neg (not_not.2 ⟨hb, hb1⟩), if_neg (not_not.2 (by rw [hr]; exact close_self 0))]
      simp only [e1, hFF]
      rw [if_neg (not_not.2 fun _ => close_self 1)]
      congr 2
      refine Finset.sum_congr rfl fun i _ => ?_
      unfold Cev.massZero
      simp only [if_neg hbc, Option.getD_some, hFt, one_rpow, div_one]
      have hal : (m.vars F T).alpha = m.sigma / F ^ (1 - m.beta) := rfl
      rw [hal]
      congr 2
      ring
  · unfold mcMass
    by_cases h1 : 0 < m.beta ∧ m.beta < 1
    · rcases h with h | h
      · exact absurd h1 h
      · rw [if_neg (not_not.2 h1), if_pos h]
    · rw [if_pos h1]

/-- **C123.** `mass_zero(log=True)` is the logarithm of `mass_zero(log=False)`: the rescaling by the largest term is exact. -/
theorem mc_mass_log [Nonempty ι] (mass : ι → ℝ) (hm : ∀ i, 0 < mass i) : mcMassLog (fun i => log (mass i)) = log ((∑ i, mass i) / Fintype.card ι) := by
  unfold mcMassLog
  simp only
  generalize Finset.univ.sup' Finset.univ_nonempty (fun i => log (mass i)) = L
  have e : ∀ i, exp (log (mass i) - L) = exp (-L) * mass i := fun i => by rw [sub_eq_add_neg, exp_add, exp_log (hm i)]; ring
  simp only [e]
  have hp : 0 < (∑ i, mass i) / Fintype.card ι := div_pos (Finset.sum_pos (fun i _ => hm i) Finset.univ_nonempty) (by exact_mod_cast Fintype.card_pos)
  rw [← Finset.mul_sum, mul_div_assoc, log_mul (exp_pos _).ne' hp.ne', log_exp]
  ring

/-- The hypotheses of the pricing theorems are met by a non-trivial pair of paths. -/
example : ∃ (m : Sabr) (x a : Fin 2 → ℝ), m.beta = 1 ∧ m.rho ≠ 0 ∧ (∀ i, eps ≤ m.sigma * (√(1 - m.rho ^ 2) * √(a i)) * √1) ∧
    ∀ i, 1e-16 < exp (m.rho * m.sigma / m.vov * (x i - 1) - (m.rho * m.sigma) ^ 2 * 1 * a i / 2) := by
  refine ⟨⟨1, 1, 1 / 2, 1, 0, 0, false, 1, false⟩, ![1, 2], ![1, 1], rfl, by norm_num, fun i => ?_, fun i => ?_⟩
  · have h : (1 / 2 : ℝ) ≤ √(1 - (1 / 2) ^ 2) := le_sqrt_of_sq_le (by norm_num)
    have he : eps ≤ 1 / 2 := by unfold eps; norm_num
    fin_cases i <;> simp <;> norm_num at h he ⊢ <;> linarith
  · have h : (1e-16 : ℝ) < 1 / 2 := by norm_num
    refine h.trans_le ?_
    fin_cases i <;> simp <;> norm_num
    · have := add_one_le_exp (-(1 / 8) : ℝ); norm_num at this ⊢; linarith
    · have := add_one_le_exp (3 / 8 : ℝ); norm_num at this ⊢; linarith

end Sabr

end PyFENG
