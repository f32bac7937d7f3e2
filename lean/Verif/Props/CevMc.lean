import Verif.Props.CevLaw
import Verif.Lemmas.Kang

/-!
# C84: one step of the CEV Monte Carlo is exact
-/

namespace PyFENG

open Real Filter Topology Set MeasureTheory

/-- Indicator of a condition on the simulated price. -/
noncomputable def Spec.hit (p : ℝ → Prop) [DecidablePred p] : Option ℝ → ℝ
  | some s => if p s then 1 else 0
  | none => 0

namespace Cev

lemma step_level (m : Cev) (S dt : ℝ) :
    ((exp ((m.intr - m.divr) * dt) * S) ^ (2 * (1 - m.beta))
      / (((1 - m.beta) * m.sigma) ^ 2 * dt * exprel (2 * (m.intr - m.divr) * (1 - m.beta) * dt))) / 2
      = cevLev (1 - m.beta) (m.effVar dt) (exp ((m.intr - m.divr) * dt) * S) := by
  unfold cevLev effVar
  rw [show 2 * (m.intr - m.divr) * (1 - m.beta) * dt = 2 * (1 - m.beta) * (m.intr - m.divr) * dt by ring, div_div]
  congr 1
  ring

lemma step_var (m : Cev) (dt : ℝ) :
    ((1 - m.beta) * m.sigma) ^ 2 * dt * exprel (2 * (m.intr - m.divr) * (1 - m.beta) * dt) = m.effVar dt := by
  unfold effVar
  rw [show 2 * (m.intr - m.divr) * (1 - m.beta) * dt = 2 * (1 - m.beta) * (m.intr - m.divr) * dt by ring]
  ring

lemma step_fwd (m : Cev) (S dt : ℝ) : exp ((m.intr - m.divr) * dt) * S = ({ m with isFwd := false } : Cev).mp.fwd S dt := by
  rw [MParams.fwd_eq_forward, MParams.forward_eq_spec]
  unfold Spec.forward mp
  simp [mul_comm]

/-- **C84**: one step of `CevMc.price_step` from a positive price lands above `K` with exactly the probability the analytic model (with
`spot` meant as a spot price) assigns, for any step size. -/
theorem cevmc_step_exact (m : Cev) (hb : m.beta < 1) (hs : 0 < m.sigma) {K S dt : ℝ} (hK : 0 < K) (hS : 0 < S) (hT : 0 < dt) :
    ({ m with isFwd := false } : Cev).cdf K S dt 1
      = some ((priceStep Ex.gamma Ex.poisson m S dt) (Spec.hit fun s => K < s)) := by
  have hb' : 0 < 1 - m.beta := by linarith
  have hnu : 0 < 1 / (2 * (1 - m.beta)) := by positivity
  have hF : 0 < exp ((m.intr - m.divr) * dt) * S := by positivity
  have hW := m.effVar_pos hb.ne hs hT
  have hfw := m.step_fwd S dt
  have hcdf : ({ m with isFwd := false } : Cev).cdf K S dt 1 = some (ncP (1 / (2 * (1 - m.beta)))
      (cevLev (1 - m.beta) (m.effVar dt) (exp ((m.intr - m.divr) * dt) * S)) (cevLev (1 - m.beta) (m.effVar dt) K)) := by
    obtain ⟨-, d2, -⟩ := dofs (1 - m.beta)
    have hbi : ¬ (1 / (1 - m.beta) ≤ 0) := not_le.2 (div_pos one_pos hb')
    unfold cdf
    rw [← MParams.fwd_eq_forward, ← hfw]
    simp only [vars_eq ({ m with isFwd := false } : Cev) hF hK dt, hbi, if_false, gt_iff_lt, zero_lt_one, if_true, ncx2Cdf_eq, d2, half_double]
    rfl
  rw [hcdf]
  congr 1
  have hn : ¬ (1 / (2 * (1 - m.beta)) < 0) := not_lt.2 hnu.le
  have hS' : S > 0 := hS
  unfold priceStep
  simp only [hn, if_false, hS', not_true_eq_false, m.step_var]
  have hl : ∀ g : ℝ, ((exp ((m.intr - m.divr) * dt) * S) ^ (2 * (1 - m.beta)) / m.effVar dt - 2 * g) / 2
      = cevLev (1 - m.beta) (m.effVar dt) (exp ((m.intr - m.divr) * dt) * S) - g := by
    intro g
    rw [← m.step_level, m.step_var]; ring
  simp only [hl]
  set y0 := cevLev (1 - m.beta) (m.effVar dt) (exp ((m.intr - m.divr) * dt) * S) with hy0
  set nu := 1 / (2 * (1 - m.beta)) with hnudef
  have y0p : 0 < y0 := cevLev_pos hW hF
  have yKp : 0 < cevLev (1 - m.beta) (m.effVar dt) K := cevLev_pos hW hK
  -- the innermost draw
  have hin : ∀ n : ℕ, ∫ x in Ioi 0, gammaPdf ((n : ℝ) + 1) x * (Spec.hit (fun s => K < s) (some ((m.effVar dt * (2 * x)) ^ nu)))
      = 1 - gammaInc (n + 1) (cevLev (1 - m.beta) (m.effVar dt) K) := by
    intro n
    rw [← integral_gammaPdf_Ioi (by positivity) yKp.le, ← integral_indicator measurableSet_Ioi, ← integral_indicator measurableSet_Ioi]
    congr 1
    ext x
    by_cases hx : 0 < x
    · rw [indicator_of_mem (show x ∈ Ioi (0 : ℝ) from hx)]
      have hiff : K < (m.effVar dt * (2 * x)) ^ nu ↔ cevLev (1 - m.beta) (m.effVar dt) K < x := by
        unfold cevLev
        rw [hnudef, one_div, Real.lt_rpow_inv_iff_of_pos hK.le (by positivity) (by positivity), div_lt_iff₀ (by positivity)]
        rw [show x * (2 * m.effVar dt) = m.effVar dt * (2 * x) by ring]
      unfold Spec.hit
      simp only [hiff]
      by_cases h : cevLev (1 - m.beta) (m.effVar dt) K < x
      · rw [if_pos h, indicator_of_mem (show x ∈ Ioi _ from h), mul_one]
      · rw [if_neg h, indicator_of_notMem (show x ∉ Ioi _ from h), mul_zero]
    · rw [indicator_of_notMem (show x ∉ Ioi (0 : ℝ) from hx), indicator_of_notMem]
      intro h
      exact hx (yKp.trans h)
  show _ = ∫ g in Ioi 0, gammaPdf nu g * (ite (y0 - g ≤ 0) (pure (some 0) : Ex (Option ℝ)) (Ex.poisson (y0 - g) >>= fun n =>
    Ex.gamma (n + 1) >>= fun x => pure (some ((m.effVar dt * (2 * x)) ^ nu)))) (Spec.hit fun s => K < s)
  have hmid : ∀ g, (ite (y0 - g ≤ 0) (pure (some 0) : Ex (Option ℝ)) (Ex.poisson (y0 - g) >>= fun n =>
      Ex.gamma (n + 1) >>= fun x => pure (some ((m.effVar dt * (2 * x)) ^ nu)))) (Spec.hit fun s => K < s)
      = if y0 - g ≤ 0 then 0 else poisMix (fun n => 1 - gammaInc (n + 1) (cevLev (1 - m.beta) (m.effVar dt) K)) (y0 - g) := by
    intro g
    split_ifs with h
    · show Spec.hit (fun s => K < s) (some 0) = 0
      unfold Spec.hit
      simp [hK.le]
    · show poisMix (fun n => ∫ x in Ioi 0, gammaPdf ((n : ℝ) + 1) x * (Spec.hit (fun s => K < s) (some ((m.effVar dt * (2 * x)) ^ nu)))) (y0 - g) = _
      simp only [hin]
  simp only [hmid]
  rw [← kang_integral hnu y0p yKp.le, ← integral_indicator measurableSet_Ioi, integral_Ioc_eq_integral_Ioo,
    ← integral_indicator measurableSet_Ioo]
  congr 1
  ext g
  by_cases hg : 0 < g
  · rw [indicator_of_mem (show g ∈ Ioi (0 : ℝ) from hg)]
    by_cases h : g < y0
    · rw [indicator_of_mem (show g ∈ Ioo 0 y0 from ⟨hg, h⟩), if_neg (by linarith)]
    · rw [indicator_of_notMem (fun hh : g ∈ Ioo 0 y0 => h hh.2), if_pos (by linarith [not_lt.1 h]), mul_zero]
  · rw [indicator_of_notMem (show g ∉ Ioi (0 : ℝ) from hg), indicator_of_notMem (fun hh : g ∈ Ioo 0 y0 => hg hh.1)]

/-- **C84**: the step is absorbed at zero with exactly the probability `Cev.mass_zero` reports. -/
theorem cevmc_step_absorbed (m : Cev) (hb : m.beta < 1) (hs : 0 < m.sigma) {S dt : ℝ} (hS : 0 < S) (hT : 0 < dt) :
    ({ m with isFwd := false } : Cev).massZero S dt
      = some ((priceStep Ex.gamma Ex.poisson m S dt) (Spec.hit fun s => s = 0)) := by
  have hb' : 0 < 1 - m.beta := by linarith
  have hnu : 0 < 1 / (2 * (1 - m.beta)) := by positivity
  have hF : 0 < exp ((m.intr - m.divr) * dt) * S := by positivity
  have hW := m.effVar_pos hb.ne hs hT
  have hfw := m.step_fwd S dt
  have hm := ({ m with isFwd := false } : Cev).massZero_eq (S := S) (T := dt) hb (by rw [← hfw]; exact hF)
  rw [hm, ← hfw]
  congr 1
  have hn : ¬ (1 / (2 * (1 - m.beta)) < 0) := not_lt.2 hnu.le
  have hS' : S > 0 := hS
  unfold priceStep
  simp only [hn, if_false, hS', not_true_eq_false, m.step_var]
  have hl : ∀ g : ℝ, ((exp ((m.intr - m.divr) * dt) * S) ^ (2 * (1 - m.beta)) / m.effVar dt - 2 * g) / 2
      = cevLev (1 - m.beta) (m.effVar dt) (exp ((m.intr - m.divr) * dt) * S) - g := by
    intro g
    rw [← m.step_level, m.step_var]; ring
  simp only [hl]
  change 1 - gammaInc (1 / (2 * (1 - m.beta))) (cevLev (1 - m.beta) (m.effVar dt) (exp ((m.intr - m.divr) * dt) * S)) = _
  set y0 := cevLev (1 - m.beta) (m.effVar dt) (exp ((m.intr - m.divr) * dt) * S) with hy0
  set nu := 1 / (2 * (1 - m.beta)) with hnudef
  have y0p : 0 < y0 := cevLev_pos hW hF
  have hin : ∀ n : ℕ, ∫ x in Ioi 0, gammaPdf ((n : ℝ) + 1) x * (Spec.hit (fun s => s = 0) (some ((m.effVar dt * (2 * x)) ^ nu))) = 0 := by
    intro n
    refine setIntegral_eq_zero_of_forall_eq_zero fun x hx => ?_
    have hx' : 0 < x := hx
    have : (m.effVar dt * (2 * x)) ^ nu ≠ 0 := (rpow_pos_of_pos (by positivity) _).ne'
    unfold Spec.hit
    simp [this]
  show _ = ∫ g in Ioi 0, gammaPdf nu g * (ite (y0 - g ≤ 0) (pure (some 0) : Ex (Option ℝ)) (Ex.poisson (y0 - g) >>= fun n =>
    Ex.gamma (n + 1) >>= fun x => pure (some ((m.effVar dt * (2 * x)) ^ nu)))) (Spec.hit fun s => s = 0)
  have hmid : ∀ g, (ite (y0 - g ≤ 0) (pure (some 0) : Ex (Option ℝ)) (Ex.poisson (y0 - g) >>= fun n =>
      Ex.gamma (n + 1) >>= fun x => pure (some ((m.effVar dt * (2 * x)) ^ nu)))) (Spec.hit fun s => s = 0)
      = if y0 - g ≤ 0 then 1 else 0 := by
    intro g
    split_ifs with h
    · show Spec.hit (fun s => s = 0) (some 0) = 1
      simp [Spec.hit]
    · show poisMix (fun n => ∫ x in Ioi 0, gammaPdf ((n : ℝ) + 1) x * (Spec.hit (fun s => s = 0) (some ((m.effVar dt * (2 * x)) ^ nu)))) (y0 - g) = _
      simp only [hin]
      exact poisMix_const 0 _
  simp only [hmid]
  rw [← integral_gammaPdf_Ioi hnu y0p.le, ← integral_Ici_eq_integral_Ioi, ← integral_indicator measurableSet_Ici, ← integral_indicator measurableSet_Ioi]
  congr 1
  ext g
  by_cases h : y0 ≤ g
  · rw [indicator_of_mem (show g ∈ Ici y0 from h), indicator_of_mem (show g ∈ Ioi (0 : ℝ) from y0p.trans_le h), if_pos (by linarith), mul_one]
  · rw [indicator_of_notMem (show g ∉ Ici y0 from h)]
    by_cases hg : 0 < g
    · rw [indicator_of_mem (show g ∈ Ioi (0 : ℝ) from hg), if_neg (by linarith [not_le.1 h]), mul_zero]
    · rw [indicator_of_notMem (show g ∉ Ioi (0 : ℝ) from hg)]

/-- **C84**: whatever the generator returns (nonnegative gammas), the simulated price is never negative, and zero is absorbing. -/
theorem cevmc_step_nonneg (m : Cev) (hb : m.beta < 1) (gam : ℝ → Id ℝ) (pois : ℝ → Id ℕ) (hg : ∀ a, 0 ≤ (gam a).run) {S dt : ℝ}
    (hS : 0 ≤ S) (hT : 0 ≤ dt) :
    ∃ s, priceStep (M := Id) gam pois m S dt = some s ∧ 0 ≤ s ∧ (S = 0 → s = 0) := by
  have hn : ¬ (1 / (2 * (1 - m.beta)) < 0) := not_lt.2 (div_pos one_pos (by linarith)).le
  unfold priceStep
  simp only [hn, if_false]
  by_cases h : S > 0
  · simp only [h, not_true_eq_false, if_false]
    change ∃ s, (ite _ (some 0) (some _) : Option ℝ) = some s ∧ _
    split_ifs with h1
    · exact ⟨0, rfl, le_rfl, fun _ => rfl⟩
    · refine ⟨_, rfl, rpow_nonneg ?_ _, fun h0 => absurd h0 h.ne'⟩
      have := exprel_pos (2 * (m.intr - m.divr) * (1 - m.beta) * dt)
      have h2 := hg ((pois ((((exp ((m.intr - m.divr) * dt) * S) ^ (2 * (1 - m.beta)) /
        (((1 - m.beta) * m.sigma) ^ 2 * dt * exprel (2 * (m.intr - m.divr) * (1 - m.beta) * dt))) - 2 * (gam (1 / (2 * (1 - m.beta)))).run) / 2)).run + 1)
      exact mul_nonneg (by positivity) (mul_nonneg (by norm_num) h2)
  · have h0 : S = 0 := le_antisymm (not_lt.1 h) hS
    simp only [h, not_false_eq_true, if_true]
    exact ⟨_, rfl, by positivity, fun _ => by rw [h0, mul_zero]⟩

/-- For `beta > 1`, which the constructor accepts, the sampler refuses to run. -/
theorem cevmc_step_beta_gt_one_fails (m : Cev) (hb : 1 < m.beta) (gam : ℝ → Id ℝ) (pois : ℝ → Id ℕ) (S dt : ℝ) :
    priceStep (M := Id) gam pois m S dt = none := by
  unfold priceStep
  simp only
  rw [if_pos (div_neg_of_pos_of_neg one_pos (by linarith))]
  rfl

end Cev

end PyFENG
