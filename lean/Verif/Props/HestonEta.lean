import Verif.Props.HestonGe

/-!
# The Bessel variable of the gamma expansion (`pyfeng/heston_mc.py`)
-/

namespace PyFENG

open Real Set Filter Topology Spec MeasureTheory

namespace Spec

/-- One term of the series of the modified Bessel function. -/
noncomputable def besselTerm (ν z : ℝ) (k : ℕ) : ℝ := (z / 2) ^ (ν + 2 * k) / (k.factorial * Gamma (ν + k + 1))

/-- The modified Bessel function of the first kind, by its series. -/
noncomputable def besselI (ν z : ℝ) : ℝ := ∑' k, besselTerm ν z k

/-- `scipy.special.ive(ν, z) = exp(-|z|) I_ν(z)`. -/
noncomputable def besselIe (ν z : ℝ) : ℝ := exp (-z) * besselI ν z

end Spec

namespace Heston

lemma besselTerm_pos {ν z : ℝ} (hν : -1 < ν) (hz : 0 < z) (k : ℕ) : 0 < besselTerm ν z k := by
  unfold besselTerm
  have := Gamma_pos_of_pos (show 0 < ν + k + 1 by have := Nat.cast_nonneg (α := ℝ) k; linarith)
  have := Nat.factorial_pos k
  positivity

lemma besselTerm_succ {ν z : ℝ} (hν : -1 < ν) (hz : 0 < z) (k : ℕ) :
    besselTerm ν z (k + 1) = besselTerm ν z k * (z ^ 2 / (4 * ((k : ℝ) + 1) * ((k : ℝ) + 1 + ν))) := by
  unfold besselTerm
  have hk : 0 < ν + k + 1 := by have := Nat.cast_nonneg (α := ℝ) k; linarith
  have h1 : Gamma (ν + ((k + 1 : ℕ) : ℝ) + 1) = (ν + k + 1) * Gamma (ν + k + 1) := by
    rw [← Gamma_add_one hk.ne']
    push_cast
    ring_nf
  have h2 : (z / 2) ^ (ν + 2 * ((k + 1 : ℕ) : ℝ)) = (z / 2) ^ (ν + 2 * (k : ℝ)) * (z / 2) ^ 2 := by
    rw [← rpow_natCast (z / 2) 2, ← rpow_add (by positivity)]
    congr 1
    push_cast
    ring
  rw [h1, h2, Nat.factorial_succ]
  have := (Gamma_pos_of_pos hk).ne'
  have h3 : (k : ℝ) + 1 + ν ≠ 0 := by linarith
  have h4 : ν + k + 1 ≠ 0 := hk.ne'
  have h5 : ((k.factorial : ℕ) : ℝ) ≠ 0 := by exact_mod_cast (Nat.factorial_pos k).ne'
  push_cast
  rw [show ν + (k : ℝ) + 1 = (k : ℝ) + 1 + ν by ring] at *
  field_simp
  norm_num

lemma besselTerm_prod {ν z : ℝ} (hν : -1 < ν) (hz : 0 < z) (k : ℕ) :
    besselTerm ν z k = (z / 2) ^ ν / Gamma (ν + 1) * ∏ j ∈ Finset.range k, z ^ 2 / (4 * ((j : ℝ) + 1) * ((j : ℝ) + 1 + ν)) := by
  induction k with
  | zero => simp [besselTerm]
  | succ k ih => rw [besselTerm_succ hν hz, ih, Finset.prod_range_succ, mul_assoc]

lemma besselTerm_le {ν z : ℝ} (hν : -1 < ν) (hz : 0 < z) (k : ℕ) :
    besselTerm ν z k ≤ (z / 2) ^ ν / Gamma (ν + 1) * ((z ^ 2 / (4 * (1 + ν))) ^ k / k.factorial) := by
  rw [besselTerm_prod hν hz]
  have h0 : 0 < (z / 2) ^ ν / Gamma (ν + 1) := by
    have := Gamma_pos_of_pos (show 0 < ν + 1 by linarith)
    positivity
  refine mul_le_mul_of_nonneg_left ?_ h0.le
  have hν' : 0 < 1 + ν := by linarith
  induction k with
  | zero => simp
  | succ k ih =>
    rw [Finset.prod_range_succ, Nat.factorial_succ]
    have hk : (0 : ℝ) ≤ k := Nat.cast_nonneg k
    have h1 : z ^ 2 / (4 * ((k : ℝ) + 1) * ((k : ℝ) + 1 + ν)) ≤ z ^ 2 / (4 * (1 + ν)) / ((k : ℝ) + 1) := by
      rw [div_div]
      refine div_le_div_of_nonneg_left (by positivity) (by positivity) ?_
      nlinarith
    calc _ ≤ (z ^ 2 / (4 * (1 + ν))) ^ k / k.factorial * (z ^ 2 / (4 * (1 + ν)) / ((k : ℝ) + 1)) := by
          refine mul_le_mul ih h1 ?_ (by positivity)
          have : 0 < (k : ℝ) + 1 + ν := by linarith
          positivity
      _ = _ := by
        have := Nat.factorial_pos k
        push_cast
        generalize z ^ 2 / (4 * (1 + ν)) = y
        rw [pow_succ]
        field_simp

lemma summable_bessel {ν z : ℝ} (hν : -1 < ν) (hz : 0 < z) : Summable (besselTerm ν z) :=
  Summable.of_nonneg_of_le (fun k => (besselTerm_pos hν hz k).le) (fun k => besselTerm_le hν hz k) (((hasSum_pois0 _).summable).mul_left _)

lemma besselI_pos {ν z : ℝ} (hν : -1 < ν) (hz : 0 < z) : 0 < besselI ν z :=
  (summable_bessel hν hz).tsum_pos (fun k => (besselTerm_pos hν hz k).le) 0 (besselTerm_pos hν hz 0)

lemma bessel_shift {ν z : ℝ} (hz : 0 < z) (k : ℕ) : besselTerm ν z (k + 1) * ((k + 1 : ℕ) : ℝ) = z / 2 * besselTerm (ν + 1) z k := by
  unfold besselTerm
  have h2 : (z / 2) ^ (ν + 2 * ((k + 1 : ℕ) : ℝ)) = (z / 2) ^ (ν + 1 + 2 * (k : ℝ)) * (z / 2) := by
    conv_rhs => rw [← rpow_one (z / 2), ← rpow_mul (by positivity), ← rpow_add (by positivity)]
    congr 1
    push_cast
    ring
  rw [h2, show ν + ((k + 1 : ℕ) : ℝ) + 1 = ν + 1 + k + 1 by push_cast; ring, Nat.factorial_succ]
  have h5 : ((k.factorial : ℕ) : ℝ) ≠ 0 := by exact_mod_cast (Nat.factorial_pos k).ne'
  push_cast
  field_simp

/-- First and second factorial moments of the Bessel weights. -/
lemma hasSum_bessel {ν z : ℝ} (hν : -1 < ν) (hz : 0 < z) : HasSum (fun k : ℕ => besselTerm ν z k * k) (z / 2 * besselI (ν + 1) z) ∧
    HasSum (fun k : ℕ => besselTerm ν z k * (k * (k - 1))) ((z / 2) ^ 2 * besselI (ν + 2) z) := by
  have h1 : ∀ {ν : ℝ}, -1 < ν → HasSum (fun k : ℕ => besselTerm ν z k * k) (z / 2 * besselI (ν + 1) z) := by
    intro ν hν
    rw [← hasSum_nat_add_iff' 1]
    simp only [Finset.range_one, Finset.sum_singleton, Nat.cast_zero, mul_zero, sub_zero]
    refine ((summable_bessel (ν := ν + 1) (by linarith) hz).hasSum.mul_left (z / 2)).congr_fun fun k => ?_
    exact bessel_shift hz k
  refine ⟨h1 hν, ?_⟩
  rw [← hasSum_nat_add_iff' 1]
  simp only [Finset.range_one, Finset.sum_singleton, Nat.cast_zero, zero_mul, mul_zero, sub_zero]
  have h2 := (h1 (ν := ν + 1) (by linarith)).mul_left (z / 2)
  rw [show z / 2 * (z / 2 * besselI (ν + 1 + 1) z) = (z / 2) ^ 2 * besselI (ν + 2) z by rw [add_assoc]; norm_num; ring] at h2
  refine h2.congr_fun fun k => ?_
  rw [← mul_assoc, bessel_shift hz k]
  push_cast
  ring

/-- The parameters of the Bessel variable are in range: positive dimension and variances. -/
lemma ivIndex_gt {m : Heston} (hd : 0 < m.cir.chiDim) : -1 < m.ivIndex := by
  unfold ivIndex
  have : (0.5 : ℝ) = 1 / 2 := by norm_num
  rw [this]
  linarith

/-- The probabilities computed in `draw_eta` are the Bessel weights. -/
lemma etaProb_eq {m : Heston} (hd : 0 < m.cir.chiDim) {dt v0 vT : ℝ} (hz : 0 < m.besselArg dt v0 vT) (k : ℕ) :
    m.etaProb besselIe dt v0 vT k = besselTerm m.ivIndex (m.besselArg dt v0 vT) k / besselI m.ivIndex (m.besselArg dt v0 vT) := by
  have hν := ivIndex_gt hd
  unfold etaProb
  simp only
  generalize m.besselArg dt v0 vT = z at hz
  generalize m.ivIndex = ν at hν
  have hG := Gamma_pos_of_pos (show 0 < ν + 1 by linarith)
  have hI := besselI_pos hν hz
  rw [besselTerm_prod hν hz, exp_sub, exp_sub, exp_log hG, mul_comm ν, ← rpow_def_of_pos (by positivity)]
  unfold besselIe
  rw [exp_neg]
  have := exp_pos z
  field_simp

/-- **C107.** The table behind `draw_eta` is a probability law, `eta_mv` returns its mean and its variance divided by the squared mean. -/
theorem eta_mv_correct {m : Heston} (hd : 0 < m.cir.chiDim) {dt v0 vT : ℝ} (hz : 0 < m.besselArg dt v0 vT) :
    (∀ k, 0 < m.etaProb besselIe dt v0 vT k) ∧ HasSum (m.etaProb besselIe dt v0 vT) 1 ∧
    HasSum (fun k : ℕ => m.etaProb besselIe dt v0 vT k * k) (m.etaMv besselIe dt v0 vT).1 ∧
    HasSum (fun k : ℕ => m.etaProb besselIe dt v0 vT k * ((k : ℝ) - (m.etaMv besselIe dt v0 vT).1) ^ 2) ((m.etaMv besselIe dt v0 vT).2 * (m.etaMv besselIe dt v0 vT).1 ^ 2) ∧
    0 < (m.etaMv besselIe dt v0 vT).1 := by
  have hν := ivIndex_gt hd
  rw [show m.etaProb besselIe dt v0 vT = fun k => besselTerm m.ivIndex (m.besselArg dt v0 vT) k / besselI m.ivIndex (m.besselArg dt v0 vT) from funext fun k => etaProb_eq hd hz k]
  unfold etaMv
  simp only
  generalize m.besselArg dt v0 vT = z at hz
  generalize m.ivIndex = ν at hν
  have h0 := besselI_pos hν hz
  have h1 := besselI_pos (show -1 < ν + 1 by linarith) hz
  have h2 := besselI_pos (show -1 < ν + 2 by linarith) hz
  obtain ⟨s1, s2⟩ := hasSum_bessel hν hz
  have s0 : HasSum (besselTerm ν z) (besselI ν z) := (summable_bessel hν hz).hasSum
  have er : besselIe (ν + 1) z / besselIe ν z = besselI (ν + 1) z / besselI ν z := by
    unfold besselIe; rw [mul_div_mul_left _ _ (exp_pos _).ne']
  have er2 : besselIe (ν + 2) z / besselIe ν z = besselI (ν + 2) z / besselI ν z := by
    unfold besselIe; rw [mul_div_mul_left _ _ (exp_pos _).ne']
  rw [er, er2]
  have t0 := s0.div_const (besselI ν z)
  rw [div_self h0.ne'] at t0
  have t1 := s1.div_const (besselI ν z)
  have t2 := s2.div_const (besselI ν z)
  have hm : z / 2 * besselI (ν + 1) z / besselI ν z = z / 2 * (besselI (ν + 1) z / besselI ν z) := by ring
  rw [hm] at t1
  have hmp : 0 < z / 2 * (besselI (ν + 1) z / besselI ν z) := by positivity
  refine ⟨fun k => div_pos (besselTerm_pos hν hz k) h0, t0, ?_, ?_, hmp⟩
  · refine t1.congr_fun fun k => ?_
    ring
  · obtain ⟨M, hM⟩ : ∃ M, M = z / 2 * (besselI (ν + 1) z / besselI ν z) := ⟨_, rfl⟩
    have h := (t2.add (t1.mul_left (1 - 2 * M))).add (t0.mul_left (M ^ 2))
    rw [← hM] at h ⊢
    have e : (z / 2) ^ 2 * besselI (ν + 2) z / besselI ν z + (1 - 2 * M) * M + M ^ 2 * 1 = (besselI (ν + 2) z / besselI ν z / (besselI (ν + 1) z / besselI ν z) ^ 2 + 1 / M - 1) * M ^ 2 := by
      have hMp : 0 < M := by rw [hM]; exact hmp
      have e1 : besselI (ν + 2) z / besselI ν z / (besselI (ν + 1) z / besselI ν z) ^ 2 * M ^ 2 = (z / 2) ^ 2 * besselI (ν + 2) z / besselI ν z := by
        rw [hM]; field_simp
      have e2 : 1 / M * M ^ 2 = M := by field_simp
      rw [sub_mul _ 1 (M ^ 2), add_mul _ (1 / M) (M ^ 2), e1, e2]
      ring
    rw [e] at h
    refine h.congr_fun fun k => ?_
    ring

/-- Integral of a counting function of a uniform variable. -/
lemma integral_count (p : ℕ → ℝ) (hp : ∀ k, 0 ≤ p k) (φ : ℕ → ℝ) : ∀ N, (∑ k ∈ Finset.range N, p k ≤ 1) →
    IntegrableOn (fun u => φ ((Finset.range N).filter fun k => ∑ j ∈ Finset.range (k + 1), p j < u).card) (Ioo 0 1) ∧
    ∫ u in Ioo (0 : ℝ) 1, φ ((Finset.range N).filter fun k => ∑ j ∈ Finset.range (k + 1), p j < u).card =
      ∑ k ∈ Finset.range N, p k * φ k + (1 - ∑ k ∈ Finset.range N, p k) * φ N
  | 0, _ => by simp
  | N + 1, h => by
    obtain ⟨i1, e1⟩ := integral_count p hp φ N (by rw [Finset.sum_range_succ] at h; linarith [hp N])
    obtain ⟨c, hc⟩ : ∃ c, c = ∑ j ∈ Finset.range (N + 1), p j := ⟨_, rfl⟩
    have hc0 : 0 ≤ c := by rw [hc]; exact Finset.sum_nonneg fun k _ => hp k
    have hc1 : c ≤ 1 := by rw [hc]; exact h
    have e : ∀ u, φ ((Finset.range (N + 1)).filter fun k => ∑ j ∈ Finset.range (k + 1), p j < u).card =
        φ ((Finset.range N).filter fun k => ∑ j ∈ Finset.range (k + 1), p j < u).card + (Ioi c).indicator (fun _ => φ (N + 1) - φ N) u := by
      intro u
      rw [Finset.range_add_one, Finset.filter_insert, ← hc]
      by_cases hu : c < u
      · rw [if_pos hu, Finset.card_insert_of_notMem (by simp), indicator_of_mem (mem_Ioi.2 hu)]
        have hall : (Finset.range N).filter (fun k => ∑ j ∈ Finset.range (k + 1), p j < u) = Finset.range N := by
          refine Finset.filter_true_of_mem fun k hk => lt_of_le_of_lt ?_ hu
          rw [hc]
          exact Finset.sum_le_sum_of_subset_of_nonneg (Finset.range_mono (by have := Finset.mem_range.1 hk; omega)) fun j _ _ => hp j
        rw [hall, Finset.card_range]
        ring
      · rw [if_neg hu, indicator_of_notMem (by simpa using hu), add_zero]
    simp only [e]
    have i2 : IntegrableOn ((Ioi c).indicator (fun _ => φ (N + 1) - φ N)) (Ioo 0 1) := by
      refine Integrable.indicator ?_ measurableSet_Ioi
      exact integrableOn_const (by simp)
    refine ⟨i1.add i2, ?_⟩
    rw [integral_add i1 i2, e1, setIntegral_indicator measurableSet_Ioi]
    have hset : Ioo (0 : ℝ) 1 ∩ Ioi c = Ioo c 1 := by
      ext x
      simp only [mem_inter_iff, mem_Ioo, mem_Ioi]
      constructor
      · exact fun h => ⟨h.2, h.1.2⟩
      · exact fun h => ⟨⟨by linarith [h.1], h.2⟩, h.1⟩
    rw [hset, setIntegral_const, smul_eq_mul, Measure.real, Real.volume_Ioo, ENNReal.toReal_ofReal (by linarith), hc, Finset.sum_range_succ, Finset.sum_range_succ (fun k => p k * φ k)]
    ring

/-- **C107.** The law of `draw_eta`: probability `p_k` for `k < 16`, and all the remaining probability on 16 (the table has 16 entries). -/
theorem draw_eta_law {m : Heston} (hd : 0 < m.cir.chiDim) {dt v0 vT : ℝ} (hz : 0 < m.besselArg dt v0 vT) (φ : ℕ → ℝ) :
    m.drawEta rngEx besselIe dt v0 vT φ = ∑ k ∈ Finset.range 16, m.etaProb besselIe dt v0 vT k * φ k + (1 - ∑ k ∈ Finset.range 16, m.etaProb besselIe dt v0 vT k) * φ 16 := by
  obtain ⟨hp, hs, -⟩ := eta_mv_correct hd hz
  exact (integral_count _ (fun k => (hp k).le) φ 16 (sum_le_hasSum _ (fun k _ => (hp k).le) hs)).2

/-- **C107.** The unconditional moments of `cond_avgvar_mv` (`pois=None`): mixing the laws given `eta` (whose moments `draw_gk_correct` and `draw_x123_correct` identify) over the Bessel law gives exactly the
returned mean and variance. -/
theorem cond_avgvar_mv_correct {m : Heston} (hd : 0 < m.cir.chiDim) {dt v0 vT : ℝ} (hv : 0 < m.vov2dt dt) (hs : 0 < v0 + vT) (hz : 0 < m.besselArg dt v0 vT)
    (D : ℕ → Ex ℝ) (hD : ∀ k : ℕ, HasMV (D k) (m.condAvgvarMv besselIe dt v0 vT (some (k : ℝ)) 0).1 ((m.condAvgvarMv besselIe dt v0 vT (some (k : ℝ)) 0).2 * (m.condAvgvarMv besselIe dt v0 vT (some (k : ℝ)) 0).1 ^ 2)) :
    let a := m.condAvgvarMv besselIe dt v0 vT none 0
    HasMV (fun φ => ∑' k, m.etaProb besselIe dt v0 vT k * D k φ) a.1 (a.2 * a.1 ^ 2) := by
  intro a
  obtain ⟨hp, s0, s1, s2, hm⟩ := eta_mv_correct hd hz
  obtain ⟨M, hM⟩ : ∃ M, M = (m.etaMv besselIe dt v0 vT).1 := ⟨_, rfl⟩
  obtain ⟨V, hV⟩ : ∃ V, V = (m.etaMv besselIe dt v0 vT).2 * (m.etaMv besselIe dt v0 vT).1 ^ 2 := ⟨_, rfl⟩
  rw [← hV] at s2
  rw [← hM] at s1 s2 hm
  have q1 := (m.x1star_pos hv 0).1
  have q2 := (m.x2star_pos hv (kk := 0) (Or.inr (by norm_num))).1
  have ha : a.1 = (m.x1star dt 0).1 * (v0 + vT) + (m.x2star dt 0).1 * (2 * M + m.cir.chiDim / 2) := by rw [hM]; rfl
  have ha0 : 0 < a.1 := by rw [ha]; positivity
  have ha2 : a.2 * a.1 ^ 2 = (m.x1star dt 0).2 * (m.x1star dt 0).1 ^ 2 * (v0 + vT) + (m.x2star dt 0).2 * (m.x2star dt 0).1 ^ 2 * (2 * M + m.cir.chiDim / 2) + V * (2 * (m.x2star dt 0).1) ^ 2 := by
    have : a.2 = ((m.x1star dt 0).2 * (m.x1star dt 0).1 ^ 2 * (v0 + vT) + (m.x2star dt 0).2 * (m.x2star dt 0).1 ^ 2 * (2 * M + m.cir.chiDim / 2) + V * (2 * (m.x2star dt 0).1) ^ 2) / a.1 ^ 2 := by
      rw [hM, hV]; rfl
    rw [this, div_mul_cancel₀ _ (pow_ne_zero 2 ha0.ne')]
  have hk1 : ∀ k : ℕ, (m.condAvgvarMv besselIe dt v0 vT (some (k : ℝ)) 0).1 = (m.x1star dt 0).1 * (v0 + vT) + (m.x2star dt 0).1 * (2 * (k : ℝ) + m.cir.chiDim / 2) := fun k => rfl
  have hk2 : ∀ k : ℕ, (m.condAvgvarMv besselIe dt v0 vT (some (k : ℝ)) 0).2 * (m.condAvgvarMv besselIe dt v0 vT (some (k : ℝ)) 0).1 ^ 2 =
      (m.x1star dt 0).2 * (m.x1star dt 0).1 ^ 2 * (v0 + vT) + (m.x2star dt 0).2 * (m.x2star dt 0).1 ^ 2 * (2 * (k : ℝ) + m.cir.chiDim / 2) := by
    intro k
    have h0 : 0 < (m.condAvgvarMv besselIe dt v0 vT (some (k : ℝ)) 0).1 := by rw [hk1]; positivity
    have : (m.condAvgvarMv besselIe dt v0 vT (some (k : ℝ)) 0).2 = ((m.x1star dt 0).2 * (m.x1star dt 0).1 ^ 2 * (v0 + vT) + (m.x2star dt 0).2 * (m.x2star dt 0).1 ^ 2 * (2 * (k : ℝ) + m.cir.chiDim / 2)) / (m.condAvgvarMv besselIe dt v0 vT (some (k : ℝ)) 0).1 ^ 2 := rfl
    rw [this, div_mul_cancel₀ _ (pow_ne_zero 2 h0.ne')]
  rw [ha2, ha]
  simp only [hk2] at hD
  simp only [hk1] at hD
  generalize (m.x1star dt 0).1 = X1 at *
  generalize (m.x1star dt 0).2 = X2 at *
  generalize (m.x2star dt 0).1 = Z1 at *
  generalize (m.x2star dt 0).2 = Z2 at *
  generalize m.cir.chiDim = d at *
  generalize v0 + vT = w at *
  intro A B C
  beta_reduce
  simp only [fun k => hD k A B C]
  obtain ⟨c0, hc0⟩ : ∃ c0, c0 = A + B * (X1 * w + Z1 * (2 * M + d / 2)) + C * ((X2 * X1 ^ 2 * w + Z2 * Z1 ^ 2 * (2 * M + d / 2)) + (X1 * w + Z1 * (2 * M + d / 2)) ^ 2) := ⟨_, rfl⟩
  obtain ⟨c1, hc1⟩ : ∃ c1, c1 = B * (2 * Z1) + C * (2 * Z2 * Z1 ^ 2 + 2 * (X1 * w + Z1 * (2 * M + d / 2)) * (2 * Z1)) := ⟨_, rfl⟩
  have t := ((s0.mul_left c0).add ((s1.sub (s0.mul_left M)).mul_left c1)).add (s2.mul_left (C * (2 * Z1) ^ 2))
  have e : ∀ k : ℕ, m.etaProb besselIe dt v0 vT k * (A + B * (X1 * w + Z1 * (2 * (k : ℝ) + d / 2)) + C * (X2 * X1 ^ 2 * w + Z2 * Z1 ^ 2 * (2 * (k : ℝ) + d / 2) + (X1 * w + Z1 * (2 * (k : ℝ) + d / 2)) ^ 2)) =
      c0 * m.etaProb besselIe dt v0 vT k + c1 * (m.etaProb besselIe dt v0 vT k * k - M * m.etaProb besselIe dt v0 vT k) + C * (2 * Z1) ^ 2 * (m.etaProb besselIe dt v0 vT k * ((k : ℝ) - M) ^ 2) := by
    intro k
    rw [hc0, hc1]
    ring
  simp only [e]
  rw [t.tsum_eq, hc0, hc1]
  ring

/-- **C106/C107.** The moments used by the Tse-Wan scheme: `HestonMcTseWan2013` draws the average variance from an inverse Gaussian law with exactly the returned mean and variance. -/
theorem tse_wan_draw_correct (m : Heston) {dt v0 vT : ℝ} (hd : 0 < m.cir.chiDim) (hv : 0 < m.vov2dt dt) (hs : 0 < v0 + vT) (hz : 0 < m.besselArg dt v0 vT) :
    let a := m.condAvgvarMv besselIe dt v0 vT none 0
    0 < a.1 ∧ 0 < a.2 ∧ HasMV (rngEx.wald a.1 (a.1 / a.2)) a.1 (a.2 * a.1 ^ 2) := by
  intro a
  obtain ⟨hp, s0, s1, s2, hm⟩ := eta_mv_correct hd hz
  have q1 := m.x1star_pos hv 0
  have q2 := (m.x2star_pos hv (kk := 0) (Or.inr (by norm_num)))
  have h2 : 0 ≤ (m.etaMv besselIe dt v0 vT).2 * (m.etaMv besselIe dt v0 vT).1 ^ 2 := s2.nonneg fun k => by have := hp k; positivity
  have ha0 : 0 < a.1 := by
    show 0 < (m.x1star dt 0).1 * (v0 + vT) + (m.x2star dt 0).1 * (2 * (m.etaMv besselIe dt v0 vT).1 + m.cir.chiDim / 2)
    have := q1.1; have := q2.1
    positivity
  have ha2 : 0 < a.2 := by
    refine div_pos ?_ (pow_pos ha0 2)
    show 0 < (m.x1star dt 0).2 * (m.x1star dt 0).1 ^ 2 * (v0 + vT) + (m.x2star dt 0).2 * (m.x2star dt 0).1 ^ 2 * (2 * (m.etaMv besselIe dt v0 vT).1 + m.cir.chiDim / 2) + (m.etaMv besselIe dt v0 vT).2 * (m.etaMv besselIe dt v0 vT).1 ^ 2 * (2 * (m.x2star dt 0).1) ^ 2
    obtain ⟨r1, r2⟩ := q1
    obtain ⟨r3, r4⟩ := q2
    have : 0 ≤ (m.etaMv besselIe dt v0 vT).2 * (m.etaMv besselIe dt v0 vT).1 ^ 2 * (2 * (m.x2star dt 0).1) ^ 2 := mul_nonneg h2 (sq_nonneg _)
    positivity
  refine ⟨ha0, ha2, Spec.HasMV.congr (hasMV_wald ha0 (div_pos ha0 ha2)) rfl ?_⟩
  field_simp

/-- A concrete model meets the hypotheses. -/
example : let m : Heston := ⟨0.04, 1, -0.9, 0.5, 0.04, 0, 0, false⟩
    0 < m.cir.chiDim ∧ 0 < m.vov2dt 1 ∧ 0 < m.besselArg 1 0.04 0.09 ∧ HasSum (m.etaProb besselIe 1 0.04 0.09) 1 := by
  intro m
  have h2 : 0 < m.cir.chiDim := by simp only [m, cir, Cir.chiDim]; norm_num
  have h3 : 0 < m.besselArg 1 0.04 0.09 := by
    unfold besselArg Cir.phiExp
    simp only [m, cir]
    have h := exp_lt_one_iff.2 (show (-0.5 * 1 / 2 : ℝ) < 0 by norm_num)
    have h0 := exp_pos (-0.5 * 1 / 2 : ℝ)
    have h1 : 1 < 1 / exp (-0.5 * 1 / 2 : ℝ) := (one_lt_div h0).2 h
    have : 0 < 1 / exp (-0.5 * 1 / 2 : ℝ) - exp (-0.5 * 1 / 2 : ℝ) := by linarith
    have : 0 < √((0.04 : ℝ) * 0.09) := sqrt_pos.2 (by norm_num)
    positivity
  exact ⟨h2, by simp [m, vov2dt], h3, (eta_mv_correct h2 h3).2.1⟩

end Heston

end PyFENG
