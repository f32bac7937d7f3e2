import Verif.Props.HestonTwMean

/-!
# C107: the Bessel law is the conditional law of the Poisson variable given the terminal variance
-/

namespace PyFENG

open Real Set MeasureTheory Filter Topology

open Spec

namespace Heston

/-- **C107.** The law tabulated by `draw_eta` is the exact conditional law of the Poisson variable of the exact sampler given the terminal variance: for every bounded
measurable function of the pair, drawing `(v, n)` with `draw_pois_gamma` and drawing `v` with `draw_ncx2` and then `n` from the Bessel law for `(v_0, v)` give the same expectation. -/
theorem bessel_conditional_law {m : Heston} (h : Regular m) {dt v0 : ℝ} (hdt : 0 < dt) (h0 : 0 < v0) (φ : ℝ → ℕ → ℝ) (hφ : ∀ n, Measurable fun v => φ v n)
    {M : ℝ} (hM : ∀ v n, |φ v n| ≤ M) :
    Cir.drawPoisGamma Ex.gamma0 Ex.poisson m.cir dt v0 (fun p => φ p.1 p.2) =
      Cir.drawNcx2 Ex.ncx2 m.cir dt v0 (fun v => ∑' k, m.etaProb besselIe dt v0 v k * φ v k) := by
  obtain ⟨hp1, hp2⟩ := phiExp_pos h hdt
  have hd := chiDim_pos h
  rw [Cir.draw_ncx2_eq_pois_gamma]
  have hdd : ∀ n : ℕ, 4 * m.cir.mr * m.cir.theta / m.cir.sigma ^ 2 / 2 + (n : ℝ) = m.cir.chiDim / 2 + n := fun n => by unfold Cir.chiDim; ring
  have hz : ∀ g, 0 < g → 0 < m.besselArg dt v0 ((m.cir.phiExp dt).2 / (m.cir.phiExp dt).1 * 2 * g) := fun g hg => besselArg_pos h hdt h0 (by positivity)
  have hz2 : ∀ g, 0 < g → (m.besselArg dt v0 ((m.cir.phiExp dt).2 / (m.cir.phiExp dt).1 * 2 * g) / 2) ^ 2 = v0 * (m.cir.phiExp dt).2 * (m.cir.phiExp dt).1 / 2 * g := by
    intro g hg
    unfold besselArg
    rw [div_pow, mul_pow, sq_sqrt (by positivity)]
    field_simp
  symm
  show Ex.poisson (v0 * (m.cir.phiExp dt).2 * (m.cir.phiExp dt).1 / 2) (fun n => Ex.gamma (4 * m.cir.mr * m.cir.theta / m.cir.sigma ^ 2 / 2 + n) fun g =>
      ∑' k, m.etaProb besselIe dt v0 ((m.cir.phiExp dt).2 / (m.cir.phiExp dt).1 * 2 * g) k * φ ((m.cir.phiExp dt).2 / (m.cir.phiExp dt).1 * 2 * g) k) =
    Ex.poisson (v0 * (m.cir.phiExp dt).2 * (m.cir.phiExp dt).1 / 2) (fun n => Ex.gamma0 (4 * m.cir.mr * m.cir.theta / m.cir.sigma ^ 2 / 2 + n) fun g =>
      φ ((m.cir.phiExp dt).2 / (m.cir.phiExp dt).1 * 2 * g) n)
  simp only [hdd]
  have hlam : 0 < v0 * (m.cir.phiExp dt).2 * (m.cir.phiExp dt).1 / 2 := by positivity
  have hc : 0 < (m.cir.phiExp dt).2 / (m.cir.phiExp dt).1 * 2 := by positivity
  generalize v0 * (m.cir.phiExp dt).2 * (m.cir.phiExp dt).1 / 2 = lam at *
  generalize (m.cir.phiExp dt).2 / (m.cir.phiExp dt).1 * 2 = c at *
  have hsh : ∀ n : ℕ, 0 < m.cir.chiDim / 2 + (n : ℝ) := fun n => by positivity
  have hg0 : ∀ (n : ℕ) f, Ex.gamma0 (m.cir.chiDim / 2 + n) f = Ex.gamma (m.cir.chiDim / 2 + n) f := fun n f => by
    unfold Ex.gamma0; rw [if_neg (hsh n).ne']
  simp only [hg0]
  have hmix : ∀ f : ℕ → ℝ → ℝ, Ex.poisson lam (fun n => Ex.gamma (m.cir.chiDim / 2 + n) (f n)) =
      exp (-lam) * ∑' n : ℕ, ∫ g in Ioi 0, (lam ^ n / n.factorial * gammaPdf (m.cir.chiDim / 2 + n) g) * f n g := by
    intro f
    unfold Ex.poisson poisMix Ex.gamma
    congr 1
    refine tsum_congr fun n => ?_
    rw [← integral_const_mul]
    congr 1
    ext g
    ring
  rw [hmix, hmix]
  congr 1
  have hp : ∀ n : ℕ, 0 < lam ^ n / n.factorial := fun n => by have := Nat.factorial_pos n; positivity
  have hν := ivIndex_gt hd
  have hνh : m.ivIndex + 1 = m.cir.chiDim / 2 := by unfold ivIndex; norm_num; ring
  have hw : ∀ g, 0 < g → ∀ n : ℕ, lam ^ n / n.factorial * gammaPdf (m.cir.chiDim / 2 + n) g =
      g ^ (m.cir.chiDim / 2 - 1) * exp (-g) / (m.besselArg dt v0 (c * g) / 2) ^ m.ivIndex * besselI m.ivIndex (m.besselArg dt v0 (c * g)) * m.etaProb besselIe dt v0 (c * g) n := by
    intro g hg n
    have hzp := hz g hg
    have hI := (besselI_pos hν hzp).ne'
    have e2 : (m.besselArg dt v0 (c * g) / 2) ^ (m.ivIndex + 2 * (n : ℝ)) = (m.besselArg dt v0 (c * g) / 2) ^ m.ivIndex * (lam * g) ^ n := by
      rw [rpow_add (by positivity), ← hz2 g hg, ← pow_mul, ← rpow_natCast _ (2 * n)]
      push_cast
      ring_nf
    rw [etaProb_eq hd hzp n, mul_assoc, mul_div_cancel₀ _ hI]
    unfold besselTerm gammaPdf
    rw [e2, show m.ivIndex + (n : ℝ) + 1 = m.cir.chiDim / 2 + n by rw [← hνh]; ring, show m.cir.chiDim / 2 + (n : ℝ) - 1 = (m.cir.chiDim / 2 - 1) + n by ring,
      rpow_add hg, rpow_natCast, mul_pow]
    have h1 := (Gamma_pos_of_pos (hsh n)).ne'
    have h2 : (m.besselArg dt v0 (c * g) / 2) ^ m.ivIndex ≠ 0 := (rpow_pos_of_pos (by positivity) _).ne'
    generalize (m.besselArg dt v0 (c * g) / 2) ^ m.ivIndex = P at *
    field_simp
  have hmeas : ∀ n, Measurable fun g => φ (c * g) n := fun n => (hφ n).comp (measurable_const_mul c)
  have hi : ∀ n : ℕ, Integrable (fun g => lam ^ n / n.factorial * gammaPdf (m.cir.chiDim / 2 + n) g) (volume.restrict (Ioi 0)) := fun n => Integrable.const_mul (gamma_one (hsh n)).1 _
  have hiφ : ∀ n : ℕ, Integrable (fun g => lam ^ n / n.factorial * gammaPdf (m.cir.chiDim / 2 + n) g * φ (c * g) n) (volume.restrict (Ioi 0)) := fun n =>
    (hi n).mul_bdd (c := M) (hmeas n).aestronglyMeasurable (Eventually.of_forall fun g => hM _ _)
  refine bayes (W := fun g => g ^ (m.cir.chiDim / 2 - 1) * exp (-g) / (m.besselArg dt v0 (c * g) / 2) ^ m.ivIndex * besselI m.ivIndex (m.besselArg dt v0 (c * g)))
    (w := fun n g => lam ^ n / n.factorial * gammaPdf (m.cir.chiDim / 2 + n) g) (φ := fun n g => φ (c * g) n)
    (Φ := fun g => ∑' k, m.etaProb besselIe dt v0 (c * g) k * φ (c * g) k) ?_ (fun n => ((measurable_gammaPdf _).const_mul _).aestronglyMeasurable) ?_ hiφ ?_ ?_
  · filter_upwards [ae_restrict_mem measurableSet_Ioi] with g hg n
    have hg : 0 < g := hg
    have := Gamma_pos_of_pos (hsh n)
    have := hp n
    unfold gammaPdf
    positivity
  · filter_upwards [ae_restrict_mem measurableSet_Ioi] with g hg
    simp only [hw g hg]
    have := (eta_mv_correct hd (hz g hg)).2.1.mul_left (g ^ (m.cir.chiDim / 2 - 1) * exp (-g) / (m.besselArg dt v0 (c * g) / 2) ^ m.ivIndex * besselI m.ivIndex (m.besselArg dt v0 (c * g)))
    rwa [mul_one] at this
  · refine Summable.of_nonneg_of_le (fun n => integral_nonneg fun g => norm_nonneg _) (fun n => ?_) ((hasSum_pois0 lam).summable.mul_right M)
    rw [show lam ^ n / n.factorial * M = ∫ g in Ioi 0, lam ^ n / n.factorial * gammaPdf (m.cir.chiDim / 2 + n) g * M by
      rw [integral_mul_const, integral_const_mul, (gamma_one (hsh n)).2, mul_one]]
    refine integral_mono_of_nonneg (Eventually.of_forall fun g => norm_nonneg _) ((hi n).mul_const M) ?_
    filter_upwards [ae_restrict_mem measurableSet_Ioi] with g hg
    have hgp := mul_nonneg (hp n).le (gammaPdf_nonneg (hsh n) hg)
    beta_reduce
    rw [norm_mul, Real.norm_eq_abs, Real.norm_eq_abs, abs_of_nonneg hgp]
    exact mul_le_mul_of_nonneg_left (hM _ _) hgp
  · filter_upwards [ae_restrict_mem measurableSet_Ioi] with g hg
    obtain ⟨q0, q1, -⟩ := eta_mv_correct hd (hz g hg)
    have hs : Summable fun k => m.etaProb besselIe dt v0 (c * g) k * φ (c * g) k := by
      refine Summable.of_norm_bounded (q1.summable.mul_right M) fun k => ?_
      rw [norm_mul, Real.norm_eq_abs, Real.norm_eq_abs, abs_of_pos (q0 k)]
      exact mul_le_mul_of_nonneg_left (hM _ _) (q0 k).le
    have t := hs.hasSum.mul_left (g ^ (m.cir.chiDim / 2 - 1) * exp (-g) / (m.besselArg dt v0 (c * g) / 2) ^ m.ivIndex * besselI m.ivIndex (m.besselArg dt v0 (c * g)))
    simp only [hw g hg]
    exact t.congr_fun fun n => by ring

/-- The hypotheses are met: the indicator of a large terminal variance together with a positive Poisson variable. -/
example : Regular ⟨0.04, 1, -0.9, 0.5, 0.04, 0, 0, false⟩ ∧ (∀ n : ℕ, Measurable fun v : ℝ => (Ioi 0.05).indicator (fun _ => if 0 < n then (1:ℝ) else 0) v) ∧
    ∀ (v : ℝ) (n : ℕ), |(Ioi 0.05).indicator (fun _ => if 0 < n then (1:ℝ) else 0) v| ≤ 1 := by
  refine ⟨⟨by norm_num, by norm_num, by norm_num⟩, fun n => measurable_const.indicator measurableSet_Ioi, fun v n => ?_⟩
  unfold indicator
  split_ifs <;> norm_num

end Heston

end PyFENG
