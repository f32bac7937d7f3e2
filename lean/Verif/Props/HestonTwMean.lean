import Verif.Props.HestonGeMean
import Verif.Props.HestonMcStep

/-!
# C148: no bias of the average variance in `HestonMcTseWan2013`
-/

namespace PyFENG

open Real Set MeasureTheory Filter Topology

open Spec

namespace Heston

lemma integrable_of_hasSum {μ : Measure ℝ} {F : ℕ → ℝ → ℝ} {S : ℝ → ℝ} (hF : ∀ n, Integrable (F n) μ) (hs : Summable fun n => ∫ x, ‖F n x‖ ∂μ)
    (h : ∀ᵐ x ∂μ, HasSum (fun n => F n x) (S x)) : Integrable S μ := by
  refine ⟨aestronglyMeasurable_of_tendsto_ae atTop (f := fun N x => ∑ n ∈ Finset.range N, F n x) (fun N => (integrable_finset_sum _ fun n _ => hF n).1)
    (h.mono fun x hx => hx.tendsto_sum_nat), ?_⟩
  have e : ∀ i, ∫⁻ x, ‖F i x‖ₑ ∂μ = ENNReal.ofReal (∫ x, ‖F i x‖ ∂μ) := fun i => (ofReal_integral_norm_eq_lintegral_enorm (hF i)).symm
  show ∫⁻ x, ‖S x‖ₑ ∂μ < ⊤
  calc ∫⁻ x, ‖S x‖ₑ ∂μ ≤ ∫⁻ x, ∑' i, ‖F i x‖ₑ ∂μ := by
        refine lintegral_mono_ae (h.mono fun x hx => ?_)
        rw [← hx.tsum_eq]
        exact enorm_tsum_le_tsum_enorm
    _ = ∑' i, ∫⁻ x, ‖F i x‖ₑ ∂μ := lintegral_tsum fun i => (hF i).1.enorm
    _ = ENNReal.ofReal (∑' i, ∫ x, ‖F i x‖ ∂μ) := by
        simp only [e]
        exact (ENNReal.ofReal_tsum_of_nonneg (fun i => integral_nonneg fun x => norm_nonneg _) hs).symm
    _ < ⊤ := ENNReal.ofReal_lt_top

/-- Exchanging a mixture with the conditional law of its index. -/
lemma bayes {μ : Measure ℝ} {w φ : ℕ → ℝ → ℝ} {W Φ : ℝ → ℝ} (hw : ∀ᵐ x ∂μ, ∀ n, 0 < w n x) (hm : ∀ n, AEStronglyMeasurable (w n) μ)
    (hW : ∀ᵐ x ∂μ, HasSum (fun n => w n x) (W x)) (hF : ∀ n, Integrable (fun x => w n x * φ n x) μ) (hs : Summable fun n => ∫ x, ‖w n x * φ n x‖ ∂μ)
    (h : ∀ᵐ x ∂μ, HasSum (fun n => w n x * φ n x) (W x * Φ x)) :
    ∑' n, ∫ x, w n x * Φ x ∂μ = ∑' n, ∫ x, w n x * φ n x ∂μ := by
  have hi := integrable_of_hasSum hF hs h
  have hWm : AEStronglyMeasurable W μ := aestronglyMeasurable_of_tendsto_ae atTop (f := fun N x => ∑ n ∈ Finset.range N, w n x)
    (fun N => Finset.aestronglyMeasurable_fun_sum _ fun n _ => hm n) (hW.mono fun x hx => hx.tendsto_sum_nat)
  have hle : ∀ᵐ x ∂μ, ∀ N, ∑ n ∈ Finset.range N, w n x ≤ W x := by
    filter_upwards [hw, hW] with x h1 h2 N
    exact sum_le_hasSum _ (fun n _ => (h1 n).le) h2
  have hle1 : ∀ᵐ x ∂μ, ∀ n, w n x ≤ W x := by
    filter_upwards [hw, hW] with x h1 h2 n
    exact le_hasSum h2 n fun k _ => (h1 k).le
  have hint : ∀ n, Integrable (fun x => w n x * Φ x) μ := by
    intro n
    refine hi.mono ?_ ?_
    · have hq : AEStronglyMeasurable (fun x => w n x / W x * (W x * Φ x)) μ := ((hm n).aemeasurable.div hWm.aemeasurable).aestronglyMeasurable.mul hi.1
      refine hq.congr ?_
      filter_upwards [hw, hle1] with x h1 h2
      have : W x ≠ 0 := ((h1 n).trans_le (h2 n)).ne'
      field_simp
    · filter_upwards [hw, hle1] with x h1 h2
      rw [norm_mul, norm_mul, Real.norm_eq_abs, Real.norm_eq_abs (W x), abs_of_pos (h1 n), abs_of_pos ((h1 n).trans_le (h2 n))]
      exact mul_le_mul_of_nonneg_right (h2 n) (norm_nonneg _)
  have hs2 : Summable fun n => ∫ x, ‖w n x * Φ x‖ ∂μ := by
    refine summable_of_sum_range_le (c := ∫ x, ‖W x * Φ x‖ ∂μ) (fun n => integral_nonneg fun x => norm_nonneg _) fun N => ?_
    rw [← integral_finset_sum _ fun n _ => (hint n).norm]
    refine integral_mono_ae (integrable_finset_sum _ fun n _ => (hint n).norm) hi.norm ?_
    filter_upwards [hw, hle, hle1] with x h1 h2 h3
    have e : ∀ n, ‖w n x * Φ x‖ = w n x * |Φ x| := fun n => by rw [Real.norm_eq_abs, abs_mul, abs_of_pos (h1 n)]
    simp only [e]
    rw [← Finset.sum_mul, Real.norm_eq_abs, abs_mul, abs_of_pos ((h1 0).trans_le (h3 0))]
    exact mul_le_mul_of_nonneg_right (h2 N) (abs_nonneg _)
  rw [integral_tsum_of_summable_integral_norm hF hs, integral_tsum_of_summable_integral_norm hint hs2]
  refine integral_congr_ae ?_
  filter_upwards [h, hW] with x h1 h2
  beta_reduce
  rw [h1.tsum_eq, (h2.mul_right (Φ x)).tsum_eq]

lemma gamma_lin {a : ℝ} (ha : 0 < a) (A B : ℝ) : IntegrableOn (fun g => gammaPdf a g * (A + B * g)) (Ioi 0) ∧ ∫ g in Ioi 0, gammaPdf a g * (A + B * g) = A + B * a := by
  obtain ⟨i0, e0⟩ := gamma_one ha
  have e1 := (Ex.gamma_mom ha).1
  unfold Ex.gamma at e1
  have i1 : IntegrableOn (fun g => gammaPdf a g * g) (Ioi 0) := integrable_of_integral_ne (by rw [e1]; exact ha.ne')
  have e : (fun g => gammaPdf a g * (A + B * g)) = fun g => A * gammaPdf a g + B * (gammaPdf a g * g) := by ext g; ring
  rw [e]
  have j0 : Integrable (fun g => A * gammaPdf a g) (volume.restrict (Ioi 0)) := i0.const_mul A
  have j1 : Integrable (fun g => B * (gammaPdf a g * g)) (volume.restrict (Ioi 0)) := Integrable.const_mul i1 B
  refine ⟨j0.add j1, ?_⟩
  rw [integral_add j0 j1, integral_const_mul, integral_const_mul, e0, e1, mul_one]

/-- The mean of the Bessel variable given the terminal variance, averaged over the exact draw of the variance. -/
lemma ncx2_eta {m : Heston} (h : Regular m) {dt v0 : ℝ} (hdt : 0 < dt) (h0 : 0 < v0) (A B C : ℝ) :
    Cir.drawNcx2 Ex.ncx2 m.cir dt v0 (fun v => A + B * v + C * (m.etaMv besselIe dt v0 v).1) =
      A + B * cirMean m.mr m.theta dt v0 + C * (v0 * (m.cir.phiExp dt).2 * (m.cir.phiExp dt).1 / 2) := by
  obtain ⟨hp1, hp2⟩ := phiExp_pos h hdt
  have hd := chiDim_pos h
  rw [Cir.draw_ncx2_eq_pois_gamma, ← pg_affine h hdt v0 A B C]
  have hdd : ∀ n : ℕ, 4 * m.cir.mr * m.cir.theta / m.cir.sigma ^ 2 / 2 + (n : ℝ) = m.cir.chiDim / 2 + n := fun n => by unfold Cir.chiDim; ring
  have hz : ∀ g, 0 < g → 0 < m.besselArg dt v0 ((m.cir.phiExp dt).2 / (m.cir.phiExp dt).1 * 2 * g) := fun g hg => besselArg_pos h hdt h0 (by positivity)
  have hz2 : ∀ g, 0 < g → (m.besselArg dt v0 ((m.cir.phiExp dt).2 / (m.cir.phiExp dt).1 * 2 * g) / 2) ^ 2 = v0 * (m.cir.phiExp dt).2 * (m.cir.phiExp dt).1 / 2 * g := by
    intro g hg
    unfold besselArg
    rw [div_pow, mul_pow, sq_sqrt (by positivity)]
    field_simp
  show Ex.poisson (v0 * (m.cir.phiExp dt).2 * (m.cir.phiExp dt).1 / 2) (fun n => Ex.gamma (4 * m.cir.mr * m.cir.theta / m.cir.sigma ^ 2 / 2 + n) fun g =>
      A + B * ((m.cir.phiExp dt).2 / (m.cir.phiExp dt).1 * 2 * g) + C * (m.etaMv besselIe dt v0 ((m.cir.phiExp dt).2 / (m.cir.phiExp dt).1 * 2 * g)).1) =
    Ex.poisson (v0 * (m.cir.phiExp dt).2 * (m.cir.phiExp dt).1 / 2) (fun n => Ex.gamma0 (4 * m.cir.mr * m.cir.theta / m.cir.sigma ^ 2 / 2 + n) fun g =>
      A + B * ((m.cir.phiExp dt).2 / (m.cir.phiExp dt).1 * 2 * g) + C * n)
  simp only [hdd]
  have hlam : 0 < v0 * (m.cir.phiExp dt).2 * (m.cir.phiExp dt).1 / 2 := by positivity
  have hc : 0 < (m.cir.phiExp dt).2 / (m.cir.phiExp dt).1 * 2 := by positivity
  generalize v0 * (m.cir.phiExp dt).2 * (m.cir.phiExp dt).1 / 2 = lam at *
  generalize (m.cir.phiExp dt).2 / (m.cir.phiExp dt).1 * 2 = c at *
  have hsh : ∀ n : ℕ, 0 < m.cir.chiDim / 2 + (n : ℝ) := fun n => by positivity
  have hg0 : ∀ (n : ℕ) f, Ex.gamma0 (m.cir.chiDim / 2 + n) f = Ex.gamma (m.cir.chiDim / 2 + n) f := fun n f => by
    unfold Ex.gamma0; rw [if_neg (hsh n).ne']
  simp only [hg0]
  have hmix : ∀ f : ℕ → ℝ → ℝ, Ex.poisson lam (fun n => Ex.gamma (m.cir.chiDim / 2 + n) (f n)) =
      exp (-lam) * ∑' n : ℕ, ∫ g in Ioi 0, (lam ^ n / n.factorial * gammaPdf (m.cir.chiDim / 2 + n) g) * f n g := by
    intro f
    unfold Ex.poisson poisMix Ex.gamma
    congr 1
    refine tsum_congr fun n => ?_
    rw [← integral_const_mul]
    congr 1
    ext g
    ring
  rw [hmix, hmix]
  congr 1
  have hp : ∀ n : ℕ, 0 < lam ^ n / n.factorial := fun n => by have := Nat.factorial_pos n; positivity
  have hν := ivIndex_gt hd
  have hνh : m.ivIndex + 1 = m.cir.chiDim / 2 := by unfold ivIndex; norm_num; ring
  have hw : ∀ g, 0 < g → ∀ n : ℕ, lam ^ n / n.factorial * gammaPdf (m.cir.chiDim / 2 + n) g =
      g ^ (m.cir.chiDim / 2 - 1) * exp (-g) / (m.besselArg dt v0 (c * g) / 2) ^ m.ivIndex * besselTerm m.ivIndex (m.besselArg dt v0 (c * g)) n := by
    intro g hg n
    have hzp := hz g hg
    have e2 : (m.besselArg dt v0 (c * g) / 2) ^ (m.ivIndex + 2 * (n : ℝ)) = (m.besselArg dt v0 (c * g) / 2) ^ m.ivIndex * (lam * g) ^ n := by
      rw [rpow_add (by positivity), ← hz2 g hg, ← pow_mul, ← rpow_natCast _ (2 * n)]
      push_cast
      ring_nf
    unfold besselTerm gammaPdf
    rw [e2, show m.ivIndex + (n : ℝ) + 1 = m.cir.chiDim / 2 + n by rw [← hνh]; ring, show m.cir.chiDim / 2 + (n : ℝ) - 1 = (m.cir.chiDim / 2 - 1) + n by ring,
      rpow_add hg, rpow_natCast, mul_pow]
    have h1 := (Gamma_pos_of_pos (hsh n)).ne'
    have h2 : (m.besselArg dt v0 (c * g) / 2) ^ m.ivIndex ≠ 0 := (rpow_pos_of_pos (by positivity) _).ne'
    generalize (m.besselArg dt v0 (c * g) / 2) ^ m.ivIndex = P at *
    field_simp
  refine bayes (W := fun g => g ^ (m.cir.chiDim / 2 - 1) * exp (-g) / (m.besselArg dt v0 (c * g) / 2) ^ m.ivIndex * besselI m.ivIndex (m.besselArg dt v0 (c * g)))
    (w := fun n g => lam ^ n / n.factorial * gammaPdf (m.cir.chiDim / 2 + n) g) (φ := fun n g => A + B * (c * g) + C * n)
    (Φ := fun g => A + B * (c * g) + C * (m.etaMv besselIe dt v0 (c * g)).1) ?_ (fun n => ((measurable_gammaPdf _).const_mul _).aestronglyMeasurable) ?_ ?_ ?_ ?_
  · filter_upwards [ae_restrict_mem measurableSet_Ioi] with g hg n
    have hg : 0 < g := hg
    have := Gamma_pos_of_pos (hsh n)
    have := hp n
    unfold gammaPdf
    positivity
  · filter_upwards [ae_restrict_mem measurableSet_Ioi] with g hg
    simp only [hw g hg]
    exact (summable_bessel hν (hz g hg)).hasSum.mul_left _
  · intro n
    have := ((gamma_lin (hsh n) (A + C * n) (B * c)).1).const_mul (lam ^ n / n.factorial)
    refine this.congr (Eventually.of_forall fun g => ?_)
    beta_reduce
    ring
  · have hsum : Summable fun n : ℕ => lam ^ n / n.factorial * (|A| + |C| * n + |B| * c * (m.cir.chiDim / 2 + n)) := by
      have := ((hasSum_pois0 lam).mul_left (|A| + |B| * c * (m.cir.chiDim / 2))).add ((hasSum_pois1 lam).mul_left (|C| + |B| * c))
      refine this.summable.congr fun n => ?_
      ring
    refine Summable.of_nonneg_of_le (fun n => integral_nonneg fun g => norm_nonneg _) (fun n => ?_) hsum
    obtain ⟨i1, e1⟩ := gamma_lin (hsh n) (|A| + |C| * n) (|B| * c)
    rw [← e1, ← integral_const_mul]
    refine integral_mono_of_nonneg (Eventually.of_forall fun g => norm_nonneg _) (Integrable.const_mul i1 _) ?_
    filter_upwards [ae_restrict_mem measurableSet_Ioi] with g hg
    have hg : 0 < g := hg
    have hgp := gammaPdf_nonneg (hsh n) hg
    beta_reduce
    rw [norm_mul, Real.norm_eq_abs, Real.norm_eq_abs, abs_of_nonneg (mul_nonneg (hp n).le hgp), mul_assoc]
    refine mul_le_mul_of_nonneg_left (mul_le_mul_of_nonneg_left ?_ hgp) (hp n).le
    have t1 := abs_add_le (A + B * (c * g)) (C * n)
    have t2 := abs_add_le A (B * (c * g))
    rw [abs_mul, abs_of_pos (mul_pos hc hg)] at t2
    rw [abs_mul, Nat.abs_cast] at t1
    linarith
  · filter_upwards [ae_restrict_mem measurableSet_Ioi] with g hg
    have hzp := hz g hg
    have s0 : HasSum (besselTerm m.ivIndex (m.besselArg dt v0 (c * g))) (besselI m.ivIndex (m.besselArg dt v0 (c * g))) := (summable_bessel hν hzp).hasSum
    have s1 := (hasSum_bessel hν hzp).1
    have hI := besselI_pos hν hzp
    have t := ((s0.mul_left (A + B * (c * g))).add (s1.mul_left C)).mul_left (g ^ (m.cir.chiDim / 2 - 1) * exp (-g) / (m.besselArg dt v0 (c * g) / 2) ^ m.ivIndex)
    have eη : (m.etaMv besselIe dt v0 (c * g)).1 = m.besselArg dt v0 (c * g) / 2 * besselI (m.ivIndex + 1) (m.besselArg dt v0 (c * g)) / besselI m.ivIndex (m.besselArg dt v0 (c * g)) := by
      unfold etaMv besselIe
      simp only
      rw [mul_div_mul_left _ _ (exp_pos _).ne', mul_div_assoc]
    beta_reduce
    rw [eη]
    simp only [hw g hg]
    have eV : ∀ K I J z : ℝ, I ≠ 0 → K * I * (A + B * (c * g) + C * (z / 2 * J / I)) = K * ((A + B * (c * g)) * I + C * (z / 2 * J)) := by
      intro K I J z hI
      field_simp
    rw [eV _ _ _ _ hI.ne']
    exact t.congr_fun fun n => by ring

lemma condLoop_tw {m : Heston} (h : Regular m) (correct : Bool) (φ : ℝ × ℝ × ℝ → ℝ) (A B C : ℝ) (hφ : ∀ s : ℝ × ℝ × ℝ, 0 ≤ s.2.1 → s.2.2 = 0 → φ s = A + B * s.1 + C * s.2.1) :
    ∀ (l : List ℝ) (v acc : ℝ), (∀ d ∈ l, 0 < d) → 0 < v → 0 ≤ acc →
      m.condLoop correct (m.stepTseWan rngEx besselIe) l (v, acc, 0) φ = A + B * cirMean m.mr m.theta l.sum v + C * (acc + tdSum m v l)
  | [], v, acc, _, _, ha => by
    show φ (v, acc, 0) = _
    rw [hφ _ ha rfl]
    simp [tdSum, cirMean]
  | d :: l, v, acc, hl, hv, ha => by
    have hd : 0 < d := hl d List.mem_cons_self
    obtain ⟨a, b, hab⟩ := tdSum_affine m l
    have hmc : (0:ℝ) + m.stepCorr correct d {} = 0 := by
      unfold stepCorr
      cases correct <;> simp
    have hcl : ∀ x : ℝ, B * cirMean m.mr m.theta l.sum x = B * (m.theta * (1 - exp (-(m.mr * l.sum)))) + B * exp (-(m.mr * l.sum)) * x := by
      intro x; unfold cirMean; ring
    show Cir.drawNcx2 Ex.ncx2 m.cir d v (fun v' => Ex.wald (m.condAvgvarMv besselIe d v v' none 0).1 ((m.condAvgvarMv besselIe d v v' none 0).1 / (m.condAvgvarMv besselIe d v v' none 0).2)
      (fun x => m.condLoop correct (m.stepTseWan rngEx besselIe) l (v', acc + x * d, 0 + m.stepCorr correct d {}) φ)) = _
    rw [hmc]
    rw [drawNcx2_congr h hd v (G := fun v' => (A + B * (m.theta * (1 - exp (-(m.mr * l.sum)))) + C * (acc + a) +
        C * d * ((m.x1star d 0).1 * v + (m.x2star d 0).1 * (m.cir.chiDim / 2))) +
      (B * exp (-(m.mr * l.sum)) + C * b + C * d * (m.x1star d 0).1) * v' + (C * d * ((m.x2star d 0).1 * 2)) * (m.etaMv besselIe d v v').1) fun v' hv' => by
        rw [nonneg_wald _ _ _ (fun x => (A + B * (m.theta * (1 - exp (-(m.mr * l.sum)))) + B * exp (-(m.mr * l.sum)) * v' + C * (acc + (a + b * v'))) + C * d * x + 0 * x ^ 2) fun x hx => by
          rw [condLoop_tw h correct φ A B C hφ l v' _ (fun x hx => hl x (List.mem_cons_of_mem _ hx)) hv' (by positivity), hab, hcl]
          ring]
        have hX := (tse_wan_draw_correct m (chiDim_pos h) (vov2dt_pos h hd) (show 0 < v + v' by linarith) (besselArg_pos h hd hv hv')).2.2
          (A + B * (m.theta * (1 - exp (-(m.mr * l.sum)))) + B * exp (-(m.mr * l.sum)) * v' + C * (acc + (a + b * v'))) (C * d) 0
        refine Eq.trans hX ?_
        change _ + C * d * ((m.x1star d 0).1 * (v + v') + (m.x2star d 0).1 * (2 * (m.etaMv besselIe d v v').1 + m.cir.chiDim / 2)) + 0 * _ = _
        ring]
    rw [ncx2_eta h hd hv, List.sum_cons, ← cirMean_add, hcl]
    simp only [tdSum, hab]
    unfold tdAvg
    ring

/-- **C148.** `HestonMcTseWan2013` has no discretisation bias in the conditional forward: for every list of dates the mean of the logarithm of the conditional forward is `-rho^2 T / 2` times the
exact mean of the average variance (`avgvar_mv`), up to the Taylor branch of the code for short steps (an error of at most `7e-9 max(v0, theta)` in the mean of the average variance). -/
theorem tse_wan_log_forward_unbiased {m : Heston} (h : Regular m) {v0 : ℝ} (h0 : 0 < v0) (correct : Bool)
    (tobs : List ℝ) {texp : ℝ} (hT : 0 < texp) (hd : ∀ d ∈ dts tobs, 0 < d) (hsum : (dts tobs).sum = texp) :
    ∃ e : ℝ, 0 ≤ e ∧ e ≤ 7 / 10 ^ 9 * max v0 m.theta ∧
      m.condSpotSigma correct (m.stepTseWan rngEx besselIe) tobs texp v0 (fun p => log p.1) =
        -(m.rho ^ 2 * texp / 2) * (m.cir.avgMv texp v0).1 + (m.rho * m.mr / m.vov - m.rho ^ 2 / 2) * texp * e := by
  obtain ⟨he0, he1⟩ := tdSum_error h (le_max_right v0 m.theta) (dts tobs) v0 hd h0.le (le_max_left _ _)
  rw [hsum] at he0 he1
  refine ⟨(tdSum m v0 (dts tobs) - meanInt m.mr m.theta texp v0) / texp, div_nonneg he0 hT.le, by rw [div_le_iff₀ hT]; exact he1, ?_⟩
  have h5 : (0.5 : ℝ) = 1 / 2 := by norm_num
  have key := condLoop_tw h correct (fun s => log (m.condResult texp v0 s).1) (-(m.rho * (v0 + m.mr * texp * m.theta) / m.vov)) (m.rho / m.vov)
    (m.rho * m.mr / m.vov - m.rho ^ 2 / 2) (fun s _ hs => by
      show log (exp ((((s.1 - v0) + m.mr * texp * (s.2.1 / texp - m.theta)) / m.vov - 0.5 * m.rho * texp * (s.2.1 / texp)) * m.rho + s.2.2)) = _
      rw [log_exp, hs, h5]
      have := h.vov.ne'
      field_simp
      ring) (dts tobs) v0 0 hd h0 le_rfl
  show m.condLoop correct (m.stepTseWan rngEx besselIe) (dts tobs) (v0, 0, 0) (fun s => log (m.condResult texp v0 s).1) = _
  rw [key, hsum]
  have e2 : (m.cir.avgMv texp v0).1 = meanInt m.mr m.theta texp v0 / texp := by
    show m.theta + (v0 - m.theta) * exprel (-(m.mr * texp)) = _
    rw [Cir.exprel_neg (mul_pos h.mr hT).ne']
    unfold meanInt
    have := h.mr.ne'
    field_simp
  rw [e2]
  unfold meanInt cirMean
  have := h.mr.ne'
  have := h.vov.ne'
  field_simp
  ring

/-- **C148.** In `HestonMcTseWan2013` the mean of the squared conditional volatility is `(1 - rho^2) / v0` times the exact mean of the average variance (`avgvar_mv`), for every list of dates, up to
the Taylor branch for short steps. -/
theorem tse_wan_avgvar_unbiased {m : Heston} (h : Regular m) (hρ : m.rho ^ 2 ≤ 1) {v0 : ℝ} (h0 : 0 < v0) (correct : Bool)
    (tobs : List ℝ) {texp : ℝ} (hT : 0 < texp) (hd : ∀ d ∈ dts tobs, 0 < d) (hsum : (dts tobs).sum = texp) :
    ∃ e : ℝ, 0 ≤ e ∧ e ≤ 7 / 10 ^ 9 * max v0 m.theta ∧
      m.condSpotSigma correct (m.stepTseWan rngEx besselIe) tobs texp v0 (fun p => p.2 ^ 2) = (1 - m.rho ^ 2) / v0 * ((m.cir.avgMv texp v0).1 + e) := by
  obtain ⟨he0, he1⟩ := tdSum_error h (le_max_right v0 m.theta) (dts tobs) v0 hd h0.le (le_max_left _ _)
  rw [hsum] at he0 he1
  refine ⟨(tdSum m v0 (dts tobs) - meanInt m.mr m.theta texp v0) / texp, div_nonneg he0 hT.le, by rw [div_le_iff₀ hT]; exact he1, ?_⟩
  have hc : 0 ≤ (1 - m.rho ^ 2) / v0 := div_nonneg (by linarith) h0.le
  have key := condLoop_tw h correct (fun s => (m.condResult texp v0 s).2 ^ 2) 0 0 ((1 - m.rho ^ 2) / v0 / texp) (fun s hs _ => by
    show √((1.0 - m.rho ^ 2) / v0 * (s.2.1 / texp)) ^ 2 = _
    rw [show (1.0:ℝ) = 1 by norm_num, sq_sqrt (mul_nonneg hc (div_nonneg hs hT.le))]
    ring) (dts tobs) v0 0 hd h0 le_rfl
  show m.condLoop correct (m.stepTseWan rngEx besselIe) (dts tobs) (v0, 0, 0) (fun s => (m.condResult texp v0 s).2 ^ 2) = _
  rw [key]
  have e2 : (m.cir.avgMv texp v0).1 = meanInt m.mr m.theta texp v0 / texp := by
    show m.theta + (v0 - m.theta) * exprel (-(m.mr * texp)) = _
    rw [Cir.exprel_neg (mul_pos h.mr hT).ne']
    unfold meanInt
    have := h.mr.ne'
    field_simp
  rw [e2]
  field_simp
  ring

/-- The hypotheses are met: unequal steps. -/
example : Regular ⟨0.04, 1, -0.9, 0.5, 0.04, 0, 0, false⟩ ∧ (∀ d ∈ dts [0.25, 0.5, 1], (0:ℝ) < d) ∧ (dts [0.25, 0.5, 1]).sum = 1 := by
  refine ⟨⟨by norm_num, by norm_num, by norm_num⟩, ?_, ?_⟩ <;> norm_num [dts, McState.diff0, List.range_succ]

end Heston

end PyFENG
