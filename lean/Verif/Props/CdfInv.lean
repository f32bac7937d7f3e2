import Verif.Model.CdfInv
import Verif.Lemmas.CdfSeries
import Verif.Lemmas.GammaSeries
import Verif.Props.HestonLaw
import Mathlib.Probability.Independence.InfinitePi
import Mathlib.Analysis.SpecialFunctions.Trigonometric.Series
import Mathlib.Analysis.Complex.ExponentialBounds

/-!
# Inversion of distribution functions by Fourier series (`pyfeng/heston_mc.py` lines 506-621, `pyfeng/sv32_mc.py` lines 237-277, 352-397)
-/

namespace PyFENG

open Real Set Filter Topology MeasureTheory ProbabilityTheory

namespace Heston

variable {Ω : Type*} [MeasurableSpace Ω] {P : Measure Ω} [IsProbabilityMeasure P] {m : Heston} {dt shape : ℝ} {g : ℕ → Ω → ℝ}

lemma gammaN_gt (hv : 0 < m.vov2dt dt) {s : ℝ} (hs : s < (m.mr * dt) ^ 2 / (2 * m.vov2dt dt)) (n : ℕ) : s < m.gammaN dt n := by
  refine hs.trans_le ?_
  unfold gammaN
  have : 0 ≤ n2pi2 n := by unfold n2pi2; positivity
  gcongr
  linarith

lemma halfGamma_cond (hv : 0 < m.vov2dt dt) {s : ℝ} (hs : s < (m.mr * dt) ^ 2 / (2 * m.vov2dt dt)) : m.vov2dt dt * s / 2 < (m.mr * dt / 2) ^ 2 := by
  rw [lt_div_iff₀ (by positivity)] at hs
  nlinarith

/-- The complex formula at a real argument is the real one. -/
lemma x2C_ofReal (hv : 0 < m.vov2dt dt) (hxi : m.vov ≠ 0) (hdt : 0 < dt) (ha : 0 < m.mr) {s : ℝ} (hs : s < (m.mr * dt) ^ 2 / (2 * m.vov2dt dt)) :
    m.x2AvgvarMgfC s dt shape = (m.x2AvgvarMgf s dt shape : ℝ) := by
  have hp : 0 < (m.mr * dt) ^ 2 - 2 * m.vov2dt dt * s := by
    rw [lt_div_iff₀ (by positivity)] at hs; linarith
  have hg : (((m.mr * dt : ℝ) : ℂ) ^ 2 - 2 * (m.vov2dt dt : ℂ) * (s : ℂ)) ^ (1 / 2 : ℂ) = ((√((m.mr * dt) ^ 2 - 2 * m.vov2dt dt * s) : ℝ) : ℂ) := by
    rw [← csqrt_ofReal_sq (sqrt_nonneg _), ← Complex.ofReal_pow (√_) 2, sq_sqrt hp.le]
    push_cast; rfl
  have hgp := sqrt_pos.2 hp
  have hphi : 0 < (m.cir.phiExp dt).1 := by
    rw [phi_eq hxi hdt ha]
    have : 0 < sinh (m.mr * dt / 2) := sinh_pos_iff.2 (by positivity)
    positivity
  unfold x2AvgvarMgfC x2AvgvarMgf
  simp only
  rw [hg]
  generalize √((m.mr * dt) ^ 2 - 2 * m.vov2dt dt * s) = γ at hgp
  have h1 : 0 < 1 - exp (-γ) := by rw [sub_pos, exp_lt_one_iff]; linarith
  have h2 : 0 ≤ 4 * γ / m.vov2dt dt / (1 - exp (-γ)) / (m.cir.phiExp dt).1 := by positivity
  push_cast
  rw [Complex.ofReal_log h2]
  push_cast
  rfl

lemma x2C_diff (hv : 0 < m.vov2dt dt) (hxi : m.vov ≠ 0) (hdt : 0 < dt) (ha : 0 < m.mr) {w : ℂ} (hw : w.re < (m.mr * dt) ^ 2 / (2 * m.vov2dt dt)) :
    DifferentiableAt ℂ (fun z => m.x2AvgvarMgfC z dt shape) w := by
  have hphi : 0 < (m.cir.phiExp dt).1 := by
    rw [phi_eq hxi hdt ha]
    have : 0 < sinh (m.mr * dt / 2) := sinh_pos_iff.2 (by positivity)
    positivity
  have hre : 0 < (((m.mr * dt : ℝ) : ℂ) ^ 2 - 2 * (m.vov2dt dt : ℂ) * w).re := by
    have e : (((m.mr * dt : ℝ) : ℂ) ^ 2 - 2 * (m.vov2dt dt : ℂ) * w).re = (m.mr * dt) ^ 2 - 2 * m.vov2dt dt * w.re := by
      rw [← Complex.ofReal_pow, show (2 : ℂ) * (m.vov2dt dt : ℂ) = ((2 * m.vov2dt dt : ℝ) : ℂ) by push_cast; ring, Complex.sub_re, Complex.ofReal_re, Complex.re_ofReal_mul]
    rw [e]
    rw [lt_div_iff₀ (by positivity)] at hw
    linarith
  have d0 : DifferentiableAt ℂ (fun z : ℂ => (((m.mr * dt : ℝ) : ℂ) ^ 2 - 2 * (m.vov2dt dt : ℂ) * z) ^ (1 / 2 : ℂ)) w :=
    DifferentiableAt.cpow (by fun_prop) (by fun_prop) (Or.inl hre)
  have hg := csqrt_re_pos hre
  unfold x2AvgvarMgfC
  simp only
  have hone : 0 < (1 - Complex.exp (-(((m.mr * dt : ℝ) : ℂ) ^ 2 - 2 * (m.vov2dt dt : ℂ) * w) ^ (1 / 2 : ℂ))).re := by
    refine one_sub_re ?_
    rw [Complex.norm_exp, Complex.neg_re, exp_lt_one_iff]
    linarith
  have hne : (1 - Complex.exp (-(((m.mr * dt : ℝ) : ℂ) ^ 2 - 2 * (m.vov2dt dt : ℂ) * w) ^ (1 / 2 : ℂ))) ≠ 0 := fun h => by
    rw [h] at hone; simp at hone
  have hslit : (4 * ((((m.mr * dt : ℝ) : ℂ) ^ 2 - 2 * (m.vov2dt dt : ℂ) * w) ^ (1 / 2 : ℂ)) / (m.vov2dt dt : ℂ) / (1 - Complex.exp (-(((m.mr * dt : ℝ) : ℂ) ^ 2 - 2 * (m.vov2dt dt : ℂ) * w) ^ (1 / 2 : ℂ))) / ((m.cir.phiExp dt).1 : ℂ)) ∈ Complex.slitPlane := by
    generalize ((((m.mr * dt : ℝ) : ℂ) ^ 2 - 2 * (m.vov2dt dt : ℂ) * w) ^ (1 / 2 : ℂ)) = γ at hg hone
    have e : 4 * γ / (m.vov2dt dt : ℂ) / (1 - Complex.exp (-γ)) / ((m.cir.phiExp dt).1 : ℂ) = ((4 / (m.vov2dt dt * (m.cir.phiExp dt).1) : ℝ) : ℂ) * γ / (1 - Complex.exp (-γ)) := by
      have h1 : (m.vov2dt dt : ℂ) ≠ 0 := by exact_mod_cast hv.ne'
      have h2 : ((m.cir.phiExp dt).1 : ℂ) ≠ 0 := by exact_mod_cast hphi.ne'
      push_cast
      field_simp
    rw [e]
    refine slit_div ?_ hone
    rw [Complex.re_ofReal_mul]
    positivity
  have d1 : DifferentiableAt ℂ (fun z : ℂ => 1 - Complex.exp (-(((m.mr * dt : ℝ) : ℂ) ^ 2 - 2 * (m.vov2dt dt : ℂ) * z) ^ (1 / 2 : ℂ))) w := (d0.neg.cexp).const_sub 1
  have d2 := ((((d0.const_mul (4 : ℂ)).div_const (m.vov2dt dt : ℂ)).div d1 hne).div_const ((m.cir.phiExp dt).1 : ℂ)).clog hslit
  exact ((d2.sub (d0.div_const 2)).const_mul (shape : ℂ)).cexp

/-- **C135.** `x2_avgvar_mgf` at complex arguments is the transform of the series `X2 = ∑ g_n` of independent gamma variables: the principal branches of `np.sqrt` and `np.log` never jump for
`Re(aa) < mr² dt / (2 vov²)`, in particular on the imaginary axis. -/
theorem x2_charfun_correct (hxi : m.vov ≠ 0) (hdt : 0 < dt) (ha : 0 < m.mr) (hsh : 0 < shape) (hg : Spec.GammaSeq P shape (m.gammaN dt) g) {z : ℂ}
    (hz : z.re < (m.mr * dt) ^ 2 / (2 * (m.vov ^ 2 * dt))) :
    ∫ ω, Complex.exp (z * (∑' n, g n ω : ℝ)) ∂P = m.x2AvgvarMgfC z dt shape := by
  have hv : 0 < m.vov2dt dt := by unfold vov2dt; positivity
  have hz' : z.re < (m.mr * dt) ^ 2 / (2 * m.vov2dt dt) := hz
  have hX := GammaSeries.measurable_X hg
  have hmgf : ∀ s : ℝ, s < (m.mr * dt) ^ 2 / (2 * m.vov2dt dt) → Integrable (fun ω => exp (s * GammaSeries.X g ω)) P ∧ mgf (GammaSeries.X g) P s = m.x2AvgvarMgf s dt shape := fun s hs => by
    have hc := halfGamma_cond hv hs
    have := GammaSeries.mgf_X hg hsh (m.gammaN_pos hv) (m.summable_x2 hv).1 (gammaN_gt hv hs) (tendsto_x2 hv (mul_pos ha hdt).ne' hc shape)
    refine ⟨this.1, ?_⟩
    rw [this.2, (x2_avgvar_mgf_correct hxi hdt ha hc).1]
  have hmain := complexMGF_eq_of_mgf (G := P.map (GammaSeries.X g)) (F := fun z => m.x2AvgvarMgfC z dt shape) (b := (m.mr * dt) ^ 2 / (2 * m.vov2dt dt)) (fun s hs => by
      rw [integrable_map_measure (by fun_prop) hX.aemeasurable]
      exact (hmgf s hs).1) (fun w hw => (x2C_diff hv hxi hdt ha hw).differentiableWithinAt) (fun s hs => by
      rw [mgf_id_map hX.aemeasurable, (hmgf s hs).2, x2C_ofReal hv hxi hdt ha hs]) hz'
  rw [complexMGF_id_map hX.aemeasurable] at hmain
  exact hmain

/-- The pole-by-pole sums bound the omitted terms. -/
lemma sum_rpow_le {b : ℝ} (hb : 0 < b) {N : ℕ} (hN : 1 ≤ N) (M : ℕ) : ∑ k ∈ Finset.Ico N M, 1 / ((k + 1 : ℕ) : ℝ) ^ (1 + b) ≤ 1 / (b * (N : ℝ) ^ b) := by
  have key : ∀ k : ℕ, 1 ≤ k → 1 / ((k + 1 : ℕ) : ℝ) ^ (1 + b) ≤ 1 / (b * (k : ℝ) ^ b) - 1 / (b * ((k + 1 : ℕ) : ℝ) ^ b) := fun k hk => by
    have hk0 : (0:ℝ) < k := by exact_mod_cast hk
    have hk1 : (0:ℝ) < ((k + 1 : ℕ) : ℝ) := by positivity
    have hkk : (0:ℝ) < (k : ℝ) / ((k + 1 : ℕ) : ℝ) := by positivity
    have h1 : 1 + b / ((k + 1 : ℕ) : ℝ) ≤ (((k + 1 : ℕ) : ℝ) / k) ^ b := by
      rw [rpow_def_of_pos (by positivity)]
      have h2 := log_le_sub_one_of_pos hkk
      rw [show (((k + 1 : ℕ) : ℝ) / k) = ((k : ℝ) / ((k + 1 : ℕ) : ℝ))⁻¹ by rw [inv_div], log_inv]
      have h3 : (k : ℝ) / ((k + 1 : ℕ) : ℝ) - 1 = -(1 / ((k + 1 : ℕ) : ℝ)) := by push_cast; field_simp; ring
      rw [h3] at h2
      have h4 := add_one_le_exp (-log ((k : ℝ) / ((k + 1 : ℕ) : ℝ)) * b)
      have h5 : b / ((k + 1 : ℕ) : ℝ) = 1 / ((k + 1 : ℕ) : ℝ) * b := by ring
      rw [h5]
      nlinarith
    rw [div_rpow hk1.le hk0.le, le_div_iff₀ (rpow_pos_of_pos hk0 b)] at h1
    have p1 := rpow_pos_of_pos hk0 b
    have p2 := rpow_pos_of_pos hk1 b
    rw [rpow_add hk1, rpow_one]
    generalize (k : ℝ) ^ b = A at *
    generalize ((k + 1 : ℕ) : ℝ) ^ b = B at *
    generalize ((k + 1 : ℕ) : ℝ) = y at *
    rw [div_sub_div _ _ (by positivity) (by positivity), div_le_div_iff₀ (by positivity) (by positivity)]
    have h6 : b * A ≤ y * (B - A) := by
      have : (1 + b / y) * A * y = A * y + b * A := by field_simp
      nlinarith
    have h7 := mul_le_mul_of_nonneg_left h6 (by positivity : 0 ≤ b * B)
    nlinarith
  have p : ∀ k : ℕ, 0 ≤ 1 / (b * (k : ℝ) ^ b) := fun k => by positivity
  rcases le_or_gt M N with h | h
  · rw [Finset.Ico_eq_empty_of_le h, Finset.sum_empty]; exact p N
  · calc _ ≤ ∑ k ∈ Finset.Ico N M, (1 / (b * (k : ℝ) ^ b) - 1 / (b * ((k + 1 : ℕ) : ℝ) ^ b)) := Finset.sum_le_sum fun k hk => key k (hN.trans (Finset.mem_Ico.1 hk).1)
      _ = 1 / (b * (N : ℝ) ^ b) - 1 / (b * (M : ℝ) ^ b) := by
        have := Finset.sum_Ico_sub (f := fun k : ℕ => -(1 / (b * (k : ℝ) ^ b))) h.le
        rw [show 1 / (b * (N : ℝ) ^ b) - 1 / (b * (M : ℝ) ^ b) = -(1 / (b * (M : ℝ) ^ b)) - -(1 / (b * (N : ℝ) ^ b)) by ring, ← this]
        exact Finset.sum_congr rfl fun k _ => by ring
      _ ≤ _ := by linarith [p M]

lemma aw_star_pos (hv : 0 < m.vov2dt dt) : 0 < (m.x2star dt 0).1 ∧ (Spec.x2Tail m dt 0).1 ≤ (m.x2star dt 0).1 ∧
    (Spec.x2Tail m dt 0).2 ≤ 144 / 143 * ((m.x2star dt 0).2 * (m.x2star dt 0).1 ^ 2) := by
  obtain ⟨t1, t2⟩ := m.x2Tail_pos hv 0
  rcases lt_or_ge |m.mr * dt / 2| 0.1 with h | h
  · obtain ⟨h1, -, h3, h4⟩ := m.x2star_taylor hv h 0
    have hpos : 0 < (m.x2star dt 0).1 := by linarith
    refine ⟨hpos, by linarith, ?_⟩
    obtain ⟨hx0, hx1⟩ := small_sq h
    have e : (m.x2star dt 0).2 * (m.x2star dt 0).1 ^ 2 = m.vov2dt dt ^ 2 * (1 / 360 - (m.mr * dt / 2) ^ 2 / 1890) := by
      unfold x2star at hpos ⊢
      simp only [if_pos h, gt_iff_lt, lt_self_iff_false, if_false] at hpos ⊢
      have hne := right_ne_zero_of_mul hpos.ne'
      generalize 1 / 12 + (m.mr * dt / 2) ^ 2 * (-1 / 180 + (m.mr * dt / 2) ^ 2 / 1890) = y at hne
      field_simp
    rw [e] at h4 ⊢
    have hv2 : 0 < m.vov2dt dt ^ 2 := by positivity
    generalize (m.mr * dt / 2) ^ 2 = x at *
    generalize m.vov2dt dt ^ 2 = v at *
    nlinarith
  · obtain ⟨h1, h2⟩ := m.x2star_correct hv h 0
    have e : (m.x2star dt 0).2 * (m.x2star dt 0).1 ^ 2 = (Spec.x2Tail m dt 0).2 := by rw [h2, h1]; field_simp
    rw [e]
    refine ⟨by rw [h1]; exact t1, h1.ge, by linarith⟩

lemma awMean_pos (hv : 0 < m.vov2dt dt) (hsh : 0 < shape) : 0 < m.awMean dt shape ∧ m.awMean dt shape ≤ m.awMuE dt shape := by
  have h := (aw_star_pos hv).1
  have hm : 0 < m.awMean dt shape := mul_pos h hsh
  refine ⟨hm, ?_⟩
  unfold awMuE
  have := sqrt_nonneg ((m.x2star dt 0).2 / shape)
  nlinarith

/-- **C135.** The points of the table increase from 1% of the mean to `mu_e`, and the value tabulated at the last one is exactly one, so that every uniform number is covered. -/
theorem aw_points (hxi : m.vov ≠ 0) (hdt : 0 < dt) (hsh : 0 < shape) :
    0 < m.awX dt shape 0 ∧ (∀ i, m.awX dt shape i < m.awX dt shape (i + 1)) ∧ m.awX dt shape 200 = m.awMuE dt shape ∧ m.awCdf dt shape 200 = 1 := by
  have hv : 0 < m.vov2dt dt := by unfold vov2dt; positivity
  obtain ⟨h1, h2⟩ := awMean_pos hv hsh
  have hl : m.awX dt shape 200 = m.awMuE dt shape := by unfold awX; push_cast; ring
  refine ⟨?_, fun i => ?_, hl, ?_⟩
  · unfold awX; norm_num; linarith
  · unfold awX
    push_cast
    norm_num
    have : 0 < m.awMuE dt shape - 1 / 100 * m.awMean dt shape := by linarith
    nlinarith
  · have hx : m.awH dt shape 200 * m.awX dt shape 200 = π := by
      unfold awH
      rw [hl]
      have : 0 < m.awMuE dt shape := by linarith
      field_simp
      ring
    unfold awCdf
    simp only
    rw [hx]
    have : ∀ k : ℕ, sin (π * k) = 0 := fun k => by rw [mul_comm]; exact sin_nat_mul_pi k
    simp only [this]
    simp [pi_pos.ne']

lemma awNn_ge : 1000 ≤ m.awNn dt shape ∧ m.awNn dt shape ≤ 5000 := by
  unfold awNn
  generalize hf : List.find? _ _ = o
  rcases o with _ | n
  · simp
  · have := List.mem_of_find?_eq_some hf
    obtain ⟨j, hj, rfl⟩ := List.mem_map.1 this
    have := List.mem_range.1 hj
    simp
    omega

lemma aw_cos (hxi : m.vov ≠ 0) (hdt : 0 < dt) (ha : 0 < m.mr) (hsh : 0 < shape) (hg : Spec.GammaSeq P shape (m.gammaN dt) g) (h : ℝ) (k : ℕ) :
    (m.x2AvgvarMgfC (Complex.I * (h : ℂ) * (k : ℂ)) dt shape).re = ∫ y, cos (h * k * y) ∂(P.map (GammaSeries.X g)) := by
  have hmX := GammaSeries.measurable_X hg
  rw [← x2_charfun_correct hxi hdt ha hsh hg (by
    rw [show Complex.I * (h : ℂ) * (k : ℂ) = ((h * k : ℝ) : ℂ) * Complex.I by push_cast; ring, Complex.re_ofReal_mul, Complex.I_re, mul_zero]
    positivity), integral_map hmX.aemeasurable (by fun_prop)]
  have e : ∀ ω, Complex.exp (Complex.I * (h : ℂ) * (k : ℂ) * ((∑' n, g n ω : ℝ) : ℂ)) = Complex.exp (((h * k * GammaSeries.X g ω : ℝ) : ℂ) * Complex.I) := fun ω => by
    congr 1
    unfold GammaSeries.X
    push_cast
    ring
  simp only [e]
  have hI : Integrable (fun ω => Complex.exp (((h * k * GammaSeries.X g ω : ℝ) : ℂ) * Complex.I)) P :=
    Integrable.of_bound (by fun_prop) 1 (ae_of_all _ fun ω => by rw [Complex.norm_exp_ofReal_mul_I])
  rw [← RCLike.re_eq_complex_re, ← integral_re hI]
  refine integral_congr_ae (ae_of_all _ fun ω => ?_)
  simp only [RCLike.re_eq_complex_re]
  rw [Complex.exp_ofReal_mul_I_re]

/-- **C135.** The tabulated value at each point is the probability that `X2` is below it, up to the probability that `X2` exceeds `mu_e` (at most `1/143`) and the omitted terms of the series (bounded for every number `p` of
poles; super-exponentially small). -/
theorem aw_cdf_error (hxi : m.vov ≠ 0) (hdt : 0 < dt) (ha : 0 < m.mr) (hsh : 0 < shape) (hg : Spec.GammaSeq P shape (m.gammaN dt) g) {i : ℕ} (hi : i ≤ 200) {p : ℕ} (hp : 1 ≤ p) :
    |m.awCdf dt shape i - P.real {ω | ∑' n, g n ω ≤ m.awX dt shape i}| ≤
      P.real {ω | m.awMuE dt shape ≤ ∑' n, g n ω} + 2 / π * ((∏ n ∈ Finset.range p, (m.gammaN dt n / m.awH dt shape i) ^ shape) / (shape * p * (m.awNn dt shape : ℝ) ^ (shape * p))) ∧
    P.real {ω | m.awMuE dt shape ≤ ∑' n, g n ω} ≤ 1 / 143 := by
  have hv : 0 < m.vov2dt dt := by unfold vov2dt; positivity
  obtain ⟨hm1, hm2⟩ := awMean_pos hv hsh
  have hmX := GammaSeries.measurable_X hg
  have : IsProbabilityMeasure (P.map (GammaSeries.X g)) := Measure.isProbabilityMeasure_map hmX.aemeasurable
  have hr : ∀ {s : Set ℝ}, MeasurableSet s → (P.map (GammaSeries.X g)).real s = P.real {ω | ∑' n, g n ω ∈ s} := fun {s} hs => by
    rw [measureReal_def, Measure.map_apply hmX hs]; rfl
  have hgp := m.gammaN_pos hv
  have hs1 := (m.summable_x2 hv).1
  have hs2 := (m.summable_x2 hv).2
  refine ⟨?_, ?_⟩
  · have hxe : m.awX dt shape i = (1 - (i : ℝ) / 200) * (0.01 * m.awMean dt shape) + (i : ℝ) / 200 * m.awMuE dt shape := by unfold awX; ring
    have hi0 : (0:ℝ) ≤ (i : ℝ) / 200 := by positivity
    have hi1 : (i : ℝ) / 200 ≤ 1 := by rw [div_le_one (by norm_num)]; exact_mod_cast hi
    have hx0 : 0 < m.awX dt shape i := by
      rw [hxe]
      norm_num
      nlinarith
    have hx1 : m.awX dt shape i ≤ m.awMuE dt shape := by
      rw [hxe]
      norm_num
      nlinarith
    have hs0 : 0 < m.awX dt shape i + m.awMuE dt shape := by linarith
    have hh0 : 0 < m.awH dt shape i := by unfold awH; positivity
    have hhx : m.awH dt shape i * m.awX dt shape i ≤ π := by
      unfold awH
      rw [div_mul_eq_mul_div, div_le_iff₀ hs0]
      nlinarith [pi_pos]
    have hend : 2 * π / m.awH dt shape i - m.awX dt shape i = m.awMuE dt shape := by
      unfold awH
      have := pi_pos
      field_simp
      ring
    have hN := (awNn_ge (m := m) (dt := dt) (shape := shape)).1
    have key := Sawtooth.cdf_partial_sum (P.map (GammaSeries.X g)) (by
        have h0 : ∀ᵐ y ∂(P.map (GammaSeries.X g)), 0 ≤ y := (ae_map_iff hmX.aemeasurable measurableSet_Ici).2 (GammaSeries.X_nonneg hg)
        have := ae_iff.1 h0
        simp only [not_le] at this
        exact this) hh0 hx0 hhx (m.awNn dt shape)
        (E := (∏ n ∈ Finset.range p, (m.gammaN dt n / m.awH dt shape i) ^ shape) / (shape * p * (m.awNn dt shape : ℝ) ^ (shape * p))) (fun M => by
      have hb : 0 < shape * p := by have : (0:ℝ) < p := by exact_mod_cast hp
                                    positivity
      have hk : ∀ k : ℕ, |∫ y, cos (m.awH dt shape i * (k + 1 : ℕ) * y) ∂(P.map (GammaSeries.X g))| / (k + 1 : ℕ) ≤
          (∏ n ∈ Finset.range p, (m.gammaN dt n / m.awH dt shape i) ^ shape) * (1 / ((k + 1 : ℕ) : ℝ) ^ (1 + shape * p)) := fun k => by
        have hk0 : (0:ℝ) < (k + 1 : ℕ) := by positivity
        have h1 := GammaSeries.charFun_le hg hsh hgp hs1 (u := m.awH dt shape i * (k + 1 : ℕ)) (by positivity) p
        have h2 : ∏ n ∈ Finset.range p, (m.gammaN dt n / (m.awH dt shape i * (k + 1 : ℕ))) ^ shape = (∏ n ∈ Finset.range p, (m.gammaN dt n / m.awH dt shape i) ^ shape) / ((k + 1 : ℕ) : ℝ) ^ (shape * p) := by
          rw [rpow_mul hk0.le, rpow_natCast, ← Finset.card_range p, ← Finset.prod_const, Finset.card_range, ← Finset.prod_div_distrib]
          refine Finset.prod_congr rfl fun n _ => ?_
          rw [← div_rpow (div_pos (hgp n) hh0).le hk0.le, div_div]
        rw [h2] at h1
        rw [rpow_add hk0, rpow_one, div_le_iff₀ hk0]
        refine h1.trans (le_of_eq ?_)
        have := rpow_pos_of_pos hk0 (shape * p)
        field_simp
      refine (Finset.sum_le_sum fun k _ => hk k).trans ?_
      rw [← Finset.mul_sum, div_eq_mul_one_div]
      refine mul_le_mul_of_nonneg_left (sum_rpow_le hb (by omega) M) (Finset.prod_nonneg fun n _ => rpow_nonneg (div_pos (hgp n) hh0).le _))
    rw [hend, measureReal_def _ {m.awX dt shape i}, GammaSeries.no_atom hg hsh hgp hs1, ENNReal.toReal_zero, add_zero, hr measurableSet_Iic, hr measurableSet_Ici] at key
    refine le_trans (le_of_eq ?_) key
    congr 2
    unfold awCdf Spec.cdfSum
    simp only
    congr 2
    rw [show Finset.Icc 1 (m.awNn dt shape) = Finset.Ico 1 (m.awNn dt shape + 1) from rfl, Finset.sum_Ico_eq_sum_range, Nat.add_sub_cancel]
    congr 1
    refine Finset.sum_congr rfl fun k _ => ?_
    rw [aw_cos hxi hdt ha hsh hg, add_comm 1 k]
  · obtain ⟨hq1, hq2, hq3⟩ := aw_star_pos hv
    have hT2 := (m.x2Tail_pos hv 0).2
    obtain ⟨V, hV⟩ : ∃ V, V = (m.x2star dt 0).2 * (m.x2star dt 0).1 ^ 2 := ⟨_, rfl⟩
    have hVp : 0 < V := by rw [← hV] at hq3; linarith
    have hmu : m.awMuE dt shape = m.awMean dt shape + 12 * √(shape * V) := by
      unfold awMuE
      have : √(shape * V) = m.awMean dt shape * √((m.x2star dt 0).2 / shape) := by
        rw [hV, show shape * ((m.x2star dt 0).2 * (m.x2star dt 0).1 ^ 2) = (m.awMean dt shape) ^ 2 * ((m.x2star dt 0).2 / shape) by unfold awMean; field_simp,
          sqrt_mul (sq_nonneg _), sqrt_sq hm1.le]
      rw [this]; ring
    have hc : 0 < 12 * √(shape * V) := by positivity
    have ht := GammaSeries.tail_le hg hsh hgp hs1 hs2 hc
    have e1 : ∑' n, 1 / m.gammaN dt n = (Spec.x2Tail m dt 0).1 := rfl
    have e2 : ∑' n, 1 / m.gammaN dt n ^ 2 = (Spec.x2Tail m dt 0).2 := rfl
    rw [e1, e2, mul_pow, sq_sqrt (by positivity)] at ht
    have hsub : (P.map (GammaSeries.X g)).real (Ici (m.awMuE dt shape)) ≤ (P.map (GammaSeries.X g)).real (Ici (shape * (Spec.x2Tail m dt 0).1 + 12 * √(shape * V))) := by
      refine measureReal_mono (Ici_subset_Ici.2 ?_)
      rw [hmu]
      unfold awMean
      nlinarith
    rw [hr measurableSet_Ici] at hsub
    refine hsub.trans (ht.trans ?_)
    rw [← hV] at hq3
    rw [div_le_div_iff₀ (by positivity) (by norm_num)]
    nlinarith

end Heston

/-! ### Linear interpolation -/

/-- Specification: a table strictly increasing in both coordinates. -/
def Spec.IncreasingTable (l : List (ℝ × ℝ)) : Prop := l.Pairwise fun p q => p.1 < q.1 ∧ p.2 < q.2

lemma interp_sorted : ∀ (l : List (ℝ × ℝ)) (p0 : ℝ × ℝ), Spec.IncreasingTable (p0 :: l) → ∀ u, p0.1 ≤ u → (∃ q ∈ l, u ≤ q.1) →
    ∃ y, interp1dSorted (p0 :: l) u = .ok y ∧ (∀ p ∈ p0 :: l, (y ≤ p.2 ↔ u ≤ p.1) ∧ (p.2 ≤ y ↔ p.1 ≤ u)) ∧
      ∀ p q, [p, q] <:+: p0 :: l → p.1 ≤ u → u ≤ q.1 → y = p.2 + (q.2 - p.2) * (u - p.1) / (q.1 - p.1)
  | [], p0, _, u, _, h => by obtain ⟨q, hq, -⟩ := h; simp at hq
  | (x1, y1) :: rest, (x0, y0), hl, u, h0, h => by
    obtain ⟨ha, hb⟩ := List.pairwise_cons.1 hl
    obtain ⟨hc, hd⟩ := List.pairwise_cons.1 hb
    have h01 := ha (x1, y1) (by simp)
    simp only at h0 h01
    have hx : 0 < x1 - x0 := by linarith [h01.1]
    have hy : 0 < y1 - y0 := by linarith [h01.2]
    rcases le_or_gt u x1 with hu | hu
    · have e : interp1dSorted ((x0, y0) :: (x1, y1) :: rest) u = .ok ((y1 - y0) / (x1 - x0) * (u - x0) + y0) := by
        unfold interp1dSorted
        rw [if_neg (not_lt.2 h0), if_pos hu]
      have hsl : 0 < (y1 - y0) / (x1 - x0) := by positivity
      have hy1 : (y1 - y0) / (x1 - x0) * (u - x0) + y0 ≤ y1 := by
        have := mul_le_mul_of_nonneg_left (by linarith : u - x0 ≤ x1 - x0) hsl.le
        rw [div_mul_cancel₀ _ hx.ne'] at this
        linarith
      have hy1' : y1 ≤ (y1 - y0) / (x1 - x0) * (u - x0) + y0 ↔ x1 ≤ u := by
        have e2 : (y1 - y0) / (x1 - x0) * (u - x0) + y0 = y1 - (y1 - y0) / (x1 - x0) * (x1 - u) := by field_simp; ring
        rw [e2]
        constructor
        · intro h; by_contra h'
          have := mul_pos hsl (by linarith : 0 < x1 - u)
          linarith
        · intro h
          have : x1 - u = 0 := by linarith
          rw [this]; linarith
      refine ⟨_, e, ?_, ?_⟩
      · intro p hp
        rcases List.mem_cons.1 hp with rfl | hp
        · simp only
          constructor
          · constructor
            · intro h; by_contra h'
              have := mul_pos hsl (by linarith : 0 < u - x0)
              linarith
            · intro h
              have : u - x0 = 0 := by linarith
              rw [this]; linarith
          · have := mul_nonneg hsl.le (by linarith : 0 ≤ u - x0)
            exact ⟨fun _ => h0, fun _ => by linarith⟩
        · rcases List.mem_cons.1 hp with rfl | hp
          · exact ⟨⟨fun _ => hu, fun _ => hy1⟩, hy1'⟩
          · have := hc p hp
            simp only at this
            refine ⟨⟨fun _ => by linarith [this.1], fun _ => by linarith [this.2]⟩, ⟨fun h => ?_, fun h => ?_⟩⟩ <;> exfalso <;> linarith [this.1, this.2]
      · intro p q hpq hpu hqu
        rcases List.infix_cons_iff.1 hpq with hpre | hin
        · obtain ⟨t, ht⟩ := hpre
          simp only [List.cons_append, List.nil_append, List.cons.injEq] at ht
          obtain ⟨rfl, rfl, -⟩ := ht
          simp only
          field_simp
          ring
        · have hpm : p ∈ (x1, y1) :: rest := hin.subset (by simp)
          have hqp := (List.pairwise_cons.1 (List.Pairwise.sublist hin.sublist hb)).1 q (by simp)
          have hux : u = x1 ∧ p = (x1, y1) := by
            rcases List.mem_cons.1 hpm with rfl | hpm
            · exact ⟨le_antisymm hu hpu, rfl⟩
            · exfalso
              have := (hc p hpm).1
              simp only at this
              linarith
          obtain ⟨rfl, rfl⟩ := hux
          simp only
          rw [sub_self, mul_zero, zero_div, div_mul_cancel₀ _ hx.ne']
          ring
    · have hq : ∃ q ∈ rest, u ≤ q.1 := by
        obtain ⟨q, hq, hqu⟩ := h
        rcases List.mem_cons.1 hq with rfl | hq
        · simp only at hqu; linarith
        · exact ⟨q, hq, hqu⟩
      obtain ⟨y, h1, h2, h3⟩ := interp_sorted rest (x1, y1) hb u hu.le hq
      have e : interp1dSorted ((x0, y0) :: (x1, y1) :: rest) u = interp1dSorted ((x1, y1) :: rest) u := by
        conv_lhs => unfold interp1dSorted
        rw [if_neg (not_lt.2 h0), if_neg (not_le.2 hu)]
      rw [e]
      refine ⟨y, h1, ?_, ?_⟩
      · intro p hp
        rcases List.mem_cons.1 hp with rfl | hp
        · have hy1 : y1 < y := by
            by_contra h'
            have := ((h2 (x1, y1) (by simp)).1).1 (not_lt.1 h')
            simp only at this
            linarith
          simp only
          refine ⟨⟨fun h => ?_, fun h => ?_⟩, ⟨fun _ => h0, fun _ => by linarith⟩⟩ <;> exfalso <;> linarith
        · exact h2 p hp
      · intro p q hpq hpu hqu
        rcases List.infix_cons_iff.1 hpq with hpre | hin
        · obtain ⟨t, ht⟩ := hpre
          simp only [List.cons_append, List.nil_append, List.cons.injEq] at ht
          obtain ⟨rfl, rfl, -⟩ := ht
          simp only at hqu
          linarith
        · exact h3 p q hin hpu hqu

lemma interp_sort {l : List (ℝ × ℝ)} (hl : Spec.IncreasingTable l) (u : ℝ) : interp1d l u = interp1dSorted l u := by
  classical
  unfold interp1d
  rw [List.mergeSort_of_pairwise]
  exact hl.imp fun h => by simpa using h.1.le

lemma interp_out : ∀ (l : List (ℝ × ℝ)) (u : ℝ), (∀ p ∈ l, p.1 < u) → interp1dSorted l u = .error .valueError
  | [], _, _ => rfl
  | [_], _, _ => rfl
  | (x0, y0) :: (x1, y1) :: rest, u, h => by
    have h0 := h (x0, y0) (by simp)
    have h1 := h (x1, y1) (by simp)
    unfold interp1dSorted
    rw [if_neg (not_lt.2 h0.le), if_neg (not_le.2 h1)]
    exact interp_out _ u fun p hp => h p (by simp [List.mem_cons.1 hp])

/-- **C135.** `interp1d` on a strictly increasing table: inside the table the value is the chord between the neighbouring points and is comparable with the ordinates exactly as the argument with the abscissae
(so the interpolated inverse distribution function crosses each `x_i` at its tabulated probability); outside the table it raises. -/
theorem interp1d_correct {l : List (ℝ × ℝ)} (hl : Spec.IncreasingTable l) (hlen : 2 ≤ l.length) (u : ℝ) :
    ((∃ p ∈ l, p.1 ≤ u) → (∃ p ∈ l, u ≤ p.1) → ∃ y, interp1d l u = .ok y ∧ (∀ p ∈ l, (y ≤ p.2 ↔ u ≤ p.1) ∧ (p.2 ≤ y ↔ p.1 ≤ u)) ∧
      ∀ p q, [p, q] <:+: l → p.1 ≤ u → u ≤ q.1 → y = p.2 + (q.2 - p.2) * (u - p.1) / (q.1 - p.1)) ∧
    ((∀ p ∈ l, p.1 < u) ∨ (∀ p ∈ l, u < p.1) → interp1d l u = .error .valueError) := by
  rw [interp_sort hl]
  obtain ⟨p0, p1, rest, rfl⟩ : ∃ p0 p1 rest, l = p0 :: p1 :: rest := by
    match l, hlen with
    | a :: b :: r, _ => exact ⟨a, b, r, rfl⟩
  have h01 := (List.pairwise_cons.1 hl).1
  refine ⟨fun h1 h2 => ?_, fun h => ?_⟩
  · have h0 : p0.1 ≤ u := by
      obtain ⟨p, hp, hpu⟩ := h1
      rcases List.mem_cons.1 hp with rfl | hp
      · exact hpu
      · linarith [(h01 p hp).1]
    refine interp_sorted _ p0 hl u h0 ?_
    obtain ⟨q, hq, hqu⟩ := h2
    rcases List.mem_cons.1 hq with rfl | hq
    · exact ⟨p1, by simp, hqu.trans (h01 p1 (by simp)).1.le⟩
    · exact ⟨q, hq, hqu⟩
  · rcases h with h | h
    · exact interp_out _ u h
    · have := h p0 (by simp)
      unfold interp1dSorted
      rw [if_pos this]

example : Spec.IncreasingTable [(0, 0), (1 / 4, 1), (1, 3)] ∧ 2 ≤ [((0 : ℝ), (0 : ℝ)), (1 / 4, 1), (1, 3)].length := by
  refine ⟨?_, by simp⟩
  unfold Spec.IncreasingTable
  norm_num

namespace Heston

/-- **C135.** If the tabulated probabilities increase, the draw `x2_icdf_interp(U)` of a uniform `U` never raises and its distribution function at every tabulated point is the tabulated value: with `aw_cdf_error`, the law of `X2` there
up to the stated error. Not proved: that the tabulated values increase (they approximate an increasing function). -/
theorem tabulated_draw_law_partial {m : Heston} {dt shape : ℝ} (hxi : m.vov ≠ 0) (hdt : 0 < dt) (hsh : 0 < shape) (h0 : 0 < m.awCdf dt shape 0)
    (hinc : ∀ i j, i < j → j ≤ 200 → m.awCdf dt shape i < m.awCdf dt shape j) {i : ℕ} (hi : i ≤ 200) :
    (∀ u ∈ Ioo (0 : ℝ) 1, ∃ x, m.x2Icdf dt shape u = .ok x ∧ (x ≤ m.awX dt shape i ↔ u ≤ m.awCdf dt shape i)) ∧
    volume {u : ℝ | u ∈ Ioo (0 : ℝ) 1 ∧ ∃ x, m.x2Icdf dt shape u = .ok x ∧ x ≤ m.awX dt shape i} = ENNReal.ofReal (m.awCdf dt shape i) := by
  obtain ⟨hx0, hxi', -, hlast⟩ := aw_points (m := m) hxi hdt hsh
  have hxm : StrictMono (m.awX dt shape) := strictMono_nat_of_lt_succ hxi'
  have htab : Spec.IncreasingTable ((0, 0) :: (m.x2CdfPoints dt shape).map fun p => (p.2, p.1)) := by
    unfold Spec.IncreasingTable x2CdfPoints
    rw [List.map_map, List.pairwise_cons]
    constructor
    · intro p hp
      obtain ⟨k, hk, rfl⟩ := List.mem_map.1 hp
      have hk' := List.mem_range.1 hk
      simp only [Function.comp]
      refine ⟨?_, hx0.trans_le (hxm.monotone (Nat.zero_le k))⟩
      rcases Nat.eq_zero_or_pos k with rfl | hk0
      · exact h0
      · exact h0.trans (hinc 0 k hk0 (by omega))
    · rw [List.pairwise_map]
      refine List.pairwise_lt_range.imp_of_mem fun {a b} ha hb hab => ?_
      have hb' := List.mem_range.1 hb
      simp only [Function.comp]
      exact ⟨hinc a b hab (by omega), hxm hab⟩
  have hmem : ∀ k, k ≤ 200 → (m.awCdf dt shape k, m.awX dt shape k) ∈ (0, 0) :: (m.x2CdfPoints dt shape).map fun p => (p.2, p.1) := fun k hk => by
    unfold x2CdfPoints
    rw [List.map_map]
    exact List.mem_cons_of_mem _ (List.mem_map.2 ⟨k, List.mem_range.2 (by omega), rfl⟩)
  have hfirst : ∀ u ∈ Ioo (0 : ℝ) 1, ∃ x, m.x2Icdf dt shape u = .ok x ∧ (x ≤ m.awX dt shape i ↔ u ≤ m.awCdf dt shape i) := by
    intro u hu
    have hlen : 2 ≤ ((0, 0) :: (m.x2CdfPoints dt shape).map fun p => (p.2, p.1)).length := by
      unfold x2CdfPoints; simp
    obtain ⟨y, hy, hyp, -⟩ := (interp1d_correct htab hlen u).1 ⟨(0, 0), by simp, hu.1.le⟩ ⟨_, hmem 200 le_rfl, by simp only; rw [hlast]; exact hu.2.le⟩
    exact ⟨y, hy, (hyp _ (hmem i hi)).1⟩
  refine ⟨hfirst, ?_⟩
  have hc1 : m.awCdf dt shape i ≤ 1 := by
    rcases hi.eq_or_lt with rfl | h
    · exact hlast.le
    · rw [← hlast]; exact (hinc i 200 h le_rfl).le
  have hset : {u : ℝ | u ∈ Ioo (0 : ℝ) 1 ∧ ∃ x, m.x2Icdf dt shape u = .ok x ∧ x ≤ m.awX dt shape i} = Ioo (0 : ℝ) 1 ∩ Iic (m.awCdf dt shape i) := by
    ext u
    simp only [mem_setOf_eq, mem_inter_iff, mem_Iic]
    refine and_congr_right fun hu => ?_
    obtain ⟨x, hx, hxu⟩ := hfirst u hu
    rw [← hxu]
    constructor
    · rintro ⟨x', hx', hle⟩
      rw [hx] at hx'
      cases hx'
      exact hle
    · exact fun h => ⟨x, hx, h⟩
  rw [hset]
  rcases hc1.eq_or_lt with h | h
  · rw [h, inter_eq_left.2 (Ioo_subset_Iio_self.trans Iio_subset_Iic_self), volume_Ioo, sub_zero]
  · have : Ioo (0 : ℝ) 1 ∩ Iic (m.awCdf dt shape i) = Ioc 0 (m.awCdf dt shape i) := by
      ext u
      simp only [mem_inter_iff, mem_Ioo, mem_Iic, mem_Ioc]
      constructor
      · exact fun h' => ⟨h'.1.1, h'.2⟩
      · exact fun h' => ⟨⟨h'.1, h'.2.trans_lt h⟩, h'.2⟩
    rw [this, volume_Ioc, sub_zero]

end Heston

namespace Sv32Inv

/-- **C135.** The equation solved by `draw_cond_avgvar` and `cond_states_step_invlap`: for any law on the positive reals with transform `lap(b) = E exp(-b V)`, a root `x` in `(0, u_error]` is the `u`-quantile, up to the probability that
`V` exceeds `2 u_error - x` and the omitted terms (beyond 60) of the series. Not proved: that `scipy.optimize.newton` finds that root, and that `cond_avgvar_laplace` is the transform at imaginary arguments. -/
theorem root_quantile_partial (μ : Measure ℝ) [IsProbabilityMeasure μ] (hμ : μ (Iio 0) = 0) (lapC : ℂ → ℂ) {uErr u x : ℝ} (hx : 0 < x) (hxu : x ≤ uErr)
    (hlap : ∀ t : ℝ, lapC (-(Complex.I * (t : ℂ))) = ∫ v, Complex.exp (Complex.I * (t : ℂ) * (v : ℂ)) ∂μ) (hroot : root lapC uErr u x = 0) {E : ℝ}
    (hE : ∀ M, ∑ k ∈ Finset.Ico 60 M, |∫ y, cos (π / uErr * (k + 1 : ℕ) * y) ∂μ| / (k + 1 : ℕ) ≤ E) :
    |u - μ.real (Iic x)| ≤ μ.real (Ici (2 * uErr - x)) + μ.real {x} + 2 / π * E := by
  have hU : 0 < uErr := hx.trans_le hxu
  have hpi := pi_pos
  have hh : 0 < π / uErr := by positivity
  have hhx : π / uErr * x ≤ π := by
    rw [div_mul_eq_mul_div, div_le_iff₀ hU]
    exact mul_le_mul_of_nonneg_left hxu hpi.le
  have key := Sawtooth.cdf_partial_sum μ hμ hh hx hhx 60 hE
  rw [show 2 * π / (π / uErr) = 2 * uErr by field_simp] at key
  refine le_trans (le_of_eq ?_) key
  congr 2
  have hcos : ∀ j : ℕ, (lapC (-(Complex.I * (j : ℂ) * ((π / uErr : ℝ) : ℂ)))).re = ∫ y, cos (π / uErr * j * y) ∂μ := fun j => by
    rw [show Complex.I * (j : ℂ) * ((π / uErr : ℝ) : ℂ) = Complex.I * ((π / uErr * j : ℝ) : ℂ) by push_cast; ring, hlap]
    have e : ∀ v : ℝ, Complex.exp (Complex.I * ((π / uErr * j : ℝ) : ℂ) * (v : ℂ)) = Complex.exp (((π / uErr * j * v : ℝ) : ℂ) * Complex.I) := fun v => by
      congr 1; push_cast; ring
    simp only [e]
    have hI : Integrable (fun v : ℝ => Complex.exp (((π / uErr * j * v : ℝ) : ℂ) * Complex.I)) μ :=
      Integrable.of_bound (by fun_prop) 1 (ae_of_all _ fun ω => by rw [Complex.norm_exp_ofReal_mul_I])
    rw [← RCLike.re_eq_complex_re, ← integral_re hI]
    refine integral_congr_ae (ae_of_all _ fun ω => ?_)
    simp only [RCLike.re_eq_complex_re]
    rw [Complex.exp_ofReal_mul_I_re]
  unfold root at hroot
  simp only [hcos] at hroot
  unfold Spec.cdfSum
  rw [eq_div_iff hpi.ne']
  have e : ∑ j ∈ Finset.Icc (1 : ℕ) 60, (∫ y, cos (π / uErr * j * y) ∂μ) * sin (π / uErr * x * j) / j =
      ∑ k ∈ Finset.range 60, sin (π / uErr * x * (k + 1 : ℕ)) / (k + 1 : ℕ) * ∫ y, cos (π / uErr * (k + 1 : ℕ) * y) ∂μ := by
    rw [show Finset.Icc 1 60 = Finset.Ico 1 61 from rfl, Finset.sum_Ico_eq_sum_range]
    refine Finset.sum_congr rfl fun k _ => ?_
    rw [add_comm 1 k]
    ring
  rw [← e]
  linarith

/-- The hypotheses of `root_quantile_partial` have a solution: every law on `[0, u_error]` without an atom at `x`, at `u` equal to the value of the series. -/
example (μ : Measure ℝ) [IsProbabilityMeasure μ] {uErr x : ℝ} : ∃ (lapC : ℂ → ℂ) (u : ℝ),
    (∀ t : ℝ, lapC (-(Complex.I * (t : ℂ))) = ∫ v, Complex.exp (Complex.I * (t : ℂ) * (v : ℂ)) ∂μ) ∧ root lapC uErr u x = 0 := by
  refine ⟨fun b => ∫ v, Complex.exp (-b * (v : ℂ)) ∂μ, root (fun b => ∫ v, Complex.exp (-b * (v : ℂ)) ∂μ) uErr 0 x / π, fun t => ?_, ?_⟩
  · simp only [neg_neg]
  · unfold root
    simp only
    rw [div_mul_cancel₀ _ pi_pos.ne']
    ring

end Sv32Inv

namespace Sv32Inv

lemma sinh_bounds {y : ℝ} (hy : 0 ≤ y) : y ≤ sinh y ∧ sinh y ≤ y + y ^ 3 / 6 * exp y := by
  have hc : cosh y ≤ exp y := by rw [cosh_eq]; have := exp_le_exp.2 (show -y ≤ y by linarith); linarith
  refine ⟨self_le_sinh_iff.2 hy, ?_⟩
  have h := (hasSum_nat_add_iff' 1).2 (Real.hasSum_sinh y)
  simp only [Finset.sum_range_one, mul_zero, zero_add, pow_one, Nat.factorial_one, Nat.cast_one, div_one] at h
  have h2 := (Real.hasSum_cosh y).mul_left (y ^ 3 / 6)
  have := hasSum_le (fun k => ?_) h h2
  · have h3 : y ^ 3 / 6 * cosh y ≤ y ^ 3 / 6 * exp y := by gcongr
    linarith
  · have hf : ((2 * k).factorial : ℝ) * 6 ≤ (2 * (k + 1) + 1).factorial := by
      have e : (2 * (k + 1) + 1).factorial = (2 * k + 3) * ((2 * k + 2) * ((2 * k + 1) * (2 * k).factorial)) := by
        rw [show 2 * (k + 1) + 1 = 2 * k + 2 + 1 by ring, Nat.factorial_succ, Nat.factorial_succ, Nat.factorial_succ]
      have h6 : 6 ≤ (2 * k + 3) * ((2 * k + 2) * (2 * k + 1)) :=
          Nat.mul_le_mul (show 3 ≤ 2 * k + 3 by omega) (Nat.mul_le_mul (show 2 ≤ 2 * k + 2 by omega) (show 1 ≤ 2 * k + 1 by omega))
      rw [e]
      have := Nat.mul_le_mul_right (2 * k).factorial h6
      have : (2 * k).factorial * 6 ≤ (2 * k + 3) * ((2 * k + 2) * ((2 * k + 1) * (2 * k).factorial)) := by nlinarith
      exact_mod_cast this
    have hp : (0 : ℝ) < (2 * k).factorial := by exact_mod_cast Nat.factorial_pos _
    calc y ^ (2 * (k + 1) + 1) / (2 * (k + 1) + 1).factorial ≤ y ^ (2 * (k + 1) + 1) / ((2 * k).factorial * 6) := by gcongr
      _ = y ^ 3 / 6 * (y ^ (2 * k) / (2 * k).factorial) := by
        rw [show 2 * (k + 1) + 1 = 3 + 2 * k by ring, pow_add]; field_simp

lemma cosh_bounds {y : ℝ} (hy : 0 ≤ y) : 1 + y ^ 2 / 2 ≤ cosh y ∧ cosh y ≤ 1 + y ^ 2 / 2 + y ^ 4 / 24 * exp y := by
  have hc : cosh y ≤ exp y := by rw [cosh_eq]; have := exp_le_exp.2 (show -y ≤ y by linarith); linarith
  have h := (hasSum_nat_add_iff' 2).2 (Real.hasSum_cosh y)
  simp only [Finset.sum_range_succ, Finset.sum_range_zero, mul_zero, zero_add, pow_zero, Nat.factorial_zero, Nat.cast_one, div_one, mul_one, Nat.factorial_two, Nat.cast_ofNat] at h
  constructor
  · have := h.nonneg (fun k => by positivity)
    linarith
  have h2 := (Real.hasSum_cosh y).mul_left (y ^ 4 / 24)
  have := hasSum_le (fun k => ?_) h h2
  · have h3 : y ^ 4 / 24 * cosh y ≤ y ^ 4 / 24 * exp y := by gcongr
    linarith
  · have hf : ((2 * k).factorial : ℝ) * 24 ≤ (2 * (k + 2)).factorial := by
      have e : (2 * (k + 2)).factorial = (2 * k + 4) * ((2 * k + 3) * ((2 * k + 2) * ((2 * k + 1) * (2 * k).factorial))) := by
        rw [show 2 * (k + 2) = 2 * k + 3 + 1 by ring, Nat.factorial_succ, Nat.factorial_succ, Nat.factorial_succ, Nat.factorial_succ]
      have h6 : 24 ≤ (2 * k + 4) * ((2 * k + 3) * ((2 * k + 2) * (2 * k + 1))) := by
        have h7 : 6 ≤ (2 * k + 3) * ((2 * k + 2) * (2 * k + 1)) :=
          Nat.mul_le_mul (show 3 ≤ 2 * k + 3 by omega) (Nat.mul_le_mul (show 2 ≤ 2 * k + 2 by omega) (show 1 ≤ 2 * k + 1 by omega))
        nlinarith
      rw [e]
      have h8 := Nat.mul_le_mul_right (2 * k).factorial h6
      have h9 : (2 * k + 4) * ((2 * k + 3) * ((2 * k + 2) * (2 * k + 1))) * (2 * k).factorial = (2 * k + 4) * ((2 * k + 3) * ((2 * k + 2) * ((2 * k + 1) * (2 * k).factorial))) := by ring
      rw [h9, mul_comm] at h8
      exact_mod_cast h8
    have hp : (0 : ℝ) < (2 * k).factorial := by exact_mod_cast Nat.factorial_pos _
    calc y ^ (2 * (k + 2)) / (2 * (k + 2)).factorial ≤ y ^ (2 * (k + 2)) / ((2 * k).factorial * 24) := by gcongr
      _ = y ^ 4 / 24 * (y ^ (2 * k) / (2 * k).factorial) := by
        rw [show 2 * (k + 2) = 4 + 2 * k by ring, pow_add]; field_simp

/-- **C135 (scale of the inversion).** For the transform `lap(b) = E exp(-b V)` of a law on the positive reals, the two numbers computed from the transform at `±1e-5` are the mean and (after adding the squared
mean back) the second moment of `V`, with relative-order-`1e-10` errors: `0 ≤ m1 - E V ≤ 1e-10/6 E[V³ e^(1e-5 V)]` and `0 ≤ var + m1² - E V² ≤ 1e-10/12 E[V⁴ e^(1e-5 V)]`. -/
theorem fdMv_accurate (μ : Measure ℝ) [IsProbabilityMeasure μ] (hμ : ∀ᵐ v ∂μ, 0 ≤ v) (lap : ℝ → ℝ) (hlap : ∀ b, lap b = ∫ v, exp (-b * v) ∂μ)
    (hi : Integrable (fun v => v ^ 4 * exp (1e-5 * v)) μ) :
    0 ≤ (fdMv lap).1 - ∫ v, v ∂μ ∧ (fdMv lap).1 - ∫ v, v ∂μ ≤ 1e-10 / 6 * ∫ v, v ^ 3 * exp (1e-5 * v) ∂μ ∧
    0 ≤ (fdMv lap).2 + (fdMv lap).1 ^ 2 - ∫ v, v ^ 2 ∂μ ∧ (fdMv lap).2 + (fdMv lap).1 ^ 2 - ∫ v, v ^ 2 ∂μ ≤ 1e-10 / 12 * ∫ v, v ^ 4 * exp (1e-5 * v) ∂μ := by
  have hdom : ∀ (g : ℝ → ℝ), Measurable g → (∀ v, 0 ≤ v → |g v| ≤ 3 + v ^ 4 * exp (1e-5 * v)) → Integrable g μ := by
    intro g hg hb
    refine ((integrable_const (3 : ℝ)).add hi).mono' hg.aestronglyMeasurable ?_
    filter_upwards [hμ] with v hv
    exact hb v hv
  have hE : ∀ v : ℝ, 0 ≤ v → 1 ≤ exp (1e-5 * v) := fun v hv => one_le_exp (by positivity)
  have hpw : ∀ (k : ℕ), k ≤ 4 → ∀ v : ℝ, 0 ≤ v → v ^ k * exp (1e-5 * v) ≤ 3 + v ^ 4 * exp (1e-5 * v) := by
    intro k hk v hv
    have h1 := exp_pos (1e-5 * v)
    by_cases hv1 : v ≤ 1
    · have h3 : exp (1e-5 * v) ≤ 3 := by
        have := exp_le_exp.2 (show 1e-5 * v ≤ 1 by norm_num at *; linarith)
        have := exp_one_lt_d9
        linarith
      have h4 : v ^ k ≤ 1 := pow_le_one₀ hv hv1
      have : v ^ k * exp (1e-5 * v) ≤ 1 * 3 := by gcongr
      have : 0 ≤ v ^ 4 * exp (1e-5 * v) := by positivity
      linarith
    · have h4 : v ^ k ≤ v ^ 4 := pow_le_pow_right₀ (by linarith) hk
      have : v ^ k * exp (1e-5 * v) ≤ v ^ 4 * exp (1e-5 * v) := by gcongr
      linarith
  have i3 : Integrable (fun v => v ^ 3 * exp (1e-5 * v)) μ := hdom _ (by fun_prop) fun v hv => by
    rw [abs_of_nonneg (by positivity)]; exact hpw 3 (by norm_num) v hv
  have i0 : Integrable (fun v => exp (1e-5 * v)) μ := hdom _ (by fun_prop) fun v hv => by
    rw [abs_of_nonneg (by positivity)]; simpa using hpw 0 (by norm_num) v hv
  have ip : ∀ k : ℕ, k ≤ 4 → Integrable (fun v : ℝ => v ^ k) μ := fun k hk => hdom _ (by fun_prop) fun v hv => by
    rw [abs_of_nonneg (by positivity)]
    exact (le_mul_of_one_le_right (by positivity) (hE v hv)).trans (hpw k hk v hv)
  have im : Integrable (fun v => exp (-1e-5 * v)) μ := hdom _ (by fun_prop) fun v hv => by
    rw [abs_of_nonneg (by positivity)]
    have h1 : exp (-1e-5 * v) ≤ 1 := exp_le_one_iff.2 (by nlinarith)
    have : 0 ≤ v ^ 4 * exp (1e-5 * v) := by positivity
    linarith
  have i1 : Integrable (fun v : ℝ => v) μ := by simpa using ip 1 (by norm_num)
  have i2 := ip 2 (by norm_num)
  have e1 : (fdMv lap).1 = ∫ v, sinh (1e-5 * v) / 1e-5 ∂μ := by
    show (lap (-1e-5) - lap 1e-5) / (2 * 1e-5) = _
    rw [hlap, hlap]
    simp only [neg_neg]
    rw [← integral_sub i0 im, ← integral_div]
    refine integral_congr_ae (ae_of_all _ fun v => ?_)
    simp only
    rw [sinh_eq, neg_mul]; ring
  have e2 : (fdMv lap).2 + (fdMv lap).1 ^ 2 = ∫ v, 2 * (cosh (1e-5 * v) - 1) / 1e-5 ^ 2 ∂μ := by
    show ((lap (-1e-5) + lap 1e-5 - 2.0) / 1e-5 ^ 2 - ((lap (-1e-5) - lap 1e-5) / (2 * 1e-5)) ^ 2) + ((lap (-1e-5) - lap 1e-5) / (2 * 1e-5)) ^ 2 = _
    rw [sub_add_cancel, hlap, hlap]
    simp only [neg_neg]
    have h2 : (2.0 : ℝ) = ∫ _, (2 : ℝ) ∂μ := by simp; norm_num
    have i01 : Integrable (fun v => exp (1e-5 * v) + exp (-1e-5 * v)) μ := i0.add im
    rw [h2, ← integral_add i0 im, ← integral_sub i01 (integrable_const _), ← integral_div]
    refine integral_congr_ae (ae_of_all _ fun v => ?_)
    simp only
    rw [cosh_eq, neg_mul]; ring
  have isinh : Integrable (fun v => sinh (1e-5 * v) / 1e-5) μ := by
    have : Integrable (fun v => (exp (1e-5 * v) - exp (-1e-5 * v)) / 2 / 1e-5) μ := ((i0.sub im).div_const 2).div_const _
    refine this.congr (ae_of_all _ fun v => ?_)
    simp only
    rw [sinh_eq, neg_mul]
  have icosh : Integrable (fun v => 2 * (cosh (1e-5 * v) - 1) / 1e-5 ^ 2) μ := by
    have : Integrable (fun v => 2 * ((exp (1e-5 * v) + exp (-1e-5 * v)) / 2 - 1) / 1e-5 ^ 2) μ := (((((i0.add im).div_const 2).sub (integrable_const 1)).const_mul 2).div_const _)
    refine this.congr (ae_of_all _ fun v => ?_)
    simp only
    rw [cosh_eq, neg_mul]
  have b1 : ∀ v : ℝ, 0 ≤ v → 0 ≤ sinh (1e-5 * v) / 1e-5 - v ∧ sinh (1e-5 * v) / 1e-5 - v ≤ 1e-10 / 6 * (v ^ 3 * exp (1e-5 * v)) := by
    intro v hv
    obtain ⟨h1, h2⟩ := sinh_bounds (y := 1e-5 * v) (by positivity)
    generalize exp (1e-5 * v) = E at *
    generalize sinh (1e-5 * v) = s at *
    norm_num at h1 h2 ⊢
    constructor <;> nlinarith
  have b2 : ∀ v : ℝ, 0 ≤ v → 0 ≤ 2 * (cosh (1e-5 * v) - 1) / 1e-5 ^ 2 - v ^ 2 ∧
      2 * (cosh (1e-5 * v) - 1) / 1e-5 ^ 2 - v ^ 2 ≤ 1e-10 / 12 * (v ^ 4 * exp (1e-5 * v)) := by
    intro v hv
    obtain ⟨h1, h2⟩ := cosh_bounds (y := 1e-5 * v) (by positivity)
    generalize exp (1e-5 * v) = E at *
    generalize cosh (1e-5 * v) = s at *
    norm_num at h1 h2 ⊢
    constructor <;> nlinarith
  rw [e2, e1, ← integral_sub isinh i1, ← integral_sub icosh i2, ← integral_const_mul, ← integral_const_mul]
  refine ⟨integral_nonneg_of_ae ?_, integral_mono_ae (isinh.sub i1) (i3.const_mul _) ?_, integral_nonneg_of_ae ?_, integral_mono_ae (icosh.sub i2) (hi.const_mul _) ?_⟩
  · filter_upwards [hμ] with v hv using (b1 v hv).1
  · filter_upwards [hμ] with v hv using (b1 v hv).2
  · filter_upwards [hμ] with v hv using (b2 v hv).1
  · filter_upwards [hμ] with v hv using (b2 v hv).2

example : 0 ≤ (fdMv fun b => exp (-b * 2)).1 - ∫ v, v ∂(Measure.dirac (2 : ℝ)) :=
  (fdMv_accurate (Measure.dirac 2) (by rw [ae_dirac_eq]; norm_num [Filter.Eventually]) _ (fun b => by rw [integral_dirac]) (by
    refine integrable_dirac ?_; exact enorm_lt_top)).1

end Sv32Inv

/-- Independent gamma variables exist: `Spec.GammaSeq` is inhabited for every model. -/
example (m : Heston) (hv : m.vov ≠ 0) {dt : ℝ} (hdt : 0 < dt) : ∃ P : Measure (ℕ → ℝ), IsProbabilityMeasure P ∧ Spec.GammaSeq P 2 (m.gammaN dt) fun n ω => ω n := by
  have hp := m.gammaN_pos (dt := dt) (by unfold Heston.vov2dt; positivity)
  have hi : ∀ n, IsProbabilityMeasure (gammaMeasure 2 (m.gammaN dt n)) := fun n => isProbabilityMeasure_gammaMeasure two_pos (hp n)
  refine ⟨Measure.infinitePi fun n => gammaMeasure 2 (m.gammaN dt n), inferInstance, fun n => measurable_pi_apply n, ?_, fun n => ?_⟩
  · exact iIndepFun_infinitePi (X := fun _ x => x) fun n => measurable_id
  · exact Measure.infinitePi_map_eval _ n

end PyFENG
