import Verif.Lemmas.Cev
import Verif.Spec
import Verif.Lemmas.Black

/-!
# C38, C82: CEV prices and Greeks
-/

namespace PyFENG

open Real Filter Topology Set

namespace Cev

/-! ### The code in half variables -/

/-- `betac^2 sigma^2 T exprel(2 (r-q) betac T)`. -/
noncomputable def effVar (m : Cev) (T : ℝ) : ℝ :=
  (1 - m.beta) ^ 2 * m.sigma ^ 2 * (T * exprel (2 * (1 - m.beta) * (m.intr - m.divr) * T))

/-- Half of `z` at level `x`. -/
noncomputable def lev (m : Cev) (T x : ℝ) : ℝ := cevLev (1 - m.beta) (m.effVar T) x

lemma effVar_pos (m : Cev) (hb : m.beta ≠ 1) (hs : 0 < m.sigma) {T : ℝ} (hT : 0 < T) : 0 < m.effVar T := by
  have h1 : (1 - m.beta) ≠ 0 := sub_ne_zero.2 hb.symm
  have := exprel_pos (2 * (1 - m.beta) * (m.intr - m.divr) * T)
  unfold effVar
  positivity

lemma lev_pos (m : Cev) (hb : m.beta ≠ 1) (hs : 0 < m.sigma) {T x : ℝ} (hT : 0 < T) (hx : 0 < x) : 0 < m.lev T x := by
  exact cevLev_pos (m.effVar_pos hb hs hT) hx

lemma sq_div_rpow {F : ℝ} (hF : 0 < F) (s b : ℝ) : (s / F ^ b) ^ 2 = s ^ 2 / F ^ (2 * b) := by
  rw [div_pow, mul_comm 2 b, rpow_mul hF.le, rpow_two]

lemma z0_eq (m : Cev) {F : ℝ} (hF : 0 < F) (T : ℝ) :
    1 / (((1 - m.beta) * (m.sigma / F ^ (1 - m.beta))) ^ 2 * T * exprel (2 * (m.intr - m.divr) * (1 - m.beta) * T))
      = 2 * m.lev T F := by
  unfold lev cevLev effVar
  rw [mul_pow, sq_div_rpow hF, show 2 * (m.intr - m.divr) * (1 - m.beta) * T = 2 * (1 - m.beta) * (m.intr - m.divr) * T by ring]
  have := rpow_pos_of_pos hF (2 * (1 - m.beta))
  rw [show (1 - m.beta) ^ 2 * (m.sigma ^ 2 / F ^ (2 * (1 - m.beta))) * T * exprel (2 * (1 - m.beta) * (m.intr - m.divr) * T)
    = ((1 - m.beta) ^ 2 * m.sigma ^ 2 * (T * exprel (2 * (1 - m.beta) * (m.intr - m.divr) * T))) / F ^ (2 * (1 - m.beta)) by ring,
    one_div_div, mul_div_assoc', mul_div_mul_left _ _ two_ne_zero]

lemma vars_eq (m : Cev) {F K : ℝ} (hF : 0 < F) (hK : 0 < K) (T : ℝ) :
    m.vars F K T = ⟨m.sigma / F ^ (1 - m.beta), 1 - m.beta, 2 * m.lev T F, 2 * m.lev T K⟩ := by
  unfold vars
  simp only [z0_eq m hF T, Vars.mk.injEq, true_and]
  unfold lev cevLev
  rw [div_rpow hK.le hF.le]
  have := (rpow_pos_of_pos hF (2 * (1 - m.beta))).ne'
  field_simp

/-- The undiscounted call as a function of forward, strike and effective variance. -/
noncomputable def coreB (beta F K V : ℝ) : ℝ :=
  if beta < 1 then cevLt (1 / (2 * (1 - beta))) F K (cevLev (1 - beta) V F) (cevLev (1 - beta) V K)
  else cevGt (-1 / (2 * (1 - beta))) F K (cevLev (1 - beta) V F) (cevLev (1 - beta) V K)

noncomputable def dF (beta F K V : ℝ) : ℝ :=
  if beta < 1 then 1 - ncP (1 / (2 * (1 - beta))) (cevLev (1 - beta) V K) (cevLev (1 - beta) V F)
  else 1 - ncP (-1 / (2 * (1 - beta)) + 1) (cevLev (1 - beta) V F) (cevLev (1 - beta) V K)

/-- minus the strike derivative: the probability of finishing above the strike -/
noncomputable def dK (beta F K V : ℝ) : ℝ :=
  if beta < 1 then ncP (1 / (2 * (1 - beta))) (cevLev (1 - beta) V F) (cevLev (1 - beta) V K)
  else ncP (-1 / (2 * (1 - beta)) + 1) (cevLev (1 - beta) V K) (cevLev (1 - beta) V F)

noncomputable def dV (beta F K V : ℝ) : ℝ :=
  if beta < 1 then F / (2 * (1 - beta)) / V * ncG (1 / (2 * (1 - beta)) + 1) (cevLev (1 - beta) V K) (cevLev (1 - beta) V F)
  else -(F / (2 * (1 - beta)) / V) * ncG (-1 / (2 * (1 - beta)) + 1) (cevLev (1 - beta) V F) (cevLev (1 - beta) V K)

lemma hasDerivAt_coreB {beta : ℝ} (hb : beta ≠ 1) {F K V : ℝ → ℝ} {F' K' V' t : ℝ} (hF : HasDerivAt F F' t)
    (hK : HasDerivAt K K' t) (hV : HasDerivAt V V' t) (pF : 0 < F t) (pK : 0 < K t) (pV : 0 < V t) :
    HasDerivAt (fun t => coreB beta (F t) (K t) (V t))
      (F' * dF beta (F t) (K t) (V t) - K' * dK beta (F t) (K t) (V t) + V' * dV beta (F t) (K t) (V t)) t := by
  unfold coreB dF dK dV
  split_ifs with h
  · refine (hasDerivAt_coreLt (b := 1 - beta) (by linarith) hF hK hV pF pK pV).congr_deriv ?_
    ring
  · have : beta > 1 := lt_of_le_of_ne (not_lt.1 h) hb.symm
    refine (hasDerivAt_coreGt (b := 1 - beta) (by linarith) hF hK hV pF pK pV).congr_deriv ?_
    ring

noncomputable def core (m : Cev) (F K T : ℝ) : ℝ := coreB m.beta F K (m.effVar T)

lemma fwd_code (m : Cev) (S T : ℝ) :
    S * (if m.isFwd then 1 else exp (-T * m.divr) / exp (-T * m.intr)) = m.mp.fwd S T := by
  unfold MParams.fwd MParams.divf MParams.df mp
  cases m.isFwd <;> simp [mul_comm, mul_div_assoc]

lemma price_eq (m : Cev) {K S T cp : ℝ} (hcp : Spec.IsCp cp) (hF : 0 < m.mp.fwd S T) (hK : 0 < K)
    (hv : eps ≤ (m.sigma / m.mp.fwd S T ^ (1 - m.beta)) ^ 2 * T) :
    m.price K S T cp = m.mp.df T * (m.core (m.mp.fwd S T) K T + if cp > 0 then 0 else K - m.mp.fwd S T) := by
  unfold price
  simp only [fwd_code]
  generalize hFe : m.mp.fwd S T = F at *
  have hz := z0_eq m hF T
  rw [max_eq_left hv]
  have hz' : 1 / ((m.sigma / F ^ (1 - m.beta)) ^ 2 * T * (1 - m.beta) ^ 2 * exprel (2 * (m.intr - m.divr) * (1 - m.beta) * T))
      = 2 * m.lev T F := by rw [← hz]; congr 1; ring
  have hzK : (K / F) ^ (2 * (1 - m.beta)) * (2 * m.lev T F) = 2 * m.lev T K := by
    have := congrArg Vars.zK (vars_eq m hF hK T)
    unfold vars at this
    simpa only [hz] using this
  rw [hz', hzK]
  have hdf : exp (-T * m.intr) = m.mp.df T := by unfold MParams.df mp; congr 1; ring
  rw [hdf]
  congr 1
  unfold core coreB
  have ha1 : (2 + 1 / (1 - m.beta)) / 2 = 1 / (2 * (1 - m.beta)) + 1 := by
    rw [add_div, div_self two_ne_zero, div_div, mul_comm 2]; ring
  have ha2 : 1 / (1 - m.beta) / 2 = 1 / (2 * (1 - m.beta)) := by rw [div_div, mul_comm 2]
  have ha3 : (2 - 1 / (1 - m.beta)) / 2 = -1 / (2 * (1 - m.beta)) + 1 := by
    rw [sub_div, div_self two_ne_zero, div_div, mul_comm 2]; ring
  have ha4 : -(1 / (1 - m.beta)) / 2 = -1 / (2 * (1 - m.beta)) := by rw [neg_div, div_div, mul_comm 2]; ring
  have h2 : ∀ x : ℝ, 2 * x / 2 = x := fun x => by ring
  simp only [ncx2Sf, ncx2Cdf_eq, ha1, ha2, ha3, ha4, h2]
  unfold cevLt cevGt lev
  rcases hcp with rfl | rfl
  · norm_num
  · have : ¬ ((-1 : ℝ) > 0) := by norm_num
    simp only [this, if_false]
    split_ifs <;> ring

/-! ### Parity -/

/-- **C38**: put-call parity holds for every volatility (including at the machine-precision floor), either side of `beta = 1`, in
both conventions. -/
theorem cev_parity (m : Cev) (K S T : ℝ) :
    Spec.Parity (m.price K S T 1) (m.price K S T (-1)) (Spec.discount m.intr T) (Spec.forward m.isFwd m.intr m.divr S T) K := by
  have h1 : Spec.discount m.intr T = exp (-T * m.intr) := by unfold Spec.discount; congr 1; ring
  have h2 : Spec.forward m.isFwd m.intr m.divr S T = m.mp.fwd S T := by
    rw [MParams.fwd_eq_forward, MParams.forward_eq_spec]; rfl
  unfold Spec.Parity price
  simp only [fwd_code, h1, h2, gt_iff_lt, zero_lt_one, if_true, show ¬ (0 : ℝ) < -1 by norm_num, if_false, ncx2Sf]
  split_ifs <;> ring

/-! ### Greeks -/

lemma dofs (b : ℝ) : (2 + 1 / b) / 2 = 1 / (2 * b) + 1 ∧ 1 / b / 2 = 1 / (2 * b) ∧ (2 - 1 / b) / 2 = -1 / (2 * b) + 1 := by
  refine ⟨?_, ?_, ?_⟩
  · rw [add_div, div_self two_ne_zero, div_div, mul_comm 2]; ring
  · rw [div_div, mul_comm 2]
  · rw [sub_div, div_self two_ne_zero, div_div, mul_comm 2]; ring

lemma half_double (x : ℝ) : 2 * x / 2 = x := by ring

lemma delta_eq (m : Cev) {K S T : ℝ} (cp : ℝ) (hF : 0 < m.mp.fwd S T) (hK : 0 < K) :
    m.delta K S T cp = (dF m.beta (m.mp.fwd S T) K (m.effVar T) + (cp - 1) / 2)
      * (if m.isFwd then m.mp.df T else m.mp.divf T) := by
  obtain ⟨-, d2, d3⟩ := dofs (1 - m.beta)
  unfold delta dF
  simp only [vars_eq m hF hK T, ncx2Sf, ncx2Cdf_eq, d2, d3, half_double]
  unfold lev
  congr 1
  split_ifs <;> ring

lemma fwd_deriv (m : Cev) (S T : ℝ) : HasDerivAt (fun s => m.mp.fwd s T) (if m.isFwd then 1 else m.mp.divf T / m.mp.df T) S := by
  unfold MParams.fwd mp
  cases m.isFwd
  · simpa [mul_div_assoc] using (hasDerivAt_id' S).mul_const _
  · simpa using hasDerivAt_id' S

lemma df_fwd (m : Cev) (T : ℝ) : m.mp.df T * (if m.isFwd then 1 else m.mp.divf T / m.mp.df T)
    = if m.isFwd then m.mp.df T else m.mp.divf T := by
  have := (m.mp.df_pos T).ne'
  split_ifs
  · ring
  · field_simp

lemma vega_eq (m : Cev) (hb : m.beta ≠ 1) (hs : 0 < m.sigma) {K S T : ℝ} (hF : 0 < m.mp.fwd S T) (hK : 0 < K) (hT : 0 < T) :
    m.vega K S T = m.mp.df T * (2 * m.effVar T / m.sigma * dV m.beta (m.mp.fwd S T) K (m.effVar T)) := by
  obtain ⟨d1, -, d3⟩ := dofs (1 - m.beta)
  have hW := (m.effVar_pos hb hs hT).ne'
  have hb1 : (1 - m.beta) ≠ 0 := sub_ne_zero.2 hb.symm
  unfold vega dV
  simp only [vars_eq m hF hK T, ncx2Pdf_eq, d1, d3, half_double]
  unfold lev
  congr 1
  have hFb : m.mp.fwd S T ^ m.beta * m.mp.fwd S T ^ (1 - m.beta) = m.mp.fwd S T := by
    rw [← rpow_add hF, show m.beta + (1 - m.beta) = 1 by ring, rpow_one]
  have hp := (rpow_pos_of_pos hF (1 - m.beta)).ne'
  split_ifs
  · rw [show 2 * m.mp.fwd S T ^ m.beta / (m.sigma / m.mp.fwd S T ^ (1 - m.beta) * (1 - m.beta))
      = 2 * (m.mp.fwd S T ^ m.beta * m.mp.fwd S T ^ (1 - m.beta)) / (m.sigma * (1 - m.beta)) by field_simp, hFb]
    field_simp
  · rw [show -2 * m.mp.fwd S T ^ m.beta / (m.sigma / m.mp.fwd S T ^ (1 - m.beta) * (1 - m.beta))
      = -2 * (m.mp.fwd S T ^ m.beta * m.mp.fwd S T ^ (1 - m.beta)) / (m.sigma * (1 - m.beta)) by field_simp, hFb]
    field_simp

/-- The machine-precision floor in `price_formula` is inactive near the given spot. -/
lemma floor_eventually {ι : Type*} [TopologicalSpace ι] {f g : ι → ℝ} {x : ι} (hf : ContinuousAt f x) (hg : ContinuousAt g x)
    (h : g x < f x) : ∀ᶠ y in 𝓝 x, g y ≤ f y :=
  (hg.eventually_lt hf h).mono fun _ h => h.le

/-- **C82**: delta is the exact derivative of the price in the spot (the forward, when `is_fwd`), calls and puts, `beta` on either
side of one, whenever the total variance is above the machine-precision floor. -/
theorem cev_delta_correct (m : Cev) (hb : m.beta ≠ 1) (hs : 0 < m.sigma) {K S T cp : ℝ} (hcp : Spec.IsCp cp) (hK : 0 < K)
    (hS : 0 < S) (hT : 0 < T) (hv : eps < (m.sigma / Spec.forward m.isFwd m.intr m.divr S T ^ (1 - m.beta)) ^ 2 * T) :
    HasDerivAt (fun s => m.price K s T cp) (m.delta K S T cp) S := by
  have h2 : Spec.forward m.isFwd m.intr m.divr S T = m.mp.fwd S T := by
    rw [MParams.fwd_eq_forward, MParams.forward_eq_spec]; rfl
  rw [h2] at hv
  have hF := m.mp.fwd_pos hS T
  have hW := m.effVar_pos hb hs hT
  have hev : (fun s => m.price K s T cp) =ᶠ[𝓝 S]
      fun s => m.mp.df T * (coreB m.beta (m.mp.fwd s T) K (m.effVar T) + if cp > 0 then 0 else K - m.mp.fwd s T) := by
    have hc : ContinuousAt (fun s => (m.sigma / m.mp.fwd s T ^ (1 - m.beta)) ^ 2 * T) S := by
      have h := (m.fwd_deriv S T).continuousAt
      have h3 : ContinuousAt (fun s => m.mp.fwd s T ^ (1 - m.beta)) S := h.rpow_const (Or.inl hF.ne')
      exact ((continuousAt_const.div h3 (rpow_pos_of_pos hF _).ne').pow 2).mul continuousAt_const
    filter_upwards [floor_eventually hc continuousAt_const hv, lt_mem_nhds hS] with s h1 h2
    exact m.price_eq hcp (m.mp.fwd_pos h2 T) hK h1
  refine HasDerivAt.congr_of_eventuallyEq ?_ hev
  have hf := m.fwd_deriv S T
  have hc := hasDerivAt_coreB hb hf (hasDerivAt_const S K) (hasDerivAt_const S (m.effVar T)) hF hK hW
  rw [delta_eq m cp hF hK, ← df_fwd]
  rcases hcp with rfl | rfl
  · simp only [gt_iff_lt, zero_lt_one, if_true, add_zero]
    refine (hc.const_mul _).congr_deriv ?_
    ring
  · simp only [gt_iff_lt, show ¬ (0 : ℝ) < -1 by norm_num, if_false]
    refine ((hc.add (hf.const_sub K)).const_mul _).congr_deriv ?_
    ring

/-- **C82**: gamma is the exact derivative of delta in the spot. -/
theorem cev_gamma_correct (m : Cev) (hb : m.beta ≠ 1) (hs : 0 < m.sigma) {K S T : ℝ} (cp : ℝ) (hK : 0 < K) (hS : 0 < S)
    (hT : 0 < T) : HasDerivAt (fun s => m.delta K s T cp) (m.gamma K S T) S := by
  have hF := m.mp.fwd_pos hS T
  have hW := m.effVar_pos hb hs hT
  have hev : (fun s => m.delta K s T cp) =ᶠ[𝓝 S] fun s => (dF m.beta (m.mp.fwd s T) K (m.effVar T) + (cp - 1) / 2)
      * (if m.isFwd then m.mp.df T else m.mp.divf T) := by
    filter_upwards [lt_mem_nhds hS] with s h using m.delta_eq cp (m.mp.fwd_pos h T) hK
  refine HasDerivAt.congr_of_eventuallyEq ?_ hev
  have hf := m.fwd_deriv S T
  have h0 := hasDerivAt_cevLev (b := 1 - m.beta) (hasDerivAt_const S (m.effVar T)) hf hW hF
  have hKy := hasDerivAt_const S (cevLev (1 - m.beta) (m.effVar T) K)
  have p0 := cevLev_pos (b := 1 - m.beta) hW hF
  have pK := cevLev_pos (b := 1 - m.beta) hW hK
  obtain ⟨d1, d2, d3⟩ := dofs (1 - m.beta)
  have hdf := (m.mp.df_pos T).ne'
  have hdv := (m.mp.divf_pos T).ne'
  have hfac : (if m.isFwd then (1 : ℝ) else m.mp.divf T / m.mp.df T) * (if m.isFwd then m.mp.df T else m.mp.divf T)
      = if m.isFwd then m.mp.df T else m.mp.divf T ^ 2 / m.mp.df T := by
    split_ifs
    · ring
    · field_simp
  have hgam : ∀ g, (if m.isFwd then g * (m.mp.divf T ^ 2 / (m.mp.df T * m.mp.fwd S T)) * (m.mp.df T / m.mp.divf T) ^ 2
      else g * (m.mp.divf T ^ 2 / (m.mp.df T * m.mp.fwd S T))) = g / m.mp.fwd S T *
        ((if m.isFwd then (1 : ℝ) else m.mp.divf T / m.mp.df T) * (if m.isFwd then m.mp.df T else m.mp.divf T)) := by
    intro g
    rw [hfac]
    split_ifs <;> field_simp
  unfold gamma dF
  simp only [vars_eq m hF hK T, ncx2Pdf_eq, d1, d3, half_double, hgam]
  unfold lev
  generalize (if m.isFwd then m.mp.df T else m.mp.divf T) = q
  generalize (if m.isFwd then (1 : ℝ) else m.mp.divf T / m.mp.df T) = f' at *
  have hF0 := hF.ne'
  by_cases h : m.beta < 1
  · simp only [h, if_true]
    have hnu : 0 < 1 / (2 * (1 - m.beta)) := div_pos one_pos (by linarith)
    have hd := (((hasDerivAt_ncP hnu hKy h0 pK).const_sub 1).add_const ((cp - 1) / 2)).mul_const q
    refine hd.congr_deriv ?_
    ring
  · simp only [h, if_false]
    have h' : m.beta > 1 := lt_of_le_of_ne (not_lt.1 h) hb.symm
    have hnu : 0 < -1 / (2 * (1 - m.beta)) + 1 := by
      have : 0 < -1 / (2 * (1 - m.beta)) := div_pos_of_neg_of_neg (by norm_num) (by linarith)
      linarith
    have hd := (((hasDerivAt_ncP hnu h0 hKy p0).const_sub 1).add_const ((cp - 1) / 2)).mul_const q
    refine hd.congr_deriv ?_
    ring

/-- **C82**: vega is the exact derivative of the price in `sigma`. -/
theorem cev_vega_correct (m : Cev) (hb : m.beta ≠ 1) (hs : 0 < m.sigma) {K S T cp : ℝ} (hcp : Spec.IsCp cp) (hK : 0 < K)
    (hS : 0 < S) (hT : 0 < T) (hv : eps < (m.sigma / Spec.forward m.isFwd m.intr m.divr S T ^ (1 - m.beta)) ^ 2 * T) :
    HasDerivAt (fun s => ({ m with sigma := s } : Cev).price K S T cp) (m.vega K S T) m.sigma := by
  have h2 : Spec.forward m.isFwd m.intr m.divr S T = m.mp.fwd S T := by
    rw [MParams.fwd_eq_forward, MParams.forward_eq_spec]; rfl
  rw [h2] at hv
  have hF := m.mp.fwd_pos hS T
  have hW := m.effVar_pos hb hs hT
  have hfw : ∀ s, ({ m with sigma := s } : Cev).mp.fwd S T = m.mp.fwd S T := fun s => rfl
  have hdf : ∀ s, ({ m with sigma := s } : Cev).mp.df T = m.mp.df T := fun s => rfl
  have hev : (fun s => ({ m with sigma := s } : Cev).price K S T cp) =ᶠ[𝓝 m.sigma]
      fun s => m.mp.df T * (coreB m.beta (m.mp.fwd S T) K (({ m with sigma := s } : Cev).effVar T)
        + if cp > 0 then 0 else K - m.mp.fwd S T) := by
    have hc : ContinuousAt (fun s => (s / m.mp.fwd S T ^ (1 - m.beta)) ^ 2 * T) m.sigma := by fun_prop
    filter_upwards [floor_eventually hc continuousAt_const hv] with s h1
    exact ({ m with sigma := s } : Cev).price_eq hcp (by rw [hfw]; exact hF) hK h1
  refine HasDerivAt.congr_of_eventuallyEq ?_ hev
  have hV : HasDerivAt (fun s => ({ m with sigma := s } : Cev).effVar T) (2 * m.effVar T / m.sigma) m.sigma := by
    unfold effVar
    have := (((hasDerivAt_id' m.sigma).pow 2).const_mul ((1 - m.beta) ^ 2)).mul_const
      (T * exprel (2 * (1 - m.beta) * (m.intr - m.divr) * T))
    refine this.congr_deriv ?_
    simp only [Nat.cast_ofNat, Nat.add_one_sub_one, pow_one, mul_one]
    field_simp
  have hc := hasDerivAt_coreB hb (hasDerivAt_const m.sigma (m.mp.fwd S T)) (hasDerivAt_const m.sigma K) hV hF hK hW
  refine ((hc.add_const _).const_mul _).congr_deriv ?_
  have hveg := m.vega_eq hb hs hF hK hT
  rw [hveg]
  ring

lemma fwd_deriv_T (m : Cev) (S T : ℝ) :
    HasDerivAt (fun t => m.mp.fwd S t) (if m.isFwd then 0 else (m.intr - m.divr) * m.mp.fwd S T) T := by
  have e : ∀ t, m.mp.fwd S t = if m.isFwd then S else S * exp ((m.intr - m.divr) * t) := by
    intro t
    rw [MParams.fwd_eq_forward, MParams.forward_eq_spec]
    unfold Spec.forward mp
    cases m.isFwd <;> simp
  simp only [e]
  cases m.isFwd
  · simp only [Bool.false_eq_true, if_false]
    refine ((((hasDerivAt_id' T).const_mul (m.intr - m.divr)).exp).const_mul S).congr_deriv ?_
    ring
  · simpa using hasDerivAt_const T S

lemma df_deriv_T (m : Cev) (T : ℝ) : HasDerivAt (fun t => m.mp.df t) (-m.intr * m.mp.df T) T := by
  unfold MParams.df mp
  refine (((hasDerivAt_id' T).const_mul (-m.intr)).exp).congr_deriv ?_
  ring

/-- **C82**: theta is minus the exact derivative of the price in the time to expiry (with the spot held, or the forward held when
`is_fwd`), discounting and carry included, calls and puts, `beta` on either side of one. -/
theorem cev_theta_correct (m : Cev) (hb : m.beta ≠ 1) (hs : 0 < m.sigma) {K S T cp : ℝ} (hcp : Spec.IsCp cp) (hK : 0 < K)
    (hS : 0 < S) (hT : 0 < T) (hv : eps < (m.sigma / Spec.forward m.isFwd m.intr m.divr S T ^ (1 - m.beta)) ^ 2 * T) :
    HasDerivAt (fun t => m.price K S t cp) (-m.theta K S T cp) T := by
  have h2 : Spec.forward m.isFwd m.intr m.divr S T = m.mp.fwd S T := by
    rw [MParams.fwd_eq_forward, MParams.forward_eq_spec]; rfl
  rw [h2] at hv
  have hF := m.mp.fwd_pos hS T
  have hW := m.effVar_pos hb hs hT
  have hev : (fun t => m.price K S t cp) =ᶠ[𝓝 T]
      fun t => m.mp.df t * (coreB m.beta (m.mp.fwd S t) K (m.effVar t) + if cp > 0 then 0 else K - m.mp.fwd S t) := by
    have hc : ContinuousAt (fun t => (m.sigma / m.mp.fwd S t ^ (1 - m.beta)) ^ 2 * t) T := by
      have h := (m.fwd_deriv_T S T).continuousAt
      have h3 : ContinuousAt (fun t => m.mp.fwd S t ^ (1 - m.beta)) T := h.rpow_const (Or.inl hF.ne')
      exact ((continuousAt_const.div h3 (rpow_pos_of_pos hF _).ne').pow 2).mul continuousAt_id
    filter_upwards [floor_eventually hc continuousAt_const hv] with t h1
    exact m.price_eq hcp (m.mp.fwd_pos hS t) hK h1
  refine HasDerivAt.congr_of_eventuallyEq ?_ hev
  have hf := m.fwd_deriv_T S T
  have hd := m.df_deriv_T T
  have hV : HasDerivAt (fun t => m.effVar t) ((1 - m.beta) ^ 2 * m.sigma ^ 2 * exp (2 * (1 - m.beta) * (m.intr - m.divr) * T)) T := by
    unfold effVar
    exact (hasDerivAt_mul_exprel _ T).const_mul _
  have hc := hasDerivAt_coreB hb hf (hasDerivAt_const T K) hV hF hK hW
  have hpr := m.price_eq hcp hF hK hv.le
  have hex := (exprel_pos (2 * (1 - m.beta) * (m.intr - m.divr) * T)).ne'
  have hvg : m.sigma * exp (2 * (1 - m.beta) * (m.intr - m.divr) * T) / (2 * T * exprel (2 * (1 - m.beta) * (m.intr - m.divr) * T))
      * m.vega K S T = m.mp.df T * ((1 - m.beta) ^ 2 * m.sigma ^ 2 * exp (2 * (1 - m.beta) * (m.intr - m.divr) * T)
        * dV m.beta (m.mp.fwd S T) K (m.effVar T)) := by
    rw [m.vega_eq hb hs hF hK hT]
    generalize dV m.beta (m.mp.fwd S T) K (m.effVar T) = dv
    unfold effVar
    field_simp
  have hdr : (if m.isFwd then 0 else (m.intr - m.divr) * S * m.delta K S T cp)
      = m.mp.df T * ((if m.isFwd then 0 else (m.intr - m.divr) * m.mp.fwd S T)
        * (dF m.beta (m.mp.fwd S T) K (m.effVar T) + (cp - 1) / 2)) := by
    rw [m.delta_eq cp hF hK]
    generalize dF m.beta (m.mp.fwd S T) K (m.effVar T) = d
    have hdf := (m.mp.df_pos T).ne'
    cases hfw : m.isFwd
    · have : m.mp.fwd S T = S * m.mp.divf T / m.mp.df T := by
        unfold MParams.fwd
        simp [show m.mp.isFwd = false from hfw, mul_div_assoc]
      rw [this]
      simp only [Bool.false_eq_true, if_false]
      field_simp
    · simp
  unfold theta
  simp only [hvg, hdr, hpr]
  unfold core
  rcases hcp with rfl | rfl
  · simp only [gt_iff_lt, zero_lt_one, if_true, add_zero]
    refine (hd.mul hc).congr_deriv ?_
    ring
  · simp only [gt_iff_lt, show ¬ (0 : ℝ) < -1 by norm_num, if_false]
    refine (hd.mul (hc.add (hf.const_sub K))).congr_deriv ?_
    simp only [Pi.add_apply]
    ring

/-! ### Distribution functions -/

/-- **C82**: for `beta < 1`, `cdf(cp=1)` is minus the forward strike derivative of the call (the risk-neutral probability of
finishing above the strike) … -/
theorem cev_cdf_correct (m : Cev) (hb : m.beta < 1) (hs : 0 < m.sigma) {K S T : ℝ} (hK : 0 < K)
    (hS : 0 < S) (hT : 0 < T) (hv : eps < (m.sigma / Spec.forward m.isFwd m.intr m.divr S T ^ (1 - m.beta)) ^ 2 * T) :
    ∃ p, m.cdf K S T 1 = some p ∧ m.cdf K S T (-1) = some (1 - p) ∧ p ∈ Icc 0 1 ∧
      HasDerivAt (fun k => m.price k S T 1) (-(Spec.discount m.intr T * p)) K ∧
      HasDerivAt (fun k => m.price k S T (-1)) (Spec.discount m.intr T * (1 - p)) K := by
  have h2 : Spec.forward m.isFwd m.intr m.divr S T = m.mp.fwd S T := by
    rw [MParams.fwd_eq_forward, MParams.forward_eq_spec]; rfl
  have h3 : m.mp.forward S T = m.mp.fwd S T := by rw [MParams.fwd_eq_forward]
  have h4 : Spec.discount m.intr T = m.mp.df T := (m.mp.df_eq_spec T).symm
  rw [h2] at hv
  rw [h4]
  have hF := m.mp.fwd_pos hS T
  have hW := m.effVar_pos hb.ne hs hT
  obtain ⟨-, d2, -⟩ := dofs (1 - m.beta)
  have hnu : 0 < 1 / (2 * (1 - m.beta)) := div_pos one_pos (by linarith)
  have hbi : ¬ (1 / (1 - m.beta) ≤ 0) := not_le.2 (div_pos one_pos (by linarith))
  refine ⟨dK m.beta (m.mp.fwd S T) K (m.effVar T), ?_, ?_, ?_, ?_, ?_⟩
  · unfold cdf dK
    simp only [h3, vars_eq m hF hK T, hbi, if_false, hb, if_true, ncx2Cdf_eq, d2, half_double, gt_iff_lt, zero_lt_one]
    rfl
  · unfold cdf dK
    simp only [h3, vars_eq m hF hK T, hbi, if_false, hb, if_true, ncx2Cdf_eq, ncx2Sf, d2, half_double, gt_iff_lt,
      show ¬ (0 : ℝ) < -1 by norm_num]
    rfl
  · unfold dK
    simp only [hb, if_true]
    exact ⟨ncP_nonneg hnu (cevLev_pos hW hF).le (cevLev_pos hW hK).le, ncP_le_one hnu (cevLev_pos hW hF).le (cevLev_pos hW hK).le⟩
  · have hev : (fun k => m.price k S T 1) =ᶠ[𝓝 K] fun k => m.mp.df T * coreB m.beta (m.mp.fwd S T) k (m.effVar T) := by
      filter_upwards [lt_mem_nhds hK] with k hk
      rw [m.price_eq (Or.inl rfl) hF hk hv.le]
      simp [core]
    refine HasDerivAt.congr_of_eventuallyEq ?_ hev
    have hc := hasDerivAt_coreB hb.ne (hasDerivAt_const K (m.mp.fwd S T)) (hasDerivAt_id' K) (hasDerivAt_const K (m.effVar T)) hF hK hW
    refine (hc.const_mul _).congr_deriv ?_
    ring
  · have hev : (fun k => m.price k S T (-1)) =ᶠ[𝓝 K]
        fun k => m.mp.df T * (coreB m.beta (m.mp.fwd S T) k (m.effVar T) + (k - m.mp.fwd S T)) := by
      filter_upwards [lt_mem_nhds hK] with k hk
      rw [m.price_eq (Or.inr rfl) hF hk hv.le]
      simp only [core, gt_iff_lt, show ¬ (0 : ℝ) < -1 by norm_num, if_false]
    refine HasDerivAt.congr_of_eventuallyEq ?_ hev
    have hc := hasDerivAt_coreB hb.ne (hasDerivAt_const K (m.mp.fwd S T)) (hasDerivAt_id' K) (hasDerivAt_const K (m.effVar T)) hF hK hW
    refine ((hc.add ((hasDerivAt_id' K).sub_const _)).const_mul _).congr_deriv ?_
    ring

/-- … but for `beta > 1` (a value the constructor accepts) `cdf` and `mass_zero` return NaN for every input, although the probability
exists: it is given by the same formula the price uses. -/
theorem cev_cdf_beta_gt_one_fails (m : Cev) (hb : 1 < m.beta) (K S T cp : ℝ) :
    m.cdf K S T cp = none ∧ m.massZero S T = none := by
  constructor
  · unfold cdf vars
    simp only
    rw [if_pos]
    exact (div_neg_of_pos_of_neg one_pos (by linarith)).le
  · unfold massZero
    simp only
    rw [if_pos]
    exact (div_neg_of_pos_of_neg (by norm_num) (by linarith)).le

/-! ### The pricing equation -/

lemma gamma_vega (m : Cev) (hb : m.beta ≠ 1) (hs : 0 < m.sigma) {K S T : ℝ} (hS : 0 < S) (hK : 0 < K) (hT : 0 < T) :
    m.sigma * exp (2 * (1 - m.beta) * (m.intr - m.divr) * T) / (2 * T * exprel (2 * (1 - m.beta) * (m.intr - m.divr) * T)) * m.vega K S T
      = 1 / 2 * (m.sigma ^ 2 * (if m.isFwd then exp (2 * (1 - m.beta) * (m.intr - m.divr) * T) else 1))
        * S ^ (2 * m.beta) * m.gamma K S T := by
  have hF := m.mp.fwd_pos hS T
  have hb1 : (1 - m.beta) ≠ 0 := sub_ne_zero.2 hb.symm
  have hex := (exprel_pos (2 * (1 - m.beta) * (m.intr - m.divr) * T)).ne'
  have hdf := (m.mp.df_pos T).ne'
  have hdv := (m.mp.divf_pos T).ne'
  have hW := (m.effVar_pos hb hs hT).ne'
  rw [m.vega_eq hb hs hF hK hT]
  obtain ⟨d1, -, d3⟩ := dofs (1 - m.beta)
  unfold gamma dV
  simp only [vars_eq m hF hK T, ncx2Pdf_eq, d1, d3, half_double]
  have hlev : m.lev T (m.mp.fwd S T) = m.mp.fwd S T ^ 2 / (m.mp.fwd S T ^ (2 * m.beta) * (2 * m.effVar T)) := by
    unfold lev cevLev
    rw [show 2 * (1 - m.beta) = 2 - 2 * m.beta by ring, rpow_sub hF, rpow_two, div_div]
  have hp := (rpow_pos_of_pos hF (2 * m.beta)).ne'
  have hF0 := hF.ne'
  have key : (if m.isFwd then exp (2 * (1 - m.beta) * (m.intr - m.divr) * T) else 1) * S ^ (2 * m.beta) / m.mp.fwd S T ^ (2 * m.beta)
      * (if m.isFwd then m.mp.df T else m.mp.divf T ^ 2 / m.mp.df T) = m.mp.df T * exp (2 * (1 - m.beta) * (m.intr - m.divr) * T) := by
    cases hfw : m.isFwd
    · have hFe : m.mp.fwd S T = S * exp ((m.intr - m.divr) * T) := by
        rw [MParams.fwd_eq_forward, MParams.forward_eq_spec]
        unfold Spec.forward mp
        simp [hfw]
      simp only [Bool.false_eq_true, if_false]
      rw [hFe, mul_rpow hS.le (exp_pos _).le, ← exp_mul]
      have hp2 := (rpow_pos_of_pos hS (2 * m.beta)).ne'
      have e1 : m.mp.divf T = exp (-m.divr * T) := by unfold MParams.divf mp; simp [hfw]
      have e2 : m.mp.df T = exp (-m.intr * T) := by unfold MParams.df mp; congr 1
      rw [e1, e2, ← exp_nat_mul, one_mul, div_mul_cancel_left₀ hp2, ← exp_neg, ← exp_sub, ← exp_add, ← exp_add]
      congr 1
      push_cast
      ring
    · have hFe : m.mp.fwd S T = S := by
        unfold MParams.fwd
        simp [show m.mp.isFwd = true from hfw]
      rw [hFe]
      have hp2 := (rpow_pos_of_pos hS (2 * m.beta)).ne'
      simp only [if_true]
      field_simp
  have hgam : ∀ g, (if m.isFwd then g * (m.mp.divf T ^ 2 / (m.mp.df T * m.mp.fwd S T)) * (m.mp.df T / m.mp.divf T) ^ 2
      else g * (m.mp.divf T ^ 2 / (m.mp.df T * m.mp.fwd S T))) = g / m.mp.fwd S T *
        (if m.isFwd then m.mp.df T else m.mp.divf T ^ 2 / m.mp.df T) := by
    intro g
    split_ifs <;> field_simp
  rw [hgam]
  generalize (if m.isFwd then m.mp.df T else m.mp.divf T ^ 2 / m.mp.df T) = q at *
  generalize (if m.isFwd then exp (2 * (1 - m.beta) * (m.intr - m.divr) * T) else 1) = q' at *
  have fin : ∀ c g : ℝ, m.sigma * exp (2 * (1 - m.beta) * (m.intr - m.divr) * T) / (2 * T * exprel (2 * (1 - m.beta) * (m.intr - m.divr) * T))
      * (m.mp.df T * (2 * m.effVar T / m.sigma * (c * (m.mp.fwd S T / (2 * (1 - m.beta)) / m.effVar T) * g)))
      = 1 / 2 * (m.sigma ^ 2 * q') * S ^ (2 * m.beta) * (c * 2 * (1 - m.beta) * (2 * m.lev T (m.mp.fwd S T)) * (g / 2) / m.mp.fwd S T * q) := by
    intro c g
    rw [hlev]
    rw [show 1 / 2 * (m.sigma ^ 2 * q') * S ^ (2 * m.beta) * (c * 2 * (1 - m.beta) * (2 * (m.mp.fwd S T ^ 2 /
        (m.mp.fwd S T ^ (2 * m.beta) * (2 * m.effVar T)))) * (g / 2) / m.mp.fwd S T * q)
      = 1 / 2 * m.sigma ^ 2 * (c * (1 - m.beta) * (m.mp.fwd S T / m.effVar T) * g) * (q' * S ^ (2 * m.beta) / m.mp.fwd S T ^ (2 * m.beta) * q) by
        field_simp, key]
    unfold effVar
    field_simp
  by_cases h : m.beta < 1
  · simp only [h, if_true]
    have := fin 1 (ncG (1 / (2 * (1 - m.beta)) + 1) (m.lev T K) (m.lev T (m.mp.fwd S T)))
    unfold lev at this ⊢
    simpa only [one_mul] using this
  · simp only [h, if_false]
    have := fin (-1) (ncG (-1 / (2 * (1 - m.beta)) + 1) (m.lev T (m.mp.fwd S T)) (m.lev T K))
    unfold lev at this ⊢
    simpa only [neg_mul, one_mul] using this

/-- **C82**: the Greeks satisfy the CEV pricing equation of `dS = (r-q) S dt + sigma S^beta dW`:
`theta + (r-q) S delta + 1/2 sigma^2 S^(2 beta) gamma - r price = 0`. -/
theorem cev_pde (m : Cev) (hb : m.beta ≠ 1) (hs : 0 < m.sigma) {K S T : ℝ} (cp : ℝ) (hK : 0 < K) (hS : 0 < S) (hT : 0 < T)
    (hfw : m.isFwd = false) :
    m.theta K S T cp + (m.intr - m.divr) * S * m.delta K S T cp + 1 / 2 * m.sigma ^ 2 * S ^ (2 * m.beta) * m.gamma K S T
      - m.intr * m.price K S T cp = 0 := by
  have h := m.gamma_vega hb hs hS hK hT
  unfold theta
  simp only [h, hfw, Bool.false_eq_true, if_false]
  ring

/-- **C82**: with `is_fwd`, in terms of the forward `F_t = S_t exp((r-q)(T-t))`, whose volatility is `sigma exp((1-beta)(r-q) T) F^beta`. -/
theorem cev_pde_fwd (m : Cev) (hb : m.beta ≠ 1) (hs : 0 < m.sigma) {K S T : ℝ} (cp : ℝ) (hK : 0 < K) (hS : 0 < S) (hT : 0 < T)
    (hfw : m.isFwd = true) :
    m.theta K S T cp + 1 / 2 * (m.sigma * exp ((1 - m.beta) * (m.intr - m.divr) * T)) ^ 2 * S ^ (2 * m.beta) * m.gamma K S T
      - m.intr * m.price K S T cp = 0 := by
  have h := m.gamma_vega hb hs hS hK hT
  have he : (m.sigma * exp ((1 - m.beta) * (m.intr - m.divr) * T)) ^ 2
      = m.sigma ^ 2 * exp (2 * (1 - m.beta) * (m.intr - m.divr) * T) := by
    rw [mul_pow, ← exp_nat_mul]
    congr 2
    push_cast
    ring
  unfold theta
  simp only [h, hfw, if_true, he]
  ring

/-- **C82**: gamma and vega are positive. -/
theorem cev_gamma_vega_pos (m : Cev) (hb : m.beta ≠ 1) (hs : 0 < m.sigma) {K S T : ℝ} (hK : 0 < K) (hS : 0 < S) (hT : 0 < T) :
    0 < m.gamma K S T ∧ 0 < m.vega K S T := by
  have hF := m.mp.fwd_pos hS T
  have hW := m.effVar_pos hb hs hT
  have hdf := m.mp.df_pos T
  have hv : 0 < m.vega K S T := by
    rw [m.vega_eq hb hs hF hK hT]
    have hd : 0 < dV m.beta (m.mp.fwd S T) K (m.effVar T) := by
      unfold dV
      split_ifs with h
      · have hb' : 0 < 1 - m.beta := by linarith
        have := ncG_pos (a := 1 / (2 * (1 - m.beta)) + 1) (by positivity) (cevLev_pos (b := 1 - m.beta) hW hK)
          (cevLev_pos (b := 1 - m.beta) hW hF).le
        positivity
      · have h' : m.beta > 1 := lt_of_le_of_ne (not_lt.1 h) hb.symm
        have h1 : 0 < -1 / (2 * (1 - m.beta)) := div_pos_of_neg_of_neg (by norm_num) (by linarith)
        have := ncG_pos (a := -1 / (2 * (1 - m.beta)) + 1) (by positivity) (cevLev_pos (b := 1 - m.beta) hW hF)
          (cevLev_pos (b := 1 - m.beta) hW hK).le
        refine mul_pos ?_ this
        rw [show -(m.mp.fwd S T / (2 * (1 - m.beta)) / m.effVar T) = m.mp.fwd S T * (-1 / (2 * (1 - m.beta))) / m.effVar T by ring]
        positivity
    positivity
  refine ⟨?_, hv⟩
  have h := m.gamma_vega hb hs hS hK hT
  have hex := exprel_pos (2 * (1 - m.beta) * (m.intr - m.divr) * T)
  have hl : 0 < m.sigma * exp (2 * (1 - m.beta) * (m.intr - m.divr) * T) /
      (2 * T * exprel (2 * (1 - m.beta) * (m.intr - m.divr) * T)) * m.vega K S T := by positivity
  rw [h] at hl
  have hc : 0 < 1 / 2 * (m.sigma ^ 2 * (if m.isFwd then exp (2 * (1 - m.beta) * (m.intr - m.divr) * T) else 1)) * S ^ (2 * m.beta) := by
    have := rpow_pos_of_pos hS (2 * m.beta)
    split_ifs <;> positivity
  exact (mul_pos_iff_of_pos_left hc).1 hl

/-! ### The standardised formulas -/

/-- **C82**: `price_std(type=0, sign=1)` is `price` at unit forward and expiry without rates … -/
theorem cev_price_std (sigma k beta : ℝ) (hs : eps ≤ sigma ^ 2) :
    priceStd sigma k beta 1 0 = (⟨sigma, beta, 0, 0, false⟩ : Cev).price k 1 1 1 ∧
    priceStd sigma k beta (-1) 0 = 1 - priceStd sigma k beta 1 0 := by
  constructor
  · unfold priceStd price
    simp only [mul_zero, exp_zero, div_one, one_mul, mul_one, one_rpow, Bool.false_eq_true, if_false, max_eq_left hs,
      sub_zero, zero_mul, gt_iff_lt, zero_lt_one, if_true, Int.reduceNeg, zero_eq_neg, one_ne_zero]
    have : exprel 0 = 1 := by simp [exprel]
    rw [this, mul_one, mul_comm ((1 - beta) ^ 2)]
  · unfold priceStd
    simp only [Int.reduceNeg, zero_eq_neg, one_ne_zero, if_false, if_true, gt_iff_lt, zero_lt_one, show ¬ (0 : ℝ) < -1 by norm_num, ncx2Sf]
    split_ifs <;> ring

/-- … `type=-1` is the vega there, and `type=1` is the price-to-vega ratio. -/
theorem cev_price_std_vega {sigma k beta : ℝ} (sign : ℝ) (hb : beta ≠ 1) (hs : 0 < sigma) :
    priceStd sigma k beta sign (-1) = (⟨sigma, beta, 0, 0, false⟩ : Cev).vega k 1 1 ∧
    priceStd sigma k beta sign 1 = priceStd sigma k beta sign 0 / priceStd sigma k beta sign (-1) := by
  have hb1 : (1 - beta) ≠ 0 := sub_ne_zero.2 hb.symm
  have hex : exprel 0 = 1 := by simp [exprel]
  constructor
  · unfold priceStd vega vars
    simp only [MParams.fwd, MParams.df, MParams.divf, mp, neg_zero, zero_mul, mul_zero, exp_zero, div_one, one_mul, mul_one, one_rpow, Bool.false_eq_true, if_false,
      sub_zero, if_true, hex, mul_pow]
  · unfold priceStd
    simp only [Int.reduceNeg, reduceCtorEq, if_false, if_true, one_ne_zero, zero_eq_neg, show (1 : ℤ) ≠ -1 by decide]
    split_ifs <;> field_simp

/-- Non-vacuity: the square-root model of the docstring at its documented point is above the variance floor. -/
example : let m : Cev := ⟨2, 1 / 2, 0, 0, false⟩
    eps < (m.sigma / Spec.forward m.isFwd m.intr m.divr 100 (6 / 5) ^ (1 - m.beta)) ^ 2 * (6 / 5) := by
  simp only [Spec.forward, Bool.false_eq_true, if_false, sub_self, zero_mul, exp_zero, mul_one]
  rw [div_pow, ← rpow_natCast (100 ^ _ : ℝ), ← rpow_mul (by norm_num)]
  norm_num [eps]

end Cev

end PyFENG
