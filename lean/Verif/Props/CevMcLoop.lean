import Verif.Model.CevMc
import Verif.Lemmas.CevChain
import Verif.Props.CevMc
import Verif.Props.SvMc
import Verif.Props.HestonMc

/-!
# C138: the CEV Monte Carlo is unbiased for every number of steps and paths
-/

namespace PyFENG

open Real Filter Topology Set MeasureTheory

namespace Lx

/-- Constants pass through the draw. -/
def Norm {α : Type} (X : Lx α) : Prop := ∀ (F : α → ENNReal) (c : ENNReal), X (fun a => F a + c) = X F + c

lemma lintegral_gE {a : ℝ} (ha : 0 < a) : ∫⁻ g in Ioi (0 : ℝ), CevChain.gE a g = 1 := by
  unfold CevChain.gE
  rw [← ofReal_integral_eq_lintegral_ofReal (integrableOn_gammaPdf ha), integral_gammaPdf_Ioi ha le_rfl, gammaInc_zero]
  · simp
  · exact (ae_restrict_iff' measurableSet_Ioi).2 (ae_of_all _ fun y hy => gammaPdf_nonneg ha (le_of_lt hy))

lemma norm_gamma {a : ℝ} (ha : 0 < a) : Norm (Lx.gamma a) := by
  intro F c
  unfold Lx.gamma
  simp only [mul_add]
  rw [lintegral_add_right (g := fun g => ENNReal.ofReal (gammaPdf a g) * c) _ ((CevChain.measurable_gE a).mul_const c)]
  congr 1
  rw [show (fun g => ENNReal.ofReal (gammaPdf a g) * c) = fun g => CevChain.gE a g * c from rfl, lintegral_mul_const _ (CevChain.measurable_gE a), lintegral_gE ha, one_mul]

lemma tsum_pois {lam : ℝ} (hl : 0 ≤ lam) : ∑' n : ℕ, ENNReal.ofReal (exp (-lam) * (lam ^ n / n.factorial)) = 1 := by
  have h := (NormedSpace.expSeries_div_hasSum_exp (𝔸 := ℝ) lam).mul_left (exp (-lam))
  rw [← Real.exp_eq_exp_ℝ, ← exp_add, neg_add_cancel, exp_zero] at h
  rw [← ENNReal.ofReal_tsum_of_nonneg (fun n => by positivity) h.summable, h.tsum_eq, ENNReal.ofReal_one]

lemma norm_poisson {lam : ℝ} (hl : 0 ≤ lam) : Norm (Lx.poisson lam) := by
  intro F c
  unfold Lx.poisson
  simp only [mul_add]
  rw [ENNReal.tsum_add, ENNReal.tsum_mul_right, tsum_pois hl, one_mul]

lemma norm_pure {α : Type} (a : α) : Norm (pure a : Lx α) := fun _ _ => rfl

lemma norm_bind {α β : Type} {X : Lx α} {f : α → Lx β} (hX : Norm X) (hf : ∀ a, Norm (f a)) : Norm (X >>= f) := by
  intro F c
  show X (fun a => f a (fun b => F b + c)) = X (fun a => f a F) + c
  simp only [hf _ F c]
  exact hX _ c

lemma norm_drawAll {α β : Type} {d : α → Lx β} (l : List α) (hd : ∀ a ∈ l, Norm (d a)) : Norm (drawAll d l) := by
  induction l with
  | nil => exact norm_pure _
  | cons a l ih =>
    refine norm_bind (hd a (by simp)) fun b => norm_bind (ih fun a ha => hd a (by simp [ha])) fun bs => norm_pure _

lemma drawAll_sum {α β : Type} {d : α → Lx β} (f : β → ENNReal) (l : List α) (hd : ∀ a ∈ l, Norm (d a)) :
    drawAll d l (fun bs => (bs.map f).sum) = (l.map fun a => d a f).sum := by
  induction l with
  | nil => rfl
  | cons a l ih =>
    have hl : ∀ a ∈ l, Norm (d a) := fun a ha => hd a (by simp [ha])
    show d a (fun b => drawAll d l (fun bs => ((b :: bs).map f).sum)) = _
    have e : ∀ b, drawAll d l (fun bs => ((b :: bs).map f).sum) = f b + (l.map fun a => d a f).sum := by
      intro b
      simp only [List.map_cons, List.sum_cons]
      simp only [add_comm (f b)]
      rw [norm_drawAll l hl, ih hl]
    simp only [e]
    rw [hd a (by simp)]
    simp

/-- The draw only produces values satisfying `P`. -/
def Supp {β : Type} (P : β → Prop) (X : Lx β) : Prop := ∀ F G : β → ENNReal, (∀ b, P b → F b = G b) → X F = X G

lemma supp_drawAll {α β : Type} {P : β → Prop} {d : α → Lx β} (hd : ∀ a, Supp P (d a)) (l : List α) : Supp (fun bs => ∀ b ∈ bs, P b) (drawAll d l) := by
  induction l with
  | nil => exact fun F G h => h [] (by simp)
  | cons a l ih =>
    intro F G h
    refine hd a _ _ fun b hb => ih _ _ fun bs hbs => h _ ?_
    simpa using ⟨hb, hbs⟩

end Lx

namespace Cev

open CevChain

/-- Expectation of `φ` of one entry after one step. -/
noncomputable def stepE (m : Cev) (dt : ℝ) (φ : ℝ → ENNReal) (S : ℝ) : ENNReal :=
  stage1 Lx.gamma m dt S fun a => stage2 Lx.poisson a fun b => stage3 Lx.gamma m dt b φ

lemma priceSteps_sum (m : Cev) (hb : m.beta < 1) (dt : ℝ) (f : ℝ → ENNReal) (s : List ℝ) :
    priceSteps Lx.gamma Lx.poisson m s dt (fun r => (r.map f).sum) = (s.map (m.stepE dt f)).sum := by
  have hb' : 0 < 1 - m.beta := by linarith
  have n1 : ∀ S, Lx.Norm (stage1 Lx.gamma m dt S) := by
    intro S
    unfold stage1
    simp only
    split_ifs
    · exact Lx.norm_bind (Lx.norm_gamma (by positivity)) fun g => Lx.norm_pure _
    · exact Lx.norm_pure _
  have n3 : ∀ b, Lx.Norm (stage3 Lx.gamma m dt b) := by
    rintro (s | n)
    · exact Lx.norm_pure _
    · exact Lx.norm_bind (Lx.norm_gamma (by positivity)) fun g => Lx.norm_pure _
  have s1 : ∀ S, Lx.Supp (fun a : ℝ ⊕ ℝ => Lx.Norm (stage2 Lx.poisson a)) (stage1 Lx.gamma m dt S) := by
    intro S F G h
    unfold stage1
    simp only
    split_ifs with hS
    · refine congrArg (Lx.gamma _) (funext fun g => ?_)
      refine h (ite _ (Sum.inl 0) (Sum.inr _)) ?_
      show Lx.Norm _
      split_ifs with hl
      · exact Lx.norm_pure _
      · exact Lx.norm_bind (Lx.norm_poisson (not_le.1 hl).le) fun n => Lx.norm_pure _
    · exact h _ (Lx.norm_pure _)
  show drawAll (stage1 Lx.gamma m dt) s (fun a => drawAll (stage2 Lx.poisson) a fun b => drawAll (stage3 Lx.gamma m dt) b fun r => (r.map f).sum) = _
  simp only [Lx.drawAll_sum f _ fun b _ => n3 b]
  rw [Lx.supp_drawAll s1 s _ (fun a => (a.map fun x => stage2 Lx.poisson x fun b => stage3 Lx.gamma m dt b f).sum) fun a ha => Lx.drawAll_sum _ a ha]
  rw [Lx.drawAll_sum _ s fun S _ => n1 S]
  rfl

/-- Mass of the first gamma draw above the level. -/
noncomputable def p0 (nu y : ℝ) : ENNReal := ENNReal.ofReal (1 - gammaInc nu y)

/-- The price at a level. -/
noncomputable def inv (m : Cev) (dt y : ℝ) : ℝ := (m.effVar dt * (2 * y)) ^ (1 / (2 * (1 - m.beta)))

lemma stepE_zero (m : Cev) (dt : ℝ) (φ : ℝ → ENNReal) : m.stepE dt φ 0 = φ 0 := by
  unfold stepE stage1
  simp only [gt_iff_lt, lt_irrefl, if_false, mul_zero]
  rfl

lemma stepE_pos (m : Cev) (hb : m.beta < 1) (hs : 0 < m.sigma) {S dt : ℝ} (hS : 0 < S) (hT : 0 < dt) (φ : ℝ → ENNReal) :
    m.stepE dt φ S = φ 0 * p0 (1 / (2 * (1 - m.beta))) (cevLev (1 - m.beta) (m.effVar dt) (exp ((m.intr - m.divr) * dt) * S))
      + Kf (1 / (2 * (1 - m.beta))) (fun y => φ (m.inv dt y)) (cevLev (1 - m.beta) (m.effVar dt) (exp ((m.intr - m.divr) * dt) * S)) := by
  have hb' : 0 < 1 - m.beta := by linarith
  have hnu : 0 < 1 / (2 * (1 - m.beta)) := by positivity
  have hF : 0 < exp ((m.intr - m.divr) * dt) * S := by positivity
  have hW := m.effVar_pos hb.ne hs hT
  have hl : ∀ g : ℝ, ((exp ((m.intr - m.divr) * dt) * S) ^ (2 * (1 - m.beta)) / m.effVar dt - 2 * g) / 2
      = cevLev (1 - m.beta) (m.effVar dt) (exp ((m.intr - m.divr) * dt) * S) - g := by
    intro g
    rw [← m.step_level, m.step_var]; ring
  have y0p : 0 < cevLev (1 - m.beta) (m.effVar dt) (exp ((m.intr - m.divr) * dt) * S) := cevLev_pos hW hF
  have hS' : S > 0 := hS
  unfold stepE stage1
  simp only [hS', if_true, m.step_var, hl]
  set y0 := cevLev (1 - m.beta) (m.effVar dt) (exp ((m.intr - m.divr) * dt) * S) with hy0
  set nu := 1 / (2 * (1 - m.beta)) with hnudef
  show ∫⁻ g in Ioi (0 : ℝ), gE nu g * (stage2 Lx.poisson (if y0 - g ≤ 0 then Sum.inl 0 else Sum.inr (y0 - g)) fun b => stage3 Lx.gamma m dt b φ) = _
  have e3 : ∀ n : ℕ, stage3 Lx.gamma m dt (Sum.inr n) φ = A (fun y => φ (m.inv dt y)) n := by
    intro n
    unfold stage3
    simp only [m.step_var]
    rfl
  have e2 : ∀ g : ℝ, gE nu g * (stage2 Lx.poisson (if y0 - g ≤ 0 then Sum.inl 0 else Sum.inr (y0 - g)) fun b => stage3 Lx.gamma m dt b φ)
      = (Ici y0).indicator (fun g => gE nu g * φ 0) g
        + (Iio y0).indicator (fun g => ∑' n : ℕ, (gE nu g * ENNReal.ofReal (exp (-(y0 - g)) * ((y0 - g) ^ n / n.factorial))) * A (fun y => φ (m.inv dt y)) n) g := by
    intro g
    by_cases h : y0 ≤ g
    · rw [if_pos (by linarith), indicator_of_mem (show g ∈ Ici y0 from h), indicator_of_notMem (show g ∉ Iio y0 from not_lt.2 h), add_zero]
      rfl
    · rw [if_neg (by linarith [not_le.1 h]), indicator_of_notMem (show g ∉ Ici y0 from h), indicator_of_mem (show g ∈ Iio y0 from not_le.1 h), zero_add]
      show gE nu g * (∑' n : ℕ, ENNReal.ofReal (exp (-(y0 - g)) * ((y0 - g) ^ n / n.factorial)) * stage3 Lx.gamma m dt (Sum.inr n) φ) = _
      simp only [e3, ← ENNReal.tsum_mul_left, mul_assoc]
  simp only [e2]
  have hme : ∀ n : ℕ, Measurable fun g : ℝ => gE nu g * ENNReal.ofReal (exp (-(y0 - g)) * ((y0 - g) ^ n / n.factorial)) := by
    intro n
    refine (measurable_gE nu).mul ?_
    fun_prop
  rw [lintegral_add_left (((measurable_gE nu).mul_const _).indicator measurableSet_Ici), lintegral_indicator measurableSet_Ici,
    lintegral_indicator measurableSet_Iio, Measure.restrict_restrict measurableSet_Ici, Measure.restrict_restrict measurableSet_Iio]
  congr 1
  · rw [lintegral_mul_const _ (measurable_gE nu), mul_comm]
    congr 1
    have : Ici y0 ∩ Ioi 0 = Ici y0 := inter_eq_left.2 fun g hg => y0p.trans_le hg
    rw [this, Measure.restrict_congr_set Ioi_ae_eq_Ici.symm]
    unfold gE p0
    rw [← integral_gammaPdf_Ioi hnu y0p.le, ← ofReal_integral_eq_lintegral_ofReal ((integrableOn_gammaPdf hnu).mono_set (Ioi_subset_Ioi y0p.le))]
    exact (ae_restrict_iff' measurableSet_Ioi).2 (ae_of_all _ fun y hy => gammaPdf_nonneg hnu (y0p.le.trans (le_of_lt hy)))
  · rw [lintegral_tsum fun n => ((hme n).mul_const _).aemeasurable]
    unfold Kf
    congr 1
    ext n
    rw [lintegral_mul_const _ (hme n)]
    congr 1
    have hii : Iio y0 ∩ Ioi 0 = Ioo 0 y0 := by ext g; simp [and_comm]
    rw [hii]
    have hk := integral_gamma_poisson hnu y0p n
    rw [intervalIntegral.integral_of_le y0p.le, integral_Ioc_eq_integral_Ioo] at hk
    have hpos : ∀ g ∈ Ioo 0 y0, 0 ≤ gammaPdf nu g * (exp (-(y0 - g)) * ((y0 - g) ^ n / n.factorial)) := by
      intro g hg
      have h1 := gammaPdf_nonneg hnu hg.1.le
      have h2 : 0 ≤ y0 - g := by linarith [hg.2]
      positivity
    have hI : IntegrableOn (fun g => gammaPdf nu g * (exp (-(y0 - g)) * ((y0 - g) ^ n / n.factorial))) (Ioo 0 y0) := by
      by_contra hcon
      rw [integral_undef hcon] at hk
      exact absurd hk (gammaPdf_pos (by positivity) y0p).ne
    unfold gE
    rw [← hk, ofReal_integral_eq_lintegral_ofReal hI ((ae_restrict_iff' measurableSet_Ioo).2 (ae_of_all _ hpos))]
    refine setLIntegral_congr_fun measurableSet_Ioo fun g hg => ?_
    rw [ENNReal.ofReal_mul (gammaPdf_nonneg hnu hg.1.le)]

lemma mul_exprel_add (a x y : ℝ) : (x + y) * exprel (a * (x + y)) = y * exprel (a * y) + exp (a * y) * (x * exprel (a * x)) := by
  have key : ∀ t, a ≠ 0 → t * exprel (a * t) = (exp (a * t) - 1) / a := by
    intro t ha
    unfold exprel
    split_ifs with h
    · have : t = 0 := (mul_eq_zero.1 h).resolve_left ha
      simp [this]
    · have : t ≠ 0 := fun h0 => h (by simp [h0])
      field_simp
  by_cases ha : a = 0
  · simp [ha, exprel]; ring
  · rw [key _ ha, key _ ha, key _ ha, mul_add, exp_add]
    field_simp
    ring

lemma effVar_add (m : Cev) (x y : ℝ) : m.effVar (x + y) = m.effVar y + exp (2 * (1 - m.beta) * (m.intr - m.divr) * y) * m.effVar x := by
  unfold effVar
  rw [mul_exprel_add]
  ring

lemma Kf_congr {nu : ℝ} {h h' : ℝ → ENNReal} (e : ∀ y > 0, h y = h' y) (x : ℝ) : Kf nu h x = Kf nu h' x := by
  unfold Kf A
  congr 1
  ext n
  congr 1
  refine setLIntegral_congr_fun measurableSet_Ioi fun y hy => ?_
  rw [e y hy]

lemma Kf_add {nu : ℝ} {h h' : ℝ → ENNReal} (hm : Measurable h) (x : ℝ) : Kf nu (fun y => h y + h' y) x = Kf nu h x + Kf nu h' x := by
  unfold Kf
  rw [← ENNReal.tsum_add]
  congr 1
  ext n
  rw [← mul_add]
  congr 1
  unfold A
  simp only [mul_add]
  exact lintegral_add_left ((measurable_gE _).mul hm) _

lemma Kf_const_mul {nu : ℝ} {h : ℝ → ENNReal} (hm : Measurable h) (k : ENNReal) (x : ℝ) : Kf nu (fun y => k * h y) x = k * Kf nu h x := by
  unfold Kf
  rw [← ENNReal.tsum_mul_left]
  congr 1
  ext n
  unfold A
  simp only [mul_left_comm _ k]
  rw [lintegral_const_mul (f := fun a => gE ((n : ℝ) + 1) a * h a) _ ((measurable_gE _).mul hm)]
  ring

lemma Kf_one {nu : ℝ} (hnu : 0 < nu) {x : ℝ} (hx : 0 < x) : Kf nu (fun _ => 1) x = ENNReal.ofReal (gammaInc nu x) := by
  have h := hasSum_gammaPdf hnu hx.le
  unfold Kf A
  simp only [mul_one]
  rw [← h.tsum_eq, ENNReal.ofReal_tsum_of_nonneg (fun j => gammaPdf_nonneg (by positivity) hx.le) h.summable]
  congr 1
  ext n
  rw [Lx.lintegral_gE (by positivity), mul_one]
  rfl

lemma p0_add_Kf {nu : ℝ} (hnu : 0 < nu) {x : ℝ} (hx : 0 < x) : p0 nu x + Kf nu (fun _ => 1) x = 1 := by
  rw [Kf_one hnu hx]
  unfold p0
  rw [← ENNReal.ofReal_add (by linarith [gammaInc_le_one hnu hx.le]) (gammaInc_nonneg hnu hx.le)]
  simp

lemma p0_chain {nu c : ℝ} (hnu : 0 < nu) (hc : 0 < c) {x : ℝ} (hx : 0 < x) (hm : Measurable fun y => p0 nu (c * y)) :
    p0 nu x + Kf nu (fun y => p0 nu (c * y)) x = p0 nu (c / (1 + c) * x) := by
  have hmx : 0 < c / (1 + c) * x := by positivity
  have h1 := p0_add_Kf hnu hx
  have h2 := p0_add_Kf hnu hmx
  have h3 := chain hnu hc (h := fun _ => 1) measurable_const hx
  have h4 : Kf nu (fun _ => 1) x = Kf nu (fun y => p0 nu (c * y)) x + Kf nu (fun y => Kf nu (fun _ => 1) (c * y)) x := by
    rw [← Kf_add hm]
    refine Kf_congr (fun y hy => ?_) x
    rw [p0_add_Kf hnu (mul_pos hc hy)]
  have h5 : p0 nu x + Kf nu (fun y => p0 nu (c * y)) x + Kf nu (fun _ => 1) (c / (1 + c) * x)
      = p0 nu (c / (1 + c) * x) + Kf nu (fun _ => 1) (c / (1 + c) * x) := by
    refine Eq.trans ?_ (h1.trans h2.symm)
    rw [add_assoc, ← h3, ← h4]
  refine (ENNReal.add_left_inj ?_).1 h5
  rw [Kf_one hnu hmx]
  exact ENNReal.ofReal_ne_top

lemma measurable_gammaInc {nu : ℝ} (hnu : 0 < nu) : Measurable fun y => gammaInc nu y := by
  unfold gammaInc
  refine Measurable.div_const ?_ _
  refine Continuous.measurable ?_
  refine intervalIntegral.continuous_primitive (fun a b => ?_) 0
  exact (intervalIntegral.intervalIntegrable_rpow' (by linarith)).mul_continuousOn (by fun_prop)

/-- Two steps are one step. -/
lemma stepE_chain (m : Cev) (hb : m.beta < 1) (hs : 0 < m.sigma) {S d1 d2 : ℝ} (hS : 0 ≤ S) (h1 : 0 < d1) (h2 : 0 < d2) {φ : ℝ → ENNReal} (hφ : Measurable φ) :
    m.stepE d1 (m.stepE d2 φ) S = m.stepE (d1 + d2) φ S := by
  rcases hS.eq_or_lt with rfl | hS
  · rw [stepE_zero, stepE_zero, stepE_zero]
  have hb' : 0 < 1 - m.beta := by linarith
  have hnu : 0 < 1 / (2 * (1 - m.beta)) := by positivity
  have hF : 0 < exp ((m.intr - m.divr) * d1) * S := by positivity
  have hW1 := m.effVar_pos hb.ne hs h1
  have hW2 := m.effVar_pos hb.ne hs h2
  have hW := m.effVar_pos hb.ne hs (add_pos h1 h2)
  have hadd := m.effVar_add d1 d2
  rw [m.stepE_pos hb hs hS h1, m.stepE_pos hb hs hS (add_pos h1 h2), stepE_zero]
  set nu := 1 / (2 * (1 - m.beta)) with hnudef
  set y0 := cevLev (1 - m.beta) (m.effVar d1) (exp ((m.intr - m.divr) * d1) * S) with hy0
  have y0p : 0 < y0 := cevLev_pos hW1 hF
  set E := exp (2 * (1 - m.beta) * (m.intr - m.divr) * d2) with hE
  have hEp : 0 < E := exp_pos _
  set c := E * m.effVar d1 / m.effVar d2 with hcdef
  have hc : 0 < c := by positivity
  have hEr : exp ((m.intr - m.divr) * d2) ^ (2 * (1 - m.beta)) = E := by
    rw [← exp_mul]; congr 1; ring
  have hk : 1 + c = m.effVar (d1 + d2) / m.effVar d2 := by
    rw [hadd, hcdef]; field_simp
  have elev : ∀ y > 0, cevLev (1 - m.beta) (m.effVar d2) (exp ((m.intr - m.divr) * d2) * m.inv d1 y) = c * y := by
    intro y hy
    have hy' : (0:ℝ) < y := hy
    unfold cevLev inv
    rw [mul_rpow (exp_pos _).le (by positivity), hEr, ← rpow_mul (by positivity), one_div_mul_cancel (by positivity), rpow_one, hcdef]
    field_simp
  have einv : ∀ y > 0, m.inv (d1 + d2) y = m.inv d2 ((1 + c) * y) := by
    intro y hy
    unfold inv
    rw [hk]
    congr 1
    field_simp
  have elev2 : cevLev (1 - m.beta) (m.effVar (d1 + d2)) (exp ((m.intr - m.divr) * (d1 + d2)) * S) = c / (1 + c) * y0 := by
    rw [hk, hy0, hcdef]
    unfold cevLev
    rw [show exp ((m.intr - m.divr) * (d1 + d2)) * S = exp ((m.intr - m.divr) * d2) * (exp ((m.intr - m.divr) * d1) * S) by
      rw [← mul_assoc, ← exp_add]; congr 2; ring, mul_rpow (exp_pos _).le hF.le, hEr]
    field_simp
  have hmp : Measurable fun y => p0 nu (c * y) := by
    unfold p0
    have := (measurable_gammaInc hnu).comp (measurable_const_mul c)
    exact (measurable_const.sub this).ennreal_ofReal
  have hminv : Measurable (m.inv d2) := by unfold inv; fun_prop
  have e1 : Kf nu (fun y => m.stepE d2 φ (m.inv d1 y)) y0
      = φ 0 * Kf nu (fun y => p0 nu (c * y)) y0 + Kf nu (fun y => Kf nu (fun y => φ (m.inv d2 y)) (c * y)) y0 := by
    rw [← Kf_const_mul hmp, ← Kf_add (hmp.const_mul _)]
    refine Kf_congr (fun y hy => ?_) y0
    have hy' : (0:ℝ) < y := hy
    have hi : 0 < m.inv d1 y := by unfold inv; positivity
    rw [m.stepE_pos hb hs hi h2, elev y hy]
  rw [e1, chain hnu hc (h := fun y => φ (m.inv d2 y)) (hφ.comp hminv) y0p, ← add_assoc, ← mul_add, p0_chain hnu hc y0p hmp, elev2]
  congr 1
  refine Kf_congr (fun y hy => ?_) _
  rw [einv y hy]

lemma stepE_congr (m : Cev) (hb : m.beta < 1) (hs : 0 < m.sigma) {S d : ℝ} (hS : 0 ≤ S) (hd : 0 < d) {φ ψ : ℝ → ENNReal} (h : ∀ s ≥ 0, φ s = ψ s) :
    m.stepE d φ S = m.stepE d ψ S := by
  rcases hS.eq_or_lt with rfl | hS
  · rw [stepE_zero, stepE_zero, h 0 le_rfl]
  rw [m.stepE_pos hb hs hS hd, m.stepE_pos hb hs hS hd, h 0 le_rfl]
  congr 1
  have hW := m.effVar_pos hb.ne hs hd
  refine Kf_congr (fun y hy => h _ ?_) _
  have hy' : (0:ℝ) < y := hy
  unfold inv
  positivity

/-- Expectation of one path over the whole loop. -/
noncomputable def loopE (m : Cev) (φ : ℝ → ENNReal) : List ℝ → ℝ → ENNReal
  | [] => φ
  | d :: ds => m.stepE d (loopE m φ ds)

lemma mcLoop_sum (m : Cev) (hb : m.beta < 1) (f : ℝ → ENNReal) (ds : List ℝ) : ∀ s : List ℝ,
    mcLoop Lx.gamma Lx.poisson m ds s (fun r => (r.map f).sum) = (s.map (m.loopE f ds)).sum := by
  induction ds with
  | nil => intro s; rfl
  | cons d ds ih =>
    intro s
    show priceSteps Lx.gamma Lx.poisson m s d (fun s' => mcLoop Lx.gamma Lx.poisson m ds s' (fun r => (r.map f).sum)) = _
    simp only [ih]
    exact m.priceSteps_sum hb d _ s

lemma loopE_eq (m : Cev) (hb : m.beta < 1) (hs : 0 < m.sigma) {φ : ℝ → ENNReal} (hφ : Measurable φ) (ds : List ℝ) : ds ≠ [] → (∀ d ∈ ds, 0 < d) →
    ∀ S ≥ 0, m.loopE φ ds S = m.stepE ds.sum φ S := by
  induction ds with
  | nil => intro h; exact absurd rfl h
  | cons d ds ih =>
    intro _ hd S hS
    by_cases hds : ds = []
    · subst hds
      simp [loopE]
    · have hpos : ∀ e ∈ ds, 0 < e := fun e he => hd e (by simp [he])
      have hsum : 0 < ds.sum := List.sum_pos ds hpos hds
      show m.stepE d (m.loopE φ ds) S = _
      rw [m.stepE_congr hb hs hS (hd d (by simp)) (ih hds hpos), m.stepE_chain hb hs hS (hd d (by simp)) hsum hφ, List.sum_cons]

/-- The expectation after one step is an integral against the analytic terminal law. -/
lemma stepE_law (m : Cev) (hb : m.beta < 1) (hs : 0 < m.sigma) {S T : ℝ} (hS : 0 < S) (hT : 0 < T) {φ : ℝ → ENNReal} (hφ : Measurable φ) :
    m.stepE T φ S = ∫⁻ s, φ s ∂(mixLaw (1 - gammaInc (1 / (2 * (1 - m.beta))) (cevLev (1 - m.beta) (m.effVar T) (exp ((m.intr - m.divr) * T) * S)))
      (densLt (1 - m.beta) (exp ((m.intr - m.divr) * T) * S) (m.effVar T))) := by
  have hb' : 0 < 1 - m.beta := by linarith
  have hnu : 0 < 1 / (2 * (1 - m.beta)) := by positivity
  have hF : 0 < exp ((m.intr - m.divr) * T) * S := by positivity
  have hW := m.effVar_pos hb.ne hs hT
  have hcc := callCurve_lt hb hF hW
  have hm : AEMeasurable (fun s => ENNReal.ofReal (densLt (1 - m.beta) (exp ((m.intr - m.divr) * T) * S) (m.effVar T) s)) (volume.restrict (Ioi 0)) :=
    hcc.mass.1.aestronglyMeasurable.aemeasurable.ennreal_ofReal
  rw [m.stepE_pos hb hs hS hT]
  unfold mixLaw
  rw [lintegral_add_measure, lintegral_smul_measure, lintegral_dirac, lintegral_withDensity_eq_lintegral_mul₀ hm hφ.aemeasurable]
  set nu := 1 / (2 * (1 - m.beta)) with hnudef
  set F := exp ((m.intr - m.divr) * T) * S with hFdef
  set y0 := cevLev (1 - m.beta) (m.effVar T) F with hy0
  have y0p : 0 < y0 := cevLev_pos hW hF
  congr 1
  · rw [smul_eq_mul, mul_comm]; rfl
  -- density of the killed kernel
  have hdens : ∀ y > 0, ∑' n : ℕ, gE (nu + n + 1) y0 * gE ((n : ℝ) + 1) y = ENNReal.ofReal (ncG (nu + 1) y0 y) := by
    intro y hy
    have hy' : (0:ℝ) < y := hy
    have hsm : Summable fun j : ℕ => y ^ j / j.factorial * gammaPdf (nu + 1 + j) y0 :=
      summable_pow_div_factorial_mul (fun j => gammaPdf_abs (by positivity) y0p.le j) y
    unfold ncG poisMix
    rw [← tsum_mul_left, ENNReal.ofReal_tsum_of_nonneg (fun n => ?_) (hsm.mul_left _)]
    · congr 1
      ext n
      unfold gE
      rw [← ENNReal.ofReal_mul (gammaPdf_nonneg (by positivity) y0p.le)]
      congr 1
      rw [show nu + 1 + (n : ℝ) = nu + n + 1 by ring, show gammaPdf ((n : ℝ) + 1) y = y ^ n * exp (-y) / n.factorial by
        unfold gammaPdf; rw [Real.Gamma_nat_eq_factorial, add_sub_cancel_right, rpow_natCast]]
      ring
    · have := gammaPdf_nonneg (show 0 < nu + 1 + n by positivity) y0p.le
      positivity
  have hminv : Measurable (m.inv T) := by unfold inv; fun_prop
  have e1 : Kf nu (fun y => φ (m.inv T y)) y0 = ∫⁻ y in Ioi (0 : ℝ), ENNReal.ofReal (ncG (nu + 1) y0 y) * φ (m.inv T y) := by
    unfold Kf A
    have : ∀ n : ℕ, gE (nu + n + 1) y0 * ∫⁻ y in Ioi (0 : ℝ), gE ((n : ℝ) + 1) y * φ (m.inv T y)
        = ∫⁻ y in Ioi (0 : ℝ), gE (nu + n + 1) y0 * (gE ((n : ℝ) + 1) y * φ (m.inv T y)) := fun n =>
      (lintegral_const_mul (f := fun y => gE ((n : ℝ) + 1) y * φ (m.inv T y)) _ ((measurable_gE _).mul (hφ.comp hminv))).symm
    simp only [this]
    rw [← lintegral_tsum (f := fun (n : ℕ) y => gE (nu + n + 1) y0 * (gE ((n : ℝ) + 1) y * φ (m.inv T y)))
      fun n => (((measurable_gE _).mul (hφ.comp hminv)).const_mul _).aemeasurable]
    refine setLIntegral_congr_fun measurableSet_Ioi fun y hy => ?_
    simp only [← mul_assoc]
    rw [ENNReal.tsum_mul_right, hdens y hy]
  rw [e1]
  have hder : ∀ s ∈ Ioi (0 : ℝ), HasDerivWithinAt (cevLev (1 - m.beta) (m.effVar T)) (cevLev (1 - m.beta) (m.effVar T) s * (2 * (1 - m.beta) / s)) (Ioi 0) s := by
    intro s hs0
    have := hasDerivAt_cevLev (b := 1 - m.beta) (hasDerivAt_const s (m.effVar T)) (hasDerivAt_id' s) hW hs0
    refine (this.congr_deriv ?_).hasDerivWithinAt
    simp
  have hinj : InjOn (cevLev (1 - m.beta) (m.effVar T)) (Ioi 0) := by
    intro a ha b hb2 hab
    have ha' : (0:ℝ) < a := ha
    have hb3 : (0:ℝ) < b := hb2
    unfold cevLev at hab
    have h2 : a ^ (2 * (1 - m.beta)) = b ^ (2 * (1 - m.beta)) := by
      field_simp at hab
      exact hab
    exact (Real.rpow_left_inj ha'.le hb3.le (by positivity)).1 h2
  have hlevinv : ∀ s > 0, m.inv T (cevLev (1 - m.beta) (m.effVar T) s) = s := by
    intro s hs0
    have hs1 : (0:ℝ) < s := hs0
    unfold inv cevLev
    rw [show m.effVar T * (2 * (s ^ (2 * (1 - m.beta)) / (2 * m.effVar T))) = s ^ (2 * (1 - m.beta)) by field_simp, ← rpow_mul hs1.le,
      mul_one_div_cancel (by positivity), rpow_one]
  have him : cevLev (1 - m.beta) (m.effVar T) '' Ioi 0 = Ioi 0 := by
    ext z
    constructor
    · rintro ⟨s, hs0, rfl⟩
      exact cevLev_pos hW hs0
    · intro hz
      have hz' : (0:ℝ) < z := hz
      refine ⟨m.inv T z, by show 0 < m.inv T z; unfold inv; positivity, ?_⟩
      unfold inv cevLev
      rw [← rpow_mul (by positivity), one_div_mul_cancel (by positivity), rpow_one]
      field_simp
  have hcv := lintegral_image_eq_lintegral_abs_deriv_mul measurableSet_Ioi hder hinj (fun y => ENNReal.ofReal (ncG (nu + 1) y0 y) * φ (m.inv T y))
  rw [him] at hcv
  rw [hcv]
  refine setLIntegral_congr_fun measurableSet_Ioi fun s hs0 => ?_
  have hs1 : (0:ℝ) < s := hs0
  have hl : 0 < cevLev (1 - m.beta) (m.effVar T) s := cevLev_pos hW hs1
  simp only [Pi.mul_apply]
  rw [hlevinv s hs0, ← mul_assoc, ← ENNReal.ofReal_mul (abs_nonneg _), abs_of_nonneg (by positivity), mul_comm (cevLev (1 - m.beta) (m.effVar T) s * _)]
  rfl

/-- The average of `φ` over the simulated terminal prices; a failed run counts as infinite. -/
noncomputable def _root_.PyFENG.Spec.sampleMean (φ : ℝ → ENNReal) : Option (List ℝ) → ENNReal
  | some s => (s.map φ).sum / s.length
  | none => ⊤

/-- Entry `j` of a returned array as a nonnegative quantity; a failed run counts as infinite. -/
noncomputable def _root_.PyFENG.Spec.entry (j : ℕ) : Option (List ℝ) → ENNReal
  | some p => ENNReal.ofReal (p.getD j 0)
  | none => ⊤

lemma length_step (gam : ℝ → Lx ℝ) (pois : ℝ → Lx ℕ) (m : Cev) (dt : ℝ) (s : List ℝ) : Lx.Supp (fun r : List ℝ => r.length = s.length) (priceSteps gam pois m s dt) := by
  have key : ∀ {α β : Type} (d : α → Lx β) (l : List α), Lx.Supp (fun r : List β => r.length = l.length) (drawAll d l) := by
    intro α β d l
    induction l with
    | nil => exact fun F G h => h [] rfl
    | cons a l ih =>
      intro F G h
      show d a (fun b => drawAll d l fun bs => F (b :: bs)) = d a (fun b => drawAll d l fun bs => G (b :: bs))
      congr 1
      ext b
      exact ih _ _ fun bs hbs => h _ (by simp [hbs])
  intro F G h
  refine key _ s _ _ fun a ha => key _ a _ _ fun b hb => key _ b _ _ fun r hr => h r (by omega)

lemma length_loop (gam : ℝ → Lx ℝ) (pois : ℝ → Lx ℕ) (m : Cev) (ds : List ℝ) : ∀ s : List ℝ,
    Lx.Supp (fun r : List ℝ => r.length = s.length) (mcLoop gam pois m ds s) := by
  induction ds with
  | nil => exact fun s F G h => h s rfl
  | cons d ds ih =>
    intro s F G h
    exact length_step gam pois m d s _ _ fun s' hs' => ih s' _ _ fun r hr => h r (hr.trans hs')

lemma dts_grid {T : ℝ} (hT : 0 < T) (dt : Option ℝ) (hdt : ∀ d, dt = some d → 0 < d) :
    Heston.dts (McState.tobs dt T) ≠ [] ∧ (∀ d ∈ Heston.dts (McState.tobs dt T), 0 < d) ∧ (Heston.dts (McState.tobs dt T)).sum = T := by
  obtain ⟨h1, -, -, h4, h5, -⟩ := McState.tobs_spec hT dt hdt
  have hl := List.length_pos_iff.2 h1
  refine ⟨?_, ?_, Heston.sum_dts h4⟩
  · unfold Heston.dts
    simpa using h1
  · intro d hd
    unfold Heston.dts at hd
    obtain ⟨k, hk, rfl⟩ := List.mem_map.1 hd
    rw [h5 k (List.mem_range.1 hk)]
    have : (0:ℝ) < (McState.tobs dt T).length := by exact_mod_cast hl
    positivity

lemma mcPaths_lt (m : Cev) (hb : m.beta < 1) (n : ℕ) (dt : Option ℝ) (S T : ℝ) (Φ : Option (List ℝ) → ENNReal) :
    mcPaths Lx.gamma Lx.poisson m n dt S T Φ
      = mcLoop Lx.gamma Lx.poisson m (Heston.dts (McState.tobs dt T)) (List.replicate n S) fun s => Φ (some s) := by
  have hn : ¬ (1 / (2 * (1 - m.beta)) < 0) := not_lt.2 (div_pos one_pos (by linarith)).le
  unfold mcPaths
  rw [if_neg hn]
  rfl

/-- **C138**: the sample average of any measurable function of the simulated terminal prices has the same expectation for every number of
paths and every time grid `dt` (including the single step `dt = None`): the integral of the function against the terminal law of the
analytic model — the law with mean the forward and atom `mass_zero` of which all prices of `Cev` (with `spot` meant as a spot price) are
discounted expectations. -/
theorem cevmc_paths_law (m : Cev) (hb : m.beta < 1) (hs : 0 < m.sigma) {S T : ℝ} (hS : 0 < S) (hT : 0 < T)
    (hv : eps ≤ (m.sigma / Spec.forward false m.intr m.divr S T ^ (1 - m.beta)) ^ 2 * T) :
    ∃ μ : Measure ℝ, IsProbabilityMeasure μ ∧ μ (Iio 0) = 0 ∧ Integrable (fun s => s) μ ∧ ∫ s, s ∂μ = Spec.forward false m.intr m.divr S T ∧
      ({ m with isFwd := false } : Cev).massZero S T = some (μ {0}).toReal ∧
      (∀ K > 0, ∀ cp, Spec.IsCp cp → Integrable (fun s => Spec.payoff cp K s) μ ∧
        ({ m with isFwd := false } : Cev).price K S T cp = Spec.discount m.intr T * ∫ s, Spec.payoff cp K s ∂μ) ∧
      ∀ nPath > 0, ∀ dt : Option ℝ, (∀ d, dt = some d → 0 < d) → ∀ φ : ℝ → ENNReal, Measurable φ →
        mcPaths Lx.gamma Lx.poisson m nPath dt S T (Spec.sampleMean φ) = ∫⁻ s, φ s ∂μ := by
  have hfw := m.step_fwd S T
  have hF : 0 < exp ((m.intr - m.divr) * T) * S := by positivity
  have hW := m.effVar_pos hb.ne hs hT
  have h := callCurve_lt hb hF hW
  have hspec : Spec.forward false m.intr m.divr S T = exp ((m.intr - m.divr) * T) * S := by
    rw [hfw]; exact ({ m with isFwd := false } : Cev).fwd_spec S T
  have hprob := h.prob
  have hcallI := fun K hK => (h.call_law (K := K) hK).1
  refine ⟨_, h.prob, CallCurve.mixLaw_neg _ _, h.mean.1, by rw [h.mean.2, sub_zero, hspec], ?_, ?_, ?_⟩
  · rw [CallCurve.mixLaw_zero, ENNReal.toReal_ofReal (by linarith [h.hg0]), ({ m with isFwd := false } : Cev).massZero_eq hb (by rw [← hfw]; exact hF), ← hfw]
    rfl
  · intro K hK cp hcp
    constructor
    · unfold Spec.payoff
      rcases hcp with rfl | rfl
      · simpa using hcallI K hK
      · have e : (fun s : ℝ => max (-1 * (s - K)) 0) = fun s => max (s - K) 0 + (K - s) := by
          ext s
          rcases le_total s K with h | h
          · rw [max_eq_left (by linarith), max_eq_right (by linarith)]; ring
          · rw [max_eq_right (by linarith), max_eq_left (by linarith)]; ring
        rw [e]
        exact (hcallI K hK).add ((integrable_const K).sub h.mean.1)
    · have hFm : 0 < ({ m with isFwd := false } : Cev).mp.fwd S T := by rw [← hfw]; exact hF
      have h4 : Spec.discount m.intr T = ({ m with isFwd := false } : Cev).mp.df T := (({ m with isFwd := false } : Cev).mp.df_eq_spec T).symm
      rw [h4, ({ m with isFwd := false } : Cev).price_eq hcp hFm hK (by rw [← hfw, ← hspec]; exact hv), ← hfw]
      congr 1
      unfold core Spec.payoff
      rcases hcp with rfl | rfl
      · have := (h.call_law hK).2
        simp only [gt_iff_lt, zero_lt_one, if_true, add_zero, one_mul]
        rw [this, sub_zero]
        rfl
      · have := h.put_law hK
        simp only [gt_iff_lt, show ¬ (0 : ℝ) < -1 by norm_num, if_false, neg_mul, one_mul, neg_sub]
        rw [this]
        show coreB m.beta _ K (m.effVar T) + _ = _
        ring
  · intro n hn dt hdt φ hφ
    obtain ⟨g1, g2, g3⟩ := dts_grid hT dt hdt
    have hn0 : (n : ENNReal) ≠ 0 := by exact_mod_cast hn.ne'
    rw [m.mcPaths_lt hb, ← m.stepE_law hb hs hS hT hφ]
    rw [length_loop Lx.gamma Lx.poisson m _ _ _ (fun s => (s.map fun x => φ x / n).sum) (fun r hr => ?_), m.mcLoop_sum hb]
    · have hφ' : Measurable fun x => φ x / n := hφ.div_const _
      rw [List.map_replicate, List.sum_replicate, m.loopE_eq hb hs hφ' _ g1 g2 S hS.le, g3, m.stepE_law hb hs hS hT hφ', m.stepE_law hb hs hS hT hφ]
      simp only [div_eq_mul_inv]
      rw [lintegral_mul_const _ hφ, nsmul_eq_mul, mul_comm, mul_assoc, ENNReal.inv_mul_cancel hn0 (ENNReal.natCast_ne_top n), mul_one]
    · simp only [List.length_replicate] at hr
      show (r.map φ).sum / r.length = _
      rw [hr]
      simp only [div_eq_mul_inv]
      exact (List.sum_map_mul_right ..).symm

/-- **C138**: `CevMc.price` is unbiased: whatever the number of paths and the time step, the expectation of each returned price is the price of
the analytic model `Cev` (with `spot` meant as a spot price). -/
theorem cevmc_price_unbiased (m : Cev) (hb : m.beta < 1) (hs : 0 < m.sigma) {S T : ℝ} (hS : 0 < S) (hT : 0 < T)
    (hv : eps ≤ (m.sigma / Spec.forward false m.intr m.divr S T ^ (1 - m.beta)) ^ 2 * T) {nPath : ℕ} (hn : 0 < nPath) {dt : Option ℝ}
    (hdt : ∀ d, dt = some d → 0 < d) {strikes : List ℝ} {j : ℕ} {K : ℝ} (hj : strikes[j]? = some K) (hK : 0 < K) {cp : ℝ} (hcp : Spec.IsCp cp) :
    mcPrice Lx.gamma Lx.poisson m nPath dt (.inr strikes) S T cp (Spec.entry j) = ENNReal.ofReal (({ m with isFwd := false } : Cev).price K S T cp) := by
  obtain ⟨μ, h1, -, -, -, -, h6, h7⟩ := m.cevmc_paths_law hb hs hS hT hv
  obtain ⟨hI, hp⟩ := h6 K hK cp hcp
  have hmeas : Measurable fun s => ENNReal.ofReal (exp (-m.intr * T) * Spec.payoff cp K s) := by
    unfold Spec.payoff
    fun_prop
  have hn' : (0:ℝ) < nPath := by exact_mod_cast hn
  have h := h7 nPath hn dt hdt _ hmeas
  have hdisc : Spec.discount m.intr T = exp (-m.intr * T) := by unfold Spec.discount; congr 1; ring
  rw [hp, hdisc, ← integral_const_mul, ofReal_integral_eq_lintegral_ofReal (hI.const_mul _)
    (ae_of_all _ fun s => mul_nonneg (exp_pos _).le (by unfold Spec.payoff; exact le_max_right _ _)), ← h]
  rw [m.mcPaths_lt hb]
  show mcPaths Lx.gamma Lx.poisson m nPath dt S T _ = _
  rw [m.mcPaths_lt hb]
  refine length_loop Lx.gamma Lx.poisson m _ _ _ _ fun r hr => ?_
  simp only [List.length_replicate] at hr
  show ENNReal.ofReal (((strikes.map fun k => exp (-m.intr * T) * ((r.map fun x => max (cp * (x - k)) 0).sum / nPath))).getD j 0)
    = (r.map fun s => ENNReal.ofReal (exp (-m.intr * T) * Spec.payoff cp K s)).sum / r.length
  rw [List.getD_eq_getElem?_getD, List.getElem?_map, hj, hr]
  simp only [Option.map_some, Option.getD_some]
  have e : ∀ r : List ℝ, (r.map fun s => ENNReal.ofReal (exp (-m.intr * T) * Spec.payoff cp K s)).sum
      = ENNReal.ofReal (exp (-m.intr * T) * (r.map fun x => max (cp * (x - K)) 0).sum) ∧ 0 ≤ (r.map fun x => max (cp * (x - K)) 0).sum := by
    intro r
    induction r with
    | nil => simp
    | cons a r ih =>
      have ha : 0 ≤ max (cp * (a - K)) 0 := le_max_right _ _
      simp only [List.map_cons, List.sum_cons]
      refine ⟨?_, add_nonneg ha ih.2⟩
      rw [ih.1, ← ENNReal.ofReal_add (by unfold Spec.payoff; positivity) (mul_nonneg (exp_pos _).le ih.2), mul_add]
      rfl
  rw [(e r).1, ← mul_div_assoc, ENNReal.ofReal_div_of_pos hn', ENNReal.ofReal_natCast]

/-- **C138**: `CevMc.mass_zero` is unbiased for `Cev.mass_zero`, whatever the number of paths and the time step. -/
theorem cevmc_mass_zero_unbiased (m : Cev) (hb : m.beta < 1) (hs : 0 < m.sigma) {S T : ℝ} (hS : 0 < S) (hT : 0 < T)
    (hv : eps ≤ (m.sigma / Spec.forward false m.intr m.divr S T ^ (1 - m.beta)) ^ 2 * T) {nPath : ℕ} (hn : 0 < nPath) {dt : Option ℝ}
    (hdt : ∀ d, dt = some d → 0 < d) :
    ∃ p, ({ m with isFwd := false } : Cev).massZero S T = some p ∧
      mcMassZero Lx.gamma Lx.poisson m nPath dt S T (fun r => r.elim ⊤ ENNReal.ofReal) = ENNReal.ofReal p := by
  obtain ⟨μ, h1, h2, -, -, h5, -, h7⟩ := m.cevmc_paths_law hb hs hS hT hv
  refine ⟨_, h5, ?_⟩
  have hm : MeasurableSet {s : ℝ | s ≤ 0} := measurableSet_Iic
  have h := h7 nPath hn dt hdt ({s : ℝ | s ≤ 0}.indicator fun _ => 1) (measurable_const.indicator hm)
  rw [lintegral_indicator hm, lintegral_one, Measure.restrict_apply_univ] at h
  have hset : {s : ℝ | s ≤ 0} = Iio 0 ∪ {0} := by ext s; simp [le_iff_lt_or_eq]
  have hmu : μ {s : ℝ | s ≤ 0} = μ {0} := by
    rw [hset]
    refine le_antisymm ((measure_union_le _ _).trans (by rw [h2, zero_add])) (measure_mono subset_union_right)
  rw [ENNReal.ofReal_toReal (measure_ne_top μ _), ← hmu, ← h]
  have hn' : (0:ℝ) < nPath := by exact_mod_cast hn
  rw [m.mcPaths_lt hb]
  show mcPaths Lx.gamma Lx.poisson m nPath dt S T _ = _
  rw [m.mcPaths_lt hb]
  refine length_loop Lx.gamma Lx.poisson m _ _ _ _ fun r hr => ?_
  simp only [List.length_replicate] at hr
  show ENNReal.ofReal ((r.map fun x => if x ≤ 0 then (1 : ℝ) else 0).sum / nPath) = (r.map ({s : ℝ | s ≤ 0}.indicator fun _ => 1)).sum / r.length
  rw [ENNReal.ofReal_div_of_pos hn', ENNReal.ofReal_natCast, hr]
  congr 1
  have e : ∀ r : List ℝ, ENNReal.ofReal (r.map fun x => if x ≤ 0 then (1 : ℝ) else 0).sum = (r.map ({s : ℝ | s ≤ 0}.indicator fun _ => 1)).sum
      ∧ 0 ≤ (r.map fun x => if x ≤ 0 then (1 : ℝ) else 0).sum := by
    intro r
    induction r with
    | nil => simp
    | cons a r ih =>
      have ha : (0:ℝ) ≤ if a ≤ 0 then 1 else 0 := by split_ifs <;> norm_num
      simp only [List.map_cons, List.sum_cons]
      refine ⟨?_, add_nonneg ha ih.2⟩
      rw [ENNReal.ofReal_add ha ih.2, ih.1]
      congr 1
      by_cases h0 : a ≤ 0
      · rw [if_pos h0, indicator_of_mem (show a ∈ {s : ℝ | s ≤ 0} from h0), ENNReal.ofReal_one]
      · rw [if_neg h0, indicator_of_notMem (show a ∉ {s : ℝ | s ≤ 0} from h0), ENNReal.ofReal_zero]
  exact (e r).1

/-- **C138**: whatever the generator produces (nonnegative gammas), every simulated price is nonnegative, there is one per path, a path that
starts at zero stays there. -/
theorem cevmc_paths_nonneg (m : Cev) (hb : m.beta < 1) (gam : ℝ → Id ℝ) (pois : ℝ → Id ℕ) (hg : ∀ a, 0 ≤ (gam a).run) {S T : ℝ}
    (hS : 0 ≤ S) (hT : 0 < T) (nPath : ℕ) {dt : Option ℝ} (hdt : ∀ d, dt = some d → 0 < d) :
    ∃ s, (mcPaths (M := Id) gam pois m nPath dt S T).run = some s ∧ s.length = nPath ∧ ∀ x ∈ s, 0 ≤ x ∧ (S = 0 → x = 0) := by
  obtain ⟨g1, g2, g3⟩ := dts_grid hT dt hdt
  have hn : ¬ (1 / (2 * (1 - m.beta)) < 0) := not_lt.2 (div_pos one_pos (by linarith)).le
  have hall : ∀ {α β : Type} (d : α → Id β) (l : List α), (drawAll d l).run = l.map fun a => (d a).run := by
    intro α β d l
    induction l with
    | nil => rfl
    | cons a l ih =>
      show (d a).run :: (drawAll d l).run = _
      rw [ih]; rfl
  have hstep : ∀ (d : ℝ), 0 < d → ∀ s : List ℝ, (∀ x ∈ s, 0 ≤ x ∧ (S = 0 → x = 0)) →
      (priceSteps (M := Id) gam pois m s d).run.length = s.length ∧ ∀ x ∈ (priceSteps (M := Id) gam pois m s d).run, 0 ≤ x ∧ (S = 0 → x = 0) := by
    intro d hd s hx
    have e : (priceSteps (M := Id) gam pois m s d).run
        = s.map fun x => (stage3 (M := Id) gam m d (stage2 (M := Id) pois (stage1 (M := Id) gam m d x).run).run).run := by
      show (drawAll (stage3 (M := Id) gam m d) (drawAll (stage2 (M := Id) pois) (drawAll (stage1 (M := Id) gam m d) s).run).run).run = _
      rw [hall, hall, hall, List.map_map, List.map_map]
      rfl
    rw [e]
    refine ⟨by simp, fun y hy => ?_⟩
    obtain ⟨x, hxs, rfl⟩ := List.mem_map.1 hy
    obtain ⟨h0, h1⟩ := hx x hxs
    unfold stage1
    simp only
    by_cases hp : x > 0
    · rw [if_pos hp]
      have hS0 : S ≠ 0 := fun h => hp.ne' (h1 h)
      refine ⟨?_, fun h => absurd h hS0⟩
      show 0 ≤ (stage3 (M := Id) gam m d (stage2 (M := Id) pois (ite _ (Sum.inl 0) (Sum.inr _))).run).run
      split_ifs with hl
      · exact le_rfl
      · refine rpow_nonneg ?_ _
        have := exprel_pos (2 * (m.intr - m.divr) * (1 - m.beta) * d)
        exact mul_nonneg (by positivity) (mul_nonneg (by norm_num) (hg _))
    · rw [if_neg hp]
      have hx0 : x = 0 := le_antisymm (not_lt.1 hp) h0
      show 0 ≤ exp ((m.intr - m.divr) * d) * x ∧ (S = 0 → exp ((m.intr - m.divr) * d) * x = 0)
      simp [hx0]
  have hloop : ∀ (ds : List ℝ), (∀ d ∈ ds, 0 < d) → ∀ s : List ℝ, (∀ x ∈ s, 0 ≤ x ∧ (S = 0 → x = 0)) →
      (mcLoop (M := Id) gam pois m ds s).run.length = s.length ∧ ∀ x ∈ (mcLoop (M := Id) gam pois m ds s).run, 0 ≤ x ∧ (S = 0 → x = 0) := by
    intro ds
    induction ds with
    | nil => exact fun _ s hx => ⟨rfl, hx⟩
    | cons d ds ih =>
      intro hd s hx
      obtain ⟨a1, a2⟩ := hstep d (hd d (by simp)) s hx
      obtain ⟨b1, b2⟩ := ih (fun e he => hd e (by simp [he])) _ a2
      exact ⟨b1.trans a1, b2⟩
  obtain ⟨c1, c2⟩ := hloop _ g2 (List.replicate nPath S) (by
    intro x hx
    rw [List.eq_of_mem_replicate hx]
    exact ⟨hS, id⟩)
  refine ⟨_, ?_, c1.trans (by simp), c2⟩
  unfold mcPaths
  rw [if_neg hn]
  rfl

/-- **C138**: a scalar strike is refused after the whole simulation has run, and for `beta > 1` every call fails. -/
theorem cevmc_price_fails (m : Cev) (gam : ℝ → Id ℝ) (pois : ℝ → Id ℕ) (nPath : ℕ) (dt : Option ℝ) (S T cp : ℝ) :
    (∀ k : ℝ, (mcPrice (M := Id) gam pois m nPath dt (.inl k) S T cp).run = none) ∧
    (1 < m.beta → ∀ ks : ℝ ⊕ List ℝ, (mcPrice (M := Id) gam pois m nPath dt ks S T cp).run = none ∧ (mcMassZero (M := Id) gam pois m nPath dt S T).run = none) := by
  refine ⟨fun k => rfl, fun hb ks => ?_⟩
  have hn : 1 / (2 * (1 - m.beta)) < 0 := div_neg_of_pos_of_neg one_pos (by linarith)
  constructor
  · unfold mcPrice mcPaths
    rw [if_pos hn]
    cases ks <;> rfl
  · unfold mcMassZero mcPaths
    rw [if_pos hn]
    rfl

private noncomputable def exMc : Cev := ⟨2, 1 / 2, 0.05, 0.1, false⟩

/-- The hypotheses of C138 hold for the model of the class's docstring (with rates). -/
example : exMc.beta < 1 ∧ 0 < exMc.sigma ∧ eps ≤ (exMc.sigma / Spec.forward false exMc.intr exMc.divr 100 1.2 ^ (1 - exMc.beta)) ^ 2 * 1.2 := by
  refine ⟨by norm_num [exMc], by norm_num [exMc], ?_⟩
  have he : eps < 1 / 1000 := by unfold eps; norm_num
  have hf : 0 < Spec.forward false exMc.intr exMc.divr 100 1.2 ∧ Spec.forward false exMc.intr exMc.divr 100 1.2 ≤ 100 := by
    unfold Spec.forward exMc
    simp only [Bool.false_eq_true, if_false]
    refine ⟨by positivity, ?_⟩
    have : exp ((0.05 - 0.1) * 1.2 : ℝ) ≤ 1 := Real.exp_le_one_iff.2 (by norm_num)
    linarith
  have h1 : (Spec.forward false exMc.intr exMc.divr 100 1.2) ^ (1 - exMc.beta) ≤ 100 ^ (1 - exMc.beta) :=
    rpow_le_rpow hf.1.le hf.2 (by norm_num [exMc])
  have h2 : (100 : ℝ) ^ (1 - exMc.beta) = 10 := by
    rw [show (1 - exMc.beta) = 1 / 2 by norm_num [exMc], ← Real.sqrt_eq_rpow, show (100:ℝ) = 10 ^ 2 by norm_num, Real.sqrt_sq (by norm_num)]
  rw [h2] at h1
  have h3 := rpow_pos_of_pos hf.1 (1 - exMc.beta)
  have h4 : (1 : ℝ) / 5 ≤ exMc.sigma / (Spec.forward false exMc.intr exMc.divr 100 1.2) ^ (1 - exMc.beta) := by
    rw [le_div_iff₀ h3, show exMc.sigma = 2 from rfl]
    linarith
  have h5 : ((1 : ℝ) / 5) ^ 2 ≤ (exMc.sigma / (Spec.forward false exMc.intr exMc.divr 100 1.2) ^ (1 - exMc.beta)) ^ 2 := by gcongr
  nlinarith

end Cev

end PyFENG
