import Verif.Props.OusvKlPath
import Verif.Lemmas.ExMv

/-!
# C114: the random step of the OUSV sine-series scheme
-/

set_option linter.unusedSimpArgs false

namespace PyFENG

open Real MeasureTheory ProbabilityTheory Filter Topology
open scoped NNReal

/-- The random pair `D` has these means, variances and covariance: every polynomial of total degree two in the pair has the corresponding expectation. -/
def Spec.HasMV2 (D : Ex (ℝ × ℝ)) (μ1 μ2 v1 c v2 : ℝ) : Prop :=
  ∀ A B1 B2 C1 C12 C2 : ℝ, D (fun p => A + B1 * p.1 + B2 * p.2 + C1 * p.1 ^ 2 + C12 * (p.1 * p.2) + C2 * p.2 ^ 2) =
    A + B1 * μ1 + B2 * μ2 + C1 * (v1 + μ1 ^ 2) + C12 * (c + μ1 * μ2) + C2 * (v2 + μ2 ^ 2)

open Spec

lemma Spec.HasMV2.congr {D : Ex (ℝ × ℝ)} {μ1 μ2 v1 c v2 μ1' μ2' v1' c' v2' : ℝ} (h : HasMV2 D μ1 μ2 v1 c v2) (h1 : μ1 = μ1') (h2 : μ2 = μ2') (h3 : v1 = v1') (h4 : c = c') (h5 : v2 = v2') :
    HasMV2 D μ1' μ2' v1' c' v2' := by subst h1 h2 h3 h4 h5; exact h

/-- Independent sums. -/
lemma Spec.HasMV2.add {D E : Ex (ℝ × ℝ)} {μ1 μ2 v1 c v2 μ1' μ2' v1' c' v2' : ℝ} (h : HasMV2 D μ1 μ2 v1 c v2) (h' : HasMV2 E μ1' μ2' v1' c' v2') :
    HasMV2 (fun φ => D (fun p => E (fun q => φ (p.1 + q.1, p.2 + q.2)))) (μ1 + μ1') (μ2 + μ2') (v1 + v1') (c + c') (v2 + v2') := by
  intro A B1 B2 C1 C12 C2
  have e : ∀ p : ℝ × ℝ, E (fun q => A + B1 * (p.1 + q.1) + B2 * (p.2 + q.2) + C1 * (p.1 + q.1) ^ 2 + C12 * ((p.1 + q.1) * (p.2 + q.2)) + C2 * (p.2 + q.2) ^ 2) =
      (A + B1 * μ1' + B2 * μ2' + C1 * (v1' + μ1' ^ 2) + C12 * (c' + μ1' * μ2') + C2 * (v2' + μ2' ^ 2)) + (B1 + 2 * C1 * μ1' + C12 * μ2') * p.1 + (B2 + 2 * C2 * μ2' + C12 * μ1') * p.2
        + C1 * p.1 ^ 2 + C12 * (p.1 * p.2) + C2 * p.2 ^ 2 := fun p => by
    have h1 := h' (A + B1 * p.1 + B2 * p.2 + C1 * p.1 ^ 2 + C12 * (p.1 * p.2) + C2 * p.2 ^ 2) (B1 + 2 * C1 * p.1 + C12 * p.2) (B2 + 2 * C2 * p.2 + C12 * p.1) C1 C12 C2
    refine Eq.trans (congrArg E (funext fun q => ?_)) (h1.trans ?_) <;> ring
  simp only [e]
  rw [h]
  ring

/-- One normal variate contributing `(b z, c z + d (z² - 1))`. -/
lemma hasMV2_normal (b c d : ℝ) : HasMV2 (fun φ => Ex.normal (fun z => φ (b * z, c * z + d * (z ^ 2 - 1)))) 0 0 (b ^ 2) (b * c) (c ^ 2 + 2 * d ^ 2) := by
  intro A B1 B2 C1 C12 C2
  have h := (gaussE_poly (A - B2 * d + C2 * d ^ 2) (B1 * b + B2 * c - C12 * b * d - 2 * C2 * c * d) (B2 * d + C1 * b ^ 2 + C12 * b * c + C2 * (c ^ 2 - 2 * d ^ 2)) (C12 * b * d + 2 * C2 * c * d) (C2 * d ^ 2)).2
  refine Eq.trans (congrArg Spec.gaussE (funext fun z => ?_)) (h.trans ?_) <;> ring

lemma hasMV2_const (a b : ℝ) : HasMV2 (fun φ => φ (a, b)) a b 0 0 0 := by
  intro A B1 B2 C1 C12 C2
  ring

namespace Ousv

/-- The contribution of the sine variates. -/
lemma hasMV2_normals (b c d : ℕ → ℝ) : ∀ n, HasMV2 (fun φ => normals rngEx n (fun f => φ (∑ k ∈ Finset.range n, b k * f k, ∑ k ∈ Finset.range n, (c k * f k + d k * (f k ^ 2 - 1)))))
    0 0 (∑ k ∈ Finset.range n, b k ^ 2) (∑ k ∈ Finset.range n, b k * c k) (∑ k ∈ Finset.range n, (c k ^ 2 + 2 * d k ^ 2))
  | 0 => by
    simp only [Finset.range_zero, Finset.sum_empty]
    exact hasMV2_const 0 0
  | n + 1 => by
    have h := (hasMV2_normals b c d n).add (hasMV2_normal (b n) (c n) (d n))
    refine HasMV2.congr (D := fun φ => normals rngEx (n + 1) _) (fun A B1 B2 C1 C12 C2 => ?_) (add_zero 0) (add_zero 0) (Finset.sum_range_succ _ n).symm (Finset.sum_range_succ _ n).symm (Finset.sum_range_succ _ n).symm
    refine Eq.trans ?_ (h A B1 B2 C1 C12 C2)
    show normals rngEx n (fun f => Ex.normal (fun z => _)) = normals rngEx n (fun f => Ex.normal (fun z => _))
    refine congrArg _ (funext fun f => congrArg _ (funext fun z => ?_))
    have e1 : ∑ k ∈ Finset.range (n + 1), b k * (if k = n then z else f k) = ∑ k ∈ Finset.range n, b k * f k + b n * z := by
      rw [Finset.sum_range_succ, if_pos rfl]
      congr 1
      exact Finset.sum_congr rfl fun k hk => by rw [if_neg (Finset.mem_range.1 hk).ne]
    have e2 : ∑ k ∈ Finset.range (n + 1), (c k * (if k = n then z else f k) + d k * ((if k = n then z else f k) ^ 2 - 1)) = ∑ k ∈ Finset.range n, (c k * f k + d k * (f k ^ 2 - 1)) + (c n * z + d n * (z ^ 2 - 1)) := by
      rw [Finset.sum_range_succ, if_pos rfl]
      congr 1
      exact Finset.sum_congr rfl fun k hk => by rw [if_neg (Finset.mem_range.1 hk).ne]
    show (fun s t => A + B1 * s + B2 * t + C1 * s ^ 2 + C12 * (s * t) + C2 * t ^ 2) (∑ k ∈ Finset.range (n + 1), b k * (if k = n then z else f k))
      (∑ k ∈ Finset.range (n + 1), (c k * (if k = n then z else f k) + d k * ((if k = n then z else f k) ^ 2 - 1))) = _
    rw [e1, e2]

lemma split_a2n2 (x : ℝ) (n : ℕ) : a2n2sum x n .odd + ∑ k ∈ Finset.range n, (if Parity.odd.keep k then an2 x k / nPi k ^ 2 else 0) = a2n2sum x 0 .odd := by
  have e : ∀ ns, a2n2sum x ns .odd = a2n2All x - a2n2All (x / 2) / 2 ^ 4 - sliceSum .odd ns fun k => 2 / nPi2 k / (x ^ 2 + nPi2 k) := fun _ => rfl
  rw [e, e, sliceSum_eq, sliceSum_eq]
  have : ∀ k, an2 x k / nPi k ^ 2 = 2 / nPi2 k / (x ^ 2 + nPi2 k) := fun k => by rw [an2, nPi_sq, nPi2_pole, div_right_comm]
  simp [this]

lemma split_a4 (x : ℝ) (n : ℕ) (p : Parity) : a4sum x n p + ∑ k ∈ Finset.range n, (if p.keep k then an2 x k ^ 2 else 0) = a4sum x 0 p := by
  have : ∀ k, an2 x k ^ 2 = 4 / (x ^ 2 + nPi2 k) ^ 2 := fun k => by rw [an2, nPi_sq, nPi2_pole, div_pow]; norm_num
  unfold a4sum
  simp only [sliceSum_eq, this]
  simp

lemma split_a6n2 (x : ℝ) (n : ℕ) (p : Parity) : a6n2sum x n p + ∑ k ∈ Finset.range n, (if p.keep k then nPi k ^ 2 * an2 x k ^ 3 else 0) = a6n2sum x 0 p := by
  have : ∀ k, nPi k ^ 2 * an2 x k ^ 3 = nPi2 k * 8 / (x ^ 2 + nPi2 k) ^ 3 := fun k => by rw [an2, nPi_sq, nPi2_pole, div_pow]; norm_num; ring
  unfold a6n2sum
  simp only [sliceSum_eq, this]
  simp

lemma klA_pos (x : ℝ) {n : ℕ} (hn : 0 < n) : 0 < Spec.klA x n := by
  unfold Spec.klA
  have : (0:ℝ) < n := by exact_mod_cast hn
  have := pi_pos
  positivity

/-- A positive element of the index set of a tail. -/
lemma IsTail_pos {p : Parity} {ns : ℕ} {f : ℕ → ℝ} {s : ℝ} (h : Spec.IsTail p ns f s) (hf : ∀ n, 0 < n → 0 < f n) : 0 < s := by
  unfold Spec.IsTail at h
  have h2 : ∀ i : {n : ℕ // ns < n ∧ (p = .odd → n % 2 = 1) ∧ (p = .even → n % 2 = 0)}, 0 < f i := fun i => hf _ (by have := i.2.1; omega)
  rw [← h.tsum_eq]
  refine h.summable.tsum_pos (fun i => (h2 i).le) ⟨(match p with | .odd => 2 * ns + 1 | .even => 2 * ns + 2 | .all => ns + 1), ?_⟩ (h2 _)
  cases p <;> simp <;> omega

/-- The Cauchy-Schwarz inequality between the tails: the correlation used by the scheme lies in `[0, 1]`. -/
lemma tail_cs {x : ℝ} (hx : x ≠ 0) (ns : ℕ) : a4sum x ns .odd ^ 2 ≤ a2n2sum x ns .odd * a6n2sum x ns .odd := by
  have h4 := a4sum_correct hx ns .odd
  have h2 := a2overn2sum_correct hx ns .odd
  have h6 := a6n2sum_correct hx ns .odd
  unfold Spec.IsTail at h4 h2 h6
  -- discriminant of the nonnegative quadratic
  have hq : ∀ t : ℝ, 0 ≤ a2n2sum x ns .odd * (t * t) + (2 * a4sum x ns .odd) * t + a6n2sum x ns .odd := fun t => by
    have h := ((h2.mul_right (t * t)).add (h4.mul_left (2 * t))).add h6
    have e : a2n2sum x ns .odd * (t * t) + (2 * a4sum x ns .odd) * t + a6n2sum x ns .odd = a2n2sum x ns .odd * (t * t) + 2 * t * a4sum x ns .odd + a6n2sum x ns .odd := by ring
    rw [e]
    refine h.nonneg fun n => ?_
    have hn : 0 < (n : ℕ) := by have := n.2.1; omega
    have hn' : (0:ℝ) < (n : ℕ) * π := by have : (0:ℝ) < (n : ℕ) := by exact_mod_cast hn
                                         have := pi_pos
                                         positivity
    have : Spec.klA x n ^ 2 / ((n : ℕ) * π) ^ 2 * (t * t) + 2 * t * Spec.klA x n ^ 4 + ((n : ℕ) * π) ^ 2 * Spec.klA x n ^ 6 = (Spec.klA x n / ((n : ℕ) * π) * t + ((n : ℕ) * π) * Spec.klA x n ^ 3) ^ 2 := by
      generalize ((n : ℕ) * π : ℝ) = y at hn' ⊢
      field_simp
      ring
    simp only [this]
    positivity
  have := discrim_le_zero hq
  unfold discrim at this
  nlinarith

lemma hasMV2_shift {D : Ex (ℝ × ℝ)} {μ1 μ2 v1 c v2 : ℝ} (h : HasMV2 D μ1 μ2 v1 c v2) (θ : ℝ) :
    HasMV2 (fun φ => D (fun p => φ (p.1 + θ, p.2 + θ * (θ + 2 * p.1)))) (μ1 + θ) (μ2 + θ * (θ + 2 * μ1)) v1 (c + 2 * θ * v1) (v2 + 4 * θ * c + 4 * θ ^ 2 * v1) := by
  intro A B1 B2 C1 C12 C2
  have h1 := h (A + B1 * θ + B2 * θ ^ 2 + C1 * θ ^ 2 + C12 * θ ^ 3 + C2 * θ ^ 4) (B1 + 2 * B2 * θ + 2 * C1 * θ + 3 * C12 * θ ^ 2 + 4 * C2 * θ ^ 3) (B2 + C12 * θ + 2 * C2 * θ ^ 2) (C1 + 2 * C12 * θ + 4 * C2 * θ ^ 2)
    (C12 + 4 * C2 * θ) C2
  refine Eq.trans (congrArg D (funext fun p => ?_)) (h1.trans ?_) <;> ring

lemma clip1_id {x : ℝ} (h0 : -1 ≤ x) (h1 : x ≤ 1) : clip1 x = x := by
  unfold clip1
  rw [max_eq_left h0, min_eq_left h1]

/-- **C114.** One step of the scheme, for every number of sine terms: the terminal volatility is drawn from its exact law and, given the terminal volatility, average volatility and average variance have
exactly the conditional means of `cond_avgvolvar_m`, and variances and covariance given by the full (infinite) sine series: they do not depend on `n_sin`. -/
theorem kl_step_moments (m : Ousv) (hm : m.mr ≠ 0) {dt : ℝ} (hdt : 0 < dt) (n : ℕ) (vol0 : ℝ) (nz : Bool) {g c p q r : ℝ}
    (hg : Spec.IsTail .odd 0 (fun n => Spec.klA (m.mr * dt) n ^ 2 / (n * π) ^ 2) g) (hc : Spec.IsTail .odd 0 (fun n => Spec.klA (m.mr * dt) n ^ 4) c)
    (hp : Spec.IsTail .odd 0 (fun n => (n * π) ^ 2 * Spec.klA (m.mr * dt) n ^ 6) p) (hq : Spec.IsTail .even 0 (fun n => (n * π) ^ 2 * Spec.klA (m.mr * dt) n ^ 6) q)
    (hr : Spec.IsTail .all 0 (fun n => Spec.klA (m.mr * dt) n ^ 4) r) :
    ∃ K : ℝ → Ex (ℝ × ℝ),
      (∀ φ, m.stepKl rngEx n dt vol0 nz φ = Ex.normal fun z => let vT := m.volStep dt vol0 z nz; K vT (fun a => φ (vT, a.2, a.1))) ∧
      ∀ vT, let a := m.condAvgvolvarM dt vol0 vT nz
        let θ := Spec.thetaOf m nz
        let s := (vol0 - θ) + (vT - θ)
        HasMV2 (K vT) a.1 a.2 (m.vov ^ 2 * dt * (4 * g)) (m.vov ^ 2 * dt * (2 * s * c + 8 * θ * g))
          (m.vov ^ 2 * dt * (s ^ 2 * p + (vol0 - vT) ^ 2 * q + m.vov ^ 2 * dt / 2 * r + 8 * θ * s * c + 16 * θ ^ 2 * g)) := by
  have hx : m.mr * dt ≠ 0 := mul_ne_zero hm hdt.ne'
  set x := m.mr * dt with hxd
  have eg : g = a2n2sum x 0 .odd := hg.unique (a2overn2sum_correct hx 0 .odd)
  have ec : c = a4sum x 0 .odd := hc.unique (a4sum_correct hx 0 .odd)
  have ep : p = a6n2sum x 0 .odd := hp.unique (a6n2sum_correct hx 0 .odd)
  have eq : q = a6n2sum x 0 .even := hq.unique (a6n2sum_correct hx 0 .even)
  have er : r = a4sum x 0 .all := hr.unique (a4sum_correct hx 0 .all)
  have pos : ∀ k : ℕ, 0 < k → (0:ℝ) < (k * π) ^ 2 := fun k hk => pow_pos (mul_pos (by exact_mod_cast hk) pi_pos) 2
  have hG : 0 < a2n2sum x n .odd := IsTail_pos (a2overn2sum_correct hx n .odd) fun k hk => div_pos (pow_pos (klA_pos x hk) 2) (pos k hk)
  have hP : 0 < a6n2sum x n .odd := IsTail_pos (a6n2sum_correct hx n .odd) fun k hk => mul_pos (pos k hk) (pow_pos (klA_pos x hk) 6)
  have hQ : 0 < a6n2sum x n .even := IsTail_pos (a6n2sum_correct hx n .even) fun k hk => mul_pos (pos k hk) (pow_pos (klA_pos x hk) 6)
  have hC : 0 < a4sum x n .odd := IsTail_pos (a4sum_correct hx n .odd) fun k hk => pow_pos (klA_pos x hk) 4
  have hR : 0 < a4sum x n .all := IsTail_pos (a4sum_correct hx n .all) fun k hk => pow_pos (klA_pos x hk) 4
  set gS := √(a2n2sum x n .odd) with hgS
  set pS := √(a6n2sum x n .odd) with hpS
  set qS := √(a6n2sum x n .even) with hqS
  set rS := √(a4sum x n .all) with hrS
  have hg2 : gS ^ 2 = a2n2sum x n .odd := sq_sqrt hG.le
  have hp2 : pS ^ 2 = a6n2sum x n .odd := sq_sqrt hP.le
  have hq2 : qS ^ 2 = a6n2sum x n .even := sq_sqrt hQ.le
  have hr2 : rS ^ 2 = a4sum x n .all := sq_sqrt hR.le
  have hgp : 0 < gS * pS := mul_pos (sqrt_pos.2 hG) (sqrt_pos.2 hP)
  have hle : a4sum x n .odd / (gS * pS) ≤ 1 := by
    rw [div_le_one hgp]
    refine abs_le_of_sq_le_sq' ?_ hgp.le |>.2
    rw [mul_pow, hg2, hp2]
    exact tail_cs hx n
  have hclip : clip1 (a4sum x n .odd / (gS * pS)) = a4sum x n .odd / (gS * pS) := clip1_id (le_trans (by norm_num) (div_nonneg hC.le hgp.le)) hle
  set co := a4sum x n .odd / (gS * pS) with hco
  have hco' : co * (gS * pS) = a4sum x n .odd := div_mul_cancel₀ _ hgp.ne'
  have hco0 : 0 ≤ co := by positivity
  have hs2 : √(1.0 - co ^ 2) ^ 2 = 1 - co ^ 2 := by
    rw [sq_sqrt (by norm_num; exact abs_le.2 ⟨by linarith, hle⟩)]
    norm_num
  obtain ⟨sq1, hsq1⟩ : ∃ y, y = √(1.0 - co ^ 2) := ⟨_, rfl⟩
  rw [← hsq1] at hs2
  set vn := m.vov * √dt with hvn
  have hvn2 : vn ^ 2 = m.vov ^ 2 * dt := by rw [hvn, mul_pow, sq_sqrt hdt.le]
  set θ := Spec.thetaOf m nz with hθ
  refine ⟨fun vT φ => normals rngEx n fun f => Ex.normal fun zg => Ex.normal fun zp => Ex.normal fun zq => Ex.normal fun zr =>
    let r := m.klAssemble dt (vol0 - θ) (vT - θ) n f ((co * zp + sq1 * zg) * gS) (zp * pS) (zq * qS) (rS * (zr ^ 2 - 1)); φ (r.2.2 + θ, r.2.1 + θ * (θ + 2 * r.2.2)), fun φ => ?_, fun vT => ?_⟩
  · show Ex.normal (fun zn => normals rngEx n fun f => Ex.normal fun zg => Ex.normal fun zp => Ex.normal fun zq => Ex.normal fun zr => φ _) = _
    refine congrArg _ (funext fun z => ?_)
    refine congrArg _ (funext fun f => congrArg _ (funext fun zg => congrArg _ (funext fun zp => congrArg _ (funext fun zq => congrArg _ (funext fun zr => ?_)))))
    cases nz
    · have hθ0 : θ = 0 := rfl
      show φ (if false then _ else _) = φ (_, _, _)
      simp only [Bool.false_eq_true, if_false, ← hxd, ← hgS, ← hpS, ← hqS, ← hrS, ← hco, hclip, ← hsq1, hθ0, sub_zero, add_zero, zero_mul]
      rfl
    · have hθ0 : θ = m.theta := rfl
      show φ (if true then _ else _) = φ (_, _, _)
      simp only [if_true, ← hxd, ← hgS, ← hpS, ← hqS, ← hrS, ← hco, hclip, ← hsq1, hθ0]
      have e : m.volStep dt vol0 z true - m.theta = m.volStep dt (vol0 - m.theta) z false := by simp [volStep]
      rw [e]
      have e2 : m.volStep dt vol0 z true = m.volStep dt (vol0 - m.theta) z false + m.theta := by rw [← e]; ring
      rw [e2]
      rfl
  · intro a θ' s
    set v0 := vol0 - θ with hv0
    set w := vT - θ with hw
    have hs : s = v0 + w := rfl
    have hsh := cond_shift m dt vol0 vT nz
    rw [← hθ, ← hv0, ← hw] at hsh
    set b := m.condAvgvolvarM dt v0 w false with hb
    have ha1 : a.1 = b.1 + θ := congrArg Prod.fst hsh
    have ha2 : a.2 = b.2 + θ * (θ + 2 * b.1) := congrArg Prod.snd hsh
    have H := hasMV2_shift (((((((hasMV2_const b.1 b.2).add (hasMV2_normals (fun k => if Parity.odd.keep k then 2 * vn * (an x k / nPi k) else 0)
      (fun k => if Parity.odd.keep k then vn * (v0 + w) * (an2 x k * an x k * nPi k) else vn * (v0 - w) * (an2 x k * an x k * nPi k)) (fun k => vn ^ 2 / 2 * an2 x k) n)).add
      (hasMV2_normal (2 * vn * sq1 * gS) 0 0)).add (hasMV2_normal (2 * vn * co * gS) (vn * (v0 + w) * pS) 0)).add (hasMV2_normal 0 (vn * (v0 - w) * qS) 0)).add
      (hasMV2_normal 0 0 (vn ^ 2 / 2 * rS)))) θ
    have s1 : ∑ k ∈ Finset.range n, (if Parity.odd.keep k then 2 * vn * (an x k / nPi k) else 0) ^ 2 = 4 * vn ^ 2 * (g - gS ^ 2) := by
      rw [eg, hg2, ← split_a2n2 x n, add_sub_cancel_left, Finset.mul_sum]
      refine Finset.sum_congr rfl fun k _ => ?_
      split_ifs
      · rw [← an_sq]; ring
      · ring
    have s2 : ∑ k ∈ Finset.range n, (if Parity.odd.keep k then 2 * vn * (an x k / nPi k) else 0) * (if Parity.odd.keep k then vn * (v0 + w) * (an2 x k * an x k * nPi k) else vn * (v0 - w) * (an2 x k * an x k * nPi k)) =
        2 * vn ^ 2 * (v0 + w) * (c - co * (gS * pS)) := by
      rw [ec, hco', ← split_a4 x n .odd, add_sub_cancel_left, Finset.mul_sum]
      refine Finset.sum_congr rfl fun k _ => ?_
      split_ifs
      · rw [← an_sq]
        have := (nPi_pos k).ne'
        field_simp
      · ring
    have s3 : ∑ k ∈ Finset.range n, ((if Parity.odd.keep k then vn * (v0 + w) * (an2 x k * an x k * nPi k) else vn * (v0 - w) * (an2 x k * an x k * nPi k)) ^ 2 + 2 * (vn ^ 2 / 2 * an2 x k) ^ 2) =
        vn ^ 2 * ((v0 + w) ^ 2 * (p - pS ^ 2) + (v0 - w) ^ 2 * (q - qS ^ 2) + vn ^ 2 / 2 * (r - rS ^ 2)) := by
      rw [ep, eq, er, hp2, hq2, hr2, ← split_a6n2 x n .odd, ← split_a6n2 x n .even, ← split_a4 x n .all, add_sub_cancel_left, add_sub_cancel_left, add_sub_cancel_left, Finset.mul_sum, Finset.mul_sum, Finset.mul_sum,
        ← Finset.sum_add_distrib, ← Finset.sum_add_distrib, Finset.mul_sum]
      refine Finset.sum_congr rfl fun k _ => ?_
      rcases keep_odd_even k with ⟨h1, h2, -⟩ | ⟨h1, h2, -⟩
      · rw [h1, h2, ← an_sq]
        simp only [if_true, Bool.false_eq_true, if_false, Parity.keep]
        ring
      · rw [h1, h2, ← an_sq]
        simp only [if_true, Bool.false_eq_true, if_false, Parity.keep]
        ring
    refine HasMV2.congr (fun A B1 B2 C1 C12 C2 => Eq.trans ?_ (H A B1 B2 C1 C12 C2)) ?_ ?_ ?_ ?_ ?_
    · show normals rngEx n _ = normals rngEx n _
      refine congrArg _ (funext fun f => congrArg _ (funext fun zg => congrArg _ (funext fun zp => congrArg _ (funext fun zq => congrArg _ (funext fun zr => ?_)))))
      have k1 : (m.klAssemble dt v0 w n f ((co * zp + sq1 * zg) * gS) (zp * pS) (zq * qS) (rS * (zr ^ 2 - 1))).2.2 =
          b.1 + (∑ k ∈ Finset.range n, (if Parity.odd.keep k then 2 * vn * (an x k / nPi k) else 0) * f k) + 2 * vn * sq1 * gS * zg + 2 * vn * co * gS * zp + 0 * zq + 0 * zr := by
        show b.1 + 2 * vn * ((co * zp + sq1 * zg) * gS + sliceSum .odd n _) = _
        rw [sliceSum_eq, mul_add, Finset.mul_sum]
        have : ∀ k, 2 * vn * (if Parity.odd.keep k then an (m.mr * dt) k / nPi k * f k else 0) = (if Parity.odd.keep k then 2 * vn * (an x k / nPi k) else 0) * f k := fun k => by split_ifs <;> ring
        simp only [this]
        ring
      have k2 : (m.klAssemble dt v0 w n f ((co * zp + sq1 * zg) * gS) (zp * pS) (zq * qS) (rS * (zr ^ 2 - 1))).2.1 =
          b.2 + (∑ k ∈ Finset.range n, ((if Parity.odd.keep k then vn * (v0 + w) * (an2 x k * an x k * nPi k) else vn * (v0 - w) * (an2 x k * an x k * nPi k)) * f k + vn ^ 2 / 2 * an2 x k * (f k ^ 2 - 1)))
            + (0 * zg + 0 * (zg ^ 2 - 1)) + (vn * (v0 + w) * pS * zp + 0 * (zp ^ 2 - 1)) + (vn * (v0 - w) * qS * zq + 0 * (zq ^ 2 - 1)) + (0 * zr + vn ^ 2 / 2 * rS * (zr ^ 2 - 1)) := by
        show b.2 + vn * ((v0 * ((zp * pS + sliceSum .odd n _) + (zq * qS + sliceSum .even n _)) + w * ((zp * pS + sliceSum .odd n _) - (zq * qS + sliceSum .even n _))) + 0.5 * vn * (rS * (zr ^ 2 - 1) + sliceSum .all n _)) = _
        rw [sliceSum_eq, sliceSum_eq, sliceSum_eq]
        have : ∑ k ∈ Finset.range n, ((if Parity.odd.keep k then vn * (v0 + w) * (an2 x k * an x k * nPi k) else vn * (v0 - w) * (an2 x k * an x k * nPi k)) * f k + vn ^ 2 / 2 * an2 x k * (f k ^ 2 - 1)) =
            vn * (v0 + w) * (∑ k ∈ Finset.range n, if Parity.odd.keep k then an2 x k * an x k * nPi k * f k else 0) + vn * (v0 - w) * (∑ k ∈ Finset.range n, if Parity.even.keep k then an2 x k * an x k * nPi k * f k else 0)
              + vn ^ 2 / 2 * (∑ k ∈ Finset.range n, if Parity.all.keep k then an2 x k * (f k ^ 2 - 1) else 0) := by
          rw [Finset.mul_sum, Finset.mul_sum, Finset.mul_sum, ← Finset.sum_add_distrib, ← Finset.sum_add_distrib]
          refine Finset.sum_congr rfl fun k _ => ?_
          rcases keep_odd_even k with ⟨h1, h2, -⟩ | ⟨h1, h2, -⟩
          · rw [h1, h2]
            simp only [if_true, Bool.false_eq_true, if_false, Parity.keep]
            ring
          · rw [h1, h2]
            simp only [if_true, Bool.false_eq_true, if_false, Parity.keep]
            ring
        rw [this, show (0.5:ℝ) = 1 / 2 by norm_num]
        ring
      simp only [← hw, k1, k2]
    · rw [ha1]; ring
    · rw [ha2]; ring
    · rw [s1, ← hvn2]
      linear_combination (4 * vn ^ 2 * gS ^ 2) * hs2
    · rw [s1, s2, ← hvn2, hs, show θ' = θ from rfl]
      linear_combination (8 * θ * vn ^ 2 * gS ^ 2) * hs2
    · rw [s1, s2, s3, ← hvn2, hs, show θ' = θ from rfl, show vol0 - vT = v0 - w by rw [hv0, hw]; ring]
      linear_combination (16 * θ ^ 2 * vn ^ 2 * gS ^ 2) * hs2

lemma normals_exp (b : ℕ → ℝ) : ∀ (n : ℕ) (c : ℝ), normals rngEx n (fun f => exp (c + ∑ k ∈ Finset.range n, b k * f k)) = exp (c + 1 / 2 * ∑ k ∈ Finset.range n, b k ^ 2)
  | 0, c => by
    simp only [Finset.range_zero, Finset.sum_empty, mul_zero]
    rfl
  | n + 1, c => by
    show normals rngEx n (fun f => Ex.normal fun z => exp (c + ∑ k ∈ Finset.range (n + 1), b k * (if k = n then z else f k))) = _
    have e : ∀ f : ℕ → ℝ, (Ex.normal fun z => exp (c + ∑ k ∈ Finset.range (n + 1), b k * (if k = n then z else f k))) = exp ((c + 1 / 2 * b n ^ 2) + ∑ k ∈ Finset.range n, b k * f k) := fun f => by
      have h := gaussE_exp_lin (b n) (c + ∑ k ∈ Finset.range n, b k * f k)
      refine Eq.trans (congrArg Spec.gaussE (funext fun z => ?_)) (h.trans ?_)
      · rw [Finset.sum_range_succ, if_pos rfl]
        have : ∑ k ∈ Finset.range n, b k * (if k = n then z else f k) = ∑ k ∈ Finset.range n, b k * f k := Finset.sum_congr rfl fun k hk => by rw [if_neg (Finset.mem_range.1 hk).ne]
        rw [this]
        congr 1
        ring
      · congr 1
        ring
    simp only [e]
    rw [normals_exp b n, Finset.sum_range_succ]
    congr 1
    ring

section
variable {Ω : Type*} {mΩ : MeasurableSpace Ω} {P : Measure Ω} {W X : ℝ≥0 → Ω → ℝ}

/-- The exact transform of the terminal volatility and the average volatility. -/
lemma exact_mgf {κ θ ξ x0 : ℝ} (hκ : κ ≠ 0) (h : Spec.IsOU P W X κ θ ξ x0) {T : ℝ≥0} (hT : 0 < T) (α β : ℝ) :
    ∫ ω, exp (α * X T ω + β * (1 / T * ∫ t in (0:ℝ)..T, X t.toNNReal ω)) ∂P =
      exp ((α - β / (κ * T)) * (θ + (x0 - θ) * exp (-(κ * T))) + β / (κ * T) * (x0 + κ * θ * T) +
        1 / 2 * ξ ^ 2 * ((α - β / (κ * T)) ^ 2 * ((1 - exp (-(κ * T)) ^ 2) / (2 * κ)) + 2 * (α - β / (κ * T)) * (β / (κ * T)) * ((1 - exp (-(κ * T))) / κ) + (β / (κ * T)) ^ 2 * T)) := by
  have hT' : (0:ℝ) < T := by exact_mod_cast hT
  haveI := isProb h
  have hW := h.bm
  set γ := α - β / (κ * T) with hγ
  set δ := β / (κ * T) with hδ
  set Y : Ω → ℝ := fun ω => ξ * γ * Ou.zed W κ T ω + ξ * δ * W T ω with hY
  obtain ⟨hYm, v, hv⟩ := (((Ou.lim_zed hW κ T).smul (ξ * γ)).add ((Ou.Lim.of T).smul (ξ * δ))).gauss hW.law.isGaussianProcess hW.law.integral_eval
  have i1 : Integrable (fun ω => Ou.zed W κ T ω * Ou.zed W κ T ω) P := (Ou.memLp_zed hW κ T).integrable_mul (Ou.memLp_zed hW κ T)
  have i2 : Integrable (fun ω => W T ω * Ou.zed W κ T ω) P := (Ou.memLp_W hW T).integrable_mul (Ou.memLp_zed hW κ T)
  have i3 : Integrable (fun ω => W T ω * W T ω) P := (Ou.memLp_W hW T).integrable_mul (Ou.memLp_W hW T)
  have hsec : ∫ ω, Y ω ^ 2 ∂P = ξ ^ 2 * (γ ^ 2 * ((1 - exp (-(κ * T)) ^ 2) / (2 * κ)) + 2 * γ * δ * ((1 - exp (-(κ * T))) / κ) + δ ^ 2 * T) := by
    have e : ∀ ω, Y ω ^ 2 = (ξ * γ) ^ 2 * (Ou.zed W κ T ω * Ou.zed W κ T ω) + 2 * (ξ * γ) * (ξ * δ) * (W T ω * Ou.zed W κ T ω) + (ξ * δ) ^ 2 * (W T ω * W T ω) := fun ω => by rw [hY]; ring
    simp_rw [e]
    rw [integral_add (f := fun ω => (ξ * γ) ^ 2 * (Ou.zed W κ T ω * Ou.zed W κ T ω) + 2 * (ξ * γ) * (ξ * δ) * (W T ω * Ou.zed W κ T ω)) ((i1.const_mul _).add (i2.const_mul _)) (i3.const_mul _),
      integral_add (i1.const_mul _) (i2.const_mul _), integral_const_mul, integral_const_mul, integral_const_mul, Ou.zed_mul hW hκ le_rfl, Ou.W_zed hW hκ le_rfl, Ou.W_mul hW, min_self]
    have e1 : exp (-(κ * (T - T : ℝ))) = 1 := by simp
    have e2 : exp (-(κ * (T + T : ℝ))) = exp (-(κ * T)) ^ 2 := by rw [← exp_nat_mul]; congr 1; push_cast; ring
    have e3 : exp (-(κ * T)) * (exp (κ * T) - 1) = 1 - exp (-(κ * T)) := by rw [mul_sub, ← exp_add]; simp
    rw [e1, e2, e3]
    ring
  have hv2 : (v : ℝ) = ∫ ω, Y ω ^ 2 ∂P := by
    have h1 := integral_map (μ := P) (f := fun x : ℝ => x ^ 2) hYm (by fun_prop)
    rw [← h1, hv]
    have h2 := variance_eq_sub (μ := gaussianReal 0 v) (X := fun x : ℝ => x) (memLp_id_gaussianReal 2)
    have h3 : Var[fun x : ℝ => x; gaussianReal 0 v] = v := variance_fun_id_gaussianReal
    rw [h3, integral_id_gaussianReal] at h2
    simpa using h2
  have hmgf : ∫ ω, exp (Y ω) ∂P = exp (v / 2) := by
    have h1 := integral_map (μ := P) (f := fun x : ℝ => exp x) hYm (by fun_prop)
    rw [← h1, hv]
    have h2 := congrFun (mgf_fun_id_gaussianReal (μ := 0) (v := v)) 1
    simp only [mgf, one_mul] at h2
    rw [h2]
    congr 1
    ring
  have e : ∀ ω, exp (α * X T ω + β * (1 / T * ∫ t in (0:ℝ)..T, X t.toNNReal ω)) = exp (γ * (θ + (x0 - θ) * exp (-(κ * T))) + δ * (x0 + κ * θ * T)) * exp (Y ω) := fun ω => by
    have h1 := h.sde ω T
    have hc : Continuous fun t : ℝ => X t.toNNReal ω := (h.cont ω).comp continuous_real_toNNReal
    rw [intervalIntegral.integral_const_mul, intervalIntegral.integral_sub (by simp) (hc.intervalIntegrable _ _), intervalIntegral.integral_const] at h1
    have h2 := h.eq T ω
    rw [← exp_add]
    congr 1
    set I := ∫ t in (0:ℝ)..T, X t.toNNReal ω
    have h3 : I = (x0 + κ * θ * T + ξ * W T ω - X T ω) / κ := by
      rw [eq_div_iff hκ]
      simp only [sub_zero, smul_eq_mul] at h1
      linarith
    rw [h3, hY, h2, hγ, hδ]
    field_simp
    ring
  simp_rw [e]
  rw [integral_const_mul, hmgf, ← exp_add, hv2, hsec]
  congr 1
  ring

/-- **C114.** The terminal volatility and the average volatility of one step have exactly the joint law of the volatility process and its time average, for every number of sine terms: the joint
transforms agree. -/
theorem kl_avgvol_law (m : Ousv) (hm : m.mr ≠ 0) (nz : Bool) {x0 : ℝ} (h : Spec.IsOU P W X m.mr (Spec.thetaOf m nz) m.vov x0) {T : ℝ≥0} (hT : 0 < T) (n : ℕ) (α β : ℝ) :
    m.stepKl rngEx n T x0 nz (fun r => exp (α * r.1 + β * r.2.2)) = ∫ ω, exp (α * X T ω + β * (1 / T * ∫ t in (0:ℝ)..T, X t.toNNReal ω)) ∂P := by
  have hT' : (0:ℝ) < T := by exact_mod_cast hT
  rw [exact_mgf hm h hT]
  set x := m.mr * (T:ℝ) with hxd
  have hx : x ≠ 0 := mul_ne_zero hm hT'.ne'
  set θ := Spec.thetaOf m nz with hθ
  obtain ⟨co, hco⟩ : ∃ c, c = clip1 (a4sum x n .odd / (√(a2n2sum x n .odd) * √(a6n2sum x n .odd))) := ⟨_, rfl⟩
  have hco1 : co ^ 2 ≤ 1 := by
    have h1 : co ≤ 1 := by rw [hco]; exact min_le_right _ _
    have h2 : -1 ≤ co := by rw [hco]; exact le_min (le_max_right _ _) (by norm_num)
    nlinarith
  obtain ⟨sq1, hsq1⟩ : ∃ y, y = √(1.0 - co ^ 2) := ⟨_, rfl⟩
  have hs2 : sq1 ^ 2 = 1 - co ^ 2 := by rw [hsq1, sq_sqrt (by norm_num; exact abs_le_of_sq_le_sq' (by simpa using hco1) zero_le_one |> abs_le.2)]; norm_num
  have hG : 0 < a2n2sum x n .odd := IsTail_pos (a2overn2sum_correct hx n .odd) fun k hk => div_pos (pow_pos (klA_pos x hk) 2) (pow_pos (mul_pos (by exact_mod_cast hk) pi_pos) 2)
  obtain ⟨gS, hgS⟩ : ∃ y, y = √(a2n2sum x n .odd) := ⟨_, rfl⟩
  have hg2 : gS ^ 2 = a2n2sum x n .odd := by rw [hgS]; exact sq_sqrt hG.le
  set vn := m.vov * √(T:ℝ) with hvn
  have hvn2 : vn ^ 2 = m.vov ^ 2 * T := by rw [hvn, mul_pow, sq_sqrt hT'.le]
  -- the step, relative to theta
  have hstep : m.stepKl rngEx n T x0 nz (fun r => exp (α * r.1 + β * r.2.2)) = Ex.normal fun z => normals rngEx n fun f => Ex.normal fun zg => Ex.normal fun zp => Ex.normal fun _ => Ex.normal fun _ =>
      exp (α * (m.volStep T (x0 - θ) z false + θ) + β * ((m.condAvgvolvarM T (x0 - θ) (m.volStep T (x0 - θ) z false) false).1 + 2 * vn * ((co * zp + sq1 * zg) * gS + sliceSum .odd n fun k => an x k / nPi k * f k) + θ)) := by
    show Ex.normal (fun zn => normals rngEx n fun f => Ex.normal fun zg => Ex.normal fun zp => Ex.normal fun zq => Ex.normal fun zr => _) = _
    refine congrArg _ (funext fun z => ?_)
    refine congrArg _ (funext fun f => congrArg _ (funext fun zg => congrArg _ (funext fun zp => congrArg _ (funext fun zq => congrArg _ (funext fun zr => ?_)))))
    cases nz
    · have hθ0 : θ = 0 := rfl
      rw [hsq1, hco, hgS]
      simp only [hθ0, sub_zero, add_zero]
      rfl
    · rw [hsq1, hco, hgS]
      rfl
  rw [hstep]
  have c1 : ∀ c : ℝ, (Ex.normal fun _ => c) = c := fun c => by
    have := (gaussE_poly c 0 0 0 0).2
    simp only [zero_mul, add_zero, mul_zero] at this
    exact this
  simp only [c1]
  have hE : ∀ a b : ℝ, (Ex.normal fun z => exp (a * z + b)) = exp (a ^ 2 / 2 + b) := gaussE_exp_lin
  -- integrate out the tail variables and the sine variates
  have h1 : ∀ z, (normals rngEx n fun f => Ex.normal fun zg => Ex.normal fun zp =>
      exp (α * (m.volStep T (x0 - θ) z false + θ) + β * ((m.condAvgvolvarM T (x0 - θ) (m.volStep T (x0 - θ) z false) false).1 + 2 * vn * ((co * zp + sq1 * zg) * gS + sliceSum .odd n fun k => an x k / nPi k * f k) + θ))) =
      exp (α * (m.volStep T (x0 - θ) z false + θ) + β * ((m.condAvgvolvarM T (x0 - θ) (m.volStep T (x0 - θ) z false) false).1 + θ) + 2 * β ^ 2 * vn ^ 2 * a2n2sum x 0 .odd) := fun z => by
    set A := α * (m.volStep T (x0 - θ) z false + θ) + β * ((m.condAvgvolvarM T (x0 - θ) (m.volStep T (x0 - θ) z false) false).1 + θ) with hA
    have e1 : ∀ f : ℕ → ℝ, (Ex.normal fun zg => Ex.normal fun zp => exp (α * (m.volStep T (x0 - θ) z false + θ) + β * ((m.condAvgvolvarM T (x0 - θ) (m.volStep T (x0 - θ) z false) false).1 + 2 * vn * ((co * zp + sq1 * zg) * gS + sliceSum .odd n fun k => an x k / nPi k * f k) + θ))) =
        exp ((A + 2 * β ^ 2 * vn ^ 2 * gS ^ 2) + ∑ k ∈ Finset.range n, (if Parity.odd.keep k then 2 * β * vn * (an x k / nPi k) else 0) * f k) := fun f => by
      have e2 : ∑ k ∈ Finset.range n, (if Parity.odd.keep k then 2 * β * vn * (an x k / nPi k) else 0) * f k = 2 * β * vn * sliceSum .odd n fun k => an x k / nPi k * f k := by
        rw [sliceSum_eq, Finset.mul_sum]
        exact Finset.sum_congr rfl fun k _ => by split_ifs <;> ring
      rw [e2]
      set S := sliceSum .odd n fun k => an x k / nPi k * f k
      have e3 : ∀ zg zp, α * (m.volStep T (x0 - θ) z false + θ) + β * ((m.condAvgvolvarM T (x0 - θ) (m.volStep T (x0 - θ) z false) false).1 + 2 * vn * ((co * zp + sq1 * zg) * gS + S) + θ) =
        (2 * β * vn * co * gS) * zp + ((2 * β * vn * sq1 * gS) * zg + (A + 2 * β * vn * S)) := fun zg zp => by rw [hA]; ring
      simp only [e3, hE]
      have e4 : ∀ zg, (2 * β * vn * co * gS) ^ 2 / 2 + ((2 * β * vn * sq1 * gS) * zg + (A + 2 * β * vn * S)) = (2 * β * vn * sq1 * gS) * zg + ((2 * β * vn * co * gS) ^ 2 / 2 + (A + 2 * β * vn * S)) := fun zg => by ring
      simp only [e4, hE]
      congr 1
      linear_combination (2 * β ^ 2 * vn ^ 2 * gS ^ 2) * hs2
    simp only [e1]
    rw [normals_exp]
    congr 1
    have s1 : ∑ k ∈ Finset.range n, (if Parity.odd.keep k then 2 * β * vn * (an x k / nPi k) else 0) ^ 2 = 4 * β ^ 2 * vn ^ 2 * (a2n2sum x 0 .odd - gS ^ 2) := by
      rw [hg2, ← split_a2n2 x n, add_sub_cancel_left, Finset.mul_sum]
      refine Finset.sum_congr rfl fun k _ => ?_
      split_ifs
      · rw [← an_sq]; ring
      · ring
    rw [s1]
    ring
  simp only [h1]
  -- integrate out the terminal volatility
  obtain ⟨e, he⟩ : ∃ e, e = exp (-x) := ⟨_, rfl⟩
  have he0 : 0 < e := by rw [he]; exact exp_pos _
  have he1 : 1 - e ≠ 0 := by
    rw [he, sub_ne_zero, Ne, eq_comm, exp_eq_one_iff]
    exact neg_ne_zero.2 hx
  have he2 : 1 + e ≠ 0 := by positivity
  obtain ⟨sT, hsT⟩ : ∃ y, y = √((1 - e ^ 2) / (2 * m.mr)) := ⟨_, rfl⟩
  have hsT2 : sT ^ 2 = (1 - e ^ 2) / (2 * m.mr) := by
    rw [hsT]
    refine sq_sqrt ?_
    rcases lt_or_gt_of_ne hm with h | h
    · have : 1 < e := by rw [he]; exact one_lt_exp_iff.2 (by rw [hxd]; nlinarith)
      exact div_nonneg_of_nonpos (by nlinarith) (by linarith)
    · have : e < 1 := by rw [he]; exact exp_lt_one_iff.2 (by rw [hxd]; nlinarith)
      exact div_nonneg (by nlinarith) (by linarith)
  have hvT : ∀ z, m.volStep T (x0 - θ) z false = (x0 - θ) * e + m.vov * sT * z := fun z => by
    unfold volStep
    simp only [Bool.false_eq_true, if_false]
    rw [hsT, he, hxd, neg_mul]
  have hU : ∀ w, (m.condAvgvolvarM T (x0 - θ) w false).1 = ((x0 - θ) + (w - (x0 - θ) * e) / (1 + e)) * ((1 - e) / x) := fun w => by
    show (_ + (w - _ * exp (-(m.mr * (T:ℝ)))) / (1 + exp (-(m.mr * (T:ℝ))))) * exprel (-(m.mr * (T:ℝ))) = _
    rw [← hxd, exprel_neg' hx, ← he]
    simp only [Bool.false_eq_true, if_false]
  have e5 : ∀ z, α * (m.volStep T (x0 - θ) z false + θ) + β * ((m.condAvgvolvarM T (x0 - θ) (m.volStep T (x0 - θ) z false) false).1 + θ) + 2 * β ^ 2 * vn ^ 2 * a2n2sum x 0 .odd =
      (m.vov * sT * (α + β * ((1 - e) / (x * (1 + e))))) * z + (α * ((x0 - θ) * e + θ) + β * ((x0 - θ) * ((1 - e) / x) + θ) + 2 * β ^ 2 * vn ^ 2 * a2n2sum x 0 .odd) := fun z => by
    rw [hU, hvT]
    field_simp
    ring
  simp only [e5, hE]
  congr 1
  have hg : a2n2sum x 0 .odd = (1 / 3 - (x * ((1 + e ^ 2) / (1 - e ^ 2)) - 1) / x ^ 2) / x ^ 2 - (1 / 3 - (x / 2 * ((1 + e) / (1 - e)) - 1) / (x / 2) ^ 2) / (x / 2) ^ 2 / 2 ^ 4 := by
    have e0 : a2n2sum x 0 .odd = a2n2All x - a2n2All (x / 2) / 2 ^ 4 := by simp [a2n2sum, sliceSum]
    have t1 : ∀ y : ℝ, y ≠ 0 → y / tanh y = y * ((1 + exp (-y) ^ 2) / (1 - exp (-y) ^ 2)) := fun y hy => by
      have a1 : exp (-y) * exp y = 1 := by rw [← exp_add]; simp
      have a2 : 1 - exp (-y) ^ 2 ≠ 0 := by
        rw [← exp_nat_mul, sub_ne_zero, Ne, eq_comm, exp_eq_one_iff]
        push_cast
        simpa using hy
      rw [tanh_eq_sinh_div_cosh, cosh_eq, sinh_eq, eq_div_of_mul_eq (exp_pos (-y)).ne' (show exp y * exp (-y) = 1 by rw [mul_comm]; exact a1)]
      have a3 : exp (-y) ≠ 0 := (exp_pos _).ne'
      field_simp
    rw [e0]
    unfold a2n2All
    rw [t1 x hx, t1 (x / 2) (by positivity), ← he, show exp (-(x / 2)) ^ 2 = e by rw [he, ← exp_nat_mul]; congr 1; push_cast; ring]
  rw [hg, hvn2]
  have hT0 := hT'.ne'
  have hxT : (T:ℝ) = x / m.mr := by rw [hxd]; field_simp
  rw [mul_pow, mul_pow, hsT2, hxT, ← he]
  have he3 : 1 - e ^ 2 = (1 - e) * (1 + e) := by ring
  rw [he3]
  clear_value x θ
  field_simp
  ring

end

/-- The tower property: averaging the conditional averages over the exact terminal law gives the unconditional averages. -/
lemma cond_tower (m : Ousv) (hm : m.mr ≠ 0) {dt : ℝ} (hdt : 0 < dt) (vol0 : ℝ) (nz : Bool) (A B C : ℝ) :
    (Ex.normal fun z => let a := m.condAvgvolvarM dt vol0 (m.volStep dt vol0 z nz) nz; A + B * a.1 + C * a.2) = A + B * m.avgvolM dt (some vol0) nz + C * m.avgvarM dt (some vol0) nz := by
  obtain ⟨Ω, mΩ, P, W, hB⟩ := Spec.exists_isBM
  have h := Ou.isOU hB m.mr (Spec.thetaOf m nz) m.vov vol0
  set X : ℝ≥0 → Ω → ℝ := fun t ω => Spec.thetaOf m nz + (vol0 - Spec.thetaOf m nz) * exp (-(m.mr * t)) + m.vov * Ou.zed W m.mr t ω with hX
  clear_value X
  haveI := isProb h
  obtain ⟨T, rfl⟩ : ∃ T : ℝ≥0, dt = T := ⟨dt.toNNReal, (coe_toNNReal _ hdt.le).symm⟩
  have hT : 0 < T := by exact_mod_cast hdt
  obtain ⟨ζ, hζm, hζ, -, hstep⟩ := vol_step_exact m nz hm h 0 hT
  have h0 : ∀ᵐ ω ∂P, X T ω = m.volStep T vol0 (ζ ω) nz := by
    filter_upwards [hB.law.eval_zero_ae_eq_zero] with ω hω
    have h2 := h.sde ω 0
    simp only [NNReal.coe_zero, intervalIntegral.integral_same, add_zero, hω, mul_zero] at h2
    have h3 := hstep ω
    rw [zero_add, h2] at h3
    exact h3
  obtain ⟨c1, c2⟩ := cond_avgvolvar_correct m nz hm hT h
  obtain ⟨a1, a2⟩ := avg_correct m nz (some vol0) hm (NNReal.coe_pos.2 hT) h
  have i1 : Integrable (fun ω => (m.condAvgvolvarM T vol0 (X T ω) nz).1) P := integrable_condExp.congr c1.symm
  have i2 : Integrable (fun ω => (m.condAvgvolvarM T vol0 (X T ω) nz).2) P := integrable_condExp.congr c2.symm
  have hle : MeasurableSpace.comap (X T) inferInstance ≤ mΩ := (meas h T).comap_le
  have e1 : ∫ ω, (m.condAvgvolvarM T vol0 (X T ω) nz).1 ∂P = m.avgvolM T (some vol0) nz := by rw [integral_congr_ae c1, integral_condExp hle, a1]
  have e2 : ∫ ω, (m.condAvgvolvarM T vol0 (X T ω) nz).2 ∂P = m.avgvarM T (some vol0) nz := by rw [integral_congr_ae c2, integral_condExp hle, a2]
  rw [← e1, ← e2]
  have e3 : ∫ ω, (A + B * (m.condAvgvolvarM T vol0 (X T ω) nz).1 + C * (m.condAvgvolvarM T vol0 (X T ω) nz).2) ∂P =
      A + B * (∫ ω, (m.condAvgvolvarM T vol0 (X T ω) nz).1 ∂P) + C * ∫ ω, (m.condAvgvolvarM T vol0 (X T ω) nz).2 ∂P := by
    rw [integral_add (f := fun ω => A + B * (m.condAvgvolvarM T vol0 (X T ω) nz).1) ((integrable_const A).add (i1.const_mul B)) (i2.const_mul C), integral_add (integrable_const A) (i1.const_mul B), integral_const_mul, integral_const_mul]
    simp
  rw [← e3]
  have e4 : ∫ ω, (A + B * (m.condAvgvolvarM T vol0 (X T ω) nz).1 + C * (m.condAvgvolvarM T vol0 (X T ω) nz).2) ∂P =
      ∫ ω, (fun z => A + B * (m.condAvgvolvarM T vol0 (m.volStep T vol0 z nz) nz).1 + C * (m.condAvgvolvarM T vol0 (m.volStep T vol0 z nz) nz).2) (ζ ω) ∂P := by
    refine integral_congr_ae ?_
    filter_upwards [h0] with ω hω
    simp only [hω]
  rw [e4, ← integral_map (μ := P) (f := fun z => A + B * (m.condAvgvolvarM T vol0 (m.volStep T vol0 z nz) nz).1 + C * (m.condAvgvolvarM T vol0 (m.volStep T vol0 z nz) nz).2) hζm.aemeasurable ?_, hζ]
  · rfl
  · refine Measurable.aestronglyMeasurable ?_
    unfold condAvgvolvarM volStep
    cases nz
    · simp only [Bool.false_eq_true, if_false]
      fun_prop
    · simp only [if_true]
      fun_prop

/-- **C114.** Unbiasedness of one step: with `scheme=1`, and for every number of sine terms in the sine-series scheme, average volatility and average variance of a step have the exact expectations
`avgvol_mv` and `avgvar_mv`. -/
theorem step_unbiased (m : Ousv) (hm : m.mr ≠ 0) {dt : ℝ} (hdt : 0 < dt) (vol0 : ℝ) (nz : Bool) :
    (∃ D, m.stepTd rngEx 1 dt vol0 nz = .ok D ∧ ∀ A B C, D (fun r => A + B * r.2.2 + C * r.2.1) = A + B * m.avgvolM dt (some vol0) nz + C * m.avgvarM dt (some vol0) nz) ∧
    ∀ n A B C, m.stepKl rngEx n dt vol0 nz (fun r => A + B * r.2.2 + C * r.2.1) = A + B * m.avgvolM dt (some vol0) nz + C * m.avgvarM dt (some vol0) nz := by
  have hx : m.mr * dt ≠ 0 := mul_ne_zero hm hdt.ne'
  constructor
  · refine ⟨_, by unfold stepTd; rw [if_neg one_ne_zero, if_pos rfl], fun A B C => ?_⟩
    rw [← cond_tower m hm hdt vol0 nz A B C]
    show Ex.normal _ = _
    refine congrArg _ (funext fun z => ?_)
    have hsh := cond_shift m dt vol0 (m.volStep dt vol0 z nz) nz
    simp only
    rw [hsh]
    cases nz
    · simp only [Spec.thetaOf, Bool.false_eq_true, if_false, sub_zero, add_zero, zero_mul]
      rfl
    · simp only [Spec.thetaOf, if_true]
      have e : m.volStep dt vol0 z true - m.theta = m.volStep dt (vol0 - m.theta) z false := by simp [volStep]
      rw [e]
      rfl
  · intro n A B C
    obtain ⟨K, hK, hmv⟩ := kl_step_moments m hm hdt n vol0 nz (a2overn2sum_correct hx 0 .odd) (a4sum_correct hx 0 .odd) (a6n2sum_correct hx 0 .odd) (a6n2sum_correct hx 0 .even) (a4sum_correct hx 0 .all)
    rw [hK, ← cond_tower m hm hdt vol0 nz A B C]
    refine congrArg _ (funext fun z => ?_)
    have h := hmv (m.volStep dt vol0 z nz) A B C 0 0 0
    simp only [zero_mul, add_zero] at h
    exact h

/-- **C114.** Error behaviour: a time-discretisation scheme other than 0 and 1 leaves a variable unbound; `vol_path_sin` without given variates raises for every positive number of sine terms (the
variates drawn have one row too few); an odd number of sine terms is rejected. -/
theorem ousv_errors (m : Ousv) :
    (∀ s dt v nz, s ≠ 0 → s ≠ 1 → m.stepTd rngEx s dt v nz = .error .unboundLocal) ∧
    (∀ n, 0 < n → volPathSinShape n none = .error .valueError) ∧ (∀ n rows, volPathSinShape n (some rows) = .ok ()) ∧
    ∀ n : ℤ, checkNSin n = .ok () ↔ Even n := by
  refine ⟨fun s dt v nz h0 h1 => ?_, fun n hn => ?_, fun n rows => ?_, fun n => ?_⟩
  · unfold stepTd
    rw [if_neg h0, if_neg h1]
  · unfold volPathSinShape
    simp only
    rw [if_neg (by omega)]
  · simp [volPathSinShape]
  · unfold checkNSin
    split_ifs with h
    · simp [Int.even_iff, h]
    · simp only [ne_eq, not_not] at h
      simp [Int.even_iff, h]

end Ousv

end PyFENG
