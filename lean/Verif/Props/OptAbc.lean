import Verif.Model.OptAbc
import Verif.Lemmas.FinDiff
import Verif.Props.Bsm
import Verif.Props.BsmImpvol
import Verif.Props.BsmDisp
import Verif.Props.Norm
import Mathlib.Analysis.Real.Pi.Bounds

/-! # Generic numerical methods of `OptABC` (C18, C24-C27) -/

namespace PyFENG

open Real Set OptABC

instance : Inhabited MParams := ⟨⟨0, 0, 0, false⟩⟩
instance : Inhabited DParams := ⟨⟨0, 0, 0, 0, 0, false⟩⟩

/-! ## Running the heap programs -/

/-- Value returned by a program run on heap `h`. -/
def OptABC.value {M α : Type} (p : Prog M α) (h : Heap M) : α := (p h).1

/-- Heap after a program run on heap `h`. -/
def OptABC.after {M α : Type} (p : Prog M α) (h : Heap M) : Heap M := (p h).2

/-- `sigma` is an ordinary attribute: reading returns the last value written, writing replaces it. -/
structure PlainSigma {M : Type} (c : OptClass M) : Prop where
  get_set : ∀ s m, c.getSigma (c.setSigma s m) = s
  set_set : ∀ s t m, c.setSigma s (c.setSigma t m) = c.setSigma s m
  set_get : ∀ m, c.setSigma (c.getSigma m) m = m

lemma Bsm.plainSigma : PlainSigma Bsm.cls := ⟨fun _ _ => rfl, fun _ _ _ => rfl, fun _ => rfl⟩
lemma Norm.plainSigma : PlainSigma Norm.cls := ⟨fun _ _ => rfl, fun _ _ _ => rfl, fun _ => rfl⟩

section
variable {M : Type} [Inhabited M] (c : OptClass M)

lemma modify_append_last {α : Type} (h : List α) (x : α) (f : α → α) :
    (h ++ [x]).modify h.length f = h ++ [f x] := by
  induction h with
  | nil => rfl
  | cons a t ih => simp [List.modify_succ_cons, ih]

lemma getD_append_last {α : Type} (h : List α) (x d : α) : (h ++ [x]).getD h.length d = x := by
  simp

lemma deltaNumeric_run (a : ℕ) (K S T cp : ℝ) (h : Heap M) :
    deltaNumeric c a K S T cp h =
      ((c.price (h.getD a default) K (S + S * 0.001) T cp - c.price (h.getD a default) K (S - S * 0.001) T cp)
        / (2 * (S * 0.001)), h) := rfl

lemma gammaNumeric_run (a : ℕ) (K S T cp : ℝ) (h : Heap M) :
    gammaNumeric c a K S T cp h =
      ((c.price (h.getD a default) K (S + S * 0.001) T cp - 2 * c.price (h.getD a default) K S T cp
        + c.price (h.getD a default) K (S - S * 0.001) T cp) / (S * 0.001 * (S * 0.001)), h) := rfl

lemma thetaNumeric_run (a : ℕ) (K S T cp : ℝ) (h : Heap M) :
    thetaNumeric c a K S T cp h =
      ((c.price (h.getD a default) K S (T - min (1 / 3652.5) T) cp
        - c.price (h.getD a default) K S (T + min (1 / 3652.5) T) cp) / (2 * min (1 / 3652.5) T), h) := rfl

lemma vegaNumeric_run (a : ℕ) (K S T cp : ℝ) (h : Heap M) :
    let m := h.getD a default
    let m1 := c.setSigma (c.getSigma m + 0.001) m
    let m2 := c.setSigma (c.getSigma m1 - 2 * 0.001) m1
    vegaNumeric c a K S T cp h =
      ((c.price m1 K S T cp - c.price m2 K S T cp) / (2 * 0.001), h ++ [m2]) := by
  intro m m1 m2
  simp only [vegaNumeric, pyCopy, OptABC.getSigma, OptABC.setSigma, callPrice, deref, vegaShock, bind,
    StateT.bind, pure, StateT.pure, getD_append_last, modify_append_last]
  rfl

lemma volgaNumeric_run (a : ℕ) (K S T cp : ℝ) (h : Heap M) :
    let m := h.getD a default
    let m1 := c.setSigma (c.getSigma m + 0.001) m
    let m2 := c.setSigma (c.getSigma m1 - 2 * 0.001) m1
    volgaNumeric c a K S T cp h =
      ((c.price m1 K S T cp + c.price m2 K S T cp - 2 * c.price m K S T cp) / (0.001 * 0.001),
        h ++ [m2]) := by
  intro m m1 m2
  simp only [volgaNumeric, pyCopy, OptABC.getSigma, OptABC.setSigma, callPrice, deref, vegaShock, bind,
    StateT.bind, pure, StateT.pure, getD_append_last, modify_append_last]
  rfl

lemma vannaNumeric_run (a : ℕ) (K S T cp : ℝ) (h : Heap M) (ha : a < h.length) :
    let m := h.getD a default
    let m1 := c.setSigma (c.getSigma m + 0.001) m
    let m2 := c.setSigma (c.getSigma m1 - 2 * 0.001) m1
    let vega := fun S => (c.price m1 K S T cp - c.price m2 K S T cp) / (2 * 0.001)
    vannaNumeric c a K S T cp h =
      ((vega (S + S * 0.001) - vega (S - S * 0.001)) / (2 * (S * 0.001)), h ++ [m2] ++ [m2]) := by
  intro m m1 m2 vega
  simp only [vannaNumeric, deltaShock, bind, StateT.bind, pure, StateT.pure]
  rw [vegaNumeric_run]
  simp only []
  rw [vegaNumeric_run]
  have : (h ++ [m2]).getD a default = m := by
    simp only [List.getD_eq_getElem?_getD, List.getElem?_append_left ha, m]
  simp only [show (h ++ [c.setSigma (c.getSigma (c.setSigma (c.getSigma (h.getD a default) + 0.001)
    (h.getD a default)) - 2 * 0.001) (c.setSigma (c.getSigma (h.getD a default) + 0.001)
    (h.getD a default))]).getD a default = m from this]
  rfl

/-! ## C24 -/

/-- **C24.** None of the finite-difference Greeks changes any existing object: whatever objects the program holds,
each of them (in particular the model itself) is unchanged after the call. This holds for every class, also those
with a `sigma` property. -/
theorem numeric_greeks_preserve_objects (a : ℕ) (K S T cp : ℝ) (h : Heap M) (ha : a < h.length) (i : ℕ)
    (hi : i < h.length) :
    (after (deltaNumeric c a K S T cp) h)[i]? = h[i]? ∧ (after (gammaNumeric c a K S T cp) h)[i]? = h[i]? ∧
    (after (vegaNumeric c a K S T cp) h)[i]? = h[i]? ∧ (after (volgaNumeric c a K S T cp) h)[i]? = h[i]? ∧
    (after (vannaNumeric c a K S T cp) h)[i]? = h[i]? ∧ (after (thetaNumeric c a K S T cp) h)[i]? = h[i]? := by
  refine ⟨rfl, rfl, ?_, ?_, ?_, rfl⟩
  · rw [after, vegaNumeric_run]; exact List.getElem?_append_left hi
  · rw [after, volgaNumeric_run]; exact List.getElem?_append_left hi
  · rw [after, vannaNumeric_run c a K S T cp h ha]
    simp only []
    rw [List.getElem?_append_left (by simp; omega), List.getElem?_append_left hi]

/-- **C24.** `delta_numeric` is the spot derivative of the model's price at an intermediate spot within 10bp. -/
theorem delta_numeric_mvt (a : ℕ) {K S T cp : ℝ} (h : Heap M) (m : M) (hm : h[a]? = some m) (hS : 0 < S)
    {d : ℝ → ℝ} (hd : ∀ s ∈ Icc (S - S / 1000) (S + S / 1000), HasDerivAt (fun s => c.price m K s T cp) (d s) s) :
    ∃ s ∈ Ioo (S - S / 1000) (S + S / 1000), value (deltaNumeric c a K S T cp) h = d s := by
  have hm' : h.getD a default = m := by simp [List.getD_eq_getElem?_getD, hm]
  rw [value, deltaNumeric_run, hm']
  have e : S * 0.001 = S / 1000 := by norm_num; ring
  rw [e]
  exact centralDiff_mvt (f := fun s => c.price m K s T cp) (by positivity) hd

/-- **C24.** `gamma_numeric` is the second spot derivative of the model's price at an intermediate spot. -/
theorem gamma_numeric_mvt (a : ℕ) {K S T cp : ℝ} (h : Heap M) (m : M) (hm : h[a]? = some m) (hS : 0 < S)
    {d g : ℝ → ℝ} (hd : ∀ s ∈ Icc (S - S / 1000) (S + S / 1000), HasDerivAt (fun s => c.price m K s T cp) (d s) s)
    (hg : ∀ s ∈ Icc (S - S / 1000) (S + S / 1000), HasDerivAt d (g s) s) :
    ∃ s ∈ Ioo (S - S / 1000) (S + S / 1000), value (gammaNumeric c a K S T cp) h = g s := by
  have hm' : h.getD a default = m := by simp [List.getD_eq_getElem?_getD, hm]
  rw [value, gammaNumeric_run, hm']
  have e : S * 0.001 = S / 1000 := by norm_num; ring
  rw [e]
  exact secondDiff_mvt (f := fun s => c.price m K s T cp) (by positivity) hd hg

/-- **C24.** `vega_numeric` of a class with an ordinary `sigma` attribute is the volatility derivative of the price at
an intermediate volatility within `0.001` of the model's. -/
theorem vega_numeric_mvt (hc : PlainSigma c) (a : ℕ) {K S T cp : ℝ} (h : Heap M) (m : M)
    (hm : h[a]? = some m) {d : ℝ → ℝ}
    (hd : ∀ s ∈ Icc (c.getSigma m - 1 / 1000) (c.getSigma m + 1 / 1000),
      HasDerivAt (fun s => c.price (c.setSigma s m) K S T cp) (d s) s) :
    ∃ s ∈ Ioo (c.getSigma m - 1 / 1000) (c.getSigma m + 1 / 1000),
      value (vegaNumeric c a K S T cp) h = d s := by
  have hm' : h.getD a default = m := by simp [List.getD_eq_getElem?_getD, hm]
  rw [value, vegaNumeric_run]
  simp only [hm', hc.get_set, hc.set_set]
  obtain ⟨s, hs, e⟩ := centralDiff_mvt (f := fun s => c.price (c.setSigma s m) K S T cp)
    (x := c.getSigma m) (h := 1 / 1000) (by norm_num) hd
  refine ⟨s, hs, ?_⟩
  rw [← e, show c.getSigma m + 0.001 - 2 * 0.001 = c.getSigma m - 1 / 1000 by norm_num; ring,
    show c.getSigma m + 0.001 = c.getSigma m + 1 / 1000 by norm_num,
    show (2 : ℝ) * 0.001 = 2 * (1 / 1000) by norm_num]

/-- **C24.** `volga_numeric` is the second volatility derivative of the price at an intermediate volatility. -/
theorem volga_numeric_mvt (hc : PlainSigma c) (a : ℕ) {K S T cp : ℝ} (h : Heap M) (m : M)
    (hm : h[a]? = some m) {d g : ℝ → ℝ}
    (hd : ∀ s ∈ Icc (c.getSigma m - 1 / 1000) (c.getSigma m + 1 / 1000),
      HasDerivAt (fun s => c.price (c.setSigma s m) K S T cp) (d s) s)
    (hg : ∀ s ∈ Icc (c.getSigma m - 1 / 1000) (c.getSigma m + 1 / 1000), HasDerivAt d (g s) s) :
    ∃ s ∈ Ioo (c.getSigma m - 1 / 1000) (c.getSigma m + 1 / 1000),
      value (volgaNumeric c a K S T cp) h = g s := by
  have hm' : h.getD a default = m := by simp [List.getD_eq_getElem?_getD, hm]
  rw [value, volgaNumeric_run]
  simp only [hm', hc.get_set, hc.set_set]
  obtain ⟨s, hs, e⟩ := secondDiff_mvt (f := fun s => c.price (c.setSigma s m) K S T cp) (x := c.getSigma m)
    (h := 1 / 1000) (by norm_num) hd hg
  refine ⟨s, hs, ?_⟩
  rw [← e]
  simp only [hc.set_get]
  rw [show c.getSigma m + 0.001 - 2 * 0.001 = c.getSigma m - 1 / 1000 by norm_num; ring,
    show c.getSigma m + 0.001 = c.getSigma m + 1 / 1000 by norm_num,
    show (0.001 : ℝ) * 0.001 = 1 / 1000 * (1 / 1000) by norm_num]
  ring

/-- **C24.** `vanna_numeric` is the mixed spot-volatility derivative at an intermediate point. -/
theorem vanna_numeric_mvt (hc : PlainSigma c) (a : ℕ) {K S T cp : ℝ} (h : Heap M) (m : M)
    (hm : h[a]? = some m) (hS : 0 < S) {d g : ℝ → ℝ → ℝ}
    (hd : ∀ x ∈ Icc (S - S / 1000) (S + S / 1000),
      ∀ s ∈ Icc (c.getSigma m - 1 / 1000) (c.getSigma m + 1 / 1000),
      HasDerivAt (fun x => c.price (c.setSigma s m) K x T cp) (d x s) x)
    (hg : ∀ x ∈ Icc (S - S / 1000) (S + S / 1000),
      ∀ s ∈ Icc (c.getSigma m - 1 / 1000) (c.getSigma m + 1 / 1000),
      HasDerivAt (fun s => d x s) (g x s) s) :
    ∃ x ∈ Ioo (S - S / 1000) (S + S / 1000),
      ∃ s ∈ Ioo (c.getSigma m - 1 / 1000) (c.getSigma m + 1 / 1000),
      value (vannaNumeric c a K S T cp) h = g x s := by
  have hm' : h.getD a default = m := by simp [List.getD_eq_getElem?_getD, hm]
  have ha : a < h.length := by
    by_contra hx
    rw [List.getElem?_eq_none (not_lt.1 hx)] at hm; cases hm
  rw [value, vannaNumeric_run c a K S T cp h ha]
  simp only [hm', hc.get_set, hc.set_set]
  obtain ⟨x, hx, s, hs, e⟩ := crossDiff_mvt (f := fun x s => c.price (c.setSigma s m) K x T cp) (x := S)
    (y := c.getSigma m) (h := S / 1000) (k := 1 / 1000) (by positivity) (by norm_num) hd hg
  refine ⟨x, hx, s, hs, ?_⟩
  rw [← e]
  rw [show c.getSigma m + 0.001 - 2 * 0.001 = c.getSigma m - 1 / 1000 by norm_num; ring,
    show c.getSigma m + 0.001 = c.getSigma m + 1 / 1000 by norm_num,
    show S * 0.001 = S / 1000 by norm_num; ring, show (0.001 : ℝ) = 1 / 1000 by norm_num]

/-- **C24.** `theta_numeric` is minus the maturity derivative at an intermediate maturity. -/
theorem theta_numeric_mvt (a : ℕ) {K S T cp : ℝ} (h : Heap M) (m : M) (hm : h[a]? = some m) (hT : 0 < T)
    {d : ℝ → ℝ} (hd : ∀ t ∈ Icc (T - min (1 / 3652.5) T) (T + min (1 / 3652.5) T),
      HasDerivAt (fun t => -c.price m K S t cp) (d t) t) :
    ∃ t ∈ Ioo (T - min (1 / 3652.5) T) (T + min (1 / 3652.5) T),
      value (thetaNumeric c a K S T cp) h = d t := by
  have hm' : h.getD a default = m := by simp [List.getD_eq_getElem?_getD, hm]
  rw [value, thetaNumeric_run, hm']
  obtain ⟨t, ht, e⟩ := centralDiff_mvt (f := fun t => -c.price m K S t cp) (x := T)
    (h := min (1 / 3652.5) T) (by norm_num [hT]) hd
  exact ⟨t, ht, by rw [← e]; ring⟩

/-- **C24.** The first-order finite differences are exact whenever the price is a quadratic polynomial in the bumped
variable, and so are the second-order ones. -/
theorem numeric_greeks_exact_on_quadratics (hc : PlainSigma c) (a : ℕ) {K S T cp : ℝ} (h : Heap M) (m : M)
    (hm : h[a]? = some m) (hS : 0 < S) (p q r : ℝ) :
    ((∀ s, c.price m K s T cp = p + q * s + r * s ^ 2) →
      value (deltaNumeric c a K S T cp) h = q + 2 * r * S ∧ value (gammaNumeric c a K S T cp) h = 2 * r) ∧
    ((∀ s, c.price (c.setSigma s m) K S T cp = p + q * s + r * s ^ 2) →
      value (vegaNumeric c a K S T cp) h = q + 2 * r * c.getSigma m ∧
      value (volgaNumeric c a K S T cp) h = 2 * r) ∧
    (0 < T → (∀ t, c.price m K S t cp = p + q * t + r * t ^ 2) →
      value (thetaNumeric c a K S T cp) h = -(q + 2 * r * T)) := by
  have hm' : h.getD a default = m := by simp [List.getD_eq_getElem?_getD, hm]
  refine ⟨fun hp => ⟨?_, ?_⟩, fun hp => ⟨?_, ?_⟩, fun hT hp => ?_⟩
  · rw [value, deltaNumeric_run, hm']
    simp only [hp]
    rw [div_eq_iff (by positivity)]; ring
  · rw [value, gammaNumeric_run, hm']
    simp only [hp]
    rw [div_eq_iff (by positivity)]; ring
  · rw [value, vegaNumeric_run]
    simp only [hm', hc.get_set, hc.set_set, hp]
    rw [div_eq_iff (by positivity)]; ring
  · rw [value, volgaNumeric_run]
    have h0 : c.price m K S T cp = p + q * c.getSigma m + r * c.getSigma m ^ 2 := by
      rw [← hp, hc.set_get]
    simp only [hm', hc.get_set, hc.set_set, hp, h0]
    rw [div_eq_iff (by positivity)]; ring
  · rw [value, thetaNumeric_run, hm']
    simp only [hp]
    have : 0 < min (1 / 3652.5) T := by norm_num [hT]
    rw [div_eq_iff (by positivity)]; ring

end

/-- **C24 (instance).** For `Bsm`, `delta_numeric`, `gamma_numeric` and `vega_numeric` return the analytic delta, gamma
and vega of the same model at a nearby point. -/
theorem bsm_numeric_greeks (a : ℕ) {K S T cp : ℝ} (h : Heap MParams) (m : MParams) (hm : h[a]? = some m)
    (hcp : Spec.IsCp cp) (hK : 0 < K) (hS : 0 < S) (hT : 0 < T)
    (hv2 : 100 * eps < (m.sigma - 1 / 1000) * √T) :
    (∃ s ∈ Ioo (S - S / 1000) (S + S / 1000),
      value (deltaNumeric Bsm.cls a K S T cp) h = Bsm.delta m K s T cp) ∧
    (∃ s ∈ Ioo (S - S / 1000) (S + S / 1000),
      value (gammaNumeric Bsm.cls a K S T cp) h = Bsm.gamma m K s T cp) ∧
    (∃ σ ∈ Ioo (m.sigma - 1 / 1000) (m.sigma + 1 / 1000),
      value (vegaNumeric Bsm.cls a K S T cp) h = Bsm.vega { m with sigma := σ } K S T cp) := by
  have hq := sqrt_pos.2 hT
  have he := eps_pos
  have hS' : ∀ s ∈ Icc (S - S / 1000) (S + S / 1000), 0 < s := fun s hs => by linarith [hs.1]
  have hσ : 100 * eps ≤ m.sigma * √T := by nlinarith
  refine ⟨?_, ?_, ?_⟩
  · exact delta_numeric_mvt Bsm.cls a h m hm hS (d := fun s => Bsm.delta m K s T cp)
      (fun s hs => bsm_delta_correct m hcp hK (hS' s hs))
  · exact gamma_numeric_mvt Bsm.cls a h m hm hS (d := fun s => Bsm.delta m K s T cp)
      (g := fun s => Bsm.gamma m K s T cp)
      (fun s hs => bsm_delta_correct m hcp hK (hS' s hs))
      (fun s hs => bsm_gamma_correct m hcp hK (hS' s hs) hσ)
  · refine vega_numeric_mvt Bsm.cls Bsm.plainSigma a h m hm
      (d := fun σ => Bsm.vega { m with sigma := σ } K S T cp) (fun s hs => ?_)
    have h1 : eps < s * √T := by
      have : m.sigma - 1 / 1000 ≤ s := hs.1
      nlinarith
    exact bsm_vega_correct { m with sigma := s } hcp hK hS h1

/-- The hypotheses of `bsm_numeric_greeks` are met: a Bsm object with 20% volatility among other objects. -/
example : ∃ (h : Heap MParams) (m : MParams), h[1]? = some m ∧
    100 * eps < (m.sigma - 1 / 1000) * √1 := by
  refine ⟨[⟨0.1, 0, 0, true⟩, ⟨0.2, 0.05, 0.01, false⟩], _, rfl, ?_⟩
  simp only [sqrt_one]; unfold eps; norm_num

/-! ## C18 -/

/-- **C18, exact law.** What `vega_numeric` computes for a `BsmDisp` model: because `model.sigma += h` reads the
effective volatility `beta*sigma` but writes the displaced one, it differences the price at user volatilities
`beta*sigma + h` and `beta*(beta*sigma + h) - 2h`. -/
theorem bsmdisp_vega_numeric_law (a : ℕ) (K S T cp : ℝ) (h : Heap DParams) (d : DParams)
    (hd : h[a]? = some d) :
    value (vegaNumeric BsmDisp.cls a K S T cp) h =
      (BsmDisp.price { d with sigmaDisp := d.beta * d.sigmaDisp + 1 / 1000 } K S T cp
        - BsmDisp.price { d with sigmaDisp := d.beta * (d.beta * d.sigmaDisp + 1 / 1000) - 2 / 1000 }
          K S T cp) / (2 / 1000) := by
  have hm' : h.getD a default = d := by simp [List.getD_eq_getElem?_getD, hd]
  rw [value, vegaNumeric_run]
  simp only [hm', BsmDisp.cls, BsmDisp.setSigma, BsmDisp.getSigma]
  rw [show d.sigmaDisp * d.beta + 0.001 = d.beta * d.sigmaDisp + 1 / 1000 by norm_num; ring]
  congr 1
  · congr 3; norm_num; ring
  · norm_num

/-- **C18 (partial).** For `beta = 1` it is the central difference in the user's volatility.  Missing: `beta ≠ 1`,
where the claim is false (`bsmdisp_vega_numeric_wrong`). -/
theorem bsmdisp_vega_numeric_partial (a : ℕ) (K S T cp : ℝ) (h : Heap DParams) (d : DParams)
    (hd : h[a]? = some d) (hβ : d.beta = 1) :
    value (vegaNumeric BsmDisp.cls a K S T cp) h =
      (BsmDisp.price { d with sigmaDisp := d.sigmaDisp + 1 / 1000 } K S T cp
        - BsmDisp.price { d with sigmaDisp := d.sigmaDisp - 1 / 1000 } K S T cp) / (2 / 1000) := by
  rw [bsmdisp_vega_numeric_law a K S T cp h d hd]
  congr 3
  · congr 1; rw [hβ]; ring
  · congr 1; rw [hβ]; ring

/-- **C18 is false of the code.**  For `sigma = 0.2`, `beta = 2` the finite-difference vega of an at-the-money
option is negative although the price is strictly increasing in the volatility. -/
theorem bsmdisp_vega_numeric_wrong :
    let d : DParams := ⟨0.2, 2, 0, 0, 0, true⟩
    value (vegaNumeric BsmDisp.cls 0 1 1 1 1) [d] < 0 ∧
      0 < (BsmDisp.price { d with sigmaDisp := 0.2 + 1 / 1000 } 1 1 1 1
        - BsmDisp.price { d with sigmaDisp := 0.2 - 1 / 1000 } 1 1 1 1) / (2 / 1000) := by
  intro d
  have hmono : ∀ s1 s2 : ℝ, s1 < s2 → 0.01 < s2 → BsmDisp.price { d with sigmaDisp := s1 } 1 1 1 1
      < BsmDisp.price { d with sigmaDisp := s2 } 1 1 1 1 := by
    intro s1 s2 h12 h2
    have hlt := bsm_strictMono_vol ⟨0, 0, 0, true⟩ (K := 2) (S := 2) (T := 1) (cp := 1) (Or.inl rfl)
      (by norm_num) (by norm_num) one_pos (mul_lt_mul_of_pos_right h12 (two_pos))
      (by rw [sqrt_one, mul_one]; have := eps_lt; linarith)
    unfold BsmDisp.price BsmDisp.dispStrike BsmDisp.dispSpot BsmDisp.toM BsmDisp.getSigma MParams.forward
    simp only [d, if_true]
    norm_num
    exact hlt
  constructor
  · rw [bsmdisp_vega_numeric_law 0 1 1 1 1 [d] d rfl]
    refine div_neg_of_neg_of_pos (sub_neg.2 (hmono _ _ ?_ ?_)) (by norm_num)
    · norm_num [d]
    · norm_num [d]
  · refine div_pos (sub_pos.2 (hmono _ _ (by norm_num) (by norm_num))) (by norm_num)

/-! ## C25 -/

/-- What is assumed of SciPy's root finder: a returned point is in the bracket and the function there is at most `tol`
in absolute value. -/
def IsRootFinder (brentq : (ℝ → ℝ) → ℝ → ℝ → Option ℝ) (tol : ℝ) : Prop :=
  ∀ f a b r, brentq f a b = some r → a ≤ r ∧ r ≤ b ∧ |f r| ≤ tol

section
variable {M : Type} [Inhabited M] (c : OptClass M)

/-- The result of `impvol_brentq` in closed form. -/
lemma impvolBrentq_value (brentq : (ℝ → ℝ) → ℝ → ℝ → Option ℝ) (a : ℕ) (p K S T cp : ℝ) (sv : Bool)
    (h : Heap M) (m : M) (hm : h[a]? = some m) (hc : PlainSigma c) :
    let kk := K / (c.conv m).fwd S T
    let ps := p / (c.conv m).df T / (c.conv m).fwd S T
    let f := fun s => c.price (c.setSigma s m) kk 1 T cp
    value (impvolBrentq c brentq a p K S T cp sv) h =
      ivDecide brentq (fun s => f s - ps) ps (f 1e-64) (f impvolMaxvol) := by
  have hm' : h.getD a default = m := by simp [List.getD_eq_getElem?_getD, hm]
  intro kk ps f
  simp only [value, impvolBrentq, pyCopy, OptABC.setSigma, callPrice, deref, bind,
    StateT.bind, pure, StateT.pure, getD_append_last, modify_append_last, hm', hc.set_set]
  change _ = ivDecide brentq (fun s => f s - ps) ps (f 1e-64) (f impvolMaxvol)
  cases sv
  · rfl
  · change (_ : IvRes × Heap M).1 = ivDecide brentq (fun s => f s - ps) ps (f 1e-64) (f impvolMaxvol)
    generalize ivDecide brentq _ _ _ _ = r
    cases r <;> rfl

/-- **C25.** `impvol_brentq` with `setval=False` changes no existing object; with `setval=True` the only change
is that the model's own `sigma` becomes the returned value. -/
theorem impvol_brentq_effect (brentq : (ℝ → ℝ) → ℝ → ℝ → Option ℝ) (a : ℕ) (p K S T cp : ℝ) (sv : Bool)
    (h : Heap M) (m : M) (hm : h[a]? = some m) (i : ℕ) (hi : i < h.length) :
    (after (impvolBrentq c brentq a p K S T cp sv) h)[i]? =
      if i = a then
        match sv, value (impvolBrentq c brentq a p K S T cp sv) h with
        | true, .val s => some (c.setSigma s m)
        | _, _ => some m
      else h[i]? := by
  simp only [after, value, impvolBrentq, pyCopy, OptABC.setSigma, callPrice, deref, bind,
    StateT.bind, pure, StateT.pure, getD_append_last, modify_append_last]
  have e0 : ∀ x : M, (h ++ [x])[i]? = if i = a then some m else h[i]? := by
    intro x
    rw [List.getElem?_append_left hi]
    split_ifs with hia
    · rw [hia, hm]
    · rfl
  cases sv
  · exact e0 _
  · generalize ivDecide brentq _ _ _ _ = r
    cases r with
    | val s =>
      change ((h ++ [_]).modify a (c.setSigma s))[i]? = _
      rw [List.getElem?_modify, e0]
      by_cases hia : i = a
      · simp [hia]; rfl
      · simp [hia, Ne.symm hia]
    | nan => exact e0 _
    | raise => exact e0 _

/-- **C25, exact law.**  For a model whose prices scale with spot and strike and which is quoted on forwards or has
no carry (`intr = divr`): when `impvol_brentq` returns a root, the model price at the returned volatility
is the *undiscounted* input price `exp(intr T) * price`, up to the root finder's tolerance times the forward. -/
theorem impvol_brentq_law (hc : PlainSigma c) (hom : ∀ m l K S T cp, 0 < l →
      c.price m (l * K) (l * S) T cp = l * c.price m K S T cp)
    {brentq : (ℝ → ℝ) → ℝ → ℝ → Option ℝ} {tol : ℝ} (hbr : IsRootFinder brentq tol)
    (a : ℕ) {p K S T cp : ℝ} (sv : Bool) (h : Heap M) (m : M) (hm : h[a]? = some m) (hS : 0 < S)
    (hq : (c.conv m).isFwd = true ∨ (c.conv m).intr = (c.conv m).divr) {σ : ℝ}
    (hv : value (impvolBrentq c brentq a p K S T cp sv) h = .val σ) (h0 : σ ≠ 0) (h1 : σ ≠ impvolMaxvol) :
    |c.price (c.setSigma σ m) K S T cp - exp ((c.conv m).intr * T) * p| ≤ tol * S := by
  rw [impvolBrentq_value c brentq a p K S T cp sv h m hm hc] at hv
  have hF : (c.conv m).fwd S T = S := by
    rw [MParams.fwd_eq_forward, MParams.forward]
    rcases hq with hq | hq
    · simp [hq]
    · simp [hq]
  rw [hF] at hv
  unfold ivDecide at hv
  split_ifs at hv with h2 h3 h4
  · exact absurd (IvRes.val.inj hv).symm h0
  · exact absurd (IvRes.val.inj hv).symm h1
  · split at hv
    · rename_i s hs
      cases hv
      have h5 := (hbr _ _ _ _ hs).2.2
      have h6 := hom (c.setSigma σ m) S (K / S) 1 T cp hS
      rw [mul_div_cancel₀ _ hS.ne', mul_one] at h6
      rw [h6]
      have hdf : (c.conv m).df T = (exp ((c.conv m).intr * T))⁻¹ := by
        unfold MParams.df; rw [← exp_neg]; congr 1; ring
      rw [hdf] at h5
      have e : S * c.price (c.setSigma σ m) (K / S) 1 T cp - exp ((c.conv m).intr * T) * p
          = (c.price (c.setSigma σ m) (K / S) 1 T cp - p / (exp ((c.conv m).intr * T))⁻¹ / S) * S := by
        field_simp
      rw [e, abs_mul, abs_of_pos hS]
      exact mul_le_mul_of_nonneg_right h5 hS.le
    · cases hv

/-- **C25 (partial).**  Without interest and carry a returned root reprices the input to within the root finder's
tolerance times spot.  Missing: non-zero rates, where the claim is false (`bsm_impvol_brentq_wrong`). -/
theorem impvol_brentq_reprices_partial (hc : PlainSigma c) (hom : ∀ m l K S T cp, 0 < l →
      c.price m (l * K) (l * S) T cp = l * c.price m K S T cp)
    {brentq : (ℝ → ℝ) → ℝ → ℝ → Option ℝ} {tol : ℝ} (hbr : IsRootFinder brentq tol)
    (a : ℕ) {p K S T cp : ℝ} (sv : Bool) (h : Heap M) (m : M) (hm : h[a]? = some m) (hS : 0 < S)
    (hr : (c.conv m).intr = 0) (hq : (c.conv m).isFwd = true ∨ (c.conv m).divr = 0) {σ : ℝ}
    (hv : value (impvolBrentq c brentq a p K S T cp sv) h = .val σ) (h0 : σ ≠ 0) (h1 : σ ≠ impvolMaxvol) :
    |c.price (c.setSigma σ m) K S T cp - p| ≤ tol * S := by
  have := impvol_brentq_law c hc hom hbr a sv h m hm hS (by rw [hr]; exact hq.imp id Eq.symm) hv h0 h1
  rwa [hr, zero_mul, exp_zero, one_mul] at this

end

/-- `Bsm` and `Norm` (with the scale carried by sigma) — `Bsm` satisfies the scaling hypothesis. -/
lemma Bsm.cls_hom (m : MParams) (l K S T cp : ℝ) (hl : 0 < l) :
    Bsm.cls.price m (l * K) (l * S) T cp = l * Bsm.cls.price m K S T cp := bsm_homogeneous m hl K S T cp

lemma npdf_le_two_fifths (x : ℝ) : npdf x ≤ 5 / 12 := by
  unfold npdf
  have h1 : exp (-x ^ 2 / 2) ≤ 1 := exp_le_one_iff.2 (by nlinarith [sq_nonneg x])
  have h2 : (12 / 5 : ℝ) ≤ √(2 * π) := le_sqrt_of_sq_le (by nlinarith [pi_gt_three])
  rw [div_le_iff₀ (by positivity)]
  nlinarith

lemma npdf_ge {x : ℝ} (h0 : 0 ≤ x) (h1 : x ≤ 1) : (1 - x ^ 2 / 2) / 3 ≤ npdf x := by
  unfold npdf
  have h2 : 1 - x ^ 2 / 2 ≤ exp (-x ^ 2 / 2) := by have := add_one_le_exp (-x ^ 2 / 2); linarith
  have h3 : √(2 * π) ≤ 3 := sqrt_le_iff.2 ⟨by norm_num, by nlinarith [pi_le_four]⟩
  have h4 : 0 < √(2 * π) := by positivity
  have : 0 ≤ 1 - x ^ 2 / 2 := by nlinarith
  exact (div_le_div_of_nonneg_left this h4 h3).trans (div_le_div_of_nonneg_right h2 h4.le)

lemma ncdf_le_lin {x : ℝ} (h0 : 0 < x) : ncdf x ≤ 1 / 2 + 5 / 12 * x := by
  obtain ⟨ξ, _, e⟩ := exists_hasDerivAt_eq_slope ncdf npdf h0 continuous_ncdf.continuousOn
    (fun y _ => hasDerivAt_ncdf y)
  rw [ncdf_zero, sub_zero, eq_div_iff h0.ne'] at e
  nlinarith [npdf_le_two_fifths ξ]

lemma ncdf_ge_lin {x : ℝ} (h0 : 0 < x) (h1 : x ≤ 1) : 1 / 2 + x * ((1 - x ^ 2 / 2) / 3) ≤ ncdf x := by
  obtain ⟨ξ, hξ, e⟩ := exists_hasDerivAt_eq_slope ncdf npdf h0 continuous_ncdf.continuousOn
    (fun y _ => hasDerivAt_ncdf y)
  rw [ncdf_zero, sub_zero, eq_div_iff h0.ne'] at e
  have h2 := npdf_ge hξ.1.le (hξ.2.le.trans h1)
  have h3 : (1 - x ^ 2 / 2) / 3 ≤ (1 - ξ ^ 2 / 2) / 3 := by
    have : ξ ^ 2 ≤ x ^ 2 := pow_le_pow_left₀ hξ.1.le hξ.2.le 2
    linarith
  nlinarith [h2.trans' h3]

/-- At-the-money price of a forward-quoted Bsm model, unit forward and maturity. -/
lemma Bsm.price_atm_fwd (σ r q : ℝ) :
    Bsm.price ⟨σ, r, q, true⟩ 1 1 1 1 = exp (-r) * (2 * ncdf (max σ eps / 2) - 1) := by
  rw [Bsm.price_eq_black]
  simp only [MParams.df, MParams.fwd, if_true, black, bd1, bd2, sigmaStd, sqrt_one, mul_one, div_one,
    log_one, zero_div, zero_add, zero_sub, one_mul, ncdf_neg]
  ring

open Classical in
/-- **C25 is false of the code with interest.**  A forward-quoted `Bsm` model with `intr = 5%`: price the
one-year at-the-money call at 20% volatility and ask `impvol_brentq` for the implied volatility of that price.
Even with an exact root finder (one exists), it returns a regular value whose price is not the input price. -/
theorem bsm_impvol_brentq_wrong :
    let m : MParams := ⟨0.2, 0.05, 0, true⟩
    let p := Bsm.price m 1 1 1 1
    ∃ brentq, IsRootFinder brentq 0 ∧ ∃ σ,
      value (impvolBrentq Bsm.cls brentq 0 p 1 1 1 1 false) [m] = .val σ ∧
      Bsm.price { m with sigma := σ } 1 1 1 1 ≠ p := by
  intro m p
  let br : (ℝ → ℝ) → ℝ → ℝ → Option ℝ := fun f a b =>
    if h : ∃ r, a ≤ r ∧ r ≤ b ∧ f r = 0 then some h.choose else none
  have hbr : IsRootFinder br 0 := by
    intro f a b r hr
    simp only [br] at hr
    split_ifs at hr with h
    cases hr
    have := h.choose_spec
    exact ⟨this.1, this.2.1, by rw [this.2.2, abs_zero]⟩
  refine ⟨br, hbr, ?_⟩
  have he := eps_lt
  have he0 := eps_pos
  have hD1 : 0.95 ≤ exp (-0.05 : ℝ) := by have := add_one_le_exp (-0.05 : ℝ); linarith
  have hD2 : exp (-0.05 : ℝ) < 1 := exp_lt_one_iff.2 (by norm_num)
  have hD0 : 0 < exp (-0.05 : ℝ) := exp_pos _
  have hf : ∀ σ, Bsm.price { m with sigma := σ } 1 1 1 1
      = exp (-0.05) * (2 * ncdf (max σ eps / 2) - 1) := fun σ => Bsm.price_atm_fwd σ _ _
  have hp : p = exp (-0.05) * (2 * ncdf 0.1 - 1) := by
    rw [show p = _ from hf 0.2, max_eq_left (by linarith)]; norm_num
  have hps : p / m.df 1 / m.fwd 1 1 = 2 * ncdf 0.1 - 1 := by
    rw [hp]
    simp only [MParams.df, MParams.fwd, m, if_true, mul_one, div_one]
    field_simp
  have hn1 : 1 / 2 + 0.03 ≤ ncdf 0.1 := by
    have := ncdf_ge_lin (x := 0.1) (by norm_num) (by norm_num); norm_num at this ⊢; linarith
  have hn2 : ncdf 0.1 ≤ 1 / 2 + 0.05 := by
    have := ncdf_le_lin (x := 0.1) (by norm_num); norm_num at this ⊢; linarith
  have hn3 : 2 / 3 ≤ ncdf 1 := by
    have := ncdf_ge_lin (x := 1) (by norm_num) (by norm_num); norm_num at this ⊢; linarith
  have hlo : Bsm.price { m with sigma := 1e-64 } 1 1 1 1 ≤ 0.001 := by
    rw [hf]
    have h1 : max (1e-64 : ℝ) eps ≤ 0.001 := max_le (by norm_num) (by linarith)
    have h0 : 0 < max (1e-64 : ℝ) eps := lt_max_of_lt_right he0
    have := ncdf_le_lin (half_pos h0)
    have h2 : 1 / 2 ≤ ncdf (max 1e-64 eps / 2) := by rw [← ncdf_zero]; exact monotone_ncdf (half_pos h0).le
    nlinarith
  have hhi : ∀ s : ℝ, 10 ≤ s → 0.3 ≤ Bsm.price { m with sigma := s } 1 1 1 1 := by
    intro s hs
    rw [hf]
    have h2 : ncdf 1 ≤ ncdf (max s eps / 2) := monotone_ncdf (by have := le_max_left s eps; linarith)
    nlinarith
  rw [impvolBrentq_value Bsm.cls br 0 p 1 1 1 1 false [m] m rfl Bsm.plainSigma]
  have hconv : (1 : ℝ) / m.fwd 1 1 = 1 := by simp [MParams.fwd, m]
  simp only [show Bsm.cls.conv m = m from rfl, hps, hconv]
  change ∃ σ, ivDecide br (fun s => Bsm.price { m with sigma := s } 1 1 1 1 - (2 * ncdf 0.1 - 1))
    (2 * ncdf 0.1 - 1) (Bsm.price { m with sigma := 1e-64 } 1 1 1 1)
    (Bsm.price { m with sigma := impvolMaxvol } 1 1 1 1) = .val σ ∧ _
  have hmx := hhi impvolMaxvol (by unfold impvolMaxvol; norm_num)
  have htol : impvolTol < 0.001 := by unfold impvolTol; norm_num
  unfold ivDecide
  rw [if_neg, if_neg, if_neg]
  · have hex : ∃ r, (0 : ℝ) ≤ r ∧ r ≤ 10 ∧
        Bsm.price { m with sigma := r } 1 1 1 1 - (2 * ncdf 0.1 - 1) = 0 := by
      have hcont : ContinuousOn (fun s => Bsm.price { m with sigma := s } 1 1 1 1) (Icc 0 10) := by
        simp only [hf]
        have := continuous_ncdf
        fun_prop
      have h0 : Bsm.price { m with sigma := 0 } 1 1 1 1 ≤ 2 * ncdf 0.1 - 1 := by
        refine le_trans ?_ (hlo.trans (by linarith))
        rw [hf, hf]
        gcongr
        exact monotone_ncdf (by gcongr; norm_num)
      obtain ⟨r, hr, e⟩ := intermediate_value_Icc (by norm_num : (0 : ℝ) ≤ 10) hcont
        ⟨h0, (show 2 * ncdf 0.1 - 1 ≤ _ by linarith [hhi 10 le_rfl])⟩
      exact ⟨r, hr.1, hr.2, by rw [sub_eq_zero]; exact e⟩
    simp only [br, dif_pos hex]
    refine ⟨_, rfl, ?_⟩
    have := hex.choose_spec.2.2
    rw [sub_eq_zero] at this
    rw [this, hp]
    intro h
    nlinarith
  · push Not; constructor <;> linarith
  · rw [not_lt, abs_sub_comm]; exact (le_abs_self _).trans' (by linarith)
  · rw [not_lt]; exact (le_abs_self _).trans' (by linarith)

/-! ## C26 -/

/-- **C26, exact law.**  For a forward-quoted `Bsm` model (or one without carry), `cdf_numeric` is the *discounted*
probability of finishing beyond a strike within `h` of the requested one. -/
theorem bsm_cdf_numeric_law (a : ℕ) {K S T cp w : ℝ} (h : Heap MParams) (m : MParams) (hm : h[a]? = some m)
    (hcp : Spec.IsCp cp) (hw : 0 < w) (hK : w < K) (hS : 0 < S) (hq : m.isFwd = true ∨ m.intr = m.divr) :
    ∃ k ∈ Ioo (K - w) (K + w), value (cdfNumeric Bsm.cls a K S T cp w) h
      = Spec.discount m.intr T * Bsm.cdf m k S T cp := by
  have hm' : h.getD a default = m := by simp [List.getD_eq_getElem?_getD, hm]
  have hF : m.forward S T = S := by
    rw [MParams.forward]; rcases hq with hq | hq <;> simp [hq]
  have hv : value (cdfNumeric Bsm.cls a K S T cp w) h = (SignType.sign cp : ℝ) *
      (Bsm.price m (K - w) (m.forward S T) T cp - Bsm.price m (K + w) (m.forward S T) T cp) / (2 * w) := by
    rw [← hm']; rfl
  rw [hF] at hv
  obtain ⟨k, hk, e⟩ := centralDiff_mvt (f := fun K => Bsm.price m K S T cp)
    (f' := fun K => -cp * Spec.discount m.intr T * Bsm.cdf m K S T cp) (x := K) hw
    (fun y hy => bsm_cdf_eq_strike_deriv m hcp (by linarith [hy.1]) hS)
  refine ⟨k, hk, ?_⟩
  have e1 : Bsm.price m (K - w) S T cp - Bsm.price m (K + w) S T cp
      = 2 * w * (cp * Spec.discount m.intr T * Bsm.cdf m k S T cp) := by
    rw [div_eq_iff (by positivity)] at e; linarith
  rw [hv, e1]
  rcases hcp with rfl | rfl
  · simp; field_simp
  · simp; field_simp

/-- **C26 (partial).**  Without interest and carry, `cdf_numeric` is the exact cdf (tail probability) at a strike within
`h`.  Missing: non-zero rates, where it is off by the discount factor (`bsm_cdf_numeric_wrong`). -/
theorem bsm_cdf_numeric_correct_partial (a : ℕ) {K S T cp w : ℝ} (h : Heap MParams) (m : MParams)
    (hm : h[a]? = some m) (hcp : Spec.IsCp cp) (hw : 0 < w) (hK : w < K) (hS : 0 < S)
    (hr : m.intr = 0) (hq : m.isFwd = true ∨ m.divr = 0) (hv : eps ≤ m.sigma * √T) :
    ∃ k ∈ Ioo (K - w) (K + w), value (cdfNumeric Bsm.cls a K S T cp w) h
      = Spec.gaussP {z | 0 ≤ cp * (Spec.gbm S (m.sigma * √T) z - k)} := by
  obtain ⟨k, hk, e⟩ := bsm_cdf_numeric_law a (T := T) h m hm hcp hw hK hS (by rw [hr]; exact hq.imp id Eq.symm)
  refine ⟨k, hk, ?_⟩
  have hk0 : 0 < k := by linarith [hk.1]
  rw [e, bsm_cdf_eq_probability m hcp hk0 hS hv, hr]
  have : Spec.forward m.isFwd 0 m.divr S T = S := by
    unfold Spec.forward; rcases hq with hq | hq <;> simp [hq]
  rw [this]
  simp [Spec.discount]

/-- **C26 is false of the code with interest.**  For every forward-quoted Bsm model with a positive rate there is a
strike at which the true probability of finishing above exceeds the discount factor, whereas `cdf_numeric` (for any
bump `w`) stays below the discount factor. -/
theorem bsm_cdf_numeric_wrong (a : ℕ) {S T : ℝ} (h : Heap MParams) (m : MParams) (hm : h[a]? = some m)
    (hS : 0 < S) (hq : m.isFwd = true) (hr : 0 < m.intr) (hT : 0 < T) (hv : eps ≤ m.sigma * √T) :
    ∃ K > 0, ∀ w, 0 < w → w < K → value (cdfNumeric Bsm.cls a K S T 1 w) h
      < Spec.gaussP {z | 0 ≤ Spec.gbm S (m.sigma * √T) z - K} := by
  have hd : 0 < Spec.discount m.intr T := exp_pos _
  have hd1 : Spec.discount m.intr T < 1 := by
    unfold Spec.discount; exact exp_lt_one_iff.2 (by nlinarith)
  obtain ⟨x, hx⟩ := (tendsto_ncdf_atTop.eventually (lt_mem_nhds hd1)).exists
  have hs := sigmaStd_pos m.sigma T
  refine ⟨S * exp (-((x + 0.5 * sigmaStd m.sigma T) * sigmaStd m.sigma T)), by positivity, fun w hw hwK => ?_⟩
  have hF : Spec.forward m.isFwd m.intr m.divr S T = S := by simp [Spec.forward, hq]
  have hc := bsm_cdf_eq_probability m (K := S * exp (-((x + 0.5 * sigmaStd m.sigma T) * sigmaStd m.sigma T)))
    (cp := 1) (Or.inl rfl) (by positivity) hS hv
  simp only [one_mul, hF] at hc
  rw [← hc]
  obtain ⟨k, hk, e⟩ := bsm_cdf_numeric_law a (T := T) (cp := 1) h m hm (Or.inl rfl) hw hwK hS (Or.inl hq)
  rw [e]
  have h1 : Bsm.cdf m k S T 1 < 1 := ncdf_lt_one _
  have h2 : Bsm.cdf m (S * exp (-((x + 0.5 * sigmaStd m.sigma T) * sigmaStd m.sigma T))) S T 1 = ncdf x := by
    unfold Bsm.cdf Bsm.d2
    congr 1
    have : m.fwd S T = S := by simp [MParams.fwd, hq]
    rw [this, ← div_div, div_self hS.ne', one_div, ← exp_neg, log_exp]
    field_simp
    ring
  rw [h2]
  nlinarith

/-- **C26.** `pdf_numeric` of a forward-quoted `Bsm` model (or one without carry) is the discounted density of
`S_T / F` at a moneyness within `h` of `K/F`; in particular it is positive. The density is stated as the derivative
of the distribution function `cdf`. -/
theorem bsm_pdf_numeric_law (a : ℕ) {K S T cp w : ℝ} (h : Heap MParams) (m : MParams) (hm : h[a]? = some m)
    (hcp : Spec.IsCp cp) (hw : 0 < w) (hK : w < K / S)
    (hq : m.isFwd = true ∨ m.intr = m.divr) :
    ∃ k ∈ Ioo (K / S - w) (K / S + w), ∃ dens, 0 < dens ∧
      HasDerivAt (fun k => Bsm.cdf m k 1 T (-1)) dens k ∧
      value (pdfNumeric Bsm.cls a K S T cp w) h = Spec.discount m.intr T * dens := by
  have hm' : h.getD a default = m := by simp [List.getD_eq_getElem?_getD, hm]
  have hF : ∀ S, m.forward S T = S := fun S => by
    rw [MParams.forward]; rcases hq with hq | hq <;> simp [hq]
  have hv : value (pdfNumeric Bsm.cls a K S T cp w) h = (Bsm.price m (K / m.forward S T + w) 1 T cp
      + Bsm.price m (K / m.forward S T - w) 1 T cp - 2 * Bsm.price m (K / m.forward S T) 1 T cp) / (w * w) := by
    rw [← hm']; rfl
  rw [hF] at hv
  have hs := sigmaStd_pos m.sigma T
  have hcd : ∀ y : ℝ, 0 < y → HasDerivAt (fun k => Bsm.cdf m k 1 T cp)
      (-cp * (npdf (Bsm.d2 m y 1 T) / (sigmaStd m.sigma T * y))) y := by
    intro y hy
    have h1 : HasDerivAt (fun k => Bsm.d2 m k 1 T) (-(1 / (sigmaStd m.sigma T * y))) y := by
      unfold Bsm.d2
      have hl : HasDerivAt (fun k : ℝ => log (m.fwd 1 T / k)) (-(1 / y)) y := by
        have hF1 := m.fwd_pos one_pos T
        have := ((hasDerivAt_inv hy.ne').const_mul (m.fwd 1 T)).log (by positivity)
        refine (this.congr_deriv ?_)
        field_simp
      refine ((hl.div_const (sigmaStd m.sigma T)).sub_const (0.5 * sigmaStd m.sigma T)).congr_deriv ?_
      field_simp
    have h2 := (hasDerivAt_ncdf (cp * Bsm.d2 m y 1 T)).comp y (h1.const_mul cp)
    refine h2.congr_deriv ?_
    rw [npdf_cp hcp]; ring
  obtain ⟨k, hk, e⟩ := secondDiff_mvt (f := fun K => Bsm.price m K 1 T cp)
    (f' := fun K => -cp * Spec.discount m.intr T * Bsm.cdf m K 1 T cp)
    (f'' := fun y => -cp * Spec.discount m.intr T * (-cp * (npdf (Bsm.d2 m y 1 T) / (sigmaStd m.sigma T * y))))
    (x := K / S) hw
    (fun y hy => bsm_cdf_eq_strike_deriv m hcp (by linarith [hy.1]) one_pos)
    (fun y hy => (hcd y (by linarith [hy.1])).const_mul _)
  have hk0 : 0 < k := by linarith [hk.1]
  refine ⟨k, hk, npdf (Bsm.d2 m k 1 T) / (sigmaStd m.sigma T * k), div_pos (npdf_pos _) (by positivity), ?_, ?_⟩
  · have hl : ∀ c : ℝ, Spec.IsCp c → HasDerivAt (fun k => Bsm.cdf m k 1 T c)
      (-c * (npdf (Bsm.d2 m k 1 T) / (sigmaStd m.sigma T * k))) k := by
      intro c hc
      rcases hcp with rfl | rfl <;> rcases hc with rfl | rfl
      · exact hcd k hk0
      · have : (fun k => Bsm.cdf m k 1 T (-1)) = fun k => 1 - Bsm.cdf m k 1 T 1 := by
          ext k; unfold Bsm.cdf; rw [neg_one_mul, one_mul, ncdf_neg]
        rw [this]
        exact ((hcd k hk0).const_sub 1).congr_deriv (by ring)
      · have : (fun k => Bsm.cdf m k 1 T 1) = fun k => 1 - Bsm.cdf m k 1 T (-1) := by
          ext k; unfold Bsm.cdf; rw [neg_one_mul, one_mul, ncdf_neg]; ring
        rw [this]
        exact ((hcd k hk0).const_sub 1).congr_deriv (by ring)
      · exact hcd k hk0
    exact (hl (-1) (Or.inr rfl)).congr_deriv (by ring)
  · rw [hv, show ∀ x y z : ℝ, x + y - 2 * z = x - 2 * z + y by intros; ring, e]
    linear_combination Spec.discount m.intr T * (npdf (Bsm.d2 m k 1 T) / (sigmaStd m.sigma T * k)) * isCp_sq hcp

/-! ## C27 -/

/-- The standardised prices of a call and a put agree. -/
def stdPrice_eq_aux (m : MParams) (C P K S T : ℝ) : Prop :=
  Bsm.stdPrice C (m.df T) (m.fwd S T) K 1 = Bsm.stdPrice P (m.df T) (m.fwd S T) K (-1)

/-- **C27.** `Bsm.vol_smile('bsm')` (any capitalisation, and by default) is flat at the model's sigma. -/
theorem bsm_vol_smile_flat (m : MParams) (K S T : ℝ) (cp : Option ℝ) (name : Option String)
    (hn : ∀ s, name = some s → pyLower s = "bsm") :
    Bsm.volSmile m K S T cp name = .ok (.flat m.sigma) := by
  unfold Bsm.volSmile
  cases name with
  | none => simp [show pyLower "bsm" = "bsm" by decide]
  | some s => simp [hn s rfl]

/-- **C27.** `Norm.vol_smile('norm')` (any capitalisation, and by default) is flat at the model's sigma. -/
theorem norm_vol_smile_flat (m : MParams) (K S T : ℝ) (cp : Option ℝ) (name : Option String)
    (hn : ∀ s, name = some s → pyLower s = "norm") :
    Norm.volSmile m K S T cp name = .ok (.flat m.sigma) := by
  unfold Norm.volSmile
  cases name with
  | none => simp [show pyLower "norm" = "norm" by decide]
  | some s => simp [hn s rfl]

section
variable {M : Type} (c : OptClass M)

/-- **C27.** The generic `vol_smile` raises exactly for model names other than `bsm`/`norm` (ignoring case). -/
theorem vol_smile_raises_iff (m : M) (K S T : ℝ) (cp : Option ℝ) (name : String) :
    (∃ e, OptABC.volSmile c m K S T cp name = .error e) ↔ pyLower name ≠ "bsm" ∧ pyLower name ≠ "norm" := by
  unfold OptABC.volSmile mSmile
  by_cases h1 : pyLower name = "bsm"
  · simp [h1]
  · by_cases h2 : pyLower name = "norm"
    · simp [h2, show ¬ "norm" = "bsm" by decide]
    · simp [h1, h2]

/-- **C27.** With `cp` omitted the generic `vol_smile` inverts the out-of-the-money option: the call strictly above
the forward, the put otherwise. -/
theorem vol_smile_otm (m : M) (K S T : ℝ) (name : String) :
    OptABC.volSmile c m K S T none name = OptABC.volSmile c m K S T (some
      (open Classical in if Spec.forward (c.conv m).isFwd (c.conv m).intr (c.conv m).divr S T < K then 1 else -1))
      name := by
  unfold OptABC.volSmile
  rw [← MParams.forward_eq_spec]
  rfl

/-- **C27.** If the model's prices satisfy put-call parity, the smile does not depend on whether calls, puts or
out-of-the-money options are inverted. -/
theorem vol_smile_cp_invariant (m : M) {K S T : ℝ} (name : String)
    (hpar : Spec.Parity (c.price m K S T 1) (c.price m K S T (-1)) (Spec.discount (c.conv m).intr T)
      (Spec.forward (c.conv m).isFwd (c.conv m).intr (c.conv m).divr S T) K) :
    OptABC.volSmile c m K S T (some 1) name = OptABC.volSmile c m K S T (some (-1)) name ∧
    OptABC.volSmile c m K S T none name = OptABC.volSmile c m K S T (some (-1)) name := by
  have key : OptABC.volSmile c m K S T (some 1) name = OptABC.volSmile c m K S T (some (-1)) name := by
    unfold OptABC.volSmile
    cases mSmile name with
    | none => rfl
    | some b =>
      simp only [Option.getD_some]
      congr 1
      cases b with
      | norm =>
        simp only [baseImpvol]
        rw [norm_impvol_parity (c.conv m) hpar]
      | bsm =>
        simp only [baseImpvol]
        have hd := (c.conv m).df_pos T
        have h1 : c.price m K S T 1 / (c.conv m).df T
            = c.price m K S T (-1) / (c.conv m).df T + ((c.conv m).fwd S T - K) := by
          rw [MParams.fwd_eq_forward, MParams.forward_eq_spec]
          unfold Spec.Parity at hpar
          rw [← MParams.df_eq_spec] at hpar
          field_simp
          linarith
        have e : stdPrice_eq_aux (c.conv m) (c.price m K S T 1) (c.price m K S T (-1)) K S T := by
          unfold stdPrice_eq_aux Bsm.stdPrice
          rw [h1]
          congr 1
          rcases le_total ((c.conv m).fwd S T - K) 0 with hx | hx
          · rw [max_eq_right (by linarith), max_eq_left (by linarith)]; ring
          · rw [max_eq_left (by linarith), max_eq_right (by linarith)]; ring
        unfold stdPrice_eq_aux at e
        unfold Bsm.impvol
        simp only [e]
  refine ⟨key, ?_⟩
  rw [vol_smile_otm]
  split_ifs
  · exact key
  · rfl

end

/-! ## C67 -/

/-- **C67.** If `BsmDisp.impvol` returns without a convergence warning, the displaced model with the returned
volatility reproduces the time value of the input price up to a factor `exp(±1e-10)`. -/
theorem bsmdisp_impvol_reprices {ι : Type*} (d : DParams) (price strike spot texp cp : ι → ℝ)
    {σ : ι → ℝ} (hres : BsmDisp.impvol d price strike spot texp cp = .ok (σ, true)) (i : ι)
    (hcp : Spec.IsCp (cp i)) (hβ : 0 < d.beta) (hK : 0 < BsmDisp.dispStrike d (strike i) (texp i))
    (hS : 0 < BsmDisp.dispSpot d (spot i)) (hT : 0 < texp i)
    (hp : Spec.discount d.intr (texp i) *
      max (cp i * (Spec.forward d.isFwd d.intr d.divr (spot i) (texp i) - strike i)) 0 < price i)
    (hσ : eps ≤ d.beta * σ i * √(texp i))
    (hb : ¬ Bsm.stdSmall (d.beta * σ i * √(texp i))
      (log (Bsm.stdStrike ((BsmDisp.toM d).forward (BsmDisp.dispSpot d (spot i)) (texp i))
        (BsmDisp.dispStrike d (strike i) (texp i)))) 1) :
    let intrinsic := Spec.discount d.intr (texp i) *
      max (cp i * (Spec.forward d.isFwd d.intr d.divr (spot i) (texp i) - strike i)) 0
    let reprice := BsmDisp.price { d with sigmaDisp := σ i } (strike i) (spot i) (texp i) (cp i)
    (price i - intrinsic) * exp (-1e-10) < reprice - intrinsic ∧
      reprice - intrinsic < (price i - intrinsic) * exp 1e-10 := by
  unfold BsmDisp.impvol at hres
  split at hres
  · cases hres
  · rename_i s b hs
    simp only [Except.ok.injEq, Prod.mk.injEq] at hres
    obtain ⟨rfl, rfl⟩ := hres
    have e1 : d.beta * (1 / d.beta * s i) = s i := by field_simp
    rw [e1] at hσ hb
    have hF : Spec.forward (BsmDisp.toM d).isFwd (BsmDisp.toM d).intr (BsmDisp.toM d).divr
        (BsmDisp.dispSpot d (spot i)) (texp i) - BsmDisp.dispStrike d (strike i) (texp i)
        = d.beta * (Spec.forward d.isFwd d.intr d.divr (spot i) (texp i) - strike i) := by
      rw [← MParams.forward_eq_spec, ← MParams.fwd_eq_forward, BsmDisp.fwd_disp]
      unfold BsmDisp.dispStrike
      rw [MParams.forward_eq_spec]
      simp only [BsmDisp.toM]
      ring
    have hmax : max (cp i * (d.beta * (Spec.forward d.isFwd d.intr d.divr (spot i) (texp i) - strike i))) 0
        = d.beta * max (cp i * (Spec.forward d.isFwd d.intr d.divr (spot i) (texp i) - strike i)) 0 := by
      rw [mul_max_of_nonneg _ _ hβ.le, mul_zero]; congr 1; ring
    have h := bsm_impvol_reprices (BsmDisp.toM d) _ _ _ _ _ 8 hs i hcp hK hS hT (by
      rw [hF, hmax]
      have := mul_lt_mul_of_pos_left hp hβ
      simp only [BsmDisp.toM]; linarith) hσ hb
    rw [hF, hmax] at h
    have hpr : BsmDisp.price { d with sigmaDisp := 1 / d.beta * s i } (strike i) (spot i) (texp i) (cp i)
        = 1 / d.beta * Bsm.price { BsmDisp.toM d with sigma := s i }
          (BsmDisp.dispStrike d (strike i) (texp i)) (BsmDisp.dispSpot d (spot i)) (texp i) (cp i) := by
      unfold BsmDisp.price BsmDisp.toM BsmDisp.getSigma BsmDisp.dispStrike BsmDisp.dispSpot
      simp only []
      rw [show 1 / d.beta * s i * d.beta = s i by field_simp]
      rfl
    simp only [BsmDisp.toM] at h hpr ⊢
    rw [hpr]
    obtain ⟨ha, hb⟩ := h
    constructor
    · refine lt_of_mul_lt_mul_left ?_ hβ.le
      calc _ = _ := ?_
        _ < _ := ha
        _ = _ := ?_
      · ring
      · field_simp
    · refine lt_of_mul_lt_mul_left ?_ hβ.le
      calc _ = _ := ?_
        _ < _ := hb
        _ = _ := ?_
      · field_simp
      · ring

end PyFENG
