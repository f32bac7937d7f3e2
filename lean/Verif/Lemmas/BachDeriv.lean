import Verif.Model.Norm
import Verif.Lemmas.Bach
import Verif.Lemmas.BlackDeriv
import Mathlib.Analysis.Convex.Deriv

/-! # Helper lemmas: derivatives and bounds of the Bachelier formula -/

open MeasureTheory ProbabilityTheory Set Filter Topology Real

namespace PyFENG

/-- Total derivative of the Bachelier formula along a curve. -/
lemma hasDerivAt_bach {cp : ℝ} (hcp : Spec.IsCp cp) {F K s : ℝ → ℝ} {F' K' s' t : ℝ}
    (hF : HasDerivAt F F' t) (hK : HasDerivAt K K' t) (hs : HasDerivAt s s' t) (ps : 0 < s t) :
    HasDerivAt (fun t => bach cp (F t) (K t) (s t))
      (cp * ncdf (cp * ((F t - K t) / s t)) * (F' - K') + npdf ((F t - K t) / s t) * s') t := by
  have hd := (hF.sub hK).div hs ps.ne'
  have n1 := (hasDerivAt_ncdf (cp * ((F t - K t) / s t))).comp t (hd.const_mul cp)
  have n2 := (hasDerivAt_npdf ((F t - K t) / s t)).comp t hd
  have := (((hF.sub hK).const_mul cp).mul n1).add (hs.mul n2)
  unfold bach
  refine this.congr_deriv ?_
  simp only [Function.comp_apply, Pi.sub_apply, Pi.div_apply]
  rw [npdf_cp hcp]
  have hc := isCp_sq hcp
  have e : F t - K t = s t * ((F t - K t) / s t) := by field_simp
  have h2 : cp * (F t - K t) * (npdf ((F t - K t) / s t) * (cp * (((F' - K') * s t
      - (F t - K t) * s') / s t ^ 2)))
      + s t * (-((F t - K t) / s t) * npdf ((F t - K t) / s t) * (((F' - K') * s t
      - (F t - K t) * s') / s t ^ 2)) = 0 := by
    have h3 : cp * (F t - K t) * (npdf ((F t - K t) / s t) * (cp * (((F' - K') * s t
      - (F t - K t) * s') / s t ^ 2))) = (cp * cp) * (F t - K t) * (npdf ((F t - K t) / s t)
      * (((F' - K') * s t - (F t - K t) * s') / s t ^ 2)) := by ring
    rw [h3, hc]
    field_simp
    ring
  linarith

/-- the Bachelier price strictly exceeds intrinsic value -/
lemma intrinsic_lt_bach {cp F K s : ℝ} (hcp : Spec.IsCp cp) (hs : 0 < s) :
    max (cp * (F - K)) 0 < bach cp F K s := by
  -- bach(s) - bach's derivative: s N'(d)+..., use d N(d) + n(d) > max(d,0)
  have key : ∀ x : ℝ, 0 < x * ncdf x + npdf x := by
    intro x
    have hmono : StrictMono fun x => x * ncdf x + npdf x := by
      refine strictMono_of_deriv_pos fun y => ?_
      have := ((hasDerivAt_id' y).mul (hasDerivAt_ncdf y)).add (hasDerivAt_npdf y)
      have h2 : HasDerivAt (fun x => x * ncdf x + npdf x) (ncdf y) y := by
        refine this.congr_deriv ?_; ring
      rw [h2.deriv]; exact ncdf_pos y
    -- value at x equals an expectation of a non-negative payoff
    have h0 : ∀ y, 0 ≤ y * ncdf y + npdf y := by
      intro y
      have := gaussE_bach_call (F := y) (K := 0) (s := 1) one_pos
      unfold bach at this
      simp only [one_mul, sub_zero, div_one] at this
      rw [← this]
      exact integral_nonneg fun z => le_max_right _ _
    have := hmono (show x - 1 < x by linarith)
    have h1 := h0 (x - 1)
    simp only at this
    linarith
  have hb : bach cp F K s = s * (cp * ((F - K) / s) * ncdf (cp * ((F - K) / s))
      + npdf (cp * ((F - K) / s))) := by
    unfold bach; rw [npdf_cp hcp]; field_simp
  rw [hb]
  set x := cp * ((F - K) / s) with hx
  have hxs : cp * (F - K) = s * x := by rw [hx]; field_simp
  rw [hxs]
  have k1 := key x
  have k2 := key (-x)
  rw [ncdf_neg, npdf_neg] at k2
  refine max_lt ?_ (by positivity)
  refine mul_lt_mul_of_pos_left ?_ hs
  linarith

lemma strictMonoOn_bach {cp F K : ℝ} (hcp : Spec.IsCp cp) :
    StrictMonoOn (fun s => bach cp F K s) (Ioi 0) := by
  have hd : ∀ s ∈ Ioi (0:ℝ), HasDerivAt (fun s => bach cp F K s) (npdf ((F - K) / s)) s := by
    intro s hs
    have := hasDerivAt_bach hcp (hasDerivAt_const s F) (hasDerivAt_const s K) (hasDerivAt_id' s) hs
    refine this.congr_deriv ?_
    simp
  refine strictMonoOn_of_deriv_pos (convex_Ioi 0) (fun s hs => (hd s hs).continuousAt.continuousWithinAt)
    fun s hs => ?_
  rw [interior_Ioi] at hs
  rw [(hd s hs).deriv]
  exact npdf_pos _

lemma hasDerivAt_bach_strike {cp F K s : ℝ} (hcp : Spec.IsCp cp) (hs : 0 < s) :
    HasDerivAt (fun K => bach cp F K s) (-cp * ncdf (cp * ((F - K) / s))) K := by
  have := hasDerivAt_bach hcp (hasDerivAt_const K F) (hasDerivAt_id' K) (hasDerivAt_const K s) hs
  refine this.congr_deriv ?_
  ring

lemma strictConvexOn_bach {cp F s : ℝ} (hcp : Spec.IsCp cp) (hs : 0 < s) :
    StrictConvexOn ℝ univ fun K => bach cp F K s := by
  refine StrictMonoOn.strictConvexOn_of_deriv convex_univ
    (fun K _ => (hasDerivAt_bach_strike hcp hs).continuousAt.continuousWithinAt) ?_
  intro K1 _ K2 _ h
  rw [(hasDerivAt_bach_strike hcp hs).deriv, (hasDerivAt_bach_strike hcp hs).deriv]
  have hlt : (F - K2) / s < (F - K1) / s := by
    apply div_lt_div_of_pos_right _ hs; linarith
  rcases hcp with rfl | rfl
  · have := strictMono_ncdf (show 1 * ((F - K2) / s) < 1 * ((F - K1) / s) by linarith)
    linarith
  · have := strictMono_ncdf (show -1 * ((F - K1) / s) < -1 * ((F - K2) / s) by linarith)
    linarith

/-- The Norm price above the floor is the discounted Bachelier formula. -/
lemma Norm.price_eq_bach (m : MParams) {K S T cp : ℝ} (hv : eps ≤ m.sigma * √T) :
    Norm.price m K S T cp = m.df T * bach cp (m.fwd S T) K (m.sigma * √T) := by
  have hf : S * (if m.isFwd then 1 else exp (-T * m.divr) / exp (-T * m.intr)) = m.fwd S T := by
    unfold MParams.fwd MParams.divf MParams.df
    cases m.isFwd
    · simp; ring_nf
    · simp
  have hs : m.sigma * √T ≠ 0 := (eps_pos.trans_le hv).ne'
  unfold Norm.price Norm.priceFormula bach
  simp only [hf, max_eq_left hv]
  have : exp (-T * m.intr) = m.df T := by unfold MParams.df; ring_nf
  rw [this]
  generalize hw : m.sigma * √T = w at *
  generalize ncdf (cp * ((m.fwd S T - K) / w)) = N
  generalize npdf ((m.fwd S T - K) / w) = n
  field_simp

end PyFENG
