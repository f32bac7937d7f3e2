import Mathlib.Analysis.Calculus.Deriv.MeanValue
import Mathlib.Analysis.Calculus.Deriv.Add
import Mathlib.Analysis.Calculus.Deriv.Mul
import Mathlib.Analysis.Calculus.Deriv.Comp
import Mathlib.Analysis.Calculus.Deriv.Pow

/-! # Mean-value theorems for central differences -/

namespace PyFENG

open Set

/-- A central difference is the derivative at an intermediate point. -/
lemma centralDiff_mvt {f f' : ℝ → ℝ} {x h : ℝ} (hh : 0 < h)
    (hf : ∀ y ∈ Icc (x - h) (x + h), HasDerivAt f (f' y) y) :
    ∃ ξ ∈ Ioo (x - h) (x + h), (f (x + h) - f (x - h)) / (2 * h) = f' ξ := by
  obtain ⟨ξ, hξ, e⟩ := exists_hasDerivAt_eq_slope f f' (show x - h < x + h by linarith)
    (fun y hy => (hf y hy).continuousAt.continuousWithinAt) (fun y hy => hf y ⟨hy.1.le, hy.2.le⟩)
  exact ⟨ξ, hξ, by rw [e]; congr 1; ring⟩

/-- A second central difference is the second derivative at an intermediate point. -/
lemma secondDiff_mvt {f f' f'' : ℝ → ℝ} {x h : ℝ} (hh : 0 < h)
    (hf : ∀ y ∈ Icc (x - h) (x + h), HasDerivAt f (f' y) y)
    (hf2 : ∀ y ∈ Icc (x - h) (x + h), HasDerivAt f' (f'' y) y) :
    ∃ ξ ∈ Ioo (x - h) (x + h), (f (x + h) - 2 * f x + f (x - h)) / (h * h) = f'' ξ := by
  have hu : ∀ t : ℝ, HasDerivAt (fun t : ℝ => x + t) 1 t := fun t => (hasDerivAt_id' t).const_add x
  have hd : ∀ t : ℝ, HasDerivAt (fun t : ℝ => x - t) (-1) t := fun t => (hasDerivAt_id' t).const_sub x
  have hg : ∀ t ∈ Icc 0 h, HasDerivAt (fun t => f (x + t) + f (x - t)) (f' (x + t) - f' (x - t)) t := by
    intro t ht
    have h1 := (hf (x + t) ⟨by linarith [ht.1], by linarith [ht.2]⟩).comp t (hu t)
    have h2 := (hf (x - t) ⟨by linarith [ht.2], by linarith [ht.1]⟩).comp t (hd t)
    exact (h1.add h2).congr_deriv (by ring)
  have hq : ∀ t : ℝ, HasDerivAt (fun t : ℝ => t ^ 2) (2 * t) t := fun t => by
    simpa using hasDerivAt_pow 2 t
  obtain ⟨t, ht, e⟩ := exists_ratio_hasDerivAt_eq_ratio_slope (fun t => f (x + t) + f (x - t))
    (fun t => f' (x + t) - f' (x - t)) hh
    (fun y hy => (hg y hy).continuousAt.continuousWithinAt) (fun y hy => hg y ⟨hy.1.le, hy.2.le⟩)
    (fun t : ℝ => t ^ 2) (fun t => 2 * t)
    (fun y _ => (hq y).continuousAt.continuousWithinAt) (fun y _ => hq y)
  obtain ⟨ξ, hξ, e2⟩ := centralDiff_mvt (f := f') (f' := f'') (x := x) ht.1
    (fun y hy => hf2 y ⟨by linarith [hy.1, ht.2], by linarith [hy.2, ht.2]⟩)
  refine ⟨ξ, ⟨by linarith [hξ.1, ht.2], by linarith [hξ.2, ht.2]⟩, ?_⟩
  rw [← e2]
  have ht0 : t ≠ 0 := ht.1.ne'
  rw [div_eq_div_iff (by positivity) (by positivity)]
  simp only [add_zero, sub_zero] at e
  linear_combination -e

/-- Mixed central difference: the mixed derivative at an intermediate point. -/
lemma crossDiff_mvt {f fx fxy : ℝ → ℝ → ℝ} {x y h k : ℝ} (hh : 0 < h) (hk : 0 < k)
    (hf : ∀ s ∈ Icc (x - h) (x + h), ∀ v ∈ Icc (y - k) (y + k), HasDerivAt (fun s => f s v) (fx s v) s)
    (hf2 : ∀ s ∈ Icc (x - h) (x + h), ∀ v ∈ Icc (y - k) (y + k), HasDerivAt (fun v => fx s v) (fxy s v) v) :
    ∃ ξ ∈ Ioo (x - h) (x + h), ∃ η ∈ Ioo (y - k) (y + k),
      ((f (x + h) (y + k) - f (x + h) (y - k)) / (2 * k) - (f (x - h) (y + k) - f (x - h) (y - k)) / (2 * k))
        / (2 * h) = fxy ξ η := by
  have hy1 : y + k ∈ Icc (y - k) (y + k) := ⟨by linarith, le_rfl⟩
  have hy2 : y - k ∈ Icc (y - k) (y + k) := ⟨le_rfl, by linarith⟩
  obtain ⟨ξ, hξ, e⟩ := centralDiff_mvt (f := fun s => f s (y + k) - f s (y - k))
    (f' := fun s => fx s (y + k) - fx s (y - k)) (x := x) hh
    (fun s hs => (hf s hs _ hy1).sub (hf s hs _ hy2))
  obtain ⟨η, hη, e2⟩ := centralDiff_mvt (f := fx ξ) (f' := fxy ξ) (x := y) hk
    (fun v hv => hf2 ξ ⟨hξ.1.le, hξ.2.le⟩ v hv)
  refine ⟨ξ, hξ, η, hη, ?_⟩
  rw [← e2, ← e]
  ring

end PyFENG
