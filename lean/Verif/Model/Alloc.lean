import Mathlib.Analysis.SpecialFunctions.Sqrt
import Mathlib.Data.Fin.VecNotation

/-!
# Model of `pyfeng/assetalloc.py`: `RiskParity` and `RiskParitySCA`

Vectors are `Fin n → ℝ`, matrices `Fin n → Fin n → ℝ`.  A step that would produce NaN or a division by zero in numpy makes the
loop fail (`none`): NaN propagates through every later iterate and `err < tol` is then false, so the code returns `None`.
-/

namespace PyFENG

open Real

namespace Alloc

variable {n : ℕ}

/-- `np.dot` / `@` for vectors. -/
noncomputable def dot (x y : Fin n → ℝ) : ℝ := ∑ j, x j * y j

/-- Matrix-vector product `M @ w`. -/
noncomputable def mulVec (M : Fin n → Fin n → ℝ) (w : Fin n → ℝ) : Fin n → ℝ := fun i => dot (M i) w

/-- The model object after `__post_init__`, `pyfeng/assetalloc.py` lines 44-70 and `params.py` (`MaParams`): correlation,
volatilities, covariance `cov = sigma * cor * sigma`, risk budget, and long/short signs (`np.sign` of the input). -/
structure RiskParity (n : ℕ) where
  cor : Fin n → Fin n → ℝ
  sigma : Fin n → ℝ
  budget : Fin n → ℝ
  longshort : Fin n → ℝ

/-- `self.cov_m`, `pyfeng/params.py` (`MaParams.__post_init__`; see C31): `sigma[:,None] * cor_m * sigma`. -/
noncomputable def RiskParity.cov (m : RiskParity n) : Fin n → Fin n → ℝ := fun i j => m.sigma i * m.cor i j * m.sigma j

/-- Validation of `budget` in `RiskParity.__post_init__`, `pyfeng/assetalloc.py` lines 52-60: the only conditions are the length
and `np.isclose(np.sum(budget), 1)`; `none` gives `1/n` each. -/
noncomputable def initBudget (budget : Option (List ℝ)) : Option (Fin n → ℝ) :=
  match budget with
  | none => some fun _ => 1 / n
  | some b => if b.length = n ∧ |b.sum - 1| ≤ 1e-8 + 1e-5 then some fun i => b.getD i 0 else none

/-- Outcome of a fit: not converged (`None`), converged but the final division by a zero sum gives inf/NaN weights, or
weights with the reported `err` and `n_iter`. -/
inductive FitResult (n : ℕ) where
  | notConverged
  | nonFinite
  | ok (w : Fin n → ℝ) (err : ℝ) (nIter : ℕ)

/-- One coordinate update of `fit_ccd`, `pyfeng/assetalloc.py` lines 116-118. -/
noncomputable def ccdCoord (m : RiskParity n) (ww : Option (Fin n → ℝ)) (i : Fin n) : Option (Fin n → ℝ) :=
  match ww with
  | none => none
  | some ww =>
    let a := (dot (m.cor i) ww - ww i) / 2
    if a * a + m.budget i < 0 then none
    else some (Function.update ww i (m.longshort i * √(a * a + m.budget i) - a))

/-- The inner loop of `fit_ccd` over all coordinates, `pyfeng/assetalloc.py` lines 116-118. -/
noncomputable def ccdSweep (m : RiskParity n) (ww : Fin n → ℝ) : Option (Fin n → ℝ) :=
  (List.finRange n).foldl (ccdCoord m) (some ww)

/-- `err = np.max(np.abs(ww * cor_ww - self.budget))`, `pyfeng/assetalloc.py` lines 126 and 169 (with `rc` the product). -/
noncomputable def maxErr (rc budget : Fin n → ℝ) : ℝ := ⨆ i, |rc i - budget i|

/-- Lines 128-132 and 171-174 of `pyfeng/assetalloc.py`: normalisation of the converged weights. -/
noncomputable def finish (x : Fin n → ℝ) (err : ℝ) (k : ℕ) : FitResult n :=
  if ∑ j, x j = 0 then .nonFinite else .ok (fun i => x i / ∑ j, x j) err k

/-- The outer loop of `fit_ccd`, `pyfeng/assetalloc.py` lines 115-136; `fuel` iterations remain and `k` is the current count. -/
noncomputable def ccdLoop (m : RiskParity n) (tol : ℝ) : ℕ → ℕ → (Fin n → ℝ) → FitResult n
  | 0, _, _ => .notConverged
  | fuel + 1, k, ww =>
    match ccdSweep m ww with
    | none => .notConverged
    | some ww =>
      let q := dot ww (mulVec m.cor ww)
      if q ≤ 0 then .notConverged
      else
        let vv := √q
        let corWw := fun i => mulVec m.cor ww i / vv
        let ww' := fun i => ww i / vv
        let err := maxErr (fun i => ww' i * corWw i) m.budget
        if err < tol then finish (fun i => ww' i / m.sigma i) err k
        else ccdLoop m tol fuel (k + 1) ww'

/-- `fit_ccd(tol)`, `pyfeng/assetalloc.py` lines 99-136. -/
noncomputable def fitCcd (m : RiskParity n) (tol : ℝ) : FitResult n :=
  if ∑ i, ∑ j, m.cor i j ≤ 0 then .notConverged
  else ccdLoop m tol 1023 1 fun _ => 1 / √(∑ i, ∑ j, m.cor i j)

/-- State of `fit_ccd_original`: the weights, the incrementally updated `cov_ww`, and `vv`. -/
structure OrigState (n : ℕ) where
  ww : Fin n → ℝ
  covWw : Fin n → ℝ
  vv : ℝ

/-- One coordinate update of `fit_ccd_original`, `pyfeng/assetalloc.py` lines 161-167. -/
noncomputable def origCoord (m : RiskParity n) (s : Option (OrigState n)) (i : Fin n) : Option (OrigState n) :=
  match s with
  | none => none
  | some s =>
    let cov := m.cov
    let a := (s.covWw i - cov i i * s.ww i) / 2
    let disc := a * a + cov i i * s.vv * m.budget i
    if disc < 0 then none
    else
      let wwi := (m.longshort i * √disc - a) / cov i i
      let covWw := fun j => s.covWw j + cov j i * (wwi - s.ww i)
      let ww := Function.update s.ww i wwi
      let q := dot ww covWw
      if q ≤ 0 then none else some ⟨ww, covWw, √q⟩

/-- The outer loop of `fit_ccd_original`, `pyfeng/assetalloc.py` lines 160-178. -/
noncomputable def origLoop (m : RiskParity n) (tol : ℝ) : ℕ → ℕ → OrigState n → FitResult n
  | 0, _, _ => .notConverged
  | fuel + 1, k, s =>
    match (List.finRange n).foldl (origCoord m) (some s) with
    | none => .notConverged
    | some s =>
      let err := maxErr (fun i => s.ww i * s.covWw i / s.vv) m.budget
      if err < tol then finish s.ww err k
      else origLoop m tol fuel (k + 1) s

/-- `fit_ccd_original(tol)`, `pyfeng/assetalloc.py` lines 138-178. -/
noncomputable def fitCcdOriginal (m : RiskParity n) (tol : ℝ) : FitResult n :=
  let w0 := fun i => 1 / m.sigma i
  let ww := fun i => w0 i / ∑ j, w0 j
  let covWw := mulVec m.cov ww
  if dot ww covWw ≤ 0 then .notConverged
  else origLoop m tol 1023 1 ⟨ww, covWw, √(dot ww covWw)⟩

/-- `_newton_val`, `pyfeng/assetalloc.py` lines 180-184. -/
noncomputable def newtonVal (w : Fin n → ℝ) (cov : Fin n → Fin n → ℝ) (bud : Fin n → ℝ) : Fin n → ℝ :=
  fun i => mulVec cov w i - bud i / w i

/-- `_newton_jacobian`, `pyfeng/assetalloc.py` lines 186-189. -/
noncomputable def newtonJacobian (w : Fin n → ℝ) (cov : Fin n → Fin n → ℝ) (bud : Fin n → ℝ) : Fin n → Fin n → ℝ :=
  fun i j => cov i j + if i = j then bud i / (w i * w i) else 0

/-- `w_init` of `fit_newton`, `pyfeng/assetalloc.py` lines 208-209. -/
noncomputable def newtonInit (m : RiskParity n) : Fin n → ℝ := fun i =>
  let a := 0.5 * ((∑ j, m.cor i j) - 1) / √(∑ i, ∑ j, m.cor i j)
  √(a * a + m.budget i) - a

/-- `fit_newton(tol)`, `pyfeng/assetalloc.py` lines 191-221.  `root` stands for `scipy.optimize.root` (function, start,
Jacobian ↦ solution); on failure to converge only a warning is issued. -/
noncomputable def fitNewton (root : ((Fin n → ℝ) → Fin n → ℝ) → (Fin n → ℝ) → ((Fin n → ℝ) → Fin n → Fin n → ℝ) → Fin n → ℝ)
    (m : RiskParity n) : FitResult n :=
  let x := root (fun w => newtonVal w m.cor m.budget) (newtonInit m) (fun w => newtonJacobian w m.cor m.budget)
  finish (fun i => x i / m.sigma i) (⨆ i, |newtonVal x m.cor m.budget i|) 0

/-! ### Capped portfolios -/

/-- `np.clip(x, 0.0, u)`. -/
noncomputable def clip (u x : ℝ) : ℝ := min (max x 0) u

/-- The loop of `_project_simplex_box`, `pyfeng/assetalloc.py` lines 379-389; `fuel` bisection steps remain. -/
noncomputable def projLoop (v : Fin n → ℝ) (u : ℝ) : ℕ → ℝ → ℝ → Fin n → ℝ
  | 0, lo, hi => fun i => clip u (v i - 0.5 * (lo + hi))
  | fuel + 1, lo, hi =>
    let tau := 0.5 * (lo + hi)
    let w := fun i => clip u (v i - tau)
    let total := ∑ i, w i
    if |total - 1| < 1e-12 then w
    else if total > 1 then projLoop v u fuel tau hi
    else projLoop v u fuel lo tau

/-- `_project_simplex_box(v, u)`, `pyfeng/assetalloc.py` lines 364-389 (finite one-dimensional input): `none` is ValueError. -/
noncomputable def projectSimplexBox (v : Fin n → ℝ) (u : ℝ) : Option (Fin n → ℝ) :=
  if u ≤ 0 then none
  else if u * n < 1 - 1e-12 then none
  else some (projLoop v u 100 ((⨅ i, v i) - u) (⨆ i, v i))

/-- `_risk_contributions`, `pyfeng/assetalloc.py` lines 357-358. -/
noncomputable def riskContributions (cov : Fin n → Fin n → ℝ) (w : Fin n → ℝ) : Fin n → ℝ := fun i => w i * mulVec cov w i

/-- `x - x.mean()`. -/
noncomputable def centred (x : Fin n → ℝ) : Fin n → ℝ := fun i => x i - (∑ j, x j) / n

/-- `_objective`, `pyfeng/assetalloc.py` lines 353-355. -/
noncomputable def objective (cov : Fin n → Fin n → ℝ) (w : Fin n → ℝ) : ℝ := ∑ i, centred (riskContributions cov w) i ^ 2

/-- `grad`, `pyfeng/assetalloc.py` lines 317-320: `2.0 * (sw * resid + w * (self.cov_m @ resid))`. -/
noncomputable def scaGrad (cov : Fin n → Fin n → ℝ) (w : Fin n → ℝ) : Fin n → ℝ :=
  let sw := mulVec cov w
  let resid := centred (riskContributions cov w)
  fun i => 2 * (sw i * resid i + w i * mulVec cov resid i)

/-- The backtracking line search, `pyfeng/assetalloc.py` lines 322-331.  The `while True` loop runs on fuel; `none` means the fuel
ran out (or the projection refused its input). -/
noncomputable def lineSearch (cov : Fin n → Fin n → ℝ) (wMax : ℝ) (w grad : Fin n → ℝ) (currentObj : ℝ) :
    ℕ → ℝ → Option ((Fin n → ℝ) × ℝ)
  | 0, _ => none
  | fuel + 1, localStep =>
    match projectSimplexBox (fun i => w i - localStep * grad i) wMax with
    | none => none
    | some candidate =>
      if currentObj - objective cov candidate ≥ 1e-12 ∨ localStep ≤ 1e-12 then some (candidate, localStep)
      else lineSearch cov wMax w grad currentObj fuel (localStep * 0.5)

/-- The main loop of `fit_sca`, `pyfeng/assetalloc.py` lines 315-342: the weights on convergence, `none` for
FloatingPointError.  `searchFuel` bounds the inner `while True`. -/
noncomputable def scaLoop (cov : Fin n → Fin n → ℝ) (wMax tol : ℝ) (searchFuel : ℕ) : ℕ → (Fin n → ℝ) → ℝ → Option (Fin n → ℝ)
  | 0, _, _ => none
  | fuel + 1, w, step =>
    match lineSearch cov wMax w (scaGrad cov w) (objective cov w) searchFuel step with
    | none => none
    | some (candidate, localStep) =>
      if (⨆ i, |candidate i - w i|) < tol then some candidate
      else scaLoop cov wMax tol searchFuel fuel candidate (min (localStep * 1.5) 1)

/-- `fit_sca(tol)`, `pyfeng/assetalloc.py` lines 286-351, starting from the CCD weights `w0`; `maxIter` is `self.max_iter`. -/
noncomputable def fitSca (cov : Fin n → Fin n → ℝ) (wMax tol : ℝ) (searchFuel maxIter : ℕ) (w0 : Fin n → ℝ) : Option (Fin n → ℝ) :=
  match projectSimplexBox (fun i => clip wMax (w0 i)) wMax with
  | none => none
  | some w => scaLoop cov wMax tol searchFuel maxIter w 1

end Alloc

end PyFENG
