import Verif.Model.Dist

/-!
# Model of the mutable `DistGh` / `DistNig` objects with their cached quadrature

`pyfeng/disthelper.py` lines 684-712, 850-880: plain Python attributes `mu`, `beta`, `gamma`, `delta`, `p`, and a property
`n_quad` whose setter recomputes the cached nodes and weights `quad_x`, `quad_w`.  The rule `mixer().quad(n)` is a parameter
`quadOf`; a quadrature is a list of (node, weight) pairs.
-/

namespace PyFENG

/-- A `DistGh` object: parameters, `_n_quad`, cached `(quad_x, quad_w)`; `pyfeng/disthelper.py` lines 684-700. -/
structure GhObj where
  par : DistGh
  nQuad : ℕ
  cache : List (ℝ × ℝ)

/-- Attribute assignments a user can perform on the object. -/
inductive GhOp where
  | setMu (v : ℝ)
  | setBeta (v : ℝ)
  | setGamma (v : ℝ)
  | setDelta (v : ℝ)
  | setP (v : ℝ)
  | setNQuad (n : ℕ)

namespace GhObj

variable (quadOf : DistGig → ℕ → List (ℝ × ℝ))

/-- `DistGh.mixer`, `pyfeng/disthelper.py` lines 724-726. -/
def mixer (d : DistGh) : DistGig := ⟨d.gamma, d.delta, d.p⟩

/-- Setter of `n_quad`, `pyfeng/disthelper.py` lines 704-707. -/
def setNQuad (o : GhObj) (n : ℕ) : GhObj := { o with nQuad := n, cache := quadOf (mixer o.par) n }

/-- `DistGh.__init__`, `pyfeng/disthelper.py` lines 692-698. -/
def init (d : DistGh) (n : ℕ) : GhObj := setNQuad quadOf ⟨d, n, []⟩ n

/-- Attribute assignment: only `n_quad` is a property with a setter. -/
def step (o : GhObj) : GhOp → GhObj
  | .setMu v => { o with par := { o.par with mu := v } }
  | .setBeta v => { o with par := { o.par with beta := v } }
  | .setGamma v => { o with par := { o.par with gamma := v } }
  | .setDelta v => { o with par := { o.par with delta := v } }
  | .setP v => { o with par := { o.par with p := v } }
  | .setNQuad n => setNQuad quadOf o n

/-- A sequence of assignments. -/
def run (o : GhObj) (ops : List GhOp) : GhObj := ops.foldl (step quadOf) o

/-- `mvsk_quad()[0]`, `pyfeng/disthelper.py` lines 794-796: the mean read off the cached quadrature. -/
noncomputable def meanQuad (o : GhObj) : ℝ := (o.cache.map fun xw => xw.2 * (o.par.mu + o.par.beta * xw.1)).sum

/-- `cdf(y)`, `pyfeng/disthelper.py` lines 826-832, on the cached quadrature. -/
noncomputable def cdf (o : GhObj) (y : ℝ) : ℝ :=
  (o.cache.map fun xw => ncdf ((y - o.par.mu - o.par.beta * xw.1) / √xw.1) * xw.2).sum

end GhObj

end PyFENG
