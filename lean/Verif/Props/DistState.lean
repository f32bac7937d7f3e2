import Verif.Model.DistState
import Verif.Props.DistGh

/-!
# C68: quadrature-based results of a `DistGh` object belong to its current parameters (false after assignments)
-/

namespace PyFENG

namespace GhObj

variable (quadOf : DistGig → ℕ → List (ℝ × ℝ))

/-- Specification: the cached quadrature is the quadrature of the current mixing law. -/
def Fresh (o : GhObj) : Prop := o.cache = quadOf (mixer o.par) o.nQuad

/-- Assignments that leave the mixing law alone, or refresh the cache. -/
def Harmless : GhOp → Prop
  | .setMu _ | .setBeta _ | .setNQuad _ => True
  | _ => False

/-- **C68** on the region where it holds: a new object is fresh, and stays fresh under every sequence of assignments to
`mu`, `beta` and `n_quad`. -/
theorem fresh_partial (d : DistGh) (n : ℕ) (ops : List GhOp) (h : ∀ op ∈ ops, Harmless op) :
    Fresh quadOf (run quadOf (init quadOf d n) ops) := by
  have key : ∀ (ops : List GhOp) (o : GhObj), Fresh quadOf o → (∀ op ∈ ops, Harmless op) →
      Fresh quadOf (run quadOf o ops) := by
    intro ops
    induction ops with
    | nil => intro o ho _; exact ho
    | cons op ops ih =>
      intro o ho hall
      refine ih _ ?_ fun q hq => hall q (List.mem_cons_of_mem _ hq)
      have hop := hall op List.mem_cons_self
      cases op <;> simp only [Harmless] at hop
      · exact ho
      · exact ho
      · rfl
  exact key ops _ rfl h

/-- Re-assigning `n_quad` (even to its current value) refreshes the cache from any state. -/
theorem setNQuad_fresh (o : GhObj) (ops : List GhOp) (n : ℕ) :
    Fresh quadOf (run quadOf o (ops ++ [.setNQuad n])) := by
  unfold run
  rw [List.foldl_append]
  rfl

/-- What the cache really is: after any sequence of assignments the cached quadrature is that of the mixing law *at the
time of the last assignment to* `n_quad` (here: no such assignment, so the constructor's). -/
theorem cache_stale_law (d : DistGh) (n : ℕ) (ops : List GhOp) (h : ∀ op ∈ ops, ∀ k, op ≠ .setNQuad k) :
    (run quadOf (init quadOf d n) ops).cache = quadOf (mixer d) n := by
  have key : ∀ (ops : List GhOp) (o : GhObj), (∀ op ∈ ops, ∀ k, op ≠ .setNQuad k) →
      (run quadOf o ops).cache = o.cache := by
    intro ops
    induction ops with
    | nil => intro o _; rfl
    | cons op ops ih =>
      intro o hall
      have h1 := ih (step quadOf o op) fun q hq => hall q (List.mem_cons_of_mem _ hq)
      have hop := hall op List.mem_cons_self
      refine h1.trans ?_
      cases op
      case setNQuad k => exact absurd rfl (hop k)
      all_goals rfl
  exact key ops _ h

/-- The mean read off a cache of `mixer d` (mean-exact, weights summing to one) is `mu + beta * delta/gamma` with the
parameters of the cache. -/
lemma meanQuad_eq (o : GhObj) (c : ℝ) (h1 : (o.cache.map fun xw => xw.2).sum = 1)
    (hm : (o.cache.map fun xw => xw.2 * xw.1).sum = c) : o.meanQuad = o.par.mu + o.par.beta * c := by
  unfold meanQuad
  have : ∀ l : List (ℝ × ℝ), (l.map fun xw => xw.2 * (o.par.mu + o.par.beta * xw.1)).sum =
      o.par.mu * (l.map fun xw => xw.2).sum + o.par.beta * (l.map fun xw => xw.2 * xw.1).sum := by
    intro l
    induction l with
    | nil => simp
    | cons a l ih => simp only [List.map_cons, List.sum_cons, ih]; ring
  rw [this, h1, hm]; ring

/-- **C68** is false: for NIG, with *any* quadrature that is normalised and mean-exact, assigning a new `delta` (and
nothing else) makes `mvsk_quad()` report the mean of the old distribution, which differs from the closed-form `mvsk()` mean
whenever `beta ≠ 0`. -/
theorem stale_wrong (mu beta gamma delta delta' : ℝ) (n : ℕ) (hg : 0 < gamma) (hb : beta ≠ 0)
    (hd : delta ≠ delta')
    (h1 : ((quadOf ⟨gamma, delta, -0.5⟩ n).map fun xw => xw.2).sum = 1)
    (hm : ((quadOf ⟨gamma, delta, -0.5⟩ n).map fun xw => xw.2 * xw.1).sum = delta / gamma) :
    let o := run quadOf (init quadOf ⟨mu, beta, gamma, delta, -0.5⟩ n) [.setDelta delta']
    o.meanQuad ≠ o.par.nigMvsk.mean := by
  intro o
  have hc : o.cache = quadOf ⟨gamma, delta, -0.5⟩ n := rfl
  rw [meanQuad_eq o (delta / gamma) (by rw [hc]; exact h1) (by rw [hc]; exact hm)]
  have hp : o.par = ⟨mu, beta, gamma, delta', -0.5⟩ := rfl
  rw [hp]
  unfold DistGh.nigMvsk
  simp only
  intro h
  have h2 : beta * (delta / gamma) = delta' * beta / gamma := by linarith
  field_simp at h2
  exact hd h2

/-- The hypotheses of `stale_wrong` hold of the code's inverse Gaussian quadrature (two nodes). -/
example (gamma delta : ℝ) (hg : 0 < gamma) (hd : 0 < delta) :
    let q := (DistInvGauss.fromGig gamma delta).quad (fun b : Bool => if b then 1 else -1)
      (fun _ => √(2 * Real.pi) / 2) √(2 * Real.pi)
    ∑ i, q.2 i = 1 ∧ ∑ i, q.2 i * q.1 i = delta / gamma := by
  have hm : 0 < (DistInvGauss.fromGig gamma delta).mu := by
    unfold DistInvGauss.fromGig; simp only; positivity
  have hl : 0 < (DistInvGauss.fromGig gamma delta).lam := by
    unfold DistInvGauss.fromGig; simp only; positivity
  have := DistInvGauss.quad_normalised (DistInvGauss.fromGig gamma delta) hm hl 2 (by norm_num) _ _ _ Spec.hermite_two
  exact ⟨this.1, this.2.1⟩

end GhObj

end PyFENG
