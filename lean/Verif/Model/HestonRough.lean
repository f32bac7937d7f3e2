import Verif.Model.Bsm
import Mathlib.Analysis.SpecialFunctions.Gamma.Basic
import Mathlib.Analysis.SpecialFunctions.Pow.Complex

/-!
# Model of `pyfeng/heston_rough.py` and `pyfeng/heston_rough_mc.py`: the rough Heston model

Real and complex arithmetic; numpy arrays are functions on `ℕ` (zero outside what was written) or lists. A negative variance makes numpy return `nan`; here `√` of a negative
number is `0`, and the theorems about paths say where they need non-negative variances.
-/

namespace PyFENG

open Real

/-- The fields of `RoughHestonParams`, `pyfeng/params.py` lines 360-370. -/
structure RoughHeston where
  sigma : ℝ
  vov : ℝ
  rho : ℝ
  mr : ℝ
  theta : ℝ
  alpha : ℝ
  intr : ℝ
  divr : ℝ
  isFwd : Bool

/-- The exceptions raised by the modelled functions (`axisError` is `np.exceptions.AxisError`). -/
inductive RoughErr where
  | indexError | valueError | assertionError | axisError
  deriving DecidableEq, Repr

namespace RoughHeston

variable (m : RoughHeston)

/-! ### Method 1: fractional Adams scheme -/

/-- `RoughHestonABC.a_j_kp1`, `pyfeng/heston_rough.py` lines 16-32. -/
noncomputable def aW (k : ℕ) (delta : ℝ) (j : ℕ) : ℝ :=
  if j = 0 then delta ^ m.alpha * ((k : ℝ) ^ (m.alpha + 1) - ((k : ℝ) - m.alpha) * ((k : ℝ) + 1) ^ m.alpha) / Gamma (m.alpha + 2)
  else if j = k + 1 then delta ^ m.alpha / Gamma (m.alpha + 2)
  else delta ^ m.alpha * (((k : ℝ) - j + 2) ^ (m.alpha + 1) + ((k : ℝ) - j) ^ (m.alpha + 1) - 2 * ((k : ℝ) - j + 1) ^ (m.alpha + 1)) / Gamma (m.alpha + 2)

/-- `RoughHestonABC.b_j_kp1`, `pyfeng/heston_rough.py` lines 34-40. -/
noncomputable def bW (k : ℕ) (delta : ℝ) (j : ℕ) : ℝ :=
  delta ^ m.alpha * (((k : ℝ) - j + 1) ^ m.alpha - ((k : ℝ) - j) ^ m.alpha) / Gamma (m.alpha + 1)

/-- `RoughHestonABC.F`, `pyfeng/heston_rough.py` lines 62-71. -/
noncomputable def F (a x : ℂ) : ℂ :=
  (1 / 2) * (a ^ 2 - a) + m.mr * (a * m.rho * m.vov - 1) * x + ((m.mr * m.vov : ℝ) : ℂ) ^ 2 * x ^ 2 / 2

/-- `RoughHestonABC.Ih`, `pyfeng/heston_rough.py` lines 73-86; `np.arange(0, t, delta)` has `ceil(t/delta)` entries `i * delta`, and `int(s//delta)` is `i` in exact arithmetic. -/
noncomputable def Ih (delta r t : ℝ) (hh : ℕ → ℂ) : ℂ :=
  (∑ i ∈ Finset.range ⌈t / delta⌉₊, (((t - i * delta) ^ (r - 1) : ℝ) : ℂ) * hh i * delta) / (Gamma r : ℂ)

/-- The loop of `RoughHestonABC.logp_mgf_adam` for one argument `u`, `pyfeng/heston_rough.py` lines 108-119: the arrays `(h_hat, F_a_h_hat)` after `n` passes (`j = 1, …, n`). -/
noncomputable def adamArr (delta : ℝ) (u : ℂ) : ℕ → (ℕ → ℂ) × (ℕ → ℂ)
  | 0 => (fun _ => 0, Function.update (fun _ => 0) 0 (m.F u 0))
  | j + 1 =>
    let st := adamArr delta u j
    let Fa := Function.update st.2 (j + 1) (m.F u (st.1 j))
    let hp := ∑ i ∈ Finset.range (j + 1), (m.bW j delta i : ℂ) * Fa i
    let h := (∑ i ∈ Finset.range (j + 1), (m.aW j delta i : ℂ) * Fa i) + (m.aW (j + 1) delta (j + 2) : ℂ) * m.F u hp
    (Function.update st.1 (j + 1) h, Fa)

/-- The exponent `LL[i]` of `RoughHestonABC.logp_mgf_adam`, `pyfeng/heston_rough.py` lines 109-120, with `delta = 1/100` replaced by a parameter. -/
noncomputable def adamExpo (delta : ℝ) (u : ℂ) (texp : ℝ) : ℂ :=
  let h := (m.adamArr delta u ⌊texp / delta⌋₊).1
  m.theta * m.mr * Ih delta 1 texp h + m.sigma * Ih delta (1 - m.alpha) texp h

/-- `RoughHestonABC.logp_mgf_adam`, `pyfeng/heston_rough.py` lines 88-122: the returned array and the contents of the caller's array `uu` afterwards (`LL = uu` is an alias). -/
noncomputable def logpMgfAdam (uu : List ℂ) (texp : ℝ) : List ℂ × List ℂ :=
  let LL := uu.map fun u => m.adamExpo (1 / 100) u texp
  (LL.map Complex.exp, LL)

/-! ### Method 2: fast hybrid scheme -/

/-- `RoughHestonABC.a`, `pyfeng/heston_rough.py` lines 126-138: the arrays `(a, a_2)` after the passes `i = 2, …, n + 1`. -/
noncomputable def aArr (lambd mu nu : ℂ) : ℕ → (ℕ → ℂ) × (ℕ → ℂ)
  | 0 => (Function.update (fun _ => 0) 1 (nu / (Gamma (m.alpha + 1) : ℂ)), fun _ => 0)
  | n + 1 =>
    let i := n + 2
    let st := aArr lambd mu nu n
    let tmp := log (Gamma (m.alpha * ((i : ℝ) - 1) + 1)) - log (Gamma (m.alpha * ((i : ℝ) - 1) + m.alpha + 1))
    let a := Function.update st.1 i ((lambd * st.2 (i - 1) + mu * st.1 (i - 1)) * (exp tmp : ℂ))
    (a, Function.update st.2 i (∑ j ∈ Finset.range i, a j * a (i - 1 - j)))

/-- The array returned by `RoughHestonABC.a` (`r_0 ≥ 1`), `pyfeng/heston_rough.py` lines 126-138. -/
noncomputable def aSeq (r0 : ℕ) (lambd mu nu : ℂ) : ℕ → ℂ := (m.aArr lambd mu nu (r0 - 1)).1

/-- `RoughHestonABC.I_1_FPS`, `pyfeng/heston_rough.py` lines 140-147. -/
noncomputable def I1Fps (t : ℝ) (r0 : ℕ) (a : ℕ → ℂ) : ℂ :=
  t * ∑ i ∈ Finset.Icc 1 r0, a i * ((t ^ (m.alpha * i) : ℝ) : ℂ) / ((m.alpha * i + 1 : ℝ) : ℂ)

/-- `RoughHestonABC.I_2_FPS`, `pyfeng/heston_rough.py` lines 149-157. -/
noncomputable def I2Fps (t : ℝ) (nu : ℂ) (r0 : ℕ) (a : ℕ → ℂ) : ℂ :=
  ((t ^ (1 - m.alpha) : ℝ) : ℂ) * (nu * ((t ^ m.alpha : ℝ) : ℂ) + ∑ i ∈ Finset.Icc 2 r0,
    a i * ((t ^ (i * m.alpha) : ℝ) : ℂ) * ((exp (log (Gamma (m.alpha * i)) - log (Gamma (m.alpha * i - m.alpha))) : ℝ) : ℂ)
      / (((1 - 1 / (i : ℝ)) * (m.alpha * i + 1 - m.alpha) : ℝ) : ℂ))

/-- `RoughHestonABC.phi_t`, `pyfeng/heston_rough.py` lines 159-167. -/
noncomputable def phiT (r0 : ℕ) (t : ℝ) (a : ℕ → ℂ) : ℂ := ∑ i ∈ Finset.Icc 1 r0, a i * ((t ^ (m.alpha * i) : ℝ) : ℂ)

/-- `RoughHestonABC.c`, `pyfeng/heston_rough.py` lines 184-185. -/
noncomputable def c (l : ℕ) : ℝ := ((l : ℝ) + 1) ^ m.alpha - (l : ℝ) ^ m.alpha

/-- `RoughHestonABC.c_alpha`, `pyfeng/heston_rough.py` lines 187-188. -/
noncomputable def cAlpha (l : ℕ) : ℝ := ((l : ℝ) + 1) ^ (1 - m.alpha) - (l : ℝ) ^ (1 - m.alpha)

/-- The second loop of `RoughHestonABC.phi_n`, `pyfeng/heston_rough.py` lines 178-182: the array after the passes `i = k0 + 1, …, k0 + q`, from the array `init` of the first loop. -/
noncomputable def phiArr (texp : ℝ) (n k0 : ℕ) (lambd mu nu : ℂ) (init : ℕ → ℂ) : ℕ → ℕ → ℂ
  | 0 => init
  | q + 1 =>
    let p := phiArr texp n k0 lambd mu nu init q
    let i := k0 + q + 1
    Function.update p i ((((texp / n) ^ m.alpha : ℝ) : ℂ) *
      (nu * (((i : ℝ) ^ m.alpha : ℝ) : ℂ) + ∑ j ∈ Finset.Ico 1 i, (m.c (i - j - 1) : ℂ) * p j * (lambd * p j + mu)) / (Gamma (m.alpha + 1) : ℂ))

/-- `RoughHestonABC.phi_n`, `pyfeng/heston_rough.py` lines 169-182; `self.t` is `np.linspace(0, texp, n + 1)`. -/
noncomputable def phiN (texp : ℝ) (n r0 k0 k : ℕ) (lambd mu nu : ℂ) (a : ℕ → ℂ) : ℕ → ℂ :=
  m.phiArr texp n k0 lambd mu nu (fun i => if 1 ≤ i ∧ i ≤ k0 then m.phiT r0 (texp * i / n) a else 0) (k - k0)

/-- `RoughHestonABC.I_1_PED`, `pyfeng/heston_rough.py` lines 190-198. -/
noncomputable def I1Ped (texp : ℝ) (n k0 k : ℕ) (tk0 : ℂ) (phi : ℕ → ℂ) : ℂ :=
  tk0 + (∑ i ∈ Finset.Ico k0 k, phi i) * texp / n + (phi k - phi k0) * texp / (2 * n)

/-- `RoughHestonABC.I_2_PED`, `pyfeng/heston_rough.py` lines 200-208. -/
noncomputable def I2Ped (texp : ℝ) (n k : ℕ) (phi : ℕ → ℂ) : ℂ :=
  (((texp / n) ^ (1 - m.alpha) : ℝ) : ℂ) * (∑ i ∈ Finset.Ico 1 k, ((m.cAlpha (k - i - 1) ^ (1 - m.alpha) : ℝ) : ℂ) * phi i) / (Gamma (2 - m.alpha) : ℂ)

/-- `lambd`, `pyfeng/heston_rough.py` line 232. -/
noncomputable def lambd : ℂ := (((m.vov * m.mr) ^ 2 / 2 : ℝ) : ℂ)

/-- `mu`, `pyfeng/heston_rough.py` lines 247 and 261. -/
noncomputable def muR (u : ℂ) : ℂ := m.mr * (u * m.rho * m.vov - 1)

/-- `nu`, `pyfeng/heston_rough.py` lines 246 and 260. -/
noncomputable def nuR (u : ℂ) : ℂ := (u ^ 2 - u) / 2

/-- One value of the power-series branch of `RoughHestonABC.logp_mgf_hybrid`, `pyfeng/heston_rough.py` lines 245-249. -/
noncomputable def hybridFps (r0 : ℕ) (u : ℂ) (texp : ℝ) : ℂ :=
  let a := m.aSeq r0 m.lambd (m.muR u) (nuR u)
  Complex.exp (m.theta * m.mr * m.I1Fps texp r0 a + m.sigma * m.I2Fps texp (nuR u) r0 a)

/-- One value of the Euler branch of `RoughHestonABC.logp_mgf_hybrid`, `pyfeng/heston_rough.py` lines 258-267. -/
noncomputable def hybridPed (r0 n k0 : ℕ) (u : ℂ) (texp : ℝ) : ℂ :=
  let a := m.aSeq r0 m.lambd (m.muR u) (nuR u)
  let phi := m.phiN texp n r0 k0 n m.lambd (m.muR u) (nuR u) a
  let tk0 := ∑ i ∈ Finset.Icc 1 r0, (((texp * k0 / n) ^ (m.alpha * i + 1) : ℝ) : ℂ) * a i / ((m.alpha * i + 1 : ℝ) : ℂ)
  Complex.exp (m.theta * m.mr * I1Ped texp n k0 n tk0 phi + m.sigma * m.I2Ped texp n n phi)

/-- `LL[i] = value` on a python list or array. -/
def setItem (l : List ℂ) (i : ℕ) (v : ℂ) : Except RoughErr (List ℂ) := if i < l.length then .ok (l.set i v) else .error .indexError

/-- The outer loop of the Euler branch, `pyfeng/heston_rough.py` lines 258-267: after the inner loop `for i in range(1, r_0 + 1)` the variable `i` is `r_0`, and the value is stored at
`LL[r_0]`; `LL` is an alias of `uu`. -/
def hybridLoop (r0 : ℕ) (val : ℂ → ℂ) : List ℕ → List ℂ → Except RoughErr (List ℂ)
  | [], LL => .ok LL
  | i :: is, LL => do
    let LL' ← setItem LL r0 (val (LL.getD i 0))
    hybridLoop r0 val is LL'

open Classical in
/-- `RoughHestonABC.logp_mgf_hybrid`, `pyfeng/heston_rough.py` lines 210-267: the returned array, which is the caller's array `uu` itself, overwritten. -/
noncomputable def logpMgfHybrid (uu : List ℂ) (texp : ℝ) : Except RoughErr (List ℂ) :=
  let r0 := 250
  let n := 128
  if texp ≤ 0.9 * 0.22 then .ok (uu.map fun u => m.hybridFps r0 u texp)
  else hybridLoop r0 (fun u => m.hybridPed r0 n ⌊(n : ℝ) * 0.9 * 0.22 / texp⌋₊ u texp) (List.range uu.length) uu

/-- `RoughHestonABC.logp_mgf`, `pyfeng/heston_rough.py` lines 269-279. -/
noncomputable def logpMgf (method : ℤ) (uu : List ℂ) (texp : ℝ) : Except RoughErr (List ℂ) :=
  if method = 1 then .ok (m.logpMgfAdam uu texp).1 else if method = 2 then m.logpMgfHybrid uu texp else .error .valueError

/-! ### Monte Carlo (`heston_rough_mc.py`)

One path at a time: `Z i` and `W i` are entry `i` of the path's column of `Z_t` and `W_t`, `V i` of `V_t`. The time grid is `t_i = texp * i / n_ts`. -/

/-- `self.dt`, `pyfeng/heston_rough_mc.py` line 82. -/
noncomputable def mcDt (texp : ℝ) (nTs : ℕ) : ℝ := texp / nTs

/-- `self.tgrid[i]` (`np.linspace`), `pyfeng/heston_rough_mc.py` line 83. -/
noncomputable def tgrid (texp : ℝ) (nTs i : ℕ) : ℝ := texp * i / nTs

/-- `RoughHestonMcMaWu2022.f`, `pyfeng/heston_rough_mc.py` lines 123-136. -/
noncomputable def fMc (V : ℝ) : ℝ := m.mr * (m.theta - V)

/-- `RoughHestonMcMaWu2022.g`, `pyfeng/heston_rough_mc.py` lines 138-152. For negative `V` numpy returns NaN and here the root is 0: properties that use later values of such a path assume nonnegativity. -/
noncomputable def gMc (V : ℝ) : ℝ := m.vov * √V

/-- `RoughHestonMcMaWu2022.random_normals`, `pyfeng/heston_rough_mc.py` lines 154-169, for one pair of independent draws. -/
noncomputable def corrNormals (z1 z2 : ℝ) : ℝ × ℝ := (z1, m.rho * z1 + √(1 - m.rho ^ 2) * z2)

/-- `RoughHestonMcMaWu2022.term_1`, `pyfeng/heston_rough_mc.py` lines 171-190. -/
noncomputable def term1 (dt tn tk : ℝ) : ℝ := (tn - tk + dt) ^ (1 - m.alpha) - (tn - tk) ^ (1 - m.alpha)

/-- `RoughHestonMcMaWu2022.term_2`, `pyfeng/heston_rough_mc.py` lines 192-214. -/
noncomputable def term2 (dt tn tk : ℝ) : ℝ := √(((tn - tk + dt) ^ (1 - 2 * m.alpha) - (tn - tk) ^ (1 - 2 * m.alpha)) / (1 - 2 * m.alpha))

/-- The loop of `RoughHestonMcMaWu2022.ModifiedEM`, `pyfeng/heston_rough_mc.py` lines 238-250: the array `V_t` after `n` passes. -/
noncomputable def modifiedEM (texp : ℝ) (nTs : ℕ) (Z : ℕ → ℝ) : ℕ → ℕ → ℝ
  | 0 => Function.update (fun _ => 0) 0 m.sigma
  | i + 1 =>
    let V := modifiedEM texp nTs Z i
    let dt := mcDt texp nTs
    let t := tgrid texp nTs
    let sumF := ∑ j ∈ Finset.range (i + 1), m.fMc (V j) * m.term1 dt (t (i + 1)) (t (j + 1))
    let sumG := ∑ j ∈ Finset.range (i + 1), m.gMc (V j) * m.term2 dt (t (i + 1)) (t (j + 1)) * Z j
    Function.update V (i + 1) (m.sigma + 1 / Gamma (2 - m.alpha) * sumF + 1 / Gamma (1 - m.alpha) * sumG)

/-- `RoughHestonMcMaWu2022.get_num_nodes`, `pyfeng/heston_rough_mc.py` lines 254-291, for a positive integer `scale_coef`. -/
noncomputable def getNumNodes (texp dt errTol : ℝ) (scale : ℕ) : ℤ × ℤ × ℕ × ℕ × ℕ :=
  (scale * max ⌈log texp⌉ 0 + 1, scale * ⌈log (log (1 / errTol) / dt)⌉, scale * ⌈log (1 / errTol)⌉₊, scale * ⌈log (1 / errTol)⌉₊, scale * ⌈log (1 / errTol / dt)⌉₊)

/-- `RoughHestonMcMaWu2022.GaussJacobiQuad`, `pyfeng/heston_rough_mc.py` lines 293-319; `roots` are the nodes and weights of `scipy.special.roots_jacobi(n, 0, alpha - 1)`. -/
noncomputable def gaussJacobi (roots : List (ℝ × ℝ)) (M : ℤ) : List (ℝ × ℝ) :=
  roots.map fun p => ((2:ℝ) ^ (-M - 1) * (p.1 + 1), (2:ℝ) ^ (((-M - 1 : ℤ) : ℝ) * m.alpha) * p.2 / Gamma m.alpha)

/-- `RoughHestonMcMaWu2022.GaussLegendreQuad`, `pyfeng/heston_rough_mc.py` lines 321-352, for one interval `j`; `roots` are those of `scipy.special.roots_legendre(n)`. -/
noncomputable def gaussLegendre (roots : List (ℝ × ℝ)) (j : ℤ) : List (ℝ × ℝ) :=
  roots.map fun p =>
    let s := (2:ℝ) ^ (j - 1) * (p.1 + 3)
    (s, s ^ (m.alpha - 1) * p.2 * (2:ℝ) ^ (j - 1) / Gamma m.alpha)

/-- `RoughHestonMcMaWu2022.get_nodes_weights`, `pyfeng/heston_rough_mc.py` lines 354-391; `jac n` and `leg n` are the rules of scipy with `n` nodes. -/
noncomputable def getNodesWeights (jac leg : ℕ → List (ℝ × ℝ)) (texp dt errTol : ℝ) (scale : ℕ) : Except RoughErr (List (ℝ × ℝ)) :=
  let (M, N, no, ns, nl) := getNumNodes texp dt errTol scale
  let xo := m.gaussJacobi (jac no) M
  let xs := (List.range M.toNat).flatMap fun (i : ℕ) => m.gaussLegendre (leg ns) (-M + i)
  let xl := (List.range (N + 1).toNat).flatMap fun (j : ℕ) => m.gaussLegendre (leg nl) j
  let all := xo ++ xs ++ xl
  if (no : ℤ) + M * ns + (N + 1) * nl = all.length then .ok all else .error .assertionError

/-- `RoughHestonMcMaWu2022.H_N` for one node `x`, `pyfeng/heston_rough_mc.py` lines 393-418. -/
noncomputable def hN (dt x H V : ℝ) : ℝ := 1 / x * (1 - exp (-x * dt)) * m.fMc V + exp (-x * dt) * H

/-- `RoughHestonMcMaWu2022.J_N` for one node `x`, `pyfeng/heston_rough_mc.py` lines 420-456. -/
noncomputable def jN (dt x J V Z : ℝ) : ℝ := √((1 - exp (-2 * x * dt)) / (2 * x)) * (m.gMc V * Z) + exp (-x * dt) * J

/-- The state of the loop of `Fast`: `V_t`, and `H_t`, `J_t` indexed by the node. -/
structure FastState where
  V : ℕ → ℝ
  H : ℕ → ℝ
  J : ℕ → ℝ

/-- The loop of `RoughHestonMcMaWu2022.Fast`, `pyfeng/heston_rough_mc.py` lines 490-509, after `n` passes; node `l < L` is `(x l, ω l)`. -/
noncomputable def fast (dt : ℝ) (L : ℕ) (x ω : ℕ → ℝ) (Z : ℕ → ℝ) : ℕ → FastState
  | 0 => ⟨Function.update (fun _ => 0) 0 m.sigma, fun _ => 0, fun _ => 0⟩
  | i + 1 =>
    let s := fast dt L x ω Z i
    let v := m.sigma + dt ^ (1 - m.alpha) / Gamma (2 - m.alpha) * m.fMc (s.V i)
      + 1 / Gamma (1 - m.alpha) * (∑ l ∈ Finset.range L, ω l * exp (-x l * dt) * s.H l)
      + dt ^ (0.5 - m.alpha) / √(1 - 2 * m.alpha) / Gamma (1 - m.alpha) * m.gMc (s.V i) * Z i
      + 1 / Gamma (1 - m.alpha) * (∑ l ∈ Finset.range L, ω l * exp (-x l * dt) * s.J l)
    ⟨Function.update s.V (i + 1) v, fun l => m.hN dt (x l) (s.H l) (s.V i), fun l => m.jN dt (x l) (s.J l) (s.V i) (Z i)⟩

/-- `RoughHestonMcMaWu2022.eta_j`, `pyfeng/heston_rough_mc.py` lines 511-529. -/
noncomputable def etaJ (texp : ℝ) (nExp j : ℕ) : ℝ := j * (nExp : ℝ) ^ (-(1:ℝ) / 5) / texp * (√10 * m.alpha / (2 + m.alpha)) ^ ((2:ℝ) / 5)

/-- `c_j` of `RoughHestonMcMaWu2022.c_j_gamma_j` (entry `j` is the interval from `eta[j]` to `eta[j+1]`), `pyfeng/heston_rough_mc.py` lines 531-556. -/
noncomputable def cJ (texp : ℝ) (nExp j : ℕ) : ℝ :=
  (m.etaJ texp nExp (j + 1) ^ m.alpha - m.etaJ texp nExp j ^ m.alpha) / Gamma (1 - m.alpha) / Gamma (1 + m.alpha)

/-- `gamma_j` of `RoughHestonMcMaWu2022.c_j_gamma_j`, `pyfeng/heston_rough_mc.py` lines 531-556. -/
noncomputable def gammaJ (texp : ℝ) (nExp j : ℕ) : ℝ :=
  (m.etaJ texp nExp (j + 1) ^ (m.alpha + 1) - m.etaJ texp nExp j ^ (m.alpha + 1)) / (m.etaJ texp nExp (j + 1) ^ m.alpha - m.etaJ texp nExp j ^ m.alpha) * m.alpha / (1 + m.alpha)

/-- `RoughHestonMcMaWu2022.V_tJ` for one factor, `pyfeng/heston_rough_mc.py` lines 558-588. -/
noncomputable def vTJ (dt Vj V gammaj Z : ℝ) : ℝ := (1 - gammaj * dt) * Vj + (-m.mr * V * dt + m.gMc V * √dt * Z)

/-- `N_exp` of `RoughHestonMcMaWu2022.MultifactorApprox`, `pyfeng/heston_rough_mc.py` line 617. -/
noncomputable def nExp (nTs : ℕ) : ℕ := ⌈(nTs : ℝ) ^ ((5:ℝ) / 4)⌉₊

/-- The loop of `RoughHestonMcMaWu2022.MultifactorApprox`, `pyfeng/heston_rough_mc.py` lines 617-628: `(V_t, V_tj)` after `n` passes. -/
noncomputable def multifactor (texp : ℝ) (nTs : ℕ) (Z : ℕ → ℝ) : ℕ → (ℕ → ℝ) × (ℕ → ℝ)
  | 0 => (Function.update (fun _ => 0) 0 m.sigma, fun _ => 0)
  | i + 1 =>
    let s := multifactor texp nTs Z i
    let dt := mcDt texp nTs
    let N := nExp nTs
    let Vj := fun j => m.vTJ dt (s.2 j) (s.1 i) (m.gammaJ texp N j) (Z i)
    let v := m.sigma + m.mr * m.theta * (∑ j ∈ Finset.range N, m.cJ texp N j / m.gammaJ texp N j * (1 - exp (-m.gammaJ texp N j * tgrid texp nTs (i + 1))))
      + ∑ j ∈ Finset.range N, m.cJ texp N j * Vj j
    (Function.update s.1 (i + 1) v, Vj)

/-- The loop of `RoughHestonMcMaWu2022.price`, `pyfeng/heston_rough_mc.py` lines 668-671: `X_t` after `n` passes. -/
noncomputable def logPath (dt spot : ℝ) (V W : ℕ → ℝ) : ℕ → ℝ
  | 0 => log spot
  | i + 1 => logPath dt spot V W i + (m.intr - 0.5 * V i * dt + √(V i * dt) * W i)

/-- `RoughHestonMcMaWu2022.price` for a scalar strike, `pyfeng/heston_rough_mc.py` lines 630-680, over `P` paths; the loop has `n_ts - 1` passes. -/
noncomputable def mcPrice (texp spot : ℝ) (nTs P : ℕ) (V W : ℕ → ℕ → ℝ) (strike cp : ℝ) : ℝ :=
  exp (-texp * m.intr) * ((∑ p ∈ Finset.range P, max 0 (cp * (exp (m.logPath (mcDt texp nTs) spot (V p) (W p) (nTs - 1)) - strike))) / P)

/-- `V_0_T` (trapezoidal rule) of `RoughHestonMcMaWu2022.cond_spot_sigma`, `pyfeng/heston_rough_mc.py` line 724. -/
noncomputable def intVar (texp : ℝ) (nTs : ℕ) (V : ℕ → ℝ) : ℝ :=
  ∑ i ∈ Finset.range nTs, (tgrid texp nTs (i + 1) - tgrid texp nTs i) * (V i + V (i + 1)) / 2

/-- `Y_0_T` of `RoughHestonMcMaWu2022.cond_spot_sigma`, `pyfeng/heston_rough_mc.py` line 727. -/
noncomputable def itoSum (texp : ℝ) (nTs : ℕ) (V Z : ℕ → ℝ) : ℝ := ∑ i ∈ Finset.range nTs, √(V i * mcDt texp nTs) * Z i

/-- `RoughHestonMcMaWu2022.cond_spot_sigma`, `pyfeng/heston_rough_mc.py` lines 682-740, over `P` paths. -/
noncomputable def mcCondSpotSigma (texp spot : ℝ) (nTs P : ℕ) (V Z : ℕ → ℕ → ℝ) (correctFwd : Bool) (p : ℕ) : ℝ × ℝ :=
  let forward := spot / exp (-texp * m.intr) * exp (-texp * m.divr)
  let condFwd := fun p => forward * exp (m.intr * texp + m.rho * itoSum texp nTs (V p) (Z p) - 0.5 * m.rho ^ 2 * intVar texp nTs (V p))
  let condSigma := √((1 - m.rho ^ 2) * intVar texp nTs (V p) / texp)
  if correctFwd then (forward * exp (m.intr * texp) / ((∑ p ∈ Finset.range P, condFwd p) / P) * condFwd p, condSigma) else (condFwd p, condSigma)

/-- `RoughHestonMcMaWu2022.priceCMC`, `pyfeng/heston_rough_mc.py` lines 742-780: `isArray = false` is a scalar strike, for which the average over `axis=1` of a one-dimensional array raises;
otherwise `strike` is one entry of an array of strikes. The base model is `Bsm(cond_sigma, intr, divr, is_fwd)` of `sv_abc.py` line 54, and `spot` is `cond_forward`. -/
noncomputable def priceCMC (texp spot : ℝ) (nTs P : ℕ) (V Z : ℕ → ℕ → ℝ) (correctFwd : Bool) (isArray : Bool) (strike cp : ℝ) : Except RoughErr ℝ :=
  if isArray then .ok ((∑ p ∈ Finset.range P, Bsm.price ⟨(m.mcCondSpotSigma texp spot nTs P V Z correctFwd p).2, m.intr, m.divr, m.isFwd⟩ strike
    (m.mcCondSpotSigma texp spot nTs P V Z correctFwd p).1 texp cp) / P)
  else .error .axisError

end RoughHeston

end PyFENG
