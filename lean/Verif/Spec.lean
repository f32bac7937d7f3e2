import Mathlib.Probability.Distributions.Gaussian.Real

/-!
# Specification vocabulary

Definitions used to *state* the properties.  None of them mentions the model of the code.
-/

open MeasureTheory ProbabilityTheory Set

namespace PyFENG.Spec

/-- Vanilla payoff at expiry: `max(cp (s - K), 0)`, `cp = 1` for a call and `cp = -1` for a put. -/
noncomputable def payoff (cp K s : ℝ) : ℝ := max (cp * (s - K)) 0

/-- `cp` is a legal call/put flag. -/
def IsCp (cp : ℝ) : Prop := cp = 1 ∨ cp = -1

/-- Forward price of the asset: the quoted price itself if it already is a forward, otherwise the
spot carried at the rate `r - q`. -/
noncomputable def forward (isFwd : Bool) (r q S T : ℝ) : ℝ :=
  if isFwd then S else S * Real.exp ((r - q) * T)

/-- Discount factor. -/
noncomputable def discount (r T : ℝ) : ℝ := Real.exp (-(r * T))

/-- Expectation of `f Z` for a standard normal variable `Z`. -/
noncomputable def gaussE (f : ℝ → ℝ) : ℝ := ∫ z, f z ∂(gaussianReal 0 1)

/-- Probability of the event `A` for a standard normal variable. -/
noncomputable def gaussP (A : Set ℝ) : ℝ := (gaussianReal 0 1).real A

/-- Terminal price of a geometric Brownian motion with forward `F` and total log-standard
deviation `s = σ√T`, driven by the standard normal value `z`. -/
noncomputable def gbm (F s z : ℝ) : ℝ := F * Real.exp (s * z - s ^ 2 / 2)

/-- Terminal price of an arithmetic Brownian motion with forward `F` and total standard deviation
`s = σ√T`, driven by the standard normal value `z`. -/
noncomputable def abm (F s z : ℝ) : ℝ := F + s * z

/-- Specification: the terminal price of the displaced diffusion.  `D_T = β S_T + (1-β) A_T` is
lognormal with volatility `β σ` and forward `β F + (1-β) A_F`; solve for `S_T`. -/
noncomputable def dispPrice (β F AF s z : ℝ) : ℝ :=
  (gbm (β * F + (1 - β) * AF) (β * s) z - (1 - β) * AF) / β

/-- Probability that a Brownian bridge from `x` to `y` with total variance `v` never touches the
level `b` (the classical reflection-principle formula): zero if the endpoints are on different
sides of `b`, otherwise `1 - exp(-2 (x-b)(y-b)/v)`. -/
noncomputable def bridgeSurvival (x b y v : ℝ) : ℝ :=
  if 0 < (x - b) * (y - b) then 1 - Real.exp (-2 * (x - b) * (y - b) / v) else 0

/-- Put-call parity for a pair of prices: `C - P = D (F - K)`. -/
def Parity (call put df fwd strike : ℝ) : Prop := call - put = df * (fwd - strike)

end PyFENG.Spec

namespace PyFENG.Spec

/-- Discounted expected payoff of a vanilla option when the log-return `log(S_T/F)` has law `μ`. -/
noncomputable def lawPrice (μ : Measure ℝ) (df F K cp : ℝ) : ℝ := df * ∫ x, payoff cp K (F * Real.exp x) ∂μ

/-- `μ` is a possible law of the log-return: a probability with `E[S_T] = F`. -/
structure IsMartingaleLaw (μ : Measure ℝ) : Prop where
  prob : IsProbabilityMeasure μ
  integrable : Integrable (fun x => Real.exp x) μ
  mean_one : ∫ x, Real.exp x ∂μ = 1

end PyFENG.Spec

namespace PyFENG.Spec

/-- Reflect `x` into `[a, b]`: the even `2(b-a)`-periodic folding of the real line onto `[a, b]`. -/
noncomputable def fold (a b x : ℝ) : ℝ := a + |x - a - round ((x - a) / (2 * (b - a))) * (2 * (b - a))|

end PyFENG.Spec
