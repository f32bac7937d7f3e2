# Formal model of PyFE/PyFENG in Lean 4 — design

## What is modelled

PyFENG is a numerical library: the meaning of almost every public method is a real-valued (or
complex-valued) function.  The model is a **shallow embedding**: each Python function becomes a Lean
function over `ℝ`/`ℂ`/`List`/`Fin n → ℝ`, with the code's branches (`np.where`, `np.maximum(.., eps)`,
`np.clip`, `if`/`raise`, dictionary caches, random draws as explicit arguments) kept branch by branch.
Exceptions are values (`Except String _`).  Each definition cites the file and lines it models.

* `Verif/Gauss.lean` – `scipy.stats.norm._pdf/_cdf`, defined by Mathlib's Gaussian measure (not axiomatised).
* `Verif/Model/*.lean` – the model, one file per area of `/repo/pyfeng`.
* `Verif/Spec.lean` – the small specification vocabulary (payoffs, risk-neutral expectations, parity…)
  written without reference to the model.
* `Verif/Lemmas/*.lean` – helper lemmas.
* `Verif/Props/*.lean` – the property theorems, with a non-vacuity `example` beside each.

## Trusted base

* Lean 4.33.0 kernel and Mathlib.  Axioms used: at most `propext`, `Classical.choice`, `Quot.sound`.
* The reading of the Python source into Lean (citations on every definition).
* **Real arithmetic.** Python floats are modelled as exact reals.  Rounding, overflow, NaN propagation and
  numpy dtype promotion are not modelled, except where the code itself inspects them (machine-epsilon floors
  are kept as the literal constant `2^-52`; NaN results written by the code are `none`).
* **Broadcasting.** numpy broadcasting is elementwise; scalar functions model the elementwise action.
* **Library calls.** `scipy.stats.norm` is specified exactly.  Other calls (`ncx2`, `gamma`, `invgauss`,
  `roots_hermitenorm`, `brentq`, random generators, `cholesky`, `svd`) are parameters of the model; the
  properties assumed of them are explicit hypotheses in the theorem statements.
* Division by zero: Lean's `x/0 = 0` differs from numpy's inf/nan.  Theorems carry hypotheses which keep
  every denominator non-zero (or cover the point separately).

## What is not modelled, or modelled in a simplified way

* Floating point: rounding, overflow, `out=` buffers and dtype promotion (see the trusted base).
* `Bsm` implied volatility: the branch which reads a small-volatility series is outside C06.
* Root finders (`brentq`, `newton`, scipy `root`): "the returned number is a root of the function handed over".
* Quadrature (`scipy.integrate.quad`, mpmath special functions, Gauss rules other than the ones proved): parameters;
  the properties used of them are hypotheses of the theorems.
* `numpy.linalg.solve/svd/cholesky`: by their defining equations.
* `mgf` functions are taken at real arguments in the CIR, OUSV and 3/2 files unless the theorem says ℂ.  For OUSV and 3/2 the
  link between the formula and the model is the backward equation, not a Feynman-Kac theorem for the diffusion.
* Monte Carlo: the random stream is an expectation functional (`Ex`) or an explicit list of draws; one path at a time.
  Sampling error (law of large numbers) is not modelled.  Tabulated inverse distribution functions and the
  `*_numeric` variants (finite differences of the mgf) are not modelled, apart from `Mgf2Mom` itself.
* The small-parameter Taylor branches of `cond_avgvar_mvsk`, of the Hagan function `_hh` for |z| < 1e-3 and of the
  Asian `price_mvsk` for v < 0.01.
* NSVh: the law is given by its conditional-normal representation rather than a stochastic integral.
* American options (`AmerLi2010QdPlus`): the exercise boundary is a parameter; its Newton iteration is not modelled.
* Rough Heston: `int(s//delta)` in exact arithmetic; convergence of the numerical schemes and the theorem of El Euch and
  Rosenbaum are not proved; negative variance under a square root (NaN in Python) is 0 in the model, and the theorems say when this happens.
* Garch/Heston time-discretisation error is not bounded; Penev-Raykov approximation of the chi-square law has no error bound.

## Places where the code does not do what its interface says

Each of these is a theorem (usually named `..._ne_...`, `..._wrong`, `..._fails` or `not_...`) under the property in brackets, unless marked (noted).

* Bsm: `d2_var`/`d3_var` use the spot instead of the forward (C11); `vega2` lacks √T for second order use (C66); barrier prices: dead strike
  and `is_fwd` exponent (C14).
* SabrChoiWu2021P: the near-lognormal branch of the first-order term omits alpha/vov and jumps at the money (C134).
* BsmDisp: `theta` displaces twice (C17); numeric vega reads the scaled and sets the unscaled volatility (C18); `price_vsk` powers of beta (C19).
* Norm: price 0 at sigma=0 in the money (C20); `theta` with carry (C21); asset-or-nothing put sign (C22); barrier exponent (C14).
* OptABC: `impvol_brentq` with interest (C25); `cdf_numeric`/`pdf_numeric` discount and drift twice (C26); `price_from_mass_zero`-style
  smile is undiscounted (C132).
* Distributions: `DistLognormal.fit` loses the sign of the skewness (C43); `DistGh` keeps a stale quadrature rule after a parameter change (C68);
  VG/NIG `to_sv`/`from_sv` are not inverse for ρ·σ·v > 1 (C32); `gramcharA_coefs` with explicit sigma (C131).
* Garch: refined mgf has an extra factor T (C70); stale correction after assigning sigma (C71); time discretisation floors the variance at 0 (C122);
  the Barone-Adesi price ignores `is_fwd` (C121).
* FFT/COS: `params_hash` collides for permuted parameter values so that a stale interpolant is used (C30); the default COS interval per strike is miscentred (C73).
* Monte Carlo base classes: `price_paths` lacks −σ²dt/2 and does not carry the volatility (C77); shared class dictionary `result` (C78);
  `_bm_incr` non-antithetic/odd path numbers (C79); `price_var_opt` calls `return_var_realized` without `cond` in four classes (noted).
* RiskParity: market neutral, short, `longshort` ignored by `fit_newton`; negative budgets accepted; SCA gradient wrong (C80).
* Cev: `cdf`/`mass_zero` for β>1 (C38); `CevMc` ignores `is_fwd`, needs array strikes (C84). InvGam: `is_fwd` dropped (C39).
* Cir: `draw_euler` lacks √dt and its Milstein term is wrong (C42); `avg_mv` at mr=0 (noted).
* Heston: Ball-Roma ignores `is_fwd` (C117 for OUSV; noted for Heston); Andersen with an invalid scheme continues (C64); realized variance omits the martingale correction (C64);
  truncated variance negative for large kk (C106); the Bessel table is truncated at 16 (C107). `Svi.init_from_heston` uses sigma for vov (C87).
* Finite differences: SABR β≤0 boundary breaks parity (C88); HestonCev not rescaled by F0^(β−1) (C89).
* Multi-asset: `NormNdMc` ignores the carry drift (C95); `BsmNdMc` antithetic with odd `n_path`; "lower bound" of the geometric approximation is false;
  `BsmBasket1Bm` ignores rho ≠ 1; `Choi2018` with non-zero integer `n_quad` raises TypeError.
* SABR: `_variables(spot)` instead of the forward (C98); `SabrChoiWu2021H.mass_zero` always raises (C99); `term20` divides by qq, not qq² (C100);
  `SabrNormAnalytic`/`SabrNormEllipeInt` cannot be constructed (C103); Monte Carlo: invalid scheme, missing leading 1, dropped paths break parity (C123); Cai scheme has uniforms without a root (C124).
* NSVh: `Nsvh1.cdf` ignores `is_atmvol` (C62); scalar strikes (C101).
* Asian: JSU discounts twice and adds carry (C105); `price_mnc` divides by zero at r=q (C63); Linetsky loops forever for ν≤−2; the Ju class cannot be constructed (C105); two wrong
  coefficients in its correction (sign of the σ⁶T³ part of z2, 30480 for 30240 in z1), so that the second moment of the average is not preserved (C105).
* American: the constructor always raises (C65); smooth pasting with `is_fwd`.
* OUSV: `vol_path_sin(zn=None)` always raises (C114); variance swap ignores divr (C115); scheme ∉ {0,1} unbound (C114); `is_fwd` ignored (C117).
* 3/2: strict local martingale when ρ·vov > mr + vov²/2, so mgf(1) < 1 (C118); `cond_avgvar_laplace(eta)` lacks dt (C120).
* Rough Heston: method 1 lags F by one point, gives mgf ≡ 1 for texp < 0.01 and overwrites its argument (C126); method 2: off-by-one convolution,
  reused loop variable, double power (C127); Monte Carlo: NaN variances, drift, parity (C128); `get_num_nodes` natural logarithm (C129).

## Plan per property

How each property of `properties.jsonl` is proved (status and theorem names are in `MANIFEST.json`).
* **C01** Bsm price is the discounted risk-neutral expectation — integral of the payoff against the Gaussian measure by exponential tilting; then equality with the code's formula.
* **C02** Bsm put-call parity — algebra from N(-x)=1-N(x); no floor hypothesis needed.
* **C03** Bsm prices respect static no-arbitrage bounds — from C01 (expectation of a non-negative payoff / Jensen-type pointwise bounds) applied at the floored std, so no hypothesis on sigma.
* **C04** Bsm prices are monotone and convex in strike — pointwise monotonicity/convexity of the payoff under the expectation representation.
* **C05** Bsm price is strictly increasing in volatility, so implied volatility is unique — strict monotonicity from positive vega; existence by the intermediate value theorem and limits of N.
* **C06** Bsm.impvol converged result reprices the input — model the standardisation, the price-to-vega ratio and the loop as a fuel-bounded recursion; invariant: exit through break implies residual < tol.
* **C07** Forward convention is consistent across the API — exp algebra.
* **C08** Bsm price is homogeneous and numeraire symmetric — algebra.
* **C09** Bsm delta, gamma, vega, vega2 are the exact derivatives of price — HasDerivAt calculus.
* **C10** Bsm theta is the exact calendar-time derivative — HasDerivAt calculus.
* **C11** Bsm.d2_var and d3_var are derivatives with respect to variance — HasDerivAt calculus when fwd=spot; counterexample otherwise (code uses spot for fwd).
* **C12** Bsm.cdf is the probability of finishing beyond the strike — measure of a half line; derivative in strike.
* **C13** Bsm.price_std ratios are mutually consistent — algebra with mills ratio.
* **C14** Barrier options: knock-in plus knock-out is vanilla; knock-out dies on the barrier — case analysis; image-solution algebra.
* **C15** Bsm.logp_mgf is the MGF of log(S_T/F) — complexMGF of the Gaussian.
* **C16** BsmDisp prices the displaced lognormal — reduce to Bsm by affine change of variable.
* **C17** BsmDisp.theta is the calendar-time derivative of BsmDisp.price — counterexample (double displacement) and the beta=1 partial theorem.
* **C18** BsmDisp finite-difference vega/volga differentiate with respect to the model volatility — model the property getter/setter as state; counterexample for beta≠1; beta=1 partial.
* **C19** price_vsk of Bsm/BsmDisp returns the moments of the terminal price — Gaussian mgf moments; counterexample for beta≠1.
* **C20** Norm price is the discounted Bachelier expectation with parity and bounds — Gaussian integrals; counterexample at sigma=0.
* **C21** Norm Greeks are exact derivatives; cdf is the probability — HasDerivAt; theta false with carry — counterexample/partial.
* **C22** Norm binary prices decompose the vanilla price — Gaussian integrals; asset put sign counterexample.
* **C23** Norm.impvol depends only on time value, is scale invariant and parity invariant — algebra on the clip/where pipeline.
* **C24** Finite-difference Greeks are unbiased central differences and do not mutate the model — Taylor/mean-value for arbitrary price functions; state model for copy().
* **C25** OptABC.impvol (Brent) returns a volatility that reprices the input — brentq as a root oracle; correct for zero rates, counterexample for non-zero rates.
* **C26** pdf_numeric/cdf_numeric return the risk-neutral density/distribution — mean value theorem; counterexample for non-zero rates.
* **C27** vol_smile reprices: generic smile equals model volatility for Bsm/Norm and uses OTM options — string dispatch model.
* **C28** Parameter validation rejects exactly the documented invalid inputs — Except-valued constructors.
* **C29** params_kw/from_model transfer parameters faithfully — field lists as association lists.
* **C30** The cached FFT price interpolant always belongs to the current parameters — state machine with hash key; counterexample from unordered values; partial under key injectivity.
* **C31** Multi-asset covariance/correlation construction is consistent — matrices over Fin n.
* **C32** VarGamma/NIG parameter conversions are mutually inverse — algebra.
* **C33** MGFs are normalised martingale MGFs — complex exp algebra.
* **C34** Closed-form cumulants match the MGF — iterated derivatives.
* **C35** Monte-Carlo time grid covers [0,T] — Nat.ceil arithmetic.
* **C36** Antithetic normals have exact sample mean zero — list algebra.
* **C37** Conditional Monte-Carlo prices satisfy put-call parity path by path — finite sums over paths.
* **C38** CEV prices satisfy parity and convention consistency — ncx2 cdf as a parameter.
* **C39** InvGam/InvGauss model prices satisfy parity in every convention — the incomplete gamma function and the scipy inverse Gaussian cdf are defined by their integrals; the price is proved to be the discounted expected payoff under the explicit inverse gamma / inverse Gaussian law (`CallCurve`), the first two moments are matched, and the `is_fwd` flag dropped by `InvGam.price` is exhibited as a counterexample.
* **C40** CIR variance moments are exact — the moment equations of (V, ∫V) are linear ODEs; their unique solution is computed as an exponential polynomial (`Lemmas/ExpPoly`, `Lemmas/CirMoments`) and compared with the closed forms; existence of a solution is proved too.
* **C41** Heston log-MGF solves the Riccati equations — complex derivative of the code's formula (principal square root and logarithm; the logarithm never meets its branch cut in the strip 0≤Re u≤1), stated as the Kolmogorov backward equation.
* **C42** Euler/Milstein variance step has the right conditional mean and variance — Gaussian moments; counterexample for missing sqrt(dt).
* **C43** DistLognormal moments and moment fitting are exact — Gaussian mgf moments + algebra.
* **C44** Distribution quadratures are normalised and mean-exact — finite sums with node symmetry as hypothesis.
* **C45** Gamma and inverse-Gaussian helpers round-trip moments — algebra.
* **C46** Moment conversion helpers are inverse to each other — algebra.
* **C47** Special-function helpers satisfy their defining identities — integral identity.
* **C48** N-dimensional Gauss-Hermite grid enumerates every multi-index once — mixed radix bijection by induction.
* **C49** Risk-parity solver output is a risk-parity portfolio — invariant of the loop. Convergence: exact coordinate minimisation and ray rescaling of ½ w'Cw − Σ b log|w|, descent lemma, coercivity; existence by compactness, uniqueness and stability by monotonicity of the gradient (Props/AllocConv); the same for fit_ccd_original (Props/AllocOrig).
* **C50** Box-simplex projection returns a feasible point — bisection invariant.
* **C51** Numerical moments from the MGF are exact for polynomials — roots of unity filter.
* **C52** SVI total variance is a valid smile and reprices by Bsm — algebra, positivity.
* **C53** COS payoff coefficients are the cosine integrals — antiderivatives.
* **C54** FFT and COS prices satisfy put-call parity exactly — algebra on the model.
* **C55** Thomas solver solves the tridiagonal system — induction on the list of rows.
* **C56** Bilinear interpolation is exact at nodes and bounded by corner values — algebra.
* **C57** Spread and basket formulas satisfy parity and degenerate cases — algebra.
* **C58** Basket moment matching uses the exact moments — finite sums.
* **C59** Householder rotation in the Choi basket method is orthonormal — finite-dimensional inner products.
* **C60** Multi-asset Monte-Carlo with antithetic paths is unbiased in the control variate and satisfies parity — finite sums.
* **C61** SABR average-variance moments are mutually consistent — polynomial identities by ring.
* **C62** SABR/NSVh prices satisfy parity and limits — algebra, Gaussian integrals.
* **C63** Asian option moments and parity — algebra/integrals; the truncated variance series below σ²T = 0.01 by the exact error and bounds of the exponential series (Props/AsianSmall).
* **C64** Heston Monte-Carlo building blocks match their target moments — moments of the draw maps.
* **C65** American approximation bounds — case analysis.
* **C66** Bsm.vega2 is the second volatility derivative — derivative of vega; counterexample for T≠1.
* **C67** BsmDisp.impvol reprices the input — reduction to C06 by the affine change of variable.
* **C68** Quadrature-based results of a GH/NIG object belong to its current parameters — state machine over assignments; counterexample.
* **C69** VG/NIG quadrature pricers — parity from `black_parity` and the normalisation by `Σ w r`; bounds from positivity of `black`.
* **C70** GARCH refined vs. line-by-line MGF — algebra of the two models; the quotient is computed exactly (real argument; the complex argument used by the FFT is not modelled here).
* **C71** stale `_mgf1_correction` — assignment model `SubParams.assign`, law of `logp_mgf(1)` by induction over assignment lists.
* **C72** Lewis-integral pricers — Fubini with the Fourier pair of exp(-|x|/2), Riemann-sum convergence of composite Simpson, discrete Fourier sum identity for the grid; instances for BSM, VG, NIG.
* **C73** COS prices are expectations of cosine partial sums, converge in n, truncation error bound — cosine sums unfolded by linearity of the integral; Fourier series of the even 2(b-a)-periodic extension (`hasSum_cosSeries`); limits by dominated convergence; rates from the quadratic decay of the payoff coefficients and the decay of the characteristic function (Props/CosRate). False for default `HestonCos` far from the money: counterexample theorem.
* **C74** COS truncation range — Chebyshev with the proved cumulants.
* **C75** Junike half-width — Chernoff bound over the argument grid, loop by induction on fuel.
* **C76** Reproducibility — generators as streams with positions; congruence of whole draw sequences by induction.
* **C77** price_paths martingale — product of Gaussian integrals; false (missing drift), exact mean proved.
* **C78** result dictionary ownership — operation histories; false for the mixture classes.
* **C80** SCA search direction — directional derivative of the objective computed and compared; false for correlated assets (counterexample).
* **C81** fit_sca feasibility and termination — induction over the outer loop and the halving line search.
* **C82** CEV Greeks — noncentral chi-squared as Poisson mixture of incomplete gammas; differentiate termwise (tsum derivative theorem), exchange and contiguity relations through the Bessel series give the one-term Greeks; pricing equation by algebra.
* **C83** CEV law — call curve, survival function and density; fundamental theorem of calculus on (0,∞) with the limits of the noncentral chi-squared function (tail bound `ncP ≤ e^y 2^-a e^{-mu/2}`) recovers the law from prices.
* **C84** CEV Monte Carlo — sampler written over an abstract monad of draws; interpreted with expectation operators the nested gamma/Poisson/gamma expectation is evaluated (beta integral, Tonelli for series) and equals the analytic tail; gamma tail asymptotics give `mass_zero_t0`.
* **C79** `_bm_incr` shapes — arithmetic of numpy reshape; false for odd n_path and without antithetic.
* **C85** Heston log-price moments and variance-swap strike — moment equations of (V, ∫√V dZ, ∫V) solved as exponential polynomials; sum over monitoring dates by geometric series.
* **C86** exact CIR samplers — expectation operators for Poisson, gamma, noncentral chi-square draws; generating functions computed by series and gamma integrals.
* **C87** Heston initialisation of SVI — specification of the Gatheral-Jacquier limit proved from the Heston mgf; formula compared; false of the code (w2 uses sigma).
* **C88** Finite-difference parity and scaling — invariant over the time loop: call grid minus put grid is X - k; uniqueness of tridiagonal solutions.
* **C89** Finite-difference operator — exactness of the stencils on quadratics against the generator of the SDE.
* **C90** Zero-strike spreads — reduction to Margrabe by a change of measure for Gaussian vectors.
* **C91** Best-of-two — bivariate normal probabilities of the exercise regions after Esscher tilts; error branch shown unreachable.
* **C92** One-factor basket — the price is the value of an exercise policy; Newton invariant (convex increasing residual) for the root.
* **C93** Choi (2018) — Householder algebra, policy bound under the factorised Gaussian law, Fubini for the conditional prices, exactness of the tensor rule on constants for parity.
* **C94** Moment-matched baskets — algebra; the Ju coefficients vanish when the covariance is constant.
* **C95** Bachelier multi-asset simulation under carry — expectation over the stream; disagreement proved.
* **C96** Conditional SABR average variance — exponential moments E[A^n e^{cZ}] in closed form from the Feynman–Kac recursion (divided differences), Gaussian integrals of the code's formula computed, equality of Laplace transforms off a countable set identifies the conditional expectation.
* **C97** SABR volatility approximations — fundamental theorem of calculus for the geodesic distance, case analysis over the code's branches, algebra.
* **C98** Spot enters through the forward — substitution; counterexample family for Hagan.
* **C99** SABR mass at zero — powrel's domain gives the universal failure; small-time limit from the CEV theorem C84.
* **C100** Choi-Wu base-beta correction — explicit evaluation at strikes 1 and 1+1e-6 with bounds on log(sinh y / y).
* **C101** NSVh scalar strikes — strike argument as scalar-or-array; loops by induction over the array.
* **C102** SABR mixtures — nodes and weights as functions on finite types; exact weight identities from the normalised lognormal quadrature (C43); the CEV law theorem (C83) mixed.
* **C103** Normal SABR integrals — `construct` with positional/keyword clash for the constructor; sinh identities for the geodesic; the adaptive integrator is an arbitrary function.
* **C104** Basket with Johnson law — C58 (basket moments) composed with the C62 fit theorem; concrete two-asset instance.
* **C105** Asian option prices — model of the three pricers; parity values, moment matching through Johnson fit, counterexamples where the code disagrees.
* **C106** Truncated gamma expansion of the Heston average variance — tail sums of the expansion in closed form (Mittag-Leffler series of coth), moment algebra of the draws.
* **C107** Bessel variable of the Heston bridge — power series of the Bessel functions, moments by index shifts, mixing.
* **C108** Gamma expansion laws — product formula for sinh, dominated convergence in the Poisson and gamma variables, closed-form algebra.
* **C109** Law of the simulated Heston log price — conditional Gaussian step composed with C108.
* **C110** OUSV volatility — explicit solution of the linear SDE, Gaussian process closure, Fubini.
* **C111** OUSV conditional averages — regression residual independent of the endpoint, conditional expectation by testing against functions of it.
* **C112** (OUSV tail sums): the partial-fraction series of coth (`Lemmas/CothSeries`) and its derivatives; even indices by scaling, odd ones by difference; `Props/OusvKl`.
* **C113** (OUSV sine path): sine and exponential integrals for the path functionals; for the law, the Fourier series of cosh/sinh (`Lemmas/CoshFourier`) gives the covariance of the bridge, then characteristic functions; `Props/OusvKlPath`.
* **C114** (random OUSV step): second-order test functions and exponential test functions over the expectation monad, Cauchy-Schwarz between the tails, SDE identity for the integral of the volatility, tower property; `Props/OusvKlStep`.
* **C115** (`Props/OusvSwap`): second and fourth moments of the OU volatility integrated in time; compared with the closed form `strike_var_swap_analytic`. `swap_ignores_divr` records that the code's correction does not see the dividend yield.
* **C116** (`Props/OusvMgf`): exponential-quadratic ansatz: the three coefficients of `logp_mgf` are shown to solve the Riccati system (derivatives of the code's closed forms), which gives the Kolmogorov backward equation (`Spec.OusvBackward`); the Schöbel-Zhu form is compared through the argument of its logarithm.
* **C117** (`Props/OusvCond`, `Lemmas/QuadVar`): quadratic variation of Brownian motion in probability, Itô's formula for the square of an Ornstein-Uhlenbeck process (the integral is defined as the limit in probability of left-point sums, `Spec.IsItoIntegral`); the closed form in `cond_spot_sigma` is identified with it. Aggregation of log returns by induction over the list of steps.
* **C118** (`Model/Sv32`, `Lemmas/Kummer`, `Props/Sv32Mgf`): Kummer's series, its equation and Euler's integral (Fubini for series), the limit `X^a Γ(b-a)/Γ(b) 1F1(a;b;-X) → 1` by dominated convergence; chain rule for the backward equation; the bounds from the integral.
* **C119** pathwise Itô formula (Föllmer) proved in Lemmas/Follmer.lean, applied to log v; law of the draws by expectation functionals.
* **C120** holomorphy in the order and locally uniform convergence of the series, Bessel's equation from the recurrences, chain rule for the kernel; Poisson mixture of gamma densities by dominated summation.
* **C121** the GARCH diffusion as the solution of the equation for log v with additive noise (`Spec.IsGarch`); explicit solution, first two moments from the moments of exponential functionals of Brownian motion, cross moments by conditioning on the past, Fubini
* **C122** pathwise Itô formula (Föllmer) for positive paths with quadratic variation ∫vov²v²; almost every path of `Spec.IsGarch` is shown to be such a path; steps interpreted in the expectation monad
* **C123** C123 (sabr_mc.py). Model/SabrMc.lean models the volatility step, the path loop, cond_spot_sigma, price, mass_zero, draw_log_return, vol_paths, both time-discretisation schemes and (for C124) the Cai et al. scheme. Proof: Gaussian laws of the draw, Föllmer pathwise Itô integral of exp(c b − c²t/2) for the conditional spot, tilting of iid normals for the measure change, base-model price theorems for the conditional prices.
* **C124** C124 (sabr_mc.py, Cai et al. distribution function). Loop invariant of the Ding series, Abel summation against incomplete gamma functions, remainder bound by telescoping; CEV law from C82/C83; inverse transform by sandwiching the event between intervals.
* **C125** Poisson summation for the Laplace transform of a distribution function (Lemmas/LaplaceInv) gives the aliasing identity, geometric bound and absolute tail bound; transform by arcosh identities and differentiation; the draw by inverse transform with a perturbed distribution function.
* **C126** Riemann-Liouville fractional integrals from the Beta integral (Lemmas/FracInt); weights by splitting the integral into grid cells and Abel summation; the loop's arrays by stability of written entries; divergence by isolating the last term of the rectangle rule. Convergence (Lemmas/FracConv, Props/RoughConv): weighted Gronwall by strong induction with the weight exp(l t), whose fractional integral is at most exp(l t) l^{-α}; the mgf by dominated convergence; existence by the contraction principle, uniqueness from convergence of the scheme to any solution.
* **C127** Catalan-number majorant for the coefficient recursion, Cauchy product, termwise fractional integration; the failure of the Riccati equation by positivity of the difference near zero. Convergence of phi_n by the same weighted induction (euler_bound).
* **C128** model the loops of ModifiedEM and Fast on one path and unroll them by induction into Volterra sums; kernel integrals by the power rule; Cauchy–Schwarz for the noise; prices through the Black–Scholes theorems.
* **C129** affine changes of variable for both rules, telescoping of the intervals, Laplace representation of the kernel; lower bound of the incomplete Gamma tail.
* **C130** power integrals of the mixing measure, tangent-line (Jensen) bound per interval, subadditivity of x^(4/5) for the stability bound, induction over steps.
* **C131** `Model/Util` (`gramcharA`, `cum2mc`). The cumulants are derivatives of Mathlib's `cgf` at 0; the moment-cumulant recursion by Leibniz' rule, E[Z p(Z)] = sum kappa_{j+1} E[p^(j)(Z)]/j! for polynomials, applied to Hermite polynomials; moment matching by Gaussian integration by parts.
* **C132** `Model/MassZero`. In terms of delta = 1/sqrt(2 log(F/K)) the Black put over the strike is N(g) - n(g) R(1/e) with g, e rational in delta; Taylor expansion of N and n to second order and Gordon's bounds for the Mills ratio R.
* **C133** distance integrals as specification; Legendre-type polynomial bound of 1/sqrt(1+2 rho y + y^2) for the Taylor branch; a calculus of fourth-order jets (little polynomials modulo k^5) for Lorig and Hagan.
* **C134** antiderivative by differentiation in each branch, with the exact derivative error in the Taylor branch (Props/SabrOrder1Taylor); dominated convergence for eta -> infinity; logarithm bounds for the bracket near z = 0.
* **C135** Model/CdfInv: complex x2_avgvar_mgf with principal branches, the table, interp1d with its sort and bounds errors, and the root function of sv32_mc. Lemmas/Sawtooth, Lemmas/CdfSeries: bounded convergence of the sawtooth partial sums gives the Fourier-series inversion of a distribution function with the aliasing and truncation errors. Lemmas/GammaSeries: almost sure convergence, Laplace transform (Fatou and dominated convergence), no atoms (independence of the first term), Chebyshev and decay of the characteristic function for series of independent gamma variables. The complex formula is continued from the real axis by the identity theorem on the half plane where both sides are analytic.
* **C136** Three normals; the last is tilted (lintegral_gauss_tilt), the first two are put in polar coordinates with squared radius exponential (lintegral_gauss2). The integral of (c + h cos t)^+ over the circle and of its indicator are computed in closed form; inside the critical radius v_0 the circle does not reach the strike, so the radial integral starts at v_0. The Laguerre weight x^(1/2) e^(-x) with nodes doubled is the change of variable y = 2x.
* **C137** Model/SabrCalib: brentq and root are parameters; Spec.IsBrentq is the documented contract (shown satisfiable). At the money Hagan's volatility is a cubic in alpha with non-negative coefficients, hence strictly increasing.
* **C138** array loop over an abstract monad of draws, interpreted in expectations on [0, ∞]; two steps of the absorbed kernel compose to one (terminating Kummer transformation, Tonelli), so the loop collapses to one step, whose law is the analytic one (C83) by change of variables.
* **C139** Model/BsmDispSmile.lean models lines 632-649 of bsm.py; the short-maturity volatilities are stated in Spec as the integral of 1/(local volatility), evaluated in closed form, and compared by series bounds on sinh; the at-the-money bound compares the Bachelier and displaced prices themselves.
* **C140** model the two interval functions; use existence of the CGMY law, convergence of the COS sum on a fixed interval (C16) and the exponential decay of E[exp(X/2)] in the maturity.
* **C141** show the Thomas sweeps solve the implicit equations including the boundary contributions, and identify the explicit parts; induct over the time loop.
* **C142** Densities written from scipy's documentation; GIG kernel integrable for all p, positive normaliser; Gaussian density times GIG kernel is a GIG kernel with p-1/2; Tonelli; change of variables for the gamma sampler.
* **C143** Cauchy estimates on the disc bound the Taylor coefficients of log M, the aliasing formula of C51 gives the error; real derivatives of cgf identified with complex ones by induction; zero skewness by conjugation symmetry of the six nodes.
* **C144** Positivity, normalisation and linearity of the rule by cases on parity; every panel is a convex combination, so the difference with a Riemann sum is at most the modulus of continuity; law convergence by vol_paths_law (C110) on the dates and dominated convergence on the exact process.
* **C145** H in terms of a(u) = rho k + (1-rho^2) cosh(2 xi u): H = sqrt(a) int sqrt(1 + y cos 2t) dt; fourth-order Taylor bound of the square root, second-order Taylor of the composite; antiderivatives by Mills-ratio calculus; change of variables v = (u^2-u0^2)/2.
* **C146** objects as records, histories as lists of calls folded over a step function; induction on the history from its end; specification lastGiven
* **C147** C147 (heston_mc.py vol_paths). Model/HestonVolPath: the loop over dates in the expectation monad. Joint Laplace transform by induction on the dates from the transform of one step (C86); consistency from the semigroup property of the affine recursion; integer storage: every stored entry is an integer, an event of probability zero under the exact law (countable null set). Moments: quadratic polynomials are stable under any step with the CIR mean and variance (exact and QE), induction on the dates.
* **C148** C148 (heston_mc.py, Andersen). A step with the CIR mean and a trapezoidal average makes the expected sum of the loop the trapezoidal sum of the mean curve (induction on the steps); trapezoidal error of exp(-x) between 0 and x^3/12 by monotonicity; errors add with decaying weights. PoisTd: the conditional mean is linear in the end variance and the Poisson draw, so its expectation is closed form; hyperbolic identity for the exact branch, C106 bounds for the Taylor branch. PoisGe: the same with the gamma-expansion draw of C106. Tse-Wan: the Bessel mean given the end variance, averaged over the exact draw, is the Poisson mean (exchange of the Poisson-gamma mixture with its posterior).
