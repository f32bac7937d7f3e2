{"id": "C01", "title": "Bsm price is the discounted risk-neutral expectation", "statement": "Bsm(sigma,intr,divr,is_fwd).price(K,S,T,cp) equals exp(-intr*T) times the expected payoff max(cp*(S_T-K),0) of the lognormal S_T with forward F (F=S if is_fwd else S*exp((intr-divr)T)) and log-standard-deviation sigma*sqrt(T).", "quantifier": "all real rates, all S,K>0, all sigma, T with sigma*sqrt(T) >= machine eps, cp=+1/-1, is_fwd either way", "why_tests_cant": "The identity is an equality of a closed form and an integral over a continuum of parameters; sampled values only approximate it.", "anchors": ["pyfeng/bsm.py: Bsm.price_formula", "pyfeng/opt_abc.py: OptAnalyticABC.price"]}
{"id": "C02", "title": "Bsm put-call parity", "statement": "price(cp=+1)-price(cp=-1) = exp(-intr*T)*(F-K) for the Bsm model.", "quantifier": "all strikes, spots, rates, maturities and volatilities (including the floored sigma*sqrt(T)<eps regime), both is_fwd values", "why_tests_cant": "Parity must hold identically in every parameter, including degenerate volatility where the code switches to a floor.", "anchors": ["pyfeng/bsm.py: Bsm.price_formula"]}
{"id": "C03", "title": "Bsm prices respect static no-arbitrage bounds", "statement": "max(cp*df*(F-K),0) <= price <= df*F for a call, <= df*K for a put; the price is strictly positive.", "quantifier": "all S,K>0, rates, sigma, T, cp", "why_tests_cant": "An inequality over a continuum with equality only in a limit: samples far from the limit cannot show it.", "anchors": ["pyfeng/bsm.py: Bsm.price_formula"]}
{"id": "C04", "title": "Bsm prices are monotone and convex in strike", "statement": "Call prices are non-increasing, put prices non-decreasing and both convex functions of the strike (no vertical-spread or butterfly arbitrage).", "quantifier": "all pairs/triples of positive strikes and all model parameters", "why_tests_cant": "Quantifies over all triples of strikes.", "anchors": ["pyfeng/bsm.py: Bsm.price_formula"]}
{"id": "C05", "title": "Bsm price is strictly increasing in volatility, so implied volatility is unique", "statement": "For sigma1<sigma2 (above the floor) price(sigma1)<price(sigma2); two volatilities giving the same price are equal; and every price strictly between the price at the volatility floor and the cap (df*F for a call, df*K for a put) is attained by exactly one volatility above the floor.", "quantifier": "all pairs of volatilities and all prices in the open no-arbitrage interval", "why_tests_cant": "Uniqueness and existence over a continuum of prices.", "anchors": ["pyfeng/bsm.py: Bsm.price_formula", "pyfeng/bsm.py: Bsm.impvol"]}
{"id": "C06", "title": "Bsm.impvol converged result reprices the input", "statement": "If the Newton loop of Bsm.impvol stops because the log-price residual is below the tolerance, the Bsm price at the returned volatility reproduces the time value of the input price up to the factor exp(+-tol); a zero residual reproduces the price exactly, so the result is the implied volatility; the true implied volatility is a fixed point of the iteration.", "quantifier": "all admissible prices, strikes, spots, maturities, rates, cp, and all iterates of the loop", "why_tests_cant": "Round trips on a grid do not show correctness of the stopping rule for every iterate.", "anchors": ["pyfeng/bsm.py: Bsm.impvol", "pyfeng/bsm.py: Bsm.price_std"]}
{"id": "C07", "title": "Forward convention is consistent across the API", "statement": "Pricing with is_fwd=False and spot S gives the same value as pricing with is_fwd=True and spot forward(S,T) (Bsm and Norm); OptABC.forward agrees with the forward used inside the pricers.", "quantifier": "all spots, maturities, rates", "why_tests_cant": "Equality over all rates and maturities between two separately coded formulas for the forward.", "anchors": ["pyfeng/opt_abc.py: OptABC.forward, OptABC._fwd_df_divf", "pyfeng/bsm.py: Bsm.price_formula", "pyfeng/norm.py: Norm.price_formula"]}
{"id": "C08", "title": "Bsm price is homogeneous and numeraire symmetric", "statement": "price(lambda*K, lambda*S) = lambda*price(K,S) for lambda>0; and a call on (S,K,intr,divr) equals a put on (K,S,divr,intr) (foreign-domestic symmetry).", "quantifier": "all lambda>0 and all parameters", "why_tests_cant": "Scaling law over all positive reals.", "anchors": ["pyfeng/bsm.py: Bsm.price_formula"]}
{"id": "C09", "title": "Bsm delta, gamma, vega are the exact derivatives of price", "statement": "delta = d price/d spot, gamma = d delta/d spot, vega = d price/d sigma, for calls and puts, both is_fwd conventions.", "quantifier": "all parameters with sigma*sqrt(T) above the floor the method uses", "why_tests_cant": "A finite-difference test only approximates a derivative and only at sampled points.", "anchors": ["pyfeng/bsm.py: Bsm.delta, gamma, vega, vega2"]}
{"id": "C10", "title": "Bsm theta is the exact calendar-time derivative", "statement": "theta = - d price / d texp, for both is_fwd conventions.", "quantifier": "all parameters with texp>0 and sigma*sqrt(T) above the floor", "why_tests_cant": "Derivative identity at every point.", "anchors": ["pyfeng/bsm.py: Bsm.theta"]}
{"id": "C11", "title": "Bsm.d2_var and d3_var are derivatives with respect to variance", "statement": "d2_var and d3_var return the second and third derivative of the price with respect to sigma^2.", "quantifier": "all parameters, both is_fwd conventions and all rates", "why_tests_cant": "Derivative identity at every point; existing tests use zero rates only.", "anchors": ["pyfeng/bsm.py: Bsm.d2_var, Bsm.d3_var"]}
{"id": "C12", "title": "Bsm.cdf is the probability of finishing beyond the strike", "statement": "cdf(K,S,T,cp) = P(cp*(S_T-K) >= 0), i.e. -cp*exp(intr*T)*d price/d strike; cdf(+1)+cdf(-1)=1.", "quantifier": "all parameters", "why_tests_cant": "Probability identity for all strikes.", "anchors": ["pyfeng/bsm.py: Bsm.cdf"]}
{"id": "C13", "title": "Bsm.price_std ratios are mutually consistent", "statement": "type 0 is N(d1)-k N(d2), type -1 is n(d1), type 1 is price/vega (or (1-price)/vega for sign=-1), type 2 is price/delta, on the main branch; vega*type1 = type0.", "quantifier": "all sigma>0 and log strikes outside the small-sigma series branch", "why_tests_cant": "Functional identities.", "anchors": ["pyfeng/bsm.py: Bsm.price_std", "pyfeng/util.py: MathFuncs.mills_ratio"]}
{"id": "C14", "title": "Barrier options: knock-in plus knock-out is vanilla; knock-out dies on the barrier", "statement": "For Bsm (and Norm, BsmDisp) price_barrier(io=1)+price_barrier(io=-1) equals the vanilla price; the knock-out price is zero when spot equals the barrier and zero in the trivially knocked-out cases; the knock-out price is the discounted expectation of the payoff killed by the image (reflection) term.", "quantifier": "all strikes, barriers, spots, rates, volatilities, cp", "why_tests_cant": "Case analysis on relative position of strike, barrier, spot for a continuum.", "anchors": ["pyfeng/bsm.py: Bsm.price_barrier, _price_suboptimal, _barrier_params", "pyfeng/norm.py: Norm._barrier_params"]}
{"id": "C15", "title": "Bsm.logp_mgf is the MGF of log(S_T/F)", "statement": "logp_mgf(u,T) = E[(S_T/F)^u] for every complex u; hence M(0)=M(1)=1 and logp_cf is the characteristic function.", "quantifier": "all complex u, all T>=0, sigma", "why_tests_cant": "Identity over the complex plane.", "anchors": ["pyfeng/bsm.py: Bsm.logp_mgf", "pyfeng/opt_abc.py: OptABC.logp_cf"]}
{"id": "C16", "title": "BsmDisp prices the displaced lognormal", "statement": "BsmDisp.price equals the discounted expectation of the payoff when beta*F_T+(1-beta)*A is lognormal with volatility beta*sigma; parity holds; beta=1 reduces to Bsm; delta, gamma, vega, cdf are the exact derivatives.", "quantifier": "all beta>0, pivots, parameters with positive displaced spot and strike", "why_tests_cant": "Continuum of parameters.", "anchors": ["pyfeng/bsm.py: BsmDisp.price, delta, gamma, vega, cdf"]}
{"id": "C17", "title": "BsmDisp.theta is the calendar-time derivative of BsmDisp.price", "statement": "BsmDisp.theta = - d price/d texp.", "quantifier": "all beta>0, pivots, parameters", "why_tests_cant": "Derivative identity at every point.", "anchors": ["pyfeng/bsm.py: BsmDisp.theta, Bsm.theta"]}
{"id": "C18", "title": "BsmDisp finite-difference vega/volga differentiate with respect to the model volatility", "statement": "vega_numeric for BsmDisp is the central difference of the price in the sigma the user passed, and leaves the model's sigma meaning unchanged.", "quantifier": "all beta, sigma", "why_tests_cant": "The property setter/getter asymmetry only shows when beta differs from 1.", "anchors": ["pyfeng/bsm.py: BsmDisp.sigma", "pyfeng/opt_abc.py: OptABC.vega_numeric, volga_numeric"]}
{"id": "C19", "title": "price_vsk of Bsm/BsmDisp returns the moments of the terminal price", "statement": "Bsm.price_vsk(T) returns variance, skewness, excess kurtosis of the lognormal with mean 1; BsmDisp.price_vsk returns those of the displaced price with unit forward.", "quantifier": "all sigma, T, beta", "why_tests_cant": "Moment identities over a continuum.", "anchors": ["pyfeng/bsm.py: Bsm.price_vsk, BsmDisp.price_vsk", "pyfeng/disthelper.py: DistLognormal.mvsk"]}
{"id": "C20", "title": "Norm price is the discounted Bachelier expectation with parity and bounds", "statement": "Norm.price equals exp(-intr*T)*E[max(cp*(F+sigma*sqrt(T)Z-K),0)]; put-call parity; price >= discounted intrinsic, for every sigma*sqrt(T) >= eps; and in the degenerate limit the price is the discounted intrinsic value.", "quantifier": "all strikes and spots (any sign), rates, sigma, T, cp", "why_tests_cant": "Continuum plus degenerate regime.", "anchors": ["pyfeng/norm.py: Norm.price_formula"]}
{"id": "C21", "title": "Norm Greeks are exact derivatives; cdf is the probability", "statement": "Norm.delta/gamma/vega/theta are the exact derivatives of Norm.price and cdf(K,cp) = P(cp*(S_T-K)>=0).", "quantifier": "all parameters, both is_fwd conventions", "why_tests_cant": "Derivative identities at every point.", "anchors": ["pyfeng/norm.py: Norm.delta, gamma, vega, theta, cdf"]}
{"id": "C22", "title": "Norm binary prices decompose the vanilla price", "statement": "cash binaries: call+put = df; asset-or-nothing minus strike times cash-or-nothing equals the vanilla; each binary price is the discounted expectation of its payoff.", "quantifier": "all parameters, cp, type", "why_tests_cant": "Expectation identities.", "anchors": ["pyfeng/norm.py: Norm.price_binary"]}
{"id": "C23", "title": "Norm.impvol depends only on time value, is scale invariant and parity invariant", "statement": "The Bachelier implied volatility computed from a call price equals the one computed from the put price related by parity; scaling price, strike and spot by lambda scales the volatility by lambda; it is NaN exactly when the time value is below -tol; at the money it is close to sqrt(2 pi/T)*price/df.", "quantifier": "all prices, strikes, spots, maturities, lambda>0", "why_tests_cant": "Invariance laws over all inputs.", "anchors": ["pyfeng/norm.py: Norm._impvol_Choi2009"]}
{"id": "C24", "title": "Finite-difference Greeks are unbiased central differences and do not mutate the model", "statement": "delta_numeric, gamma_numeric, vega_numeric, volga_numeric, vanna_numeric, theta_numeric are central differences of price: exact for prices that are quadratic in the bumped variable, equal to the derivative at an intermediate point otherwise; the model object has the same sigma after the call.", "quantifier": "all models (any price function), all points and shock sizes, any call history", "why_tests_cant": "Holds for arbitrary price functions.", "anchors": ["pyfeng/opt_abc.py: OptABC.delta_numeric ... theta_numeric"]}
{"id": "C25", "title": "OptABC.impvol (Brent) returns a volatility that reprices the input", "statement": "When impvol_brentq returns a finite root, model.price at that volatility (same strike, spot, texp, cp) equals the input price.", "quantifier": "all models, rates and prices", "why_tests_cant": "Tests use zero rates/forward-scaled models.", "anchors": ["pyfeng/opt_abc.py: OptABC.impvol_brentq"]}
{"id": "C26", "title": "pdf_numeric/cdf_numeric return the risk-neutral density/distribution", "statement": "cdf_numeric(K) approximates P(S_T<=K): it equals the exact cdf at an intermediate strike; pdf_numeric is a non-negative butterfly quotient of the density.", "quantifier": "all models with arbitrage-free prices, all rates", "why_tests_cant": "Tests use zero rates.", "anchors": ["pyfeng/opt_abc.py: OptABC.pdf_numeric, cdf_numeric"]}
{"id": "C27", "title": "vol_smile reprices: generic smile equals model volatility for Bsm/Norm and uses OTM options", "statement": "Bsm.vol_smile('bsm') and Norm.vol_smile('norm') are flat at sigma; the generic vol_smile inverts the OTM option (call iff K>forward), is independent of cp when parity holds, and rejects unknown model names with ValueError.", "quantifier": "all model names, strikes and models", "why_tests_cant": "String dispatch and OTM selection over all inputs.", "anchors": ["pyfeng/opt_abc.py: OptABC.vol_smile, _m_smile", "pyfeng/bsm.py: Bsm.vol_smile", "pyfeng/norm.py: Norm.vol_smile"]}
{"id": "C28", "title": "Parameter validation rejects exactly the documented invalid inputs", "statement": "Constructors of the *Params classes raise ValueError exactly on the documented conditions and otherwise store the arguments unchanged (with documented defaulting such as theta=None -> sigma).", "quantifier": "all constructor argument tuples", "why_tests_cant": "Universal over argument tuples.", "anchors": ["pyfeng/params.py: __post_init__ methods"]}
{"id": "C29", "title": "params_kw/from_model transfer parameters faithfully", "statement": "M2.from_model(m) yields a model with the same parameter values and hence the same prices when the parameter classes are compatible; TypeError otherwise.", "quantifier": "all models", "why_tests_cant": "Holds for every field list.", "anchors": ["pyfeng/params.py: BaseParams.params_kw, from_model"]}
{"id": "C30", "title": "The cached FFT price interpolant always belongs to the current parameters", "statement": "After any sequence of parameter assignments and price calls, FftABC.price uses an interpolant built for the model's current parameters and maturity.", "quantifier": "all histories of parameter mutations and price calls", "why_tests_cant": "A history property; the cache key is a hash of unordered values.", "anchors": ["pyfeng/params.py: BaseParams.params_hash", "pyfeng/sv_fft.py: FftABC._fft_interp"]}
{"id": "C31", "title": "Multi-asset covariance/correlation construction is consistent", "statement": "MaParams builds a symmetric covariance with cov_ij = rho_ij*sigma_i*sigma_j; cov and cor determine each other; weights default to 1/n and sum to one; more than one of rho/cor_m/cov_m is rejected.", "quantifier": "all dimensions n and all arguments", "why_tests_cant": "Dimension-generic.", "anchors": ["pyfeng/params.py: MaParams"]}
{"id": "C32", "title": "VarGamma/NIG parameter conversions are mutually inverse", "statement": "to_sv_param and the orig-parameter constructor are inverse bijections on the admissible region.", "quantifier": "all admissible parameters", "why_tests_cant": "Round trip over continuum.", "anchors": ["pyfeng/params.py: VarGammaParams, NigParams"]}
{"id": "C33", "title": "MGFs are normalised martingale MGFs", "statement": "For VarGamma, NIG, CGMY, Heston, BSM: logp_mgf(0,T)=1 (probability) and logp_mgf(1,T)=1 (E[S_T]=F), and multiplicativity in T for Levy models.", "quantifier": "all admissible parameters and maturities", "why_tests_cant": "Identity over all parameters.", "anchors": ["pyfeng/sv_fft.py", "pyfeng/subord_bm.py", "pyfeng/heston.py"]}
{"id": "C34", "title": "Closed-form cumulants match the MGF", "statement": "logp_cum4 of VarGamma and NIG are the first four derivatives of log logp_mgf at 0.", "quantifier": "all admissible parameters", "why_tests_cant": "Derivative identity.", "anchors": ["pyfeng/subord_bm.py", "pyfeng/params.py"]}
{"id": "C35", "title": "Monte-Carlo time grid covers [0,T]", "statement": "tobs(T) is strictly increasing, positive, ends exactly at T, with steps at most dt and equal.", "quantifier": "all T>0, dt>0", "why_tests_cant": "ceil boundary cases over a continuum.", "anchors": ["pyfeng/sv_abc.py: CondMcBsmABC.tobs"]}
{"id": "C36", "title": "Antithetic normals have exact sample mean zero", "statement": "With antithetic sampling the returned normals sum to zero exactly, and their number is n_path (even n_path).", "quantifier": "all n_path and all random draws", "why_tests_cant": "All random outcomes.", "anchors": ["pyfeng/sv_abc.py: rv_normal, _bm_incr"]}
{"id": "C37", "title": "Conditional Monte-Carlo prices satisfy put-call parity path by path", "statement": "call-put = df*(mean(conditional forward)*F-K); with correct_fwd the mean conditional forward is one so parity is exact.", "quantifier": "all simulated paths, strikes", "why_tests_cant": "All random outcomes.", "anchors": ["pyfeng/sv_abc.py: CondMcBsmABC.price"]}
{"id": "C38", "title": "CEV prices satisfy parity and convention consistency", "statement": "Cev.price call-put = df*(F-K) for beta<1 and beta>1; delta/cdf relations; mass_zero in [0,1].", "quantifier": "all parameters", "why_tests_cant": "Continuum with branch on beta.", "anchors": ["pyfeng/cev.py: Cev"]}
{"id": "C39", "title": "InvGam/InvGauss model prices satisfy parity in every convention", "statement": "call-put = df*(F-K) for both is_fwd conventions; the gamma parameters match mean F and variance of the lognormal.", "quantifier": "all parameters", "why_tests_cant": "Tests use is_fwd False.", "anchors": ["pyfeng/gamma.py"]}
{"id": "C40", "title": "CIR variance moments are exact", "statement": "chi moments: mean and variance of v_T and of the average variance returned by the Heston helper satisfy the CIR moment equations, the semigroup property, and the right limits (T->0, mr->0).", "quantifier": "all parameters", "why_tests_cant": "ODE identities.", "anchors": ["pyfeng/heston.py"]}
{"id": "C41", "title": "Heston log-MGF solves the Riccati equations", "statement": "exponents A,B in the Heston/integrated-variance MGF satisfy the Riccati ODE with zero initial condition.", "quantifier": "all complex arguments and parameters in the domain", "why_tests_cant": "ODE identity for all T.", "anchors": ["pyfeng/heston.py"]}
{"id": "C42", "title": "Euler/Milstein variance step has the right conditional mean and variance", "statement": "One step of draw_euler from v over dt has conditional mean v+mr*(theta-v)dt and conditional variance vov^2*v*dt before flooring, and is never negative.", "quantifier": "all states, dt, draws", "why_tests_cant": "Distributional identity.", "anchors": ["pyfeng/heston.py: draw_euler"]}
{"id": "C43", "title": "DistLognormal moments and moment fitting are exact", "statement": "mvsk() are the mean, variance, skewness and excess kurtosis of the (shifted) lognormal; fitting to (m,v) or (m,v,s) and reading mvsk back is the identity.", "quantifier": "all parameters", "why_tests_cant": "Moment identities.", "anchors": ["pyfeng/disthelper.py: DistLognormal"]}
{"id": "C44", "title": "Distribution quadratures are normalised and mean-exact", "statement": "quad() weights sum to one and reproduce the mean exactly for the lognormal, gamma and inverse-Gaussian helpers.", "quantifier": "all orders and parameters", "why_tests_cant": "All orders n.", "anchors": ["pyfeng/disthelper.py: quad methods"]}
{"id": "C45", "title": "Gamma and inverse-Gaussian helpers round-trip moments", "statement": "from_mv / moment fitting gives the requested mean and variance; mc4/mvsk conversions are consistent.", "quantifier": "all m,v>0", "why_tests_cant": "Round trip.", "anchors": ["pyfeng/disthelper.py: DistGamma, DistInvGauss"]}
{"id": "C46", "title": "Moment conversion helpers are inverse to each other", "statement": "Conversions between raw moments, central moments, cumulants and (mean,var,skew,exkurt) are mutually inverse.", "quantifier": "all moment vectors with positive variance", "why_tests_cant": "Polynomial identities.", "anchors": ["pyfeng/disthelper.py", "pyfeng/util.py"]}
{"id": "C47", "title": "Special-function helpers satisfy their defining identities", "statement": "mills_ratio(x) = N(-x)/n(x); powrel/logrel equal the average of a power over an interval in every branch.", "quantifier": "all x in domain", "why_tests_cant": "Branch boundary identities.", "anchors": ["pyfeng/util.py: MathFuncs"]}
{"id": "C48", "title": "N-dimensional Gauss-Hermite grid enumerates every multi-index once", "statement": "NdGHQ nodes are all products of one-dimensional nodes, each exactly once, with product weights summing to the product of sums.", "quantifier": "all dimensions and node counts", "why_tests_cant": "All dimensions.", "anchors": ["pyfeng/quad.py: NdGHQ"]}
{"id": "C49", "title": "Risk-parity solver output is a risk-parity portfolio", "statement": "When the CCD solver reports convergence the weights are normalised and the risk contributions match the budgets within tolerance; each coordinate update solves its quadratic equation exactly.", "quantifier": "all covariance matrices, budgets, iterations", "why_tests_cant": "All matrices and iterates.", "anchors": ["pyfeng/assetalloc.py: RiskParity"]}
{"id": "C50", "title": "Box-simplex projection returns a feasible point", "statement": "Projection output lies in the box, and its sum is within bisection tolerance of one; bisection brackets the multiplier.", "quantifier": "all vectors and caps", "why_tests_cant": "All dimensions.", "anchors": ["pyfeng/assetalloc.py: _project_simplex_box"]}
{"id": "C51", "title": "Numerical moments from the MGF are exact for polynomials", "statement": "Mgf2Mom differentiation on a circle returns the requested raw moment plus exactly the documented aliasing terms; it is exact for polynomial MGFs of degree below the number of nodes, and for a law with analytic MGF the error is bounded by the geometric tail; the normalised moments run() returns are those of the law up to that error.", "quantifier": "all polynomials, all n", "why_tests_cant": "Discrete Fourier identity.", "anchors": ["pyfeng/mgf2mom.py"]}
{"id": "C52", "title": "SVI total variance is a valid smile and reprices by Bsm", "statement": "vol(k)^2*T equals the SVI formula; its minimum, convexity and linear wings are the documented ones and it is positive under the parameter constraint; prices satisfy parity and have vol as their implied volatility (the Heston initialisation is property C87).", "quantifier": "all log strikes", "why_tests_cant": "Continuum.", "anchors": ["pyfeng/svi.py"]}
{"id": "C53", "title": "COS payoff coefficients are the cosine integrals", "statement": "The chi/psi coefficient functions equal the integrals of exp(x)cos and cos over [c,d]; call and put coefficients differ by the forward.", "quantifier": "all intervals and frequencies incl. k=0", "why_tests_cant": "Integral identities.", "anchors": ["pyfeng/sv_cos.py: _chi, _psi"]}
{"id": "C54", "title": "FFT and COS prices satisfy put-call parity exactly", "statement": "For the FFT, Simpson and Le Floc'h COS pricers call-put = df*(F-K) exactly, for every discretisation; for the Fang-Oosterlee COS pricer call-put misses df*(F-K) by exactly df times the COS error of the forward contract.", "quantifier": "all strikes/params", "why_tests_cant": "All inputs.", "anchors": ["pyfeng/sv_fft.py", "pyfeng/sv_cos.py"]}
{"id": "C55", "title": "Thomas solver solves the tridiagonal system", "statement": "The batched Thomas algorithm returns x with Ax=d whenever pivots are nonzero, and pivots are nonzero for diagonally dominant systems.", "quantifier": "all sizes n", "why_tests_cant": "All sizes; induction.", "anchors": ["pyfeng/sv_fin_diff.py: _thomas_batch"]}
{"id": "C56", "title": "Bilinear interpolation is exact at nodes and bounded by corner values", "statement": "The PDE grid interpolation reproduces nodal values and bilinear functions and never leaves the range of the four corners.", "quantifier": "all grids and points", "why_tests_cant": "All grids.", "anchors": ["pyfeng/sv_fin_diff.py: _bilinear"]}
{"id": "C57", "title": "Spread and basket formulas satisfy parity and degenerate cases", "statement": "Kirk at zero strike equals Margrabe; spread/basket prices satisfy call-put = df*(fwd basket - K); NormBasket equals Norm on the basket.", "quantifier": "all parameters and dimensions", "why_tests_cant": "Dimension-generic.", "anchors": ["pyfeng/multiasset.py"]}
{"id": "C58", "title": "Basket moment matching uses the exact moments", "statement": "Levy/Milevsky/Ju match the first two moments of the lognormal basket; third/fourth moment matrix formulas equal the multi-index sums.", "quantifier": "all dimensions", "why_tests_cant": "Dimension-generic sums.", "anchors": ["pyfeng/multiasset.py"]}
{"id": "C59", "title": "Householder rotation in the Choi basket method is orthonormal", "statement": "The rotation used maps the first axis to the chosen direction and preserves the covariance.", "quantifier": "all dimensions and vectors", "why_tests_cant": "Dimension-generic.", "anchors": ["pyfeng/multiasset.py: BsmBasketChoi2018"]}
{"id": "C60", "title": "Multi-asset Monte-Carlo with antithetic paths is unbiased in the control variate and satisfies parity", "statement": "BsmBasketMc, with no, geometric or Bachelier control variate, NormBasketMc, BsmBasketGeoApproxMc and BsmNdMc return estimators whose expectation over the generator stream is the exact model price; simulated call minus put equals df*(mean basket - K) on every outcome; the increments at each date have covariance t*cov on every path, antithetic or not; odd antithetic path counts raise.", "quantifier": "all random outcomes", "why_tests_cant": "All outcomes.", "anchors": ["pyfeng/multiasset_mc.py"]}
{"id": "C61", "title": "SABR average-variance moments are mutually consistent", "statement": "The closed-form mean/variance/skew/kurtosis of the average variance agree with the raw-moment formulas.", "quantifier": "all vovn", "why_tests_cant": "Polynomial identities in exp(vov^2 T).", "anchors": ["pyfeng/sabr.py: avgvar_mnc4, avgvar_mvsk"]}
{"id": "C62", "title": "SABR/NSVh prices satisfy parity and limits", "statement": "Sabr price parity through the base model; Nsvh1 price = expectation under Johnson SU; lam=1 / lam=0 moments agree with specific formulas.", "quantifier": "all parameters", "why_tests_cant": "Continuum.", "anchors": ["pyfeng/sabr.py", "pyfeng/nsvh.py"]}
{"id": "C63", "title": "Asian option moments and parity", "statement": "Continuous-average moments of price satisfy the Geman-Yor formula; call-put = df*(E[A]-K).", "quantifier": "all parameters", "why_tests_cant": "Continuum.", "anchors": ["pyfeng/asian.py"]}
{"id": "C64", "title": "Heston Monte-Carlo building blocks match their target moments", "statement": "draw_from_mv samples have the requested mean and variance; conditional spot/vol formula preserves the martingale property.", "quantifier": "all parameters and draws", "why_tests_cant": "All outcomes.", "anchors": ["pyfeng/heston_mc.py"]}
{"id": "C65", "title": "American approximation bounds", "statement": "Barone-Adesi-Whaley/Li prices are at least intrinsic and at least European, with value matching at the exercise boundary.", "quantifier": "all parameters", "why_tests_cant": "Continuum.", "anchors": ["pyfeng/american.py"]}
{"id": "C66", "title": "Bsm.vega2 is the second volatility derivative of the price", "statement": "vega2(K,S,T) = d^2 price / d sigma^2 = d vega / d sigma.", "quantifier": "all parameters with sigma*sqrt(T) above the floor, in particular T other than 1", "why_tests_cant": "A missing factor of sqrt(T) is invisible at T=1 and the derivative must agree for every T.", "anchors": ["pyfeng/bsm.py: Bsm.vega2"]}
{"id": "C67", "title": "BsmDisp.impvol reprices the input", "statement": "If BsmDisp.impvol converges (no warning), the displaced model at the returned volatility reproduces the time value of the input price up to the factor exp(+-1e-10).", "quantifier": "all parameters with positive displaced spot and strike, both option types", "why_tests_cant": "Continuum; the displacement and the 1/beta scalings must cancel for every beta.", "anchors": ["pyfeng/bsm.py: BsmDisp.impvol"]}
{"id": "C68", "title": "Quadrature-based results of a GH/NIG object belong to its current parameters", "statement": "After any sequence of attribute assignments, cdf, ppf and mvsk_quad of a DistGh/DistNig object use the quadrature of its current mixing distribution.", "quantifier": "all assignment sequences", "why_tests_cant": "History property: the cache is refreshed only by the n_quad setter.", "anchors": ["pyfeng/disthelper.py: DistGh.n_quad, quad_x, quad_w, mvsk_quad, cdf"]}
{"id": "C69", "title": "Quadrature pricers for VG/NIG satisfy parity and no-arbitrage bounds", "statement": "VarGammaQuad.price and ExpNigQuad.price satisfy put-call parity exactly with the model's forward and discount factor, and lie strictly between discounted intrinsic value and df*F (call) or df*K (put).", "quantifier": "all parameters, node counts, strikes", "why_tests_cant": "Holds for every number of nodes because of the numerical martingale normalisation; tests only check a few.", "anchors": ["pyfeng/subord_bm.py: VarGammaQuad.price, ExpNigQuad.price"]}
{"id": "C70", "title": "The refined GARCH MGF equals the line-by-line one", "statement": "GarchFftWuMaWang2012.logp_mgf (\"refined implementation\") returns the same value as logp_mgf_old (\"line-by-line implementation\") of the same lemma.", "quantifier": "all parameters, arguments and maturities", "why_tests_cant": "Equality for every maturity; a test at T=1 passes although the two differ at every other T.", "anchors": ["pyfeng/sv_fft.py: GarchFftWuMaWang2012.logp_mgf, logp_mgf_old"]}
{"id": "C71", "title": "VG/NIG objects stay martingale models under attribute assignment", "statement": "After assigning new values to fields of a VarGamma/NIG object, logp_mgf(1,T)=1 still holds and the object behaves like a freshly constructed one.", "quantifier": "all assignment sequences", "why_tests_cant": "History property: _mgf1_correction is computed only in __post_init__.", "anchors": ["pyfeng/params.py: VarGammaParams.__post_init__, NigParams.__post_init__", "pyfeng/opt_abc.py: vega_numeric"]}
{"id": "C72", "title": "Lewis-integral pricers compute the discounted expected payoff", "statement": "If logp_mgf is the MGF of a law of log(S_T/F) with E[S_T]=F, then price_simpson converges (grid refined, cut-off removed) to df*E[payoff] for calls and puts; the FFT grid values are exactly the quadrature sums at the grid's log-moneyness points.", "quantifier": "all martingale laws, strikes, rates, both option types; BSM, VG and NIG in particular", "why_tests_cant": "A statement about an improper integral and a limit, for every law.", "anchors": ["pyfeng/sv_fft.py: FftABC.price_simpson, fft_interp, price"]}
{"id": "C73", "title": "COS prices are exact expectations of cosine partial sums and converge to the truncated price", "statement": "price() of the COS pricers equals df times the expectation of the n-term cosine series of the payoff on the truncation interval; as n grows it converges to the expectation of the payoff folded into the interval; for puts the remaining truncation error is at most df*K*P(log-price outside the interval).", "quantifier": "all laws with the given characteristic function, all intervals, strikes, n; BSM and Heston intervals in particular", "why_tests_cant": "Improper limit for every law; the docs promise convergence for all strikes.", "anchors": ["pyfeng/sv_cos.py: CosABC.price, HestonCos"]}
{"id": "C74", "title": "COS truncation range covers the law", "statement": "The cumulant-based truncation range contains at least a fraction 1-1/L^2 of the probability, and the closed-form cumulants it is built from are the cumulants of the law.", "quantifier": "all parameters, all L", "why_tests_cant": "Continuum.", "anchors": ["pyfeng/sv_cos.py: trunc_range, bsm/vg cumulants"]}
{"id": "C75", "title": "Junike half-width guarantee", "statement": "When the Junike search reports success, the probability outside [c1-w, c1+w] is at most the requested tolerance; in every case the half-width lies between 12 and 30 scales.", "quantifier": "all laws with the given MGF, tolerances", "why_tests_cant": "Chernoff bound for every law; loop termination.", "anchors": ["pyfeng/sv_cos.py: Junike bound search"]}
{"id": "C76", "title": "Seeded Monte-Carlo runs are reproducible", "statement": "After configure(rn_seed=k) every later sequence of draws (rv_normal, rv_uniform, _bm_incr) is determined by seed, n_path and antithetic alone, whatever the object's history; configure() restarts a seeded object; configure changes only what is passed.", "quantifier": "all histories, all draw sequences", "why_tests_cant": "History property over unbounded sequences of calls.", "anchors": ["pyfeng/sv_abc.py: CondMcBsmABC.__post_init__, configure, rv_normal, rv_uniform, _bm_incr"]}
{"id": "C77", "title": "Simulated price paths are a martingale", "statement": "price_paths(tobs) returns paths whose mean at every observation time equals the initial (normalised) price.", "quantifier": "all observation times, volatilities", "why_tests_cant": "An expectation over all paths; sampling noise hides a missing drift.", "anchors": ["pyfeng/sv_abc.py: CondMcBsmABC.price_paths"]}
{"id": "C78", "title": "result['spot error'] belongs to the object that was priced", "statement": "Reading obj.result['spot error'] gives the forward error of obj's own last pricing, whatever other objects did.", "quantifier": "all histories over any number of objects", "why_tests_cant": "Aliasing across instances shows only for particular histories.", "anchors": ["pyfeng/sv_abc.py: SvMixtureABC.result, CondMcBsmABC.result"]}
{"id": "C79", "title": "Brownian increments are available for every configuration", "statement": "_bm_incr(tobs) returns one row per observation time and n_path columns for every n_path and antithetic flag.", "quantifier": "all n_path, both antithetic flags, all time grids", "why_tests_cant": "The failure needs particular divisibility relations.", "anchors": ["pyfeng/sv_abc.py: CondMcBsmABC._bm_incr"]}
{"id": "C80", "title": "Capped risk parity: the search direction is the gradient of the objective", "statement": "The direction fit_sca moves along is minus the gradient of the reported objective (projected on fully invested portfolios), so a small step along it does not increase the objective.", "quantifier": "all covariance matrices and portfolios", "why_tests_cant": "A test sees only particular matrices; for two assets or diagonal covariance the wrong formula is indistinguishable.", "anchors": ["pyfeng/assetalloc.py: RiskParitySCA.fit_sca", "pyfeng/assetalloc.py: RiskParitySCA._objective"]}
{"id": "C81", "title": "Capped risk parity: fit_sca terminates and returns a feasible portfolio", "statement": "The inner line search always ends; a returned portfolio is long-only, respects w_max in every asset and is fully invested up to the bisection tolerance; each accepted step lowers the objective unless the step has shrunk to 1e-12.", "quantifier": "all covariance matrices, caps, starts, tolerances and iteration limits", "why_tests_cant": "All iterates of a while-True loop.", "anchors": ["pyfeng/assetalloc.py: RiskParitySCA.fit_sca"]}
{"id": "C82", "title": "CEV Greeks are the exact derivatives of the price and solve the pricing equation", "statement": "Cev.delta, gamma, vega and theta are the exact partial derivatives of Cev.price in spot, sigma and expiry (theta with calendar sign), for beta on either side of one and both is_fwd conventions; they satisfy theta + (r-q) S delta + 1/2 sigma^2 S^(2 beta) gamma = r price; cdf is the strike derivative; price_std agrees with price and vega at unit forward.", "quantifier": "all parameters, strikes, expiries with total variance above the machine-precision floor", "why_tests_cant": "Continuum; the closed forms depend on noncentral chi-squared identities and a branch on beta.", "anchors": ["pyfeng/cev.py: Cev.delta, gamma, vega, theta, cdf, price_std"]}
{"id": "C83", "title": "CEV prices are expectations under one terminal law", "statement": "For beta<1, all Cev prices at one expiry are discounted expected payoffs under a single law on [0,inf) with mean the forward and atom mass_zero at 0; for beta>1 puts are expectations and calls exceed them by the discounted mean defect (strict local martingale); prices respect the no-arbitrage bounds on both sides of beta=1.", "quantifier": "all parameters, strikes, expiries above the variance floor", "why_tests_cant": "A statement about a continuum of strikes and an improper integral.", "anchors": ["pyfeng/cev.py: Cev.price, mass_zero"]}
{"id": "C84", "title": "The CEV Monte-Carlo step is exact and mass_zero_t0 is the small-time rate", "statement": "One CevMc.price_step of any size has exactly the analytic terminal law (tail probabilities and absorption probability mass_zero); simulated prices are never negative and zero is absorbing; mass_zero_t0 is the limit of -T log mass_zero as T->0.", "quantifier": "all parameters with beta<1, all step sizes, all draws", "why_tests_cant": "Exactness of a sampler is a statement about a distribution; a limit cannot be tested.", "anchors": ["pyfeng/cev.py: CevMc.price_step, Cev.mass_zero, mass_zero_t0"]}
{"id": "C85", "title": "Heston log-price mean/variance and variance-swap strike are exact", "statement": "HestonABC.logp_mv returns the mean and variance of log(S_T/F) under the Heston dynamics (moment equations of the pair), and strike_var_swap_analytic is the expected realised variance of discretely monitored log returns (annualised, including rates and correlation), and for dt=0 the expected average variance.", "quantifier": "all parameters with mr != 0, all maturities, all numbers of monitoring dates", "why_tests_cant": "Identities between expectations of a continuous-time process and closed forms, for any number of monitoring dates.", "anchors": ["pyfeng/heston.py: logp_mv, strike_var_swap_analytic, avgvar_mv"]}
{"id": "C86", "title": "Exact CIR samplers have the CIR transition law", "statement": "draw_ncx2 and draw_pois_gamma have the same law; its moment generating function is the documented noncentral chi-square one, solves the Kolmogorov backward equation with the right initial condition, satisfies Chapman-Kolmogorov, has the mean and variance returned by mv, and puts no mass below zero.", "quantifier": "all parameters, step sizes, starting variances, transform arguments", "why_tests_cant": "Statements about the distribution of a random draw.", "anchors": ["pyfeng/heston.py: draw_ncx2, draw_pois_gamma, mv"]}
{"id": "C87", "title": "Heston initialisation of SVI is the long-maturity Heston smile", "statement": "init_from_heston(sigma, vov, mr, rho, theta, texp) produces SVI parameters whose total variance is the Gatheral-Jacquier large-maturity limit of the Heston smile.", "quantifier": "all parameters with mr > rho*vov", "why_tests_cant": "Asymptotic identity over all log-strikes; the initial variance must drop out, which is invisible when sigma equals vov.", "anchors": ["pyfeng/svi.py: Svi.init_from_heston"]}
{"id": "C88", "title": "Finite-difference SV prices satisfy exact put-call parity and the model's scaling laws", "statement": "SabrFinDiff (beta>0), HestonFinDiff and HestonCevFinDiff prices satisfy call-put = df*(F-K) exactly, not only up to discretisation error; Heston prices are homogeneous of degree one in (strike, spot); SABR prices scale when sigma is rescaled by l^(1-beta).", "quantifier": "all grids (N,M,L), implicitness weights, parameters, strikes, maturities (for mean-reverting variance: grids with adi_theta*mr*texp*L < N)", "why_tests_cant": "Holds for every grid and any number of steps, by an invariant over the time loop.", "anchors": ["pyfeng/sv_fin_diff.py: SvFinDiffABC.price, _solve_one, _step, _solve_S_implicit, _solve_v_implicit", "pyfeng/sv_fin_diff.py: SabrFinDiff, HestonFinDiff, HestonCevFinDiff"]}
{"id": "C89", "title": "The finite-difference operator is the generator of the documented SDE", "statement": "At interior nodes the discrete operator F0+F1+F2 applied to any quadratic function of (X, v) equals the infinitesimal generator of the documented SABR / Heston / CEV-Heston dynamics.", "quantifier": "all grids, nodes, parameters, quadratic functions", "why_tests_cant": "Consistency must hold at every node of every grid.", "anchors": ["pyfeng/sv_fin_diff.py: _F0, _F1, _F2, _coefficients"]}
{"id": "C90", "title": "Exchange options are exact at zero strike", "statement": "At strike zero BsmSpreadKirk and BsmSpreadBjerksund2014 return the exact value (Margrabe) of the exchange option in the two-asset Black-Scholes model.", "quantifier": "all correlations, volatilities, rates, maturities, calls and puts, both quoting conventions", "why_tests_cant": "Equality with an expectation over a continuum of inputs.", "anchors": ["pyfeng/multiasset.py: BsmSpreadKirk.price, BsmSpreadBjerksund2014.price"]}
{"id": "C91", "title": "Best-of-two option is exact and never raises", "statement": "BsmMax2.price equals the discounted expected payoff on max(S1,S2) for calls and puts and never raises its 'lower bound violated' error.", "quantifier": "all positive strikes, spots, volatilities and maturities, all correlations except perfectly dependent assets of equal volatility", "why_tests_cant": "Equality with a bivariate expectation over a continuum of inputs; the error branch must be unreachable.", "anchors": ["pyfeng/multiasset.py: BsmMax2.price"]}
{"id": "C92", "title": "One-factor basket price is a lower bound with controlled error", "statement": "BsmBasket1Bm.price never exceeds the exact one-factor basket price whatever the root search returns; without the warning it is below it by at most the Newton tolerance and the mass beyond nine standard deviations; it fails exactly when a weight and a volatility have opposite signs.", "quantifier": "all dimensions, weights, volatilities, strikes", "why_tests_cant": "All iterates of a Newton search; expectation over a continuum.", "anchors": ["pyfeng/multiasset.py: BsmBasket1Bm.root, BsmBasket1Bm.price"]}
{"id": "C93", "title": "Choi (2018) factorisation, lower bound and parity", "statement": "v_mat factorises the covariance (V V' = cov_m); the n_quad=0 price is defined for every nonzero basket and never exceeds the true basket price; each quadrature node contributes the conditional one-factor price; call-put = df*(basket forward - K) exactly for every number of nodes.", "quantifier": "all dimensions, weights of any sign, covariance matrices, strikes, node counts", "why_tests_cant": "Dimension-generic; inequality against an expectation.", "anchors": ["pyfeng/multiasset.py: BsmBasketChoi2018.householder, v_mat, v1_fwd_weight, price"]}
{"id": "C94", "title": "Moment-matched basket pricers: parity and one-factor exactness", "statement": "Levy, Ju and Milevsky basket prices satisfy put-call parity; Levy and Ju are exact when all assets share one factor and volatility (the Ju correction vanishes); the second moment of the basket spanned by the Ju prices is exact, and for long baskets with covariances at most delta the third and fourth moments are off by at most a constant times delta^4.", "quantifier": "all dimensions, weights, strikes, rates", "why_tests_cant": "Dimension-generic; the Ju correction must vanish identically.", "anchors": ["pyfeng/multiasset.py: BsmBasketLevy1992, BsmBasketJu2002, BsmBasketMilevsky1998"]}
{"id": "C95", "title": "Bachelier multi-asset simulation has the right mean under carry", "statement": "NormNdMc prices have the forward as mean, like NormBasket and NormBasketMc. (False of the code: the simulated paths have no drift, so with interest rate different from dividend rate every price is biased; equality holds exactly when there is no carry.)", "quantifier": "all models, grids, path counts, payoffs", "why_tests_cant": "Expectation over the whole generator stream.", "anchors": ["pyfeng/multiasset_mc.py: NormNdMc.simulate, NormNdMc.price_european"]}
{"id": "C96", "title": "Conditional moments of the SABR average variance", "statement": "SabrABC.cond_avgvar_mvsk(vovn, zhat) returns, with mnc=True, the conditional expectations of the powers 1 to 4 of the average variance (1/T)\u222b(\u03c3_t/\u03c3_0)\u00b2dt given the terminal volatility \u03c3_T, and otherwise the mean, scaled variance, skewness and excess kurtosis of that conditional law, where zhat = log(\u03c3_T/\u03c3_0)/(vov\u221aT) and the volatility is the driftless geometric Brownian motion of SABR.", "quantifier": "every Brownian motion, vov > 0, T > 0 above the thresholds where the code switches to truncated expansions, almost every terminal volatility", "why_tests_cant": "The statement concerns the conditional law of a path functional of Brownian motion; a Monte-Carlo test can only compare a few averages up to sampling error.", "anchors": ["pyfeng/sabr.py: SabrABC.cond_avgvar_mfn, SabrABC.cond_avgvar_mvsk"]}
{"id": "C97", "title": "SABR volatility approximations: shape, symmetry, limits", "statement": "The function H of the SABR formulas is z over the geodesic distance; H is positive and reflection symmetric; the normal SABR smile is symmetric under rho -> -rho; is_atmvol=True makes sigma the at-the-money normal volatility; Hagan's price is homogeneous; with vov = 0 every approximation returns the base model; at the money the Hagan, Choi-Wu (both) and Lorig first-order volatilities coincide.", "quantifier": "all parameters, strikes, spots and expiries (|rho| < 1; strikes away from the 1e-3 series window for the geodesic formula)", "why_tests_cant": "Identities between closed forms over a continuum of parameters and several branches.", "anchors": ["pyfeng/sabr.py: SabrABC._hh, SabrHagan2002.vol_for_price, SabrNormVolApprox.vol_for_price, SabrChoiWu2021H.vol_for_price, SabrChoiWu2021P.vol_for_price, SabrLorig2017.vol_for_price"]}
{"id": "C98", "title": "SABR prices depend on the spot only through the forward", "statement": "Quoting the spot, or quoting the corresponding forward with is_fwd=True, gives the same SABR volatilities and prices. (False of the code for SabrHagan2002, which scales sigma with the spot instead of the forward.)", "quantifier": "all models, carries, strikes, expiries", "why_tests_cant": "Any carry and any beta; the shipped tests use zero rates.", "anchors": ["pyfeng/sabr.py: SabrHagan2002.vol_for_price", "pyfeng/sabr.py: SabrNormVolApprox, SabrChoiWu2021H, SabrChoiWu2021P, SabrLorig2017"]}
{"id": "C99", "title": "SABR mass at zero", "statement": "SabrChoiWu2021H.mass_zero returns the probability mass at zero of the equivalent CEV model and mass_zero_t0 its small-time rate, half the squared geodesic distance to zero. (mass_zero is unusable in the code: it raises for every argument; mass_zero_t0 is correct.)", "quantifier": "all models, spots, expiries", "why_tests_cant": "A universally quantified failure and a limit statement.", "anchors": ["pyfeng/sabr.py: SabrChoiWu2021H.mass_zero, SabrChoiWu2021H.mass_zero_t0", "pyfeng/util.py: MathFuncs.powrel"]}
{"id": "C100", "title": "Choi-Wu volatilities with a different base beta are continuous at the money", "statement": "With _base_beta different from beta, SabrChoiWu2021H.vol_for_price near the money is close to its at-the-money value. (False of the code: the off-the-money formula divides by q instead of q squared, so the first-order correction disappears at distance 1e-6.)", "quantifier": "all models with beta = 0 quoted as lognormal volatility, all expiries", "why_tests_cant": "A jump at a strike distance that no strike grid in the tests hits.", "anchors": ["pyfeng/sabr.py: SabrChoiWu2021H.vol_for_price"]}
{"id": "C101", "title": "NSVh simulation and quadrature accept scalar and array strikes alike", "statement": "NsvhMc.price and NsvhGaussQuad.price return one price per strike for arrays and a scalar price for a scalar strike. (False of the code: both raise for every scalar strike; arrays are priced elementwise.)", "quantifier": "all models, paths, quadrature rules, strikes, array lengths", "why_tests_cant": "A universally quantified failure together with an elementwise law for arrays of any length.", "anchors": ["pyfeng/nsvh.py: NsvhMc.price, NsvhGaussQuad.price"]}
{"id": "C102", "title": "SABR mixture prices: parity, absence of arbitrage, conditional exactness", "statement": "SabrUncorrChoiWu2021 prices satisfy put-call parity exactly at every quadrature order and, for 0<beta<1, come from one probability law of S_T/F on [0,inf) with mean one whose atom at zero is mass_zero; SabrMixtureChoi with beta 0 or 1 is the quadrature average of the exact conditional prices given terminal volatility and average variance, with exact parity for beta=0; correct_fwd=True makes parity exact always; the logarithmic mass_zero is the logarithm of mass_zero.", "quantifier": "all quadrature orders, models, strikes, expiries", "why_tests_cant": "Holds for every quadrature rule; existence of a law pricing all strikes.", "anchors": ["pyfeng/sabr_int.py: SabrMixtureABC.price, SabrMixtureABC.mass_zero, SabrUncorrChoiWu2021.cond_spot_sigma, SabrMixtureChoi.cond_spot_sigma"]}
{"id": "C103", "title": "Normal SABR integrals can be built and are consistent", "statement": "SabrNormAnalytic and SabrNormEllipeInt can be constructed from (sigma, vov, rho) (false of the code: every call raises TypeError); their prices satisfy put-call parity, the reflection symmetry rho -> -rho, start the integration at the geodesic distance over vov*sqrt(T), and the integral price is at least intrinsic.", "quantifier": "all parameters, strikes, expiries, quadrature rules and integrator outputs", "why_tests_cant": "Universally quantified failure and symmetries over a continuum.", "anchors": ["pyfeng/sabr_int.py: SabrNormAnalytic, SabrNormEllipeInt", "pyfeng/params.py: SabrParams"]}
{"id": "C104", "title": "BsmBasketNsvh1 matches four moments of the basket", "statement": "BsmBasketNsvh1.price is the discounted expected payoff of a random variable with exactly the mean, variance and third and fourth central moments of the basket in the multi-asset Black-Scholes model, and satisfies put-call parity.", "quantifier": "all dimensions, weights of any sign, covariances, strikes, expiries whose basket moments lie in the Johnson region", "why_tests_cant": "Dimension-generic; moment identity of a calibrated law.", "anchors": ["pyfeng/multiasset.py: BsmBasketNsvh1.price", "pyfeng/nsvh.py: Nsvh1.from_vsk, Nsvh1.fit"]}
{"id": "C105", "title": "Asian option prices are discounted expected payoffs of the average", "statement": "BsmAsianJsu prices with a distribution matching four moments of the continuous average; the Linetsky and Ju prices can be computed for all parameters and are consistent with put-call parity call - put = df*(E[A]-K).", "quantifier": "all parameters, strikes, spots and expiries, every Brownian motion driving the price", "why_tests_cant": "the average is a functional of the whole path; parity and matching must hold for a continuum of inputs", "anchors": ["pyfeng/asian.py: BsmAsianJsu.price, BsmAsianLinetsky2004.price, BsmContinuousAsianJu2002.price"]}
{"id": "C106", "title": "Truncated gamma expansion of the Heston average variance keeps the exact moments", "statement": "x1star_avgvar_mv and x2star_avgvar_mv(kk) are the mean and variance of the terms of the gamma expansion left out after kk terms, so the average-variance draws (draw_x1, draw_x2, draw_x123, Glasserman-Kim and Poisson variants) have the same mean and variance for every truncation level kk, equal to cond_avgvar_mv given eta. (In the Taylor window |mr*dt| < 0.2 the returned variance becomes negative for large kk: the code disagrees there.)", "quantifier": "all parameters, terminal variances, truncation levels kk, values of eta", "why_tests_cant": "Infinite series and every truncation level.", "anchors": ["pyfeng/heston_mc.py: HestonMcABC.x1star_avgvar_mv, x2star_avgvar_mv, draw_x1, draw_x2, draw_x123, HestonMcGlassermanKim2011.cond_avgvar"]}
{"id": "C107", "title": "The Bessel variable of the Heston bridge", "statement": "draw_eta tabulates a probability law (the Bessel law), which is the exact conditional law of the Poisson variable of draw_pois_gamma given the terminal variance; eta_mv is its mean and scaled variance, mixing over it gives exactly cond_avgvar_mv, and the Tse-Wan scheme draws an inverse Gaussian variable with these moments.", "quantifier": "all parameters and pairs of initial and terminal variances", "why_tests_cant": "Infinite tables and a continuum of parameters.", "anchors": ["pyfeng/heston_mc.py: HestonMcABC.draw_eta, eta_mv, cond_avgvar_mv, HestonMcTseWan2013"]}
{"id": "C108", "title": "Gamma expansion draws converge to the exact Heston average variance law", "statement": "The series in draw_x123 and x2_avgvar_mgf/cond_avgvar_mgf agree: Laplace transforms of the draws converge, as kk grows, to the closed forms, and one step of the Poisson-conditioned scheme reproduces CirModel.mgf of the average variance.", "quantifier": "all parameters with mr > 0, transform arguments, initial variances", "why_tests_cant": "A limit in the truncation level and an identity of transforms over a continuum.", "anchors": ["pyfeng/heston_mc.py: HestonMcABC.x2_avgvar_mgf, cond_avgvar_mgf, draw_x123, HestonMcChoiKwok2023PoisGe", "pyfeng/heston.py: CirModel.mgf"]}
{"id": "C109", "title": "Simulated Heston log price has the documented transform", "statement": "One step of HestonMcChoiKwok2023PoisGe followed by the drawn log return has, as kk grows, the moment generating function logp_mgf documented for the Heston model.", "quantifier": "all parameters, initial variances, transform arguments", "why_tests_cant": "A limit and an identity of transforms over a continuum.", "anchors": ["pyfeng/heston_mc.py: HestonMcChoiKwok2023PoisGe, HestonMcABC.draw_log_return", "pyfeng/heston.py: HestonABC.logp_mgf"]}
{"id": "C110", "title": "OUSV volatility moments and paths are exact", "statement": "avgvol_mv and avgvar_mv of the OUSV model are the expectations of the time averages of the volatility and of the variance of the Ornstein-Uhlenbeck equation d sigma = mr (theta - sigma) dt + vov dW; vol_step samples the volatility after dt exactly, independently of the past; vol_paths has the finite-dimensional laws of the solution.", "quantifier": "every solution of the equation, all parameters, times, step sizes, finite sets of times", "why_tests_cant": "Path functionals of a continuous-time process.", "anchors": ["pyfeng/ousv.py: OusvABC.avgvol_mv, OusvABC.avgvar_mv, OusvMcABC.vol_step, OusvMcTimeDisc.vol_paths"]}
{"id": "C111", "title": "OUSV conditional averages given the terminal volatility", "statement": "cond_avgvolvar_m(texp, vol_0, vol_t) is the conditional expectation of the average volatility and of the average variance over [0, texp] given the terminal volatility.", "quantifier": "every solution of the volatility equation, all parameters, expiries, almost every terminal volatility", "why_tests_cant": "Conditional expectations of path functionals.", "anchors": ["pyfeng/ousv.py: OusvABC.cond_avgvolvar_m"]}
{"id": "C112", "title": "Tail sums of the OUSV sine series", "statement": "The closed forms _a2sum, _a2overn2sum, _a4sum, _a6sum and _a6n2sum return, for every number ns of sine terms already used and for all, odd or even indices, the infinite tail sums over n > ns of a_n^2, a_n^2/(n pi)^2, a_n^4, a_n^6 and (n pi)^2 a_n^6, with a_n = sqrt(2/((mr T)^2 + (n pi)^2)); unexplained_var_ratio is 1 without sine terms, strictly decreasing in ns, positive, and tends to 0.", "quantifier": "every mr*T different from 0, every ns, all three index classes", "why_tests_cant": "Infinite series with a closed form, for every truncation level.", "anchors": ["pyfeng/ousv.py: OusvMcChoi2025KL._a2sum, _a2overn2sum, _a4sum, _a6sum, _a6n2sum, unexplained_var_ratio"]}
{"id": "C113", "title": "The OUSV sine-series step is the exact functional of the sine path", "statement": "With given normal variates OusvMcChoi2025KL.cond_states_step returns exactly the terminal value, the average variance and the average volatility of the continuous path built by vol_path_sin from the same variates; driven by independent standard normals this path converges in law (all finite-dimensional distributions) to the Ornstein-Uhlenbeck volatility of the model as n_sin grows.", "quantifier": "every number of sine terms, all variates, all parameters with mr != 0, all finite sets of times", "why_tests_cant": "Equality with path integrals for every n_sin and a limit theorem for stochastic processes.", "anchors": ["pyfeng/ousv.py: OusvMcChoi2025KL.cond_states_step, OusvMcChoi2025KL.vol_path_sin"]}
{"id": "C114", "title": "The random OUSV simulation step is unbiased and its moments do not depend on n_sin", "statement": "For every number of sine terms, one step of OusvMcChoi2025KL draws the terminal volatility exactly; given it, average volatility and average variance have the conditional means of cond_avgvolvar_m and the variances and covariance of the full sine series; terminal and average volatility have exactly the joint law of the model; the step (and scheme 1 of OusvMcTimeDisc) is unbiased for avgvol_mv and avgvar_mv. vol_path_sin works without given variates and unknown schemes raise ValueError (both false of the code).", "quantifier": "every n_sin, step size, initial volatility, with and without nz_theta, all parameters with mr != 0", "why_tests_cant": "Moments of a random step for every truncation level and a joint law of path functionals.", "anchors": ["pyfeng/ousv.py: OusvMcChoi2025KL.cond_states_step, OusvMcChoi2025KL.vol_path_sin, OusvMcTimeDisc.cond_states_step"]}
{"id": "C115", "title": "Fair strike of the OUSV variance swap", "statement": "strike_var_swap_analytic(texp, dt) is the expected time average of the variance plus dt times the time average of the expectation of (drift)^2 - rho vov sigma^2, the first-order effect of sampling log returns every dt, with drift (intr - divr) - sigma^2/2. (The code ignores divr: the correction is wrong whenever divr != 0.)", "quantifier": "every solution of the volatility equation, all parameters with mr != 0, expiries, sampling intervals", "why_tests_cant": "Expectations of path functionals over a continuum of parameters.", "anchors": ["pyfeng/ousv.py: OusvABC.strike_var_swap_analytic"]}
{"id": "C116", "title": "OUSV log-price moment generating function", "statement": "logp_mgf(u, texp) as a function of texp and of the initial volatility solves the Kolmogorov backward equation of E[(S_T/F)^u] in the Schobel-Zhu model with initial value 1; it is 1 at u=0 (probability) and u=1 (martingale); logp_mgf_schobelzhu1998 agrees with it up to the branch of a square root (equal squares on the strip, equal for real u); the integrands of OusvSchobelZhu1998.price are its values at 1+i phi and i phi, and that price satisfies put-call parity.", "quantifier": "all parameters, expiries, initial volatilities and complex arguments with 0 <= Re u <= 1", "why_tests_cant": "A differential equation and identities over a continuum of complex arguments.", "anchors": ["pyfeng/ousv.py: OusvABC.logp_mgf, OusvABC.logp_mgf_schobelzhu1998, OusvSchobelZhu1998.f_1, f_2, D_B_C, price"]}
{"id": "C117", "title": "Conditional simulation of the price in the OUSV model", "statement": "When the accumulated states are exact, cond_spot_sigma returns exp(rho*I - rho^2/2*int sigma^2), with I the Ito integral of the volatility against its own Brownian motion, and the volatility sqrt((1-rho^2)*average variance) of the conditional Black-Scholes model; the step-by-step log returns (draw_log_return) aggregate to the same conditional law for every grid; cond_log_return_var is the conditional second moment of the drawn return. OusvUncorrBallRoma1994 honours is_fwd (false of the code).", "quantifier": "every solution of the volatility equation, all parameters with vov != 0, all time grids and recorded steps", "why_tests_cant": "An identity with a stochastic integral (limit in probability of sums) and with sums over grids of any length.", "anchors": ["pyfeng/ousv.py: OusvMcABC.cond_spot_sigma, OusvMcABC.draw_log_return, OusvMcABC.cond_log_return_var, OusvUncorrBallRoma1994.price"]}
{"id": "C118", "title": "Moment generating function of the 3/2 model", "statement": "logp_mgf of the 3/2 model is the moment generating function of the log price: as a function of expiry and initial variance it solves the backward equation of dV = mr V (theta - V) dt + vov V^{3/2} dW with initial value 1, for every complex argument of the strip used by the Fourier pricers; it is 1 at 0, 1 at 1 exactly when the price is a martingale (rho*vov <= mr + vov^2/2), and strictly between 0 and 1 at real arguments in between. hyp1f1_complex sums the first 1025 terms of Kummer's series, with an explicit error bound, and the helper process cir is the law of 1/V.", "quantifier": "all parameters with vov != 0, mr*theta != 0; all complex u with 0 <= Re u <= 1, all expiries and initial variances; every number of terms of the series", "why_tests_cant": "A partial differential equation in three variables for an infinite series, with a limit at time zero; a Monte-Carlo comparison has sampling noise and covers finitely many parameters.", "anchors": ["pyfeng/sv32.py: Sv32ABC.logp_mgf, Sv32ABC.hyp1f1_complex, Sv32ABC.cir"]}
{"id": "C119", "title": "Conditional Monte-Carlo simulation of the 3/2 model", "statement": "In the 3/2 simulation engines, the forward and volatility returned conditionally on a variance path are exp(\u03c1I \u2212 \u03c1\u00b2/2\u222bv dt) with I = \u222b\u221av dW and sqrt((1\u2212\u03c1\u00b2)\u222bv dt/T)/sqrt(v0), for every path of the variance; the loop accumulates the terminal variance and \u03a3 avgvar\u00b7dt; schemes 0 and 1 are the Euler and Milstein schemes of the variance, schemes 2 and 3 draw the exact transition law, any other scheme raises ValueError; the inverse-Gaussian engine draws an average variance with exactly the conditional mean and variance it computes.", "quantifier": "all parameters, all continuous variance paths with the 3/2 quadratic variation, all step lists, all step sizes, all test functions", "why_tests_cant": "the conditional formula must hold for every path of a continuous-time process and the draws for every test function of a continuous law", "anchors": ["pyfeng/sv32_mc.py:Sv32McABC.cond_spot_sigma", "pyfeng/sv32_mc.py:Sv32McTimeStep", "pyfeng/sv32_mc.py:Sv32McChoiKwok2023Ig"]}
{"id": "C120", "title": "Law of the average variance of the 3/2 model given the end points", "statement": "The Bessel-function routine for complex order is a partial sum of the Bessel series and converges to it; the order-derivative routine returns the exact first and second derivatives of the truncated series for every truncation and converges to the derivatives of the Bessel function; the conditional mean and variance of the average variance (with and without the Bessel variable) are those of the conditional Laplace transform; that transform, times the transition density of 1/v, solves the Feynman-Kac equation with killing rate b\u00b7v; the transform conditional on the Bessel variable averages to the unconditional one exactly when dt = 1 (otherwise the code's exponent lacks the time step); the variance draws have the stated transition density.", "quantifier": "all admissible parameters, end points, time steps, Laplace arguments b \u2265 0, truncation levels; all bounded measurable test functions", "why_tests_cant": "identities between special functions and partial differential equations over continuous parameters", "anchors": ["pyfeng/sv32_mc.py:Sv32McABC.iv_complex", "pyfeng/sv32_mc.py:Sv32McABC.iv_d12", "pyfeng/sv32_mc.py:Sv32McABC.cond_avgvar_mv", "pyfeng/sv32_mc.py:Sv32McBaldeaux2012Exact.cond_avgvar_laplace"]}
{"id": "C121", "title": "GARCH diffusion: mean and variance of the average variance, approximate price", "statement": "avgvar_mv(texp, var0) of GarchUncorrBaroneAdesi2004 returns the mean and the variance of the time average over [0, texp] of the solution of dv = mr(theta - v)dt + vov v dB started from var0 (vov\u00b2 different from mr and 2 mr, where the formula divides by zero). price with order 2 is the expectation of the second-order Taylor polynomial of the Black-Scholes price in the variance around the mean average variance, evaluated at the average variance; lower orders return the Black-Scholes price at the mean, higher orders raise ValueError. Disagreements: with different rates the second-order term is off by the factor spot/forward; is_fwd is ignored, which breaks put-call parity.", "quantifier": "all parameters, horizons, initial variances, every Brownian motion and every solution of the equation on any probability space; all strikes, spots and rates", "why_tests_cant": "a test can compare with a simulation up to sampling noise for a few parameters; the claim is an identity between a closed form and the law of a stochastic process", "anchors": ["pyfeng/garch.py:GarchUncorrBaroneAdesi2004.avgvar_mv", "pyfeng/garch.py:GarchUncorrBaroneAdesi2004.price"]}
{"id": "C122", "title": "GARCH diffusion: conditional Monte Carlo", "statement": "cond_spot_sigma of GarchMcTimeDisc returns exp(rho I - rho\u00b2/2 \u222bv) and sqrt((1-rho\u00b2) avg v)/sqrt(v0), where I = \u222b\u221av dW is recovered from the path of the variance, whenever the accumulated states are the exact integrals of v, \u221av and 1/\u221av; the loop accumulates the sums of the step averages; schemes 0 and 1 are the Euler and Milstein schemes floored at zero, scheme 2 the Euler scheme for log v, with trapezoidal averages; other schemes raise ValueError. Disagreement: with scheme 0 the variance is floored at zero with positive probability, and the conditional spot of such a path is infinite or NaN.", "quantifier": "all parameters, every path of the diffusion (almost every path of every solution is one), all step lists and step results, all states", "why_tests_cant": "the relation between the path of the variance and the stochastic integral needs It\u00f4's formula and holds for almost every path; simulation tests only see averages", "anchors": ["pyfeng/garch.py:GarchMcTimeDisc.cond_spot_sigma", "pyfeng/garch.py:GarchMcTimeDisc.cond_states_step", "pyfeng/garch.py:GarchMcTimeDisc.vol_step_euler", "pyfeng/garch.py:GarchMcTimeDisc.var_step_log"]}
{"id": "C123", "title": "SABR time-discretisation Monte Carlo: volatility step, conditional price, measure change, mass at zero", "statement": "For the SABR Monte-Carlo engine (sabr_mc): each simulated volatility step has exactly the lognormal law of the SABR volatility process over the step, at every step length and with any antithetic pairing of the draw; the accumulated path state is the terminal volatility ratio and the time-weighted sum of the per-step average variances, and if those averages are exact the pair returned by cond_spot_sigma is exactly the conditional forward and conditional volatility of the SABR price given the volatility path (obtained from the pathwise stochastic integral of the volatility), for beta = 1 and beta = 0; price is then the average over paths of the exact conditional option prices (Black for beta = 1, Bachelier for beta = 0, CEV for 0 < beta < 1 with rho = 0); call minus put differs from the discounted forward minus strike exactly by the kept-path average of the forward ratios, so parity is exact with correct_fwd when no path is dropped; draw_log_return draws the exact conditional log return; the drift change of vol_paths together with log_rn_deriv leaves every path expectation unchanged; mass_zero is the path average of CEV masses and its log form is the logarithm of the same number; an invalid scheme number raises UnboundLocalError rather than the ValueError the code builds without raising.", "quantifier": "all model parameters, step lengths, observation grids, numbers of paths, path values, strikes, spots, expiries and option signs meeting the stated positivity conditions", "why_tests_cant": "A test can only simulate finitely many paths and compare with a tolerance; the law of each step, the conditional-price identity and the change of measure are statements for every path and every parameter value.", "anchors": ["pyfeng/sabr_mc.py:SabrMcABC.vol_step", "pyfeng/sabr_mc.py:SabrMcABC.price", "pyfeng/sabr_mc.py:SabrMcABC.cond_spot_sigma", "pyfeng/sabr_mc.py:SabrMcTimeDisc.cond_states_step", "pyfeng/sabr_mc.py:SabrMcTimeDisc.vol_paths", "pyfeng/sabr_mc.py:SabrMcTimeDisc.mass_zero"]}
{"id": "C124", "title": "Exact SABR simulation (Cai et al.): chi-squared series, CEV tail and inverse-transform draw", "statement": "chi2_cdf_appr(x, sigma, l) stops for all arguments with x, l \u2264 500 and returns a value never above, and at most 1e-7 below, the noncentral chi-squared distribution function; with VT the integrated variance, 1 - central_chi2_cdf is the CEV mass at zero and sabr_chi2_cdf(u) is within 1e-7 of the CEV probability of finishing above u; simu_ST, with any root finder whose residual is at most tol, draws a terminal price whose distribution function agrees with the CEV law (mass at zero included) to within tol + 1e-7 at every level.", "quantifier": "all degrees of freedom, arguments and noncentralities up to 500, all beta < 1, variances, spots, levels and root finders", "why_tests_cant": "The loop's stopping rule and truncation error involve an unbounded series, and the law of a simulated price is not observable from finitely many draws.", "anchors": ["pyfeng/sabr_mc.py:SabrMcCai2017Exact.chi2_cdf_appr", "pyfeng/sabr_mc.py:SabrMcCai2017Exact.sabr_chi2_cdf", "pyfeng/sabr_mc.py:SabrMcCai2017Exact.central_chi2_cdf", "pyfeng/sabr_mc.py:SabrMcCai2017Exact.C0_func", "pyfeng/sabr_mc.py:SabrMcCai2017Exact.simu_ST"]}
{"id": "C125", "title": "Exact SABR simulation (Cai et al.): transform of the inverse average variance, Euler inversion and draw", "statement": "The Euler weights comb_coef are probabilities; inv_laplace applied to the transform of the distribution function of any law on the positive half-line returns that distribution function up to exp(-m_inv)/(1-exp(-m_inv)) plus the damped tail beyond n_euler; cond_invavgvar_mgf at real arguments is the closed form with the hyperbolic distance, is 1 at zero, strictly decreasing and in (0,1), and times the heat kernel solves the forward equation of the joint law of volatility and inverse average variance with the correct boundary values; draw_cond_avgvar and cond_states_step draw from the inverted law up to root-finding tolerance plus inversion error.", "quantifier": "all laws on the positive half-line with continuous distribution function, all inversion parameters, levels, volatility ratios, vov and time steps, all root finders with bounded residual", "why_tests_cant": "The inversion error bound is uniform over laws and levels, and the law of a simulated variable is not observable from finitely many draws.", "anchors": ["pyfeng/sabr_mc.py:SabrMcCai2017Exact.comb_coef", "pyfeng/sabr_mc.py:SabrMcCai2017Exact.inv_laplace", "pyfeng/sabr_mc.py:SabrMcCai2017Exact.cond_invavgvar_mgf", "pyfeng/sabr_mc.py:SabrMcCai2017Exact.draw_cond_avgvar", "pyfeng/sabr_mc.py:SabrMcCai2017Exact.cond_states_step"]}
{"id": "C126", "title": "Rough Heston transform, method 1: fractional Adams scheme", "statement": "The predictor and corrector weights of the rough Heston solver are the exact fractional integrals of the piecewise-constant and piecewise-linear interpolants on the grid; the transform is 1 at u=0 and u=1 and conjugate-symmetric for all parameters and expiries. Findings: the loop evaluates the Riccati right-hand side at the previous grid value, so it is not the fractional Adams scheme; for texp < 0.01 the transform is identically 1; the exponent diverges as texp decreases to a multiple of the internal step; the caller's array is overwritten.", "quantifier": "all parameters, roughness exponents, step sizes, grid indices, grid functions, complex arguments and expiries", "why_tests_cant": "Exactness of the weights is over all grid functions and indices; normalisation is over all parameters; the divergence is a limit.", "anchors": ["pyfeng/heston_rough.py:RoughHestonABC.a_j_kp1", "pyfeng/heston_rough.py:RoughHestonABC.b_j_kp1", "pyfeng/heston_rough.py:RoughHestonABC.F", "pyfeng/heston_rough.py:RoughHestonABC.Ih", "pyfeng/heston_rough.py:RoughHestonABC.logp_mgf_adam"]}
{"id": "C127", "title": "Rough Heston transform, method 2: fast hybrid scheme", "statement": "The coefficients returned by a(r_0) do not depend on r_0, their series converges near zero and solves psi = I^alpha(nu + mu psi + lambda s^alpha psi^2); I_1_FPS and I_2_FPS are exactly the integral and the fractional integral of order 1-alpha of the truncated series; for texp <= 0.198 the transform is 1 at u=0 and u=1; phi_n is the exact fractional rectangle rule of the Riccati right-hand side. Findings: because the quadratic convolution is off by one index the series never solves the fractional Riccati equation (lambda, nu nonzero); for texp > 0.198 a reused loop variable makes logp_mgf raise IndexError (250 or fewer arguments) or return the arguments unchanged; I_2_PED applies the power twice and overstates the fractional integral.", "quantifier": "all parameters, complex coefficients, truncation orders, expiries, grid sizes, argument arrays of any length", "why_tests_cant": "Convergence and the integral equation concern an infinite series on an interval; the array behaviour is for arrays of every length and content.", "anchors": ["pyfeng/heston_rough.py:RoughHestonABC.a", "pyfeng/heston_rough.py:RoughHestonABC.I_1_FPS", "pyfeng/heston_rough.py:RoughHestonABC.I_2_FPS", "pyfeng/heston_rough.py:RoughHestonABC.phi_n", "pyfeng/heston_rough.py:RoughHestonABC.I_2_PED", "pyfeng/heston_rough.py:RoughHestonABC.logp_mgf_hybrid"]}
{"id": "C128", "title": "Rough Heston Monte Carlo: variance paths and conditional prices", "statement": "ModifiedEM and Fast produce, for every sequence of draws, the explicit Volterra scheme with the exact drift integrals and exact per-step standard deviations of the fractional kernel (Fast: exact in the current step, sum of exponentials before it; its drift error is bounded by the kernel error, its noise is overstated). The correlated normals have correlation rho. With zero rates priceCMC averages conditional expected payoffs. Findings: variance can become negative, price drifts by intr per step and stops one step early, priceCMC with carry satisfies parity with the wrong forward and always raises for a scalar strike.", "quantifier": "all parameters with alpha < 1/2, all numbers of steps, all sequences of normal draws, all kernel nodes and weights", "why_tests_cant": "The identity of each simulated path with the Volterra scheme ranges over all draws and step counts; tests compare a few averages.", "anchors": ["pyfeng/heston_rough_mc.py: RoughHestonMcMaWu2022.ModifiedEM, Fast, H_N, J_N, term_1, term_2, random_normals, price, cond_spot_sigma, priceCMC"]}
{"id": "C129", "title": "Rough Heston Monte Carlo: sum-of-exponentials kernel", "statement": "The nodes and weights returned for the kernel t^-alpha approximate it up to the errors of scipy's rules on their intervals plus the truncated tail beyond 2^(N+1): the dyadic intervals fit together. The call raises exactly when N < -1. Finding: with the default scale the truncated tail at t = dt tends to infinity as the grid is refined, so the documented tolerance is lost.", "quantifier": "all expiries, steps, tolerances, scales, all quadrature rules, all t > 0", "why_tests_cant": "The error bound ranges over all t and all grids; the loss of the tolerance is a limit.", "anchors": ["pyfeng/heston_rough_mc.py: RoughHestonMcMaWu2022.get_num_nodes, GaussJacobiQuad, GaussLegendreQuad, get_nodes_weights"]}
{"id": "C130", "title": "Rough Heston Monte Carlo: multi-factor approximation", "statement": "The loadings and rates of the factors are the masses and barycentres of the measure representing the fractional kernel on consecutive intervals; the resulting kernel lies strictly between 0 and t^-alpha/Gamma(1-alpha); every factor's explicit Euler multiplier has modulus below one; the simulated variance is the Euler scheme of the factor model, for every sequence of draws.", "quantifier": "all parameters with 0 < alpha < 1 (stability: alpha < 1/2), all step counts, all draws", "why_tests_cant": "Holds for every number of factors and steps and every draw.", "anchors": ["pyfeng/heston_rough_mc.py: RoughHestonMcMaWu2022.eta_j, c_j_gamma_j, V_tJ, MultifactorApprox"]}
{"id": "C131", "title": "Gram-Charlier coefficients match the moments of the law", "statement": "StatFuncs.gramcharA_coefs, called with the first m cumulants of a random variable Y, returns sigma = sqrt(Var Y) and the Hermite coefficients E[He_n((Y-EY)/sigma)]/n!, so that the truncated Gram-Charlier density has the same first m moments as the standardised Y; it rejects fewer than two cumulants and a non-positive variance. With an explicit sigma other than the standard deviation the second coefficient is wrong.", "quantifier": "every random variable with finite exponential moments near zero and positive variance, every number m >= 2 of cumulants, every polynomial of degree at most m", "why_tests_cant": "The claim is about every law and every order; a test can only compare a few coefficients for a few laws.", "anchors": ["pyfeng/util.py:StatFuncs.gramcharA_coefs"]}
{"id": "C132", "title": "Implied volatility from the mass at zero", "statement": "The volatility of vol_from_mass_zero is that of a law with the given probability at zero: the Black-Scholes put with this volatility, divided by the discounted strike, is mass + o(1/log(F/K)) as the strike tends to zero. price_from_mass_zero is the price with this volatility when there are no rates; with a positive interest rate it is undiscounted.", "quantifier": "every mass in (0,1), every positive spot and expiry, all rates, all strikes in the limit to zero", "why_tests_cant": "It is an asymptotic statement over all small strikes; the coefficients of an expansion cannot be settled by evaluating it.", "anchors": ["pyfeng/opt_abc.py:MassZeroABC.vol_from_mass_zero", "pyfeng/opt_abc.py:MassZeroABC.price_from_mass_zero"]}
{"id": "C133", "title": "SABR volatility approximations reproduce the exact short-maturity smile", "statement": "To leading order in the expiry, the equivalent volatility of every SABR approximation class is the one under which the strike is as far from the forward in the base model as in the SABR model. The two Choi-Wu classes and the normal SABR class return it for every strike (exactly away from the money, with relative error below 1e-11 close to it); SabrLorig2017 at expiry zero reproduces it up to fourth order in the log-moneyness; SabrHagan2002 up to third order, with third-order error -rho*vov*(1-beta)^2*k^3/48.", "quantifier": "all sigma, vov, rho in (-1,1), beta, strikes and forwards (log-moneyness near zero for Lorig and Hagan)", "why_tests_cant": "The statement compares closed formulas with an integral for a continuum of parameters, and asymptotic orders cannot be read off from sample values.", "anchors": ["pyfeng/sabr.py: SabrABC._hh, SabrChoiWu2021H.vol_for_price, SabrChoiWu2021P.vol_for_price, SabrNormVolApprox.vol_for_price, SabrLorig2017.vol_for_price, SabrHagan2002.vol_for_price"]}
{"id": "C134", "title": "First-order term of SabrChoiWu2021P along the geodesic", "statement": "Away from beta=1, the correlation part of the first-order volatility term of SabrChoiWu2021P is the integral along the geodesic from the forward to the strike, in each of its closed-form branches. The branch used for |1-beta| < 0.001 is not the limit of the others: it omits the factor alpha/vov, so for beta = 1 the volatility jumps at the money by about rho*vov*(vov-sigma)*T/4 relative to the (correct) at-the-money value.", "quantifier": "all rho in (-1,1), beta, alpha, vov, strikes for which the geodesic does not reach zero; all 1e-6 <= |z| < 1e-3 for the jump", "why_tests_cant": "Equality of an integral with branchwise closed forms, and a limit beta -> 1; the unit tests compare to the same formula.", "anchors": ["pyfeng/sabr.py: SabrChoiWu2021P.vol_for_price (lines 626-690)"]}
{"id": "C135", "title": "Tabulated and root-solved inversions of transforms draw from the right law", "statement": "With tabulate_x2_z=True the Glasserman-Kim simulation draws X2 and Z by linear interpolation of a table of their distribution function computed from x2_avgvar_mgf on the imaginary axis. The complex transform is the exact transform of the infinite gamma series (no branch-cut jump); every tabulated value is P(X2 <= x_i) up to the probability that X2 exceeds mu_e (at most 1/143) plus an explicit bound on the omitted terms; the last value is exactly 1 so no uniform number falls outside the table; and the interpolated draw has exactly the tabulated distribution function at every tabulated point. The 3/2 model's inverse-transform draw solves an equation whose root is the u-quantile up to the same two errors.", "quantifier": "all models with vov <> 0, mr > 0, all steps dt > 0, all shapes > 0, every probability space carrying the gamma variables, every tabulated point, every number of poles in the bound; for interp1d all strictly increasing tables and all arguments; for the 3/2 root all laws on the positive reals", "why_tests_cant": "An identity between an infinite series of random variables and a branch-dependent complex formula, and an error bound for a truncated Fourier series, quantified over all parameters; simulations only sample it.", "anchors": ["pyfeng/heston_mc.py: HestonMcGlassermanKim2011.x2_avgvar_mgf, x2_cdf_points_aw, x2_icdf_interp, cond_states_step", "pyfeng/sv32_mc.py: Sv32McBaldeaux2012Exact.draw_cond_avgvar, cond_states_step_invlap"]}
{"id": "C136", "title": "NsvhGaussQuad integrates the exact law that NsvhMc samples", "statement": "For sigma, vov > 0, |rho| < 1 and any lambda, strike and expiry, the mean option payoff of the price simulated by NsvhMc.mc_vol_price equals exactly the double integral that NsvhGaussQuad.price discretizes (critical radius v_0, circle radius h, arccos term, exponential factor), and the probability of ending above / at or below the strike equals the one that NsvhGaussQuad.cdf discretizes. Hence the returned price and cdf equal the discounted mean payoff and the probability plus an explicit combination of the Gauss-Hermite error on the exact conditional payoff and the Gauss-Laguerre errors at the Hermite nodes, for every pair of rules.", "quantifier": "all model parameters with sigma, vov > 0 and |rho| < 1, all lambda, strikes, spots, expiries, both option types, all lists of quadrature nodes and weights", "why_tests_cant": "a test compares a few prices at one quadrature order with a loose tolerance; it cannot separate quadrature error from a wrong integrand", "anchors": ["pyfeng/nsvh.py: NsvhGaussQuad.price, NsvhGaussQuad.cdf, NsvhMc.mc_vol_price"]}
{"id": "C137", "title": "Calibration of the SABR volatility approximations: impvol, calibrate3, vol_smile", "statement": "When SabrHagan2002.impvol returns sigma, the model with that sigma has the Black-Scholes implied volatility of the given price up to the root finder's tolerance, and the object changes only with setval and only in sigma. The bracket is [0, 10] in the units of sigma: a price whose volatility is above the one at sigma = 10 raises at every strike, and at the money (rho >= 0) impvol succeeds exactly when the explaining sigma is at most 10. SabrNormVolApprox.impvol raises for every input (division by sigma = 0 at the start of the search). calibrate3 returns sigma, vov > 0 and |rho| < 1 whatever the solver does, its misfit is exactly the solver's residual, and a model's own smile is solved by its own parameters. vol_smile under the base model's name is the formula itself, which is the unique implied volatility of the model's own prices.", "quantifier": "all parameters, prices, strikes, spots, expiries, all root finders meeting the brentq contract, all solvers", "why_tests_cant": "tests check one or two calibrations that succeed; the failing unit ranges and the solver-independence of the claims are not reachable by examples", "anchors": ["pyfeng/sabr.py: SabrVolApproxABC.impvol, SabrVolApproxABC.vol_smile, SabrHagan2002.calibrate3, SabrNormVolApprox.vol_for_price"]}
{"id": "C138", "title": "CEV Monte Carlo is unbiased for any number of steps and paths", "statement": "For beta < 1 the expectation of every price returned by CevMc.price, and of CevMc.mass_zero, equals the price / mass_zero of the analytic Cev model (spot meant as a spot price), for every number of paths, every time step dt (None included), every rates, strike and call/put flag; more generally the sample average of any measurable function of the terminal prices has the same expectation, the integral against the analytic terminal law. Simulated prices are never negative and zero is absorbing; a scalar strike raises, and beta > 1 raises.", "quantifier": "all CEV parameters with beta < 1, sigma > 0, all rates, spots, expiries, strikes, payoffs, all n_path >= 1 and all grids dt; all generator outputs for the pathwise part", "why_tests_cant": "A test compares a random average at one dt with tolerance; exact unbiasedness for every number of steps is the Chapman-Kolmogorov identity of the sampled kernel, which no finite sample shows.", "anchors": ["pyfeng/cev.py CevMc.price", "pyfeng/cev.py CevMc.mass_zero", "pyfeng/cev.py CevMc.price_step", "pyfeng/sv_abc.py CondMcBsmABC.tobs"]}
{"id": "C139", "title": "Approximate smiles of the displaced Black-Scholes model", "statement": "BsmDisp.vol_smile with model 'norm-approx' / 'bsm-approx' returns the volatilities it promises: the strike dependence agrees with the exact short-maturity Bachelier / Black-Scholes volatility of the displaced diffusion to relative order four in the log-moneyness (for every strike, with an explicit constant), 'bsm-approx' is exactly flat at sigma when beta = 1, 'norm-approx' is exactly flat at sigma*pivot when beta = 0, and at the money 'norm-approx' is within sigma*Fd*(beta*sigma*sqrt(T))^4/576 of the Bachelier volatility reproducing the exact price at every maturity.", "quantifier": "all volatilities, displacements, pivots, rates, strikes with positive displaced value, and maturities", "why_tests_cant": "an approximation's error is a statement over a continuum of strikes, maturities and displacements; a test compares a few points with a tolerance chosen by hand", "anchors": ["pyfeng/bsm.py: BsmDisp.vol_smile, BsmDisp.disp_spot, BsmDisp.disp_strike"]}
{"id": "C140", "title": "COS truncation intervals for CGMY and Heston", "statement": "The interval on which the COS method expands the density must carry almost all of the law of the log-return: for the Heston model the default cumulant interval contains the mean strictly inside and leaves at most 1% of the mass outside, for every maturity; for the CGMY model the default interval would have to do the same for every accepted parameter set and maturity, so that the COS prices converge to the prices of the CGMY law as the number of terms grows.", "quantifier": "every accepted CGMY parameter set, every maturity, strike and number of terms; every law with exponential moments and the given four cumulants for Heston", "why_tests_cant": "The claim is about the limit in the number of cosine terms and about all maturities; a test only prices a few strikes at one maturity, where the fixed interval happens to be wide enough.", "anchors": ["pyfeng/sv_cos.py: CgmyCos._truncation_range", "pyfeng/sv_cos.py: HestonCos._truncation_range"]}
{"id": "C141", "title": "Every finite-difference time step is a Douglas ADI step of the model's pricing equation", "statement": "SabrFinDiff, HestonFinDiff and HestonCevFinDiff return the discounted forward times the bilinear interpolation at (1, v0) of the last of n_time Douglas ADI steps started at the payoff: at every interior node each step satisfies the explicit predictor and the two implicit corrector equations of the documented pricing equation (mixed term explicit, implicitness weight adi_theta), the price ends carry the payoff, the upper volatility end has zero slope, and on v = 0 SABR carries the payoff while Heston advances U_t = kappa theta U_v (or resets to the payoff under the Feller condition).", "quantifier": "all grids, implicitness weights, parameters, strikes, spots, maturities, calls and puts (for mean-reverting variance: grids with adi_theta*mr*texp*L < N)", "why_tests_cant": "The equations must hold at every node of every grid and for every step; a price test cannot separate a wrong implicit sweep or boundary term from discretisation error.", "anchors": ["pyfeng/sv_fin_diff.py: SvFinDiffABC._step, _solve_S_implicit, _solve_v_implicit, _solve_one, price", "pyfeng/sv_fin_diff.py: SabrFinDiff, HestonFinDiff, HestonCevFinDiff"]}
{"id": "C142", "title": "scipy_stats, draw, from_gig and mvsk of the distribution helpers describe one and the same law", "statement": "For every gamma, delta > 0 (shape, rate > 0; mu, lam > 0): the frozen scipy.stats object returned by DistGamma / DistInvGauss / DistGig / DistGh has exactly the density documented for that class; DistGamma.draw and DistInvGauss.draw sample that law; the inverse Gaussian object made by from_gig(gamma, delta) has the GIG law with p=-1/2; DistGh.scipy_stats is the density of mu + beta W + sqrt(W) Z with W from mixer() and Z an independent standard normal, and mvsk() of DistGig and DistGh are the mean, (scaled) variance, skewness and excess kurtosis of these laws; scipy's domain condition |b| < a always holds.", "quantifier": "all real parameters in the documented domain; all points x", "why_tests_cant": "Densities at every point and moments of continuous laws over a continuum of parameters; a test compares a few numbers up to quadrature error.", "anchors": ["pyfeng/disthelper.py: DistGamma.scipy_stats, DistGamma.draw", "pyfeng/disthelper.py: DistInvGauss.scipy_stats, DistInvGauss.draw, DistInvGauss.from_gig", "pyfeng/disthelper.py: DistGig.scipy_stats, DistGig.mvsk", "pyfeng/disthelper.py: DistGh.scipy_stats, DistGh.mixer, DistGh.mvsk"]}
{"id": "C143", "title": "Numeric cumulants from the moment generating function (logp_cum4_numeric, cond_avgvar_mv_numeric): accuracy, and no result at zero skewness", "statement": "If logp_cum4_numeric(texp) returns four numbers and the scales chosen by the algorithm lie in a disc where the model's moment generating function exists and avoids the cut of the logarithm, then the n-th number is the n-th cumulant of log(S_T/F) (the first two being its mean and variance) up to n! B/|alpha|^n * 1e-11/(1-1e-11), B bounding |log M| on the disc; cond_avgvar_mv_numeric likewise returns the conditional mean and scaled variance. But whenever the cumulant generating function is a drift plus an even function on the circle used (a law symmetric about its mean), the computed third cumulant is exactly 0 and the routine gives no result (division by zero in the next scale): for Bsm this happens for every sigma, T with 1e-5 <= sigma^2 T <= 3.", "quantifier": "all laws with exponential moments, all transforms, all model parameters in the stated range", "why_tests_cant": "Accuracy is a statement about all laws and all scales picked at run time; the failure at zero skewness is hidden by rounding noise in tests on skewed models.", "anchors": ["pyfeng/opt_abc.py: OptABC.logp_cum4_numeric", "pyfeng/mgf2mom.py: Mgf2Mom.cumulants, Mgf2Mom._run, Mgf2Mom.moment_raw", "pyfeng/heston_mc.py: HestonMcGlassermanKim2011.cond_avgvar_mv_numeric", "pyfeng/sv32_mc.py: Sv32McChoiKwok2023Ig.cond_avgvar_mv_numeric", "pyfeng/bsm.py: Bsm.logp_mgf"]}
{"id": "C144", "title": "Time averages of simulated volatility paths (OusvMcTimeDisc.cond_states_full, SabrMcTimeDisc.cond_spot_sigma_volpath)", "statement": "On every path, for every time step and either parity of the number of dates (and both odd-count rules of scipy.simps), the returned average volatility lies between the extremes of the path, the average variance between the extremes of its square and at least the square of the average volatility; the rule is exact on cubics in time for an even number of steps, and on affine paths always. As the time step goes to zero, the joint law of (final volatility, average variance, average volatility) of cond_states_full converges to that of (sigma_T, (1/T) int sigma^2, (1/T) int sigma) of the OU volatility equation, and on every Brownian path the conditional spot and volatility of cond_spot_sigma_volpath converge to those of the exact integrated variance, with any importance-sampling shift mu.", "quantifier": "all paths, time steps, expiries, parameters, both library rules, all bounded continuous functions of the states", "why_tests_cant": "Convergence in law and bounds on every path concern all random streams and all step sizes.", "anchors": ["pyfeng/ousv.py: OusvMcTimeDisc.cond_states_full, OusvMcTimeDisc.vol_paths", "pyfeng/sabr_mc.py: SabrMcTimeDisc.cond_spot_sigma_volpath, SabrMcTimeDisc.vol_paths", "pyfeng/sv_abc.py: CondMcBsmABC.tobs"]}
{"id": "C145", "title": "Normal SABR: the analytic price is the elliptic-integral price with H replaced by its second-order expansion (hh_xi_approx), corrected by quadrature", "statement": "For every correlation inside (-1,1), vov > 0, strike, expiry: (i) hh_xi_approx(u) - hh_xi(u) = o((u-u0)^2) as u decreases to the lower limit u0; (ii) without the correction SabrNormAnalytic.price is exactly the integral formula of SabrNormEllipeInt with hh_xi replaced by hh_xi_approx over [u0, infinity); (iii) with the correction it is the exact integral formula with hh_xi itself plus a fixed factor times the error of the generalised Gauss-Laguerre rule (index 3/2) on the remainder; (iv) SabrNormEllipeInt.price with an exact integrator differs only by cutting the integral at sqrt(u0^2+73), which lowers the price.", "quantifier": "all rho in (-1,1), vov > 0, sigma, strikes, spots, expiries, calls and puts, all quadrature rules with nonnegative nodes", "why_tests_cant": "Identities between two different integral representations and an expansion order for all parameters cannot be settled by sample prices.", "anchors": ["pyfeng/sabr_int.py: SabrNormAnalytic.price, SabrNormEllipeInt.hh_xi, SabrNormEllipeInt.hh_xi_approx, SabrNormEllipeInt.price"]}
{"id": "C146", "title": "Configuration histories of the simulation and grid objects", "statement": "After any history of configure/simulate/price calls every numerical setting of an object is the last value given explicitly (n_path truncated to an integer), and derived data match the settings: BsmNdMc, BsmBasketMc, CevMc, NsvhMc, GarchMcTimeDisc, HestonMcGlassermanKim2011, HestonMcChoiKwok2023PoisGe, SabrMcCai2017Exact, RoughHestonMc and the finite-difference models. configure with seed, paths and antithetic followed by simulate brings two BsmNdMc objects with arbitrary pasts into the same state; price_european only depends on the last stored simulation (a later configure, even with a new seed, does not change it), raises ValueError before one, and more paths with the same seed extend the sample. BsmBasketMc prices after a seeded configure are those of a new object; without it they continue the stream.", "quantifier": "all histories of calls (lists of any length), all settings, seeds, dates and payoffs", "why_tests_cant": "the settings after arbitrary interleavings of configure, simulate and price are unboundedly many states; tests try one or two sequences", "anchors": ["pyfeng/multiasset_mc.py: BsmNdMc.__init__, configure, simulate, price_european; BsmBasketMc.configure, price", "pyfeng/cev.py: CevMc.configure", "pyfeng/nsvh.py: NsvhMc.configure", "pyfeng/garch.py: GarchMcTimeDisc.configure", "pyfeng/heston_mc.py: HestonMcGlassermanKim2011.configure, HestonMcChoiKwok2023PoisGe.configure", "pyfeng/sabr_mc.py: SabrMcCai2017Exact.configure, _init_euler_coefs", "pyfeng/heston_rough_mc.py: RoughHestonMcABC.configure", "pyfeng/sv_fin_diff.py: SvFinDiffABC.configure"]}
{"id": "C147", "title": "Simulated Heston variance paths have the joint law of the CIR process", "statement": "vol_paths of the exact Heston Monte-Carlo schemes (HestonMcChoiKwok2023PoisTd, and HestonMcAndersen2008 with scheme 2 or 3) returns on each path the initial variance followed by values whose joint law at the observation dates is that of the CIR process: the joint Laplace transform is the exponential-affine one; the law at some dates does not depend on which other dates are requested; each marginal is the law of one exact step over the whole time to that date. Hence mean, variance and autocovariance on the path are those of the CIR process; the quadratic-exponential scheme 4, although not exact, has these three as well. Schemes above 4 are rejected. When sigma is a Python int the returned array is of integers, so the property fails there.", "quantifier": "every model with mr, theta, vov > 0, every increasing list of positive dates of any length, all weights u <= 0, every scheme number, float and int sigma", "why_tests_cant": "A test compares sample moments on one grid of dates; the joint law for every grid, and its independence of the other dates, is a statement about infinitely many grids and about distributions.", "anchors": ["pyfeng/heston_mc.py:HestonMcChoiKwok2023PoisTd.vol_paths", "pyfeng/heston_mc.py:HestonMcAndersen2008.vol_paths", "pyfeng/heston.py:CirModel.draw_pois_gamma", "pyfeng/heston.py:CirModel.draw_ncx2"]}
{"id": "C148", "title": "Trapezoidal bias of the simulated average variance (HestonMcAndersen2008)", "statement": "cond_spot_sigma of HestonMcAndersen2008 (schemes 2, 3 and 4, with or without martingale correction) averages the variance by the trapezoidal rule. The expected squared conditional volatility equals (1 - rho^2)/v0 times [the exact mean of the average variance returned by avgvar_mv, plus (v0 - theta) e], with 0 <= e <= (mr dt)^2 / 12 for steps of at most dt: the bias has the sign of v0 - theta, vanishes when the model starts at its long-run mean, and is of second order in the step. HestonMcChoiKwok2023PoisTd has no such bias: on every grid its expected squared conditional volatility is (1 - rho^2)/v0 times the exact mean of the average variance, within 7e-9 max(v0, theta) (the series used for short steps). HestonMcChoiKwok2023PoisGe and HestonMcTseWan2013 have none either, within the same tolerance: the same holds for their squared conditional volatility, and the mean of the logarithm of the conditional forward is -rho^2 T/2 times the exact mean of the average variance.", "quantifier": "every model with mr, theta, vov > 0 and |rho| <= 1, every starting variance v0 > 0, every increasing list of dates (uniform or not) of any length, schemes 2, 3 and 4, PoisTd, PoisGe (every number of gamma terms, up to 20 for short steps) and Tse-Wan, with and without correction", "why_tests_cant": "A Monte-Carlo test sees the bias only through sampling noise, on one grid; the bound for every grid and its sign are statements about expectations.", "anchors": ["pyfeng/heston_mc.py:HestonMcABC.cond_spot_sigma", "pyfeng/heston_mc.py:HestonMcAndersen2008.cond_states_step", "pyfeng/heston_mc.py:HestonMcTseWan2013.cond_states_step", "pyfeng/heston_mc.py:HestonMcChoiKwok2023PoisGe.cond_states_step", "pyfeng/heston_mc.py:HestonMcChoiKwok2023PoisTd.cond_states_step", "pyfeng/heston.py:CirModel.avg_mv"]}
