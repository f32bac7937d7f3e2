{
 "claims": [
  {
   "property": "C01",
   "status": "proved",
   "theorems": [
    "PyFENG.bsm_price_eq_expectation",
    "PyFENG.bsm_price_degenerate"
   ],
   "note": "Degenerate theorem covers sigma*sqrt(T) below eps."
  },
  {
   "property": "C02",
   "status": "proved",
   "theorems": [
    "PyFENG.bsm_put_call_parity"
   ],
   "note": ""
  },
  {
   "property": "C03",
   "status": "proved",
   "theorems": [
    "PyFENG.bsm_price_bounds"
   ],
   "note": ""
  },
  {
   "property": "C04",
   "status": "proved",
   "theorems": [
    "PyFENG.bsm_call_strictAnti_strike",
    "PyFENG.bsm_put_strictMono_strike",
    "PyFENG.bsm_strictConvex_strike"
   ],
   "note": ""
  },
  {
   "property": "C05",
   "status": "proved",
   "theorems": [
    "PyFENG.bsm_strictMono_vol",
    "PyFENG.bsm_impvol_exists_unique"
   ],
   "note": ""
  },
  {
   "property": "C06",
   "status": "proved",
   "theorems": [
    "PyFENG.bsm_impvol_reprices",
    "PyFENG.bsm_impvol_newton_converges",
    "PyFENG.bsm_impvol_terminates",
    "PyFENG.d1sigma_inverts"
   ],
   "note": "Repricing holds for every exit of the Newton loop through its tolerance test on the main branch of price_std; convergence and termination of the loop are proved for the main branch (small-vol series branch is a hypothesis of these theorems)."
  },
  {
   "property": "C07",
   "status": "proved",
   "theorems": [
    "PyFENG.forward_consistent",
    "PyFENG.bsm_price_fwd_convention",
    "PyFENG.norm_price_fwd_convention"
   ],
   "note": ""
  },
  {
   "property": "C08",
   "status": "proved",
   "theorems": [
    "PyFENG.bsm_homogeneous",
    "PyFENG.bsm_foreign_domestic"
   ],
   "note": ""
  },
  {
   "property": "C09",
   "status": "proved",
   "theorems": [
    "PyFENG.bsm_delta_correct",
    "PyFENG.bsm_gamma_correct",
    "PyFENG.bsm_vega_correct"
   ],
   "note": ""
  },
  {
   "property": "C10",
   "status": "proved",
   "theorems": [
    "PyFENG.bsm_theta_correct"
   ],
   "note": ""
  },
  {
   "property": "C100",
   "status": "partial",
   "theorems": [
    "PyFENG.Sabr.choiWuH_base_beta_jump"
   ],
   "note": "disagreement: the jump is proved"
  },
  {
   "property": "C101",
   "status": "proved",
   "theorems": [
    "PyFENG.Nsvh.nsvhMc_scalar_fails",
    "PyFENG.Nsvh.nsvhGq_scalar_fails"
   ],
   "note": "the intended claim is false: both methods raise for every scalar strike; arrays are priced elementwise"
  },
  {
   "property": "C102",
   "status": "proved",
   "theorems": [
    "PyFENG.Sabr.mix_parity_defect",
    "PyFENG.Sabr.mix_parity_corrected",
    "PyFENG.Sabr.uncorr_parity",
    "PyFENG.Sabr.uncorr_law",
    "PyFENG.Sabr.mix_mass_log",
    "PyFENG.Sabr.choi_parity_norm",
    "PyFENG.Sabr.choi_conditional_logn",
    "PyFENG.Sabr.choi_conditional_norm"
   ],
   "note": "for 0<beta<1 with correlation the forward ratios are an approximation: the parity defect is given exactly (mix_parity_defect)"
  },
  {
   "property": "C103",
   "status": "proved",
   "theorems": [
    "PyFENG.Sabr.normInt_never_constructed",
    "PyFENG.Sabr.normInt_u0_geodesic",
    "PyFENG.Sabr.normAnalytic_parity",
    "PyFENG.Sabr.normEllipe_parity",
    "PyFENG.Sabr.normInt_reflection",
    "PyFENG.Sabr.normEllipe_ge_intrinsic"
   ],
   "note": "constructibility is false of the code (always TypeError); the pricing formulas themselves satisfy the other claims"
  },
  {
   "property": "C104",
   "status": "proved",
   "theorems": [
    "PyFENG.BasketNsvh.parity",
    "PyFENG.BasketNsvh.moment_matched"
   ],
   "note": "the root search is modelled as returning a root in its bracket (exists and is unique, C62)"
  },
  {
   "property": "C105",
   "status": "partial",
   "theorems": [
    "PyFENG.Asian.jsu_parity_value",
    "PyFENG.Asian.jsu_parity_partial",
    "PyFENG.Asian.jsu_parity_fails",
    "PyFENG.Asian.jsu_parity_fails_carry",
    "PyFENG.Asian.jsu_price_correct_partial",
    "PyFENG.Asian.Linetsky.parity_fails_is_fwd",
    "PyFENG.Asian.Linetsky.no_price",
    "PyFENG.Asian.Ju.call_value",
    "PyFENG.Asian.Ju.construct_fails",
    "PyFENG.Asian.Ju.other_cp",
    "PyFENG.Asian.Ju.second_moment_defect",
    "PyFENG.Asian.Ju.second_moment_overstated"
   ],
   "note": "the code disagrees: BsmAsianJsu discounts twice and grows the mean of the average again; Linetsky never returns for nu<=-2 and mis-states the mean with is_fwd; BsmContinuousAsianJu2002 cannot be constructed; the numerical correctness of Linetsky's eigenfunction expansion and of Ju's z-coefficients is not proved"
  },
  {
   "property": "C106",
   "status": "proved",
   "theorems": [
    "PyFENG.Heston.x1star_correct",
    "PyFENG.Heston.x2star_correct",
    "PyFENG.Heston.x1star_taylor",
    "PyFENG.Heston.x2star_taylor",
    "PyFENG.Heston.x2star_negative",
    "PyFENG.Heston.draw_x1_correct",
    "PyFENG.Heston.draw_x2_correct",
    "PyFENG.Heston.draw_x123_correct",
    "PyFENG.Heston.draw_gk_correct",
    "PyFENG.Heston.step_gk_moments"
   ],
   "note": "moments exact where |mr*dt| >= 0.2 (any kk) and for kk <= 20 otherwise; the Taylor branch has proved error bounds, and is proved to return a negative variance for large kk (the code disagrees there)"
  },
  {
   "property": "C107",
   "status": "proved",
   "theorems": [
    "PyFENG.Heston.eta_mv_correct",
    "PyFENG.Heston.draw_eta_law",
    "PyFENG.Heston.cond_avgvar_mv_correct",
    "PyFENG.Heston.tse_wan_draw_correct",
    "PyFENG.Heston.step_tse_wan_moments",
    "PyFENG.Heston.bessel_conditional_law"
   ],
   "note": "Bessel functions by their power series; the drawn variable puts all tail mass beyond the table on 16 (proved, the code truncates)"
  },
  {
   "property": "C108",
   "status": "proved",
   "theorems": [
    "PyFENG.Heston.x123_series_law",
    "PyFENG.Heston.x2_avgvar_mgf_correct",
    "PyFENG.Heston.cond_avgvar_mgf_correct",
    "PyFENG.Heston.draw_x123_law",
    "PyFENG.Heston.pois_ge_avgvar_law"
   ],
   "note": "transforms at real arguments, mr > 0; whole-draw limit for arguments s <= 0 and mr*dt >= 0.2 (outside the Taylor window)"
  },
  {
   "property": "C109",
   "status": "partial",
   "theorems": [
    "PyFENG.Heston.pois_ge_logp_law"
   ],
   "note": "proved for rho <= 0, transform arguments 0 <= p <= 1 and mr*dt >= 0.2; missing: positive correlation and complex arguments"
  },
  {
   "property": "C11",
   "status": "partial",
   "theorems": [
    "PyFENG.bsm_d2_var_law",
    "PyFENG.bsm_d3_var_law",
    "PyFENG.bsm_d2_d3_var_correct_partial",
    "PyFENG.bsm_d2_var_wrong"
   ],
   "note": "The property is FALSE of the code when fwd != spot: lines 199/226 use spot where the forward is needed. The law theorems give the exact relation (derivative times spot/fwd), the partial theorem correctness when fwd=spot, the _wrong theorem a concrete violation."
  },
  {
   "property": "C110",
   "status": "proved",
   "theorems": [
    "PyFENG.Ousv.avg_correct",
    "PyFENG.Ousv.vol_step_exact",
    "PyFENG.Ousv.vol_paths_law"
   ],
   "note": "mr != 0 (mr > 0 for vol_paths, as the code needs); numpy expressions over the reals"
  },
  {
   "property": "C111",
   "status": "proved",
   "theorems": [
    "PyFENG.Ousv.cond_avgvolvar_correct"
   ],
   "note": "mr != 0, texp > 0"
  },
  {
   "property": "C112",
   "status": "proved",
   "theorems": [
    "PyFENG.Ousv.a2sum_correct",
    "PyFENG.Ousv.a2overn2sum_correct",
    "PyFENG.Ousv.a4sum_correct",
    "PyFENG.Ousv.a6sum_correct",
    "PyFENG.Ousv.a6n2sum_correct",
    "PyFENG.Ousv.unexplained_ratio"
   ],
   "note": "mr*texp != 0"
  },
  {
   "property": "C113",
   "status": "proved",
   "theorems": [
    "PyFENG.Ousv.kl_step_eq_path",
    "PyFENG.Ousv.kl_path_law"
   ],
   "note": "mr != 0, texp > 0; the sine path with given variates, and its convergence in law (finite-dimensional characteristic functions)"
  },
  {
   "property": "C114",
   "status": "partial",
   "theorems": [
    "PyFENG.Ousv.kl_step_moments",
    "PyFENG.Ousv.kl_avgvol_law",
    "PyFENG.Ousv.step_unbiased",
    "PyFENG.Ousv.ousv_errors",
    "PyFENG.Ousv.step_td_trapezoid"
   ],
   "note": "mr != 0; the code fails for vol_path_sin without variates (always ValueError) and for other time-discretisation schemes (UnboundLocalError), proved in ousv_errors"
  },
  {
   "property": "C115",
   "status": "partial",
   "theorems": [
    "PyFENG.Ousv.strike_var_swap_correct",
    "PyFENG.Ousv.swap_ignores_divr"
   ],
   "note": "mr != 0; proved with the drift intr - sigma^2/2; the code ignores divr (swap_ignores_divr), so the documented claim holds for zero dividend only; the first-order expansion itself is taken as the specification"
  },
  {
   "property": "C116",
   "status": "proved",
   "theorems": [
    "PyFENG.Ousv.logp_mgf_backward",
    "PyFENG.Ousv.logp_mgf_zero",
    "PyFENG.Ousv.logp_mgf_one",
    "PyFENG.Ousv.sz_sq",
    "PyFENG.Ousv.sz_real",
    "PyFENG.Ousv.sz_integrands",
    "PyFENG.Ousv.sz_parity"
   ],
   "note": "arguments in the strip 0 <= Re u <= 1 with mr > rho vov Re u and mr >= rho vov/2; the model's expectation is characterised by its backward equation"
  },
  {
   "property": "C117",
   "status": "partial",
   "theorems": [
    "PyFENG.Ousv.cond_spot_sigma_correct",
    "PyFENG.Ousv.cond_loop_sums",
    "PyFENG.Ousv.cond_log_return_var_correct",
    "PyFENG.Ousv.log_returns_aggregate",
    "PyFENG.Ousv.ballroma_ignores_is_fwd",
    "PyFENG.Ousv.cond_spot_sigma_follows",
    "PyFENG.Ousv.return_var_realized_correct"
   ],
   "note": "proved when the average variance is at least the code's floor 1e-64; the is_fwd clause is false of the code (ballroma_ignores_is_fwd)"
  },
  {
   "property": "C118",
   "status": "proved",
   "theorems": [
    "PyFENG.Sv32.cir_reciprocal",
    "PyFENG.Sv32.hyp1f1_partial_sum",
    "PyFENG.Sv32.hyp1f1_error",
    "PyFENG.Sv32.hyp1f1_converges",
    "PyFENG.Sv32.logp_mgf_unclipped",
    "PyFENG.Sv32.logp_mgf_converges",
    "PyFENG.Sv32.logp_mgf_backward",
    "PyFENG.Sv32.logp_mgf_zero",
    "PyFENG.Sv32.logp_mgf_one",
    "PyFENG.Sv32.logp_mgf_one_strict",
    "PyFENG.Sv32.logp_mgf_real_bounds"
   ],
   "note": "scipy's loggamma is any branch of log Gamma on the right half plane; the backward equation is for the full series with the exponent inside the clipping range (logp_mgf_unclipped, logp_mgf_converges connect it to the code's value)"
  },
  {
   "property": "C119",
   "status": "partial",
   "theorems": [
    "PyFENG.Sv32.cond_spot_sigma_correct",
    "PyFENG.Sv32.cond_loop_sums",
    "PyFENG.Sv32.step_euler_correct",
    "PyFENG.Sv32.step_exact_law",
    "PyFENG.Sv32.step_invalid",
    "PyFENG.Sv32.draw_from_mv_correct",
    "PyFENG.Sv32.step_ig_moments",
    "PyFENG.Sv32.step_ig_invalid",
    "PyFENG.Sv32.cond_spot_sigma_follows"
   ],
   "note": "Paths are continuous paths with a pathwise (F\u00f6llmer) quadratic variation; such paths are shown to exist from Brownian motion. Fourier inversion of the Laplace transform (Baldeaux exact engine) is not modelled."
  },
  {
   "property": "C12",
   "status": "proved",
   "theorems": [
    "PyFENG.bsm_cdf_eq_probability",
    "PyFENG.bsm_cdf_eq_strike_deriv",
    "PyFENG.bsm_cdf_complement"
   ],
   "note": ""
  },
  {
   "property": "C120",
   "status": "partial",
   "theorems": [
    "PyFENG.Sv32.iv_complex_correct",
    "PyFENG.Sv32.iv_d12_truncated",
    "PyFENG.Sv32.iv_d12_limit",
    "PyFENG.Sv32.cond_avgvar_mv_correct",
    "PyFENG.Sv32.cond_avgvar_mv_eta_correct",
    "PyFENG.Sv32.laplace_eta_mixture",
    "PyFENG.Sv32.laplace_feynman_kac",
    "PyFENG.Cir.draw_ncx2_density",
    "PyFENG.Sv32.laplace_initial"
   ],
   "note": "Real Laplace arguments for the Feynman-Kac equation, with the initial condition as the pointwise limit t \u2192 0 of the conditional transform; uniqueness of the solution and the Fourier inversion are not proved."
  },
  {
   "property": "C121",
   "status": "partial",
   "theorems": [
    "PyFENG.GarchDiff.avgvar_mv_correct",
    "PyFENG.GarchDiff.price_law",
    "PyFENG.GarchDiff.price_taylor_partial",
    "PyFENG.GarchDiff.price_ignores_is_fwd",
    "PyFENG.GarchDiff.price_order"
   ],
   "note": "The moments are proved in full. The Taylor claim holds for equal rates and spot quotes only (the code is wrong otherwise). The size of the Taylor remainder is not claimed."
  },
  {
   "property": "C122",
   "status": "partial",
   "theorems": [
    "PyFENG.GarchDiff.path_of_solution",
    "PyFENG.GarchDiff.cond_spot_sigma_correct",
    "PyFENG.GarchDiff.cond_loop_sums",
    "PyFENG.GarchDiff.cond_spot_not_finite",
    "PyFENG.GarchDiff.step_euler_correct",
    "PyFENG.GarchDiff.step_log_correct",
    "PyFENG.GarchDiff.step_invalid",
    "PyFENG.GarchDiff.euler_not_finite",
    "PyFENG.GarchDiff.cond_spot_sigma_follows"
   ],
   "note": "Discretisation error of the schemes is not bounded."
  },
  {
   "property": "C123",
   "status": "partial",
   "theorems": [
    "PyFENG.Sabr.vol_step_law",
    "PyFENG.Sabr.mc_result_correct",
    "PyFENG.Sabr.mc_loop_sums",
    "PyFENG.Sabr.mc_loop_exact",
    "PyFENG.Sabr.step_trapez_correct",
    "PyFENG.Sabr.step_trapez_bias",
    "PyFENG.Sabr.step_chen_correct",
    "PyFENG.Sabr.step_invalid",
    "PyFENG.Sabr.mc_price_logn",
    "PyFENG.Sabr.mc_price_norm",
    "PyFENG.Sabr.mc_price_cev",
    "PyFENG.Sabr.mc_parity_defect",
    "PyFENG.Sabr.mc_parity_corrected",
    "PyFENG.Sabr.draw_log_return_correct",
    "PyFENG.Sabr.vol_paths_measure_change",
    "PyFENG.Sabr.volpath_logn",
    "PyFENG.Sabr.volpath_norm_lacks_one",
    "PyFENG.Sabr.mc_mass_correct",
    "PyFENG.Sabr.mc_mass_log",
    "PyFENG.Sabr.cond_spot_sigma_follows"
   ],
   "note": "The bias of the trapezoidal step average is bounded for one step; the discretisation error of a whole path is not. For 0<beta<1 with rho\u22600 the conditional spot is the method's own approximation and only its code is modelled. The small vov\u00b2dt<0.01 expansion branches of the conditional average-variance moments are excluded. cond_spot_sigma_volpath for beta=0 lacks the leading one (proved disagreement); an invalid scheme raises UnboundLocalError (proved disagreement)."
  },
  {
   "property": "C124",
   "status": "partial",
   "theorems": [
    "PyFENG.Sabr.chi2_cdf_appr_correct",
    "PyFENG.Sabr.sabr_chi2_cdf_correct",
    "PyFENG.Sabr.simu_ST_law",
    "PyFENG.Sabr.simu_ST_solvable"
   ],
   "note": "Missing: the accuracy of the Penev-Raykov branch used when an argument exceeds 500 (modelled verbatim, no error bound). The root finder is a parameter; simu_ST_solvable shows the hypothesis can be met (the truncated series cannot be solved exactly for uniforms just above the mass at zero)."
  },
  {
   "property": "C125",
   "status": "partial",
   "theorems": [
    "PyFENG.Sabr.comb_coef_weights",
    "PyFENG.Sabr.inv_laplace_error",
    "PyFENG.Sabr.cond_invavgvar_mgf_real",
    "PyFENG.Sabr.cond_invavgvar_mgf_props",
    "PyFENG.Sabr.joint_kernel_pde",
    "PyFENG.Sabr.draw_cond_avgvar_law",
    "PyFENG.Sabr.step_cai_law"
   ],
   "note": "Missing: that cond_invavgvar_mgf is the conditional expectation of exp(u / average variance) under the SABR volatility (the Matsumoto-Yor formula); it is characterised by the forward equation and its boundary values instead. brentq is a parameter with a residual bound."
  },
  {
   "property": "C126",
   "status": "partial",
   "theorems": [
    "PyFENG.RoughHeston.predictor_weights_exact",
    "PyFENG.RoughHeston.corrector_weights_exact",
    "PyFENG.RoughHeston.adam_recursion",
    "PyFENG.RoughHeston.adam_not_adams",
    "PyFENG.RoughHeston.adam_mgf_one",
    "PyFENG.RoughHeston.adam_mgf_conj",
    "PyFENG.RoughHeston.adam_short_expiry",
    "PyFENG.RoughHeston.adam_overwrites",
    "PyFENG.RoughHeston.adam_grid_blowup",
    "PyFENG.RoughHeston.adam_error",
    "PyFENG.RoughHeston.adam_converges",
    "PyFENG.RoughHeston.adam_mgf_converges",
    "PyFENG.RoughHeston.riccati_exists",
    "PyFENG.RoughHeston.riccati_unique"
   ],
   "note": "adam_error, adam_converges and adam_mgf_converges: as the number of steps up to the expiry grows, the scheme and the mgf converge to the (unique, locally existing) solution of the fractional Riccati equation on every interval where it exists. Missing: the characteristic-function theorem of El Euch and Rosenbaum (that this solution gives the mgf of the log price); the code's fixed step 1/100 is a parameter in the convergence theorems. int(s//delta) is taken in exact arithmetic."
  },
  {
   "property": "C127",
   "status": "partial",
   "theorems": [
    "PyFENG.RoughHeston.fps_solves",
    "PyFENG.RoughHeston.fps_not_riccati",
    "PyFENG.RoughHeston.fps_integrals",
    "PyFENG.RoughHeston.hybrid_short",
    "PyFENG.RoughHeston.hybrid_long",
    "PyFENG.RoughHeston.phi_n_recursion",
    "PyFENG.RoughHeston.i2_ped_overstates",
    "PyFENG.RoughHeston.phi_n_error",
    "PyFENG.RoughHeston.phi_n_converges",
    "PyFENG.RoughHeston.quad_riccati_iff"
   ],
   "note": "phi_n_error and phi_n_converges: the Euler recursion converges to the Riccati solution, whatever the finitely many starting coefficients. Missing: the characteristic-function theorem of El Euch and Rosenbaum; I_1_PED is modelled, but its value is never returned (see hybrid_long)."
  },
  {
   "property": "C128",
   "status": "partial",
   "theorems": [
    "PyFENG.RoughHeston.term1_exact",
    "PyFENG.RoughHeston.term2_exact",
    "PyFENG.RoughHeston.modifiedEM_scheme",
    "PyFENG.RoughHeston.fast_scheme",
    "PyFENG.RoughHeston.fast_drift_error",
    "PyFENG.RoughHeston.fast_noise_overstated",
    "PyFENG.RoughHeston.fast_noise_strict",
    "PyFENG.RoughHeston.first_step_agree",
    "PyFENG.RoughHeston.variance_goes_negative",
    "PyFENG.RoughHeston.corrNormals_law",
    "PyFENG.RoughHeston.logPath_drift",
    "PyFENG.RoughHeston.mcPrice_short",
    "PyFENG.RoughHeston.priceCMC_zero_rates",
    "PyFENG.RoughHeston.priceCMC_parity",
    "PyFENG.RoughHeston.priceCMC_scalar"
   ],
   "note": "Convergence of the schemes to the rough Heston law is not proved; the joint law of the noise terms across times is not that of the stochastic integrals (only each step's variance is exact). Findings: no positivity of the variance; intr instead of intr*dt and n_ts-1 steps in price; extra exp(rT) and carry in priceCMC; scalar strike raises; antithetic ignored."
  },
  {
   "property": "C129",
   "status": "partial",
   "theorems": [
    "PyFENG.RoughHeston.nodes_assertion",
    "PyFENG.RoughHeston.gaussJacobi_error",
    "PyFENG.RoughHeston.gaussLegendre_error",
    "PyFENG.RoughHeston.kernel_error",
    "PyFENG.RoughHeston.kernel_tolerance_lost"
   ],
   "note": "scipy's roots_jacobi and roots_legendre are parameters; their errors are not bounded. Finding: get_num_nodes uses the natural logarithm for a cut-off that is a power of two."
  },
  {
   "property": "C13",
   "status": "proved",
   "theorems": [
    "PyFENG.price_std_correct",
    "PyFENG.price_std_complement"
   ],
   "note": ""
  },
  {
   "property": "C130",
   "status": "proved",
   "theorems": [
    "PyFENG.RoughHeston.cJ_mass",
    "PyFENG.RoughHeston.gammaJ_barycentre",
    "PyFENG.RoughHeston.gammaJ_mem",
    "PyFENG.RoughHeston.multifactor_kernel_below",
    "PyFENG.RoughHeston.multifactor_stable",
    "PyFENG.RoughHeston.multifactor_scheme"
   ],
   "note": ""
  },
  {
   "property": "C131",
   "status": "proved",
   "theorems": [
    "PyFENG.gramcharA_coefs_correct",
    "PyFENG.gramcharA_moments",
    "PyFENG.gramcharA_rejects",
    "PyFENG.gramcharA_sigma_defect",
    "PyFENG.gramcharA_order_six"
   ],
   "note": "statsmodels' cum2mc is modelled by its recursion. The documented formula c[k] = cumul_{k+1}/((k+1)! sigma^{k+1}) is shown to hold for orders 3 to 5 only (gramcharA_order_six), and an explicit sigma to break the second coefficient (gramcharA_sigma_defect)."
  },
  {
   "property": "C132",
   "status": "proved",
   "theorems": [
    "PyFENG.MassZero.vol_from_mass_zero_correct",
    "PyFENG.MassZero.price_from_mass_zero_no_rates",
    "PyFENG.MassZero.price_from_mass_zero_limit",
    "PyFENG.MassZero.price_from_mass_zero_undiscounted"
   ],
   "note": "The mass is a parameter (the abstract mass_zero is covered by C83 and C123 for the classes that implement it). The defect with rates is price_from_mass_zero_undiscounted."
  },
  {
   "property": "C133",
   "status": "proved",
   "theorems": [
    "PyFENG.Sabr.hh_accuracy",
    "PyFENG.Sabr.choiWu_short",
    "PyFENG.Sabr.norm_short",
    "PyFENG.Sabr.lorig_short",
    "PyFENG.Sabr.hagan_short"
   ],
   "note": "Exact distance as an integral (Spec.sabrDist, Spec.levDist). The short-maturity limit of the SABR law itself (that this distance governs it) is the known theorem that the specification takes from the literature."
  },
  {
   "property": "C134",
   "status": "partial",
   "theorems": [
    "PyFENG.Sabr.choiWuP_geodesic",
    "PyFENG.Sabr.arcInt_limit",
    "PyFENG.Sabr.choiWuP_lognormal_branch",
    "PyFENG.Sabr.choiWuP_lognormal_jump",
    "PyFENG.Sabr.choiWuP_taylor"
   ],
   "note": "Branches: eta^2 > 1+1e-6, eta^2 < 1-1e-6, eta = 1. In the Taylor branch |eta^2-1| <= 1e-6 the error is bounded (choiWuP_taylor) as long as the numerators keep away from zero. eta = sqrt(1-rho^2) (a removable singularity that the code does not handle) and geodesics through zero are excluded. The derivation of the first-order term itself (heat-kernel expansion) is outside."
  },
  {
   "property": "C135",
   "status": "partial",
   "theorems": [
    "PyFENG.Heston.x2_charfun_correct",
    "PyFENG.Heston.aw_points",
    "PyFENG.Heston.aw_cdf_error",
    "PyFENG.interp1d_correct",
    "PyFENG.Heston.tabulated_draw_law_partial",
    "PyFENG.Sv32Inv.root_quantile_partial",
    "PyFENG.Sv32Inv.fdMv_accurate"
   ],
   "note": "Full for the transform, the error of the tabulated probabilities and interp1d. Partial: tabulated_draw_law_partial assumes that the 201 tabulated values increase (they approximate an increasing function up to the proved error); root_quantile_partial assumes that the secant iteration of scipy.optimize.newton returned a root in (0, u_error] and that cond_avgvar_laplace is the transform on the imaginary axis (Bessel functions of complex order)."
  },
  {
   "property": "C136",
   "status": "proved",
   "theorems": [
    "PyFENG.Nsvh.gq_integral_exact",
    "PyFENG.Nsvh.gq_price_error",
    "PyFENG.Nsvh.gq_cdf_exact",
    "PyFENG.Nsvh.gq_cdf_error"
   ],
   "note": "The reference law is that of the simulated triple of normals (NsvhMc.mc_vol_price). That this law is the law of the NSVh diffusion itself is proved only for the mean (C62), not in full."
  },
  {
   "property": "C137",
   "status": "proved",
   "theorems": [
    "PyFENG.Sabr.hagan_impvol_fits",
    "PyFENG.Sabr.hagan_impvol_bracket",
    "PyFENG.Sabr.hagan_impvol_atm",
    "PyFENG.Sabr.norm_impvol_fails",
    "PyFENG.Sabr.calibrate3_fits",
    "PyFENG.Sabr.calibrate3_admissible",
    "PyFENG.Sabr.calibrate3_roundtrip",
    "PyFENG.Sabr.hagan_smile",
    "PyFENG.Sabr.norm_smile"
   ],
   "note": "norm_impvol_fails is for Python-float vov (with a numpy scalar the division yields inf with a warning instead). calibrate3 with is_vol=False first inverts prices with Bsm.impvol (C06) and is modelled from the volatilities on."
  },
  {
   "property": "C138",
   "status": "proved",
   "theorems": [
    "PyFENG.Cev.cevmc_paths_law",
    "PyFENG.Cev.cevmc_price_unbiased",
    "PyFENG.Cev.cevmc_mass_zero_unbiased",
    "PyFENG.Cev.cevmc_paths_nonneg",
    "PyFENG.Cev.cevmc_price_fails"
   ],
   "note": "Whole array of paths, staged draws as in the code; expectation operators over nonnegative quantities for gamma and Poisson draws. The hypothesis eps <= alpha^2 T is the variance floor of the analytic price (C83)."
  },
  {
   "property": "C139",
   "status": "partial",
   "theorems": [
    "PyFENG.BsmDisp.norm_approx_short",
    "PyFENG.BsmDisp.bsm_approx_short",
    "PyFENG.BsmDisp.bsm_approx_beta_one",
    "PyFENG.BsmDisp.norm_approx_beta_zero",
    "PyFENG.BsmDisp.norm_approx_atm"
   ],
   "note": "The maturity factor is bounded for 'norm-approx' at the money; away from the money, and for the maturity factor of 'bsm-approx' with beta other than 1, only the strike dependence is bounded."
  },
  {
   "property": "C14",
   "status": "partial",
   "theorems": [
    "PyFENG.bsm_barrier_in_plus_out",
    "PyFENG.bsm_barrier_knockout_partial",
    "PyFENG.bsm_barrier_knockout_at_barrier",
    "PyFENG.bsm_barrier_trivial_zero",
    "PyFENG.bsm_barrier_knockout_bounds_partial",
    "PyFENG.bsm_barrier_dead_strike_wrong",
    "PyFENG.bsm_barrier_is_fwd_wrong",
    "PyFENG.norm_barrier_in_plus_out",
    "PyFENG.norm_barrier_knockout_at_barrier",
    "PyFENG.norm_barrier_knockout_partial",
    "PyFENG.bsmdisp_barrier_in_plus_out",
    "PyFENG.bsmdisp_barrier_knockout_at_barrier_partial"
   ],
   "note": "In/out parity and death at the barrier are proved for all three models. The survival representation is FALSE of the code when the strike is on the dead side of the barrier, and when is_fwd with nonzero rates (Norm: any drift); _wrong theorems give concrete violations, _partial the region in which it holds."
  },
  {
   "property": "C140",
   "status": "partial",
   "theorems": [
    "PyFENG.Cos.cgmyRange_shape",
    "PyFENG.Cos.cgmyCos_put_wrong",
    "PyFENG.Cos.hestonTruncRange_correct"
   ],
   "note": "Heston: proved (mean inside, mass outside at most 1%). CGMY: the full claim is false of the code: the interval ignores the maturity, is reversed for Y < 0 and collapses for Y = 0 (cgmyRange_shape), and for every accepted 0 < Y, Y != 1 the limit COS put price is below the price of the actual CGMY law (whose existence is proved, Cgmy.law_exists) by at least df F e^a / 4 for all long maturities (cgmyCos_put_wrong)."
  },
  {
   "property": "C141",
   "status": "proved",
   "theorems": [
    "PyFENG.sabr_fd_scheme",
    "PyFENG.heston_cev_fd_scheme",
    "PyFENG.heston_fd_scheme"
   ],
   "note": "Douglas equations stated with explicit central differences (Spec.fdMixed, Spec.fdPrice, Spec.fdVol), independent of the model's F0/F1/F2 and Thomas solver. Convergence of the scheme to the exact price is not claimed."
  },
  {
   "property": "C142",
   "status": "proved",
   "theorems": [
    "PyFENG.DistGig.scipy_correct",
    "PyFENG.DistGamma.scipy_correct",
    "PyFENG.DistInvGauss.scipy_correct",
    "PyFENG.DistInvGauss.fromGig_law",
    "PyFENG.DistGh.scipy_correct",
    "PyFENG.DistGh.mvsk_law",
    "PyFENG.DistGh.scipy_domain"
   ],
   "note": "The densities of scipy.stats.gamma / invgauss / geninvgauss / genhyperbolic are written out in the specification from scipy's documentation (scipy itself, numpy's wald and standard_gamma are trusted); DistGh is proved at the level of measures (normal mean-variance mixture integrated out by Tonelli), so the four moments are moments of the scipy density itself."
  },
  {
   "property": "C143",
   "status": "proved",
   "theorems": [
    "PyFENG.Cum4.cum4_law",
    "PyFENG.Cum4.mv_law",
    "PyFENG.Cum4.cum4_eq_cumulants",
    "PyFENG.Cum4.symmetric_third_zero",
    "PyFENG.Cum4.symmetric_fails",
    "PyFENG.Cum4.bsm_fails"
   ],
   "note": "Exact real arithmetic: in floating point the third number is rounding noise, so the fourth scale is of order 1e10 or more instead of infinite. numpy's division by zero (inf, then nan) is modelled as an error. A Poisson law is shown to meet every hypothesis of cum4_law and mv_law."
  },
  {
   "property": "C144",
   "status": "proved",
   "theorems": [
    "PyFENG.simps_average",
    "PyFENG.simps_exact",
    "PyFENG.simps_tendsto",
    "PyFENG.Ousv.condStatesFull_range",
    "PyFENG.Ousv.condStatesFull_tendsto",
    "PyFENG.Sabr.condSpotSigmaVolpath_range",
    "PyFENG.Sabr.condSpotSigmaVolpath_tendsto"
   ],
   "note": "scipy.integrate.simps is a library function, modelled for both conventions on an odd number of intervals. cond_states_full ignores its argument sig_0 (the path starts at self.sigma). The values of _bm_incr are those of a Brownian motion at the (time-changed) dates. Rates of convergence are not proved."
  },
  {
   "property": "C145",
   "status": "proved",
   "theorems": [
    "PyFENG.Sabr.hhXiApprox_second_order",
    "PyFENG.Sabr.niPrice_closed",
    "PyFENG.Sabr.niPrice_corrected",
    "PyFENG.Sabr.eiPrice_cut"
   ],
   "note": "That the integral formula is the expectation under the SABR law (heat kernel of the hyperbolic plane) is not proved here. The classes themselves cannot be constructed with the arguments of their __init__ (C103); the theorems are about price on an object with the attributes set."
  },
  {
   "property": "C146",
   "status": "proved",
   "theorems": [
    "PyFENG.NdObj.settings",
    "PyFENG.NdObj.reproducible",
    "PyFENG.NdObj.price_stored",
    "PyFENG.NdObj.errors",
    "PyFENG.NdObj.paths_prefix",
    "PyFENG.BasketObj.reproducible",
    "PyFENG.BasketObj.price_continues",
    "PyFENG.McExt.settings",
    "PyFENG.McState.cev_nsvh_configure",
    "PyFENG.CaiObj.settings",
    "PyFENG.RoughObj.grid",
    "PyFENG.FdCfg.settings"
   ],
   "note": "non-negative numbers for int(n_path); generators are streams selected by the seed"
  },
  {
   "property": "C147",
   "status": "proved",
   "theorems": [
    "PyFENG.Heston.vol_paths_laplace",
    "PyFENG.Heston.vol_paths_consistent",
    "PyFENG.Heston.vol_paths_marginal",
    "PyFENG.Heston.vol_paths_andersen",
    "PyFENG.Heston.vol_paths_int_wrong",
    "PyFENG.Heston.vol_paths_moments",
    "PyFENG.Heston.vol_paths_qe_moments"
   ],
   "note": "Random generators are expectation operators of the documented distributions; laws are compared through Laplace transforms at non-positive arguments. The int case is proved to fail (vol_paths_int_wrong)."
  },
  {
   "property": "C148",
   "status": "proved",
   "theorems": [
    "PyFENG.Heston.andersen_avgvar_bias",
    "PyFENG.Heston.pois_td_avgvar_unbiased",
    "PyFENG.Heston.pois_ge_log_forward_unbiased",
    "PyFENG.Heston.pois_ge_avgvar_unbiased",
    "PyFENG.Heston.tse_wan_log_forward_unbiased",
    "PyFENG.Heston.tse_wan_avgvar_unbiased"
   ],
   "note": "Random generators are expectation operators of the documented distributions."
  },
  {
   "property": "C15",
   "status": "proved",
   "theorems": [
    "PyFENG.bsm_logp_mgf_correct",
    "PyFENG.bsm_logp_mgf_norm",
    "PyFENG.bsm_logp_cf_correct"
   ],
   "note": ""
  },
  {
   "property": "C16",
   "status": "proved",
   "theorems": [
    "PyFENG.bsmdisp_price_eq_expectation",
    "PyFENG.bsmdisp_put_call_parity",
    "PyFENG.bsmdisp_beta_one",
    "PyFENG.bsmdisp_delta_correct",
    "PyFENG.bsmdisp_gamma_correct",
    "PyFENG.bsmdisp_vega_correct",
    "PyFENG.bsmdisp_cdf_eq_probability"
   ],
   "note": ""
  },
  {
   "property": "C17",
   "status": "partial",
   "theorems": [
    "PyFENG.bsmdisp_theta_correct_partial",
    "PyFENG.bsmdisp_theta_law",
    "PyFENG.bsmdisp_theta_wrong"
   ],
   "note": "FALSE of the code: displacement is applied twice. Exact law and concrete violation proved."
  },
  {
   "property": "C18",
   "status": "partial",
   "theorems": [
    "PyFENG.bsmdisp_vega_numeric_law",
    "PyFENG.bsmdisp_vega_numeric_partial",
    "PyFENG.bsmdisp_vega_numeric_wrong"
   ],
   "note": "FALSE of the code for beta != 1 (sigma property getter/setter are not inverse); exact law, beta=1 case and violation proved."
  },
  {
   "property": "C19",
   "status": "partial",
   "theorems": [
    "PyFENG.Bsm.priceVsk_correct",
    "PyFENG.BsmDisp.true_vsk",
    "PyFENG.BsmDisp.priceVsk_partial",
    "PyFENG.BsmDisp.priceVsk_wrong"
   ],
   "note": "Bsm proved. BsmDisp is FALSE of the code for every beta != 1; true moments, beta=1 case and violation proved."
  },
  {
   "property": "C20",
   "status": "partial",
   "theorems": [
    "PyFENG.norm_price_eq_expectation",
    "PyFENG.norm_put_call_parity",
    "PyFENG.norm_price_gt_intrinsic",
    "PyFENG.norm_strictMono_vol",
    "PyFENG.norm_strictConvex_strike",
    "PyFENG.norm_homogeneous",
    "PyFENG.norm_price_degenerate_wrong"
   ],
   "note": "Proved for every sigma*sqrt(T) >= eps; the degenerate case is FALSE of the code (price at sigma=0 is not the intrinsic value)."
  },
  {
   "property": "C21",
   "status": "partial",
   "theorems": [
    "PyFENG.norm_delta_correct",
    "PyFENG.norm_gamma_correct",
    "PyFENG.norm_vega_correct",
    "PyFENG.norm_cdf_eq_probability",
    "PyFENG.norm_theta_law",
    "PyFENG.norm_theta_correct_partial",
    "PyFENG.norm_theta_wrong"
   ],
   "note": "delta/gamma/vega/cdf proved; theta is FALSE of the code with rates, law and violation proved."
  },
  {
   "property": "C22",
   "status": "partial",
   "theorems": [
    "PyFENG.norm_binary_cash_correct",
    "PyFENG.norm_binary_asset_law",
    "PyFENG.norm_binary_decomposition",
    "PyFENG.norm_binary_asset_put_wrong"
   ],
   "note": "Asset-or-nothing put is FALSE of the code (sign); all other cases proved."
  },
  {
   "property": "C23",
   "status": "proved",
   "theorems": [
    "PyFENG.norm_impvol_parity",
    "PyFENG.norm_impvol_scale",
    "PyFENG.norm_impvol_nan_iff",
    "PyFENG.norm_impvol_nonneg",
    "PyFENG.norm_impvol_atm",
    "PyFENG.norm_price_vega_std_correct"
   ],
   "note": ""
  },
  {
   "property": "C24",
   "status": "proved",
   "theorems": [
    "PyFENG.numeric_greeks_preserve_objects",
    "PyFENG.delta_numeric_mvt",
    "PyFENG.gamma_numeric_mvt",
    "PyFENG.vega_numeric_mvt",
    "PyFENG.volga_numeric_mvt",
    "PyFENG.vanna_numeric_mvt",
    "PyFENG.theta_numeric_mvt",
    "PyFENG.numeric_greeks_exact_on_quadratics",
    "PyFENG.bsm_numeric_greeks"
   ],
   "note": "For every class with an ordinary sigma attribute; BsmDisp is C18."
  },
  {
   "property": "C25",
   "status": "partial",
   "theorems": [
    "PyFENG.impvol_brentq_effect",
    "PyFENG.impvol_brentq_law",
    "PyFENG.impvol_brentq_reprices_partial",
    "PyFENG.bsm_impvol_brentq_wrong"
   ],
   "note": "FALSE of the code with interest: the root reprices exp(intr*T)*price. Law, zero-rate case and violation proved. brentq is a root oracle."
  },
  {
   "property": "C26",
   "status": "partial",
   "theorems": [
    "PyFENG.bsm_cdf_numeric_law",
    "PyFENG.bsm_cdf_numeric_correct_partial",
    "PyFENG.bsm_cdf_numeric_wrong",
    "PyFENG.bsm_pdf_numeric_law"
   ],
   "note": "FALSE of the code with interest (missing discount factor); law, zero-rate case and violation proved for Bsm."
  },
  {
   "property": "C27",
   "status": "proved",
   "theorems": [
    "PyFENG.bsm_vol_smile_flat",
    "PyFENG.norm_vol_smile_flat",
    "PyFENG.vol_smile_raises_iff",
    "PyFENG.vol_smile_otm",
    "PyFENG.vol_smile_cp_invariant"
   ],
   "note": ""
  },
  {
   "property": "C28",
   "status": "proved",
   "theorems": [
    "PyFENG.Params.heston_validation",
    "PyFENG.Params.hestonCev_validation",
    "PyFENG.Params.hestonCev_positional_order",
    "PyFENG.Params.cev_validation",
    "PyFENG.Params.sabr_accepts",
    "PyFENG.Params.sv_accepts",
    "PyFENG.Params.vg_validation",
    "PyFENG.Params.nig_validation",
    "PyFENG.Params.unknown_or_missing_keyword",
    "PyFENG.Params.spread_validation"
   ],
   "note": "Also shows that HestonCev's positional argument order differs from its docstring. CGMY validation is in Model/Levy; SviParams not modelled here."
  },
  {
   "property": "C29",
   "status": "proved",
   "theorems": [
    "PyFENG.Params.from_model_type_mismatch",
    "PyFENG.Params.from_model_transfers",
    "PyFENG.Params.from_model_of_constructed",
    "PyFENG.Params.bsm_regular",
    "PyFENG.Params.sabr_regular",
    "PyFENG.Params.nsvh_regular",
    "PyFENG.Params.cev_regular",
    "PyFENG.Params.heston_regular",
    "PyFENG.Params.roughHeston_regular",
    "PyFENG.Params.hestonCev_regular",
    "PyFENG.Params.vg_regular",
    "PyFENG.Params.nig_regular",
    "PyFENG.Params.sv_regular"
   ],
   "note": ""
  },
  {
   "property": "C30",
   "status": "partial",
   "theorems": [
    "PyFENG.Fft.cache_sound_partial",
    "PyFENG.Fft.bsmFft_sigma_updates_fresh",
    "PyFENG.Fft.bsmFft_stale_price"
   ],
   "note": "Sound when equal hashes of visited states imply equal MGFs; FALSE of the code in general (params_hash hashes the set of values): bsmFft_stale_price gives a two-step history whose price is wrong for every hash function and every interpolating spline."
  },
  {
   "property": "C31",
   "status": "proved",
   "theorems": [
    "PyFENG.Ma.more_than_one_rejected",
    "PyFENG.Ma.sigma_required",
    "PyFENG.Ma.shape_rejected",
    "PyFENG.Ma.cov_eq",
    "PyFENG.Ma.from_cov",
    "PyFENG.Ma.cov_symm",
    "PyFENG.Ma.rho_accepted_iff",
    "PyFENG.Ma.omitting_correlation_is_accepted",
    "PyFENG.Ma.from_model_round_trip",
    "PyFENG.Ma.from_model_loses_rho",
    "PyFENG.Ma.asymmetric_cor_accepted"
   ],
   "note": "Symmetry holds on the scalar-rho path; an asymmetric cor_m is accepted by the code (asymmetric_cor_accepted), and omitting all correlations for n>1 is accepted although documented as ValueError."
  },
  {
   "property": "C32",
   "status": "partial",
   "theorems": [
    "PyFENG.VarGamma.toOrig_toSv",
    "PyFENG.VarGamma.toSv_error",
    "PyFENG.VarGamma.toSv_toOrig_partial",
    "PyFENG.VarGamma.toSv_toOrig_wrong",
    "PyFENG.VarGamma.fromSv_valid",
    "PyFENG.Nig.toOrig_toSv",
    "PyFENG.Nig.fromSv_valid_iff",
    "PyFENG.Nig.toSv_toOrig_partial",
    "PyFENG.Nig.toSv_toOrig_wrong"
   ],
   "note": "Bijection proved between the domain of to_sv_param and {rho*sigma*vov <= 1} (NIG: < 1). FALSE on the rest of the accepted from_sv_param domain (rho*sigma*vov > 1): violation proved."
  },
  {
   "property": "C33",
   "status": "partial",
   "theorems": [
    "PyFENG.VarGamma.logpMgf_correct",
    "PyFENG.VarGamma.martingale_drift",
    "PyFENG.VarGamma.logpMgf_normalised",
    "PyFENG.Nig.logpMgf_correct",
    "PyFENG.Nig.martingale_drift",
    "PyFENG.Nig.logpMgf_normalised",
    "PyFENG.Cgmy.logpMgf_levy_khintchine",
    "PyFENG.Cgmy.logpMgf_normalised",
    "PyFENG.Garch.logpMgf_normalised",
    "PyFENG.bsm_logp_mgf_norm",
    "PyFENG.bsm_logp_mgf_correct",
    "PyFENG.Heston.logp_mgf_zero",
    "PyFENG.Heston.logp_mgf_one",
    "PyFENG.Heston.logp_mgf_one_singular",
    "PyFENG.Cgmy.law_exists"
   ],
   "note": "VG, NIG: equality with E[exp(uX)] for complex u in the strip; CGMY: Levy-Khintchine formula for complex u, and a probability law with exactly this MGF exists on the strip -G < Re u < M and is a martingale law (law_exists, by compound-Poisson approximation and Levy continuity); BSM: Gaussian integral. Heston: mgf(0)=1 for mr>0 and mgf(1)=1 for mr>rho*vov; for mr<=rho*vov the code divides 0 by 0 at u=1 (logp_mgf_one_singular), so the property is false there."
  },
  {
   "property": "C34",
   "status": "proved",
   "theorems": [
    "PyFENG.VarGamma.logpCum4_correct",
    "PyFENG.Nig.logpCum4_correct"
   ],
   "note": "Derivatives of Mathlib's cgf of the law of log(S_T/F)."
  },
  {
   "property": "C35",
   "status": "proved",
   "theorems": [
    "PyFENG.McState.tobs_spec"
   ],
   "note": ""
  },
  {
   "property": "C36",
   "status": "proved",
   "theorems": [
    "PyFENG.McState.rvNormal_antithetic",
    "PyFENG.McState.rvUniform_antithetic",
    "PyFENG.McState.rvNormal_count",
    "PyFENG.McState.rvNormal_prefix",
    "PyFENG.McState.bmIncr_even",
    "PyFENG.McState.bmIncr_brownian",
    "PyFENG.McState.rvNormal_consecutive",
    "PyFENG.McState.rvUniform_consecutive"
   ],
   "note": ""
  },
  {
   "property": "C37",
   "status": "proved",
   "theorems": [
    "PyFENG.CondMc.price_parity_simulated",
    "PyFENG.CondMc.price_parity_corrected",
    "PyFENG.CondMc.price_bounds",
    "PyFENG.CondMc.price_eq_average",
    "PyFENG.CondMc.price_unbiased",
    "PyFENG.CondMc.mixture_parity",
    "PyFENG.CondMc.mixture_parity_simulated",
    "PyFENG.CondMc.mixture_rejects",
    "PyFENG.CondMc.varOpt_parity"
   ],
   "note": "Given the arrays returned by cond_spot_sigma."
  },
  {
   "property": "C38",
   "status": "partial",
   "theorems": [
    "PyFENG.Cev.cev_parity",
    "PyFENG.Cev.cev_cdf_correct",
    "PyFENG.Cev.cev_cdf_beta_gt_one_fails"
   ],
   "note": "Parity for all parameters. cdf relations for beta<1; for beta>1 cdf and mass_zero are NaN (theorem), so that part of the property is false of the code."
  },
  {
   "property": "C39",
   "status": "partial",
   "theorems": [
    "PyFENG.InvGam.invgam_moments",
    "PyFENG.InvGam.invgam_price_eq_expectation",
    "PyFENG.InvGam.invgam_cdf_correct",
    "PyFENG.InvGam.invgam_parity_actual",
    "PyFENG.InvGam.invgam_parity_isFwd_false",
    "PyFENG.InvGauss.invgauss_moments",
    "PyFENG.InvGauss.invgauss_price_eq_expectation",
    "PyFENG.InvGauss.invgauss_cdf_correct",
    "PyFENG.InvGauss.invgauss_parity"
   ],
   "note": "InvGauss: full claim proved (price is the expected payoff under the inverse Gaussian law, moments matched, parity in both conventions). InvGam: proved for is_fwd=False; with is_fwd=True price() drops the flag and the claim is false of the code (invgam_parity_isFwd_false)."
  },
  {
   "property": "C40",
   "status": "partial",
   "theorems": [
    "PyFENG.Cir.mv_correct",
    "PyFENG.Cir.avg_mv_correct",
    "PyFENG.Cir.avg_mv_c3_series",
    "PyFENG.Cir.mv_semigroup",
    "PyFENG.Heston.var_mv_default"
   ],
   "note": "mean/variance of V_T exact for all parameters (mr=0 included); mean/variance/third moment of the average exact for mr != 0 and mr*T>=0.1 (third moment); below 0.1 the third moment is a series, proved with its error order. avg_mv divides by zero at mr=0 (missing)."
  },
  {
   "property": "C41",
   "status": "proved",
   "theorems": [
    "PyFENG.Cir.mgf_feynman_kac",
    "PyFENG.Heston.logp_mgf_backward",
    "PyFENG.Heston.logp_mgf_zero",
    "PyFENG.Heston.logp_mgf_one",
    "PyFENG.Heston.logp_mgf_one_singular"
   ],
   "note": "Kolmogorov/Feynman-Kac equation for complex arguments in the strip 0<=Re u<=1 (Heston) and real arguments below mr^2/(2 sigma^2) (CIR)."
  },
  {
   "property": "C42",
   "status": "partial",
   "theorems": [
    "PyFENG.Cir.draw_euler_nonneg",
    "PyFENG.Cir.draw_euler_moments",
    "PyFENG.Cir.draw_euler_zero_step",
    "PyFENG.Cir.draw_euler_variance_wrong",
    "PyFENG.Cir.draw_milstein_bias"
   ],
   "note": "Non-negativity and mean proved. The variance claim is false of the code (noise is not scaled by sqrt(dt), Milstein term is not scaled by dt): counterexample theorems."
  },
  {
   "property": "C43",
   "status": "partial",
   "theorems": [
    "PyFENG.DistLognormal.mvsk_correct",
    "PyFENG.DistLognormal.mc4_correct",
    "PyFENG.DistLognormal.fit2_roundtrip",
    "PyFENG.DistLognormal.fromMv_moments",
    "PyFENG.DistLognormal.fit3_law",
    "PyFENG.DistLognormal.fit3_roundtrip_partial",
    "PyFENG.DistLognormal.fit3_wrong",
    "PyFENG.DistLognormal.fit3_moments"
   ],
   "note": "mvsk/mc4 and two-moment fitting proved against the law that draw samples from; three-moment fitting proved for positive skewness and FALSE of the code for negative skewness (returns |s|), law proved."
  },
  {
   "property": "C44",
   "status": "proved",
   "theorems": [
    "PyFENG.DistLognormal.quad_normalised",
    "PyFENG.DistGamma.quad_moments",
    "PyFENG.DistGamma.quad_normalised",
    "PyFENG.DistInvGauss.quad_moments",
    "PyFENG.DistInvGauss.quad_neg_moments",
    "PyFENG.DistInvGauss.quad_normalised",
    "PyFENG.DistGig.quad_normalised",
    "PyFENG.DistGig.kve_neg_half",
    "PyFENG.DistGig.quad_neg_half",
    "PyFENG.Spec.hermite_two"
   ],
   "note": "Hermite/Laguerre rules are specified by exactness (and symmetry), not modelled. The IG quadrature is proved exact for all moments of order 1-n..n."
  },
  {
   "property": "C45",
   "status": "proved",
   "theorems": [
    "PyFENG.DistGamma.mvsk_correct",
    "PyFENG.DistGamma.mc4_correct",
    "PyFENG.DistGamma.fromMv_roundtrip",
    "PyFENG.DistGamma.fromMv_mvsk",
    "PyFENG.DistInvGauss.mvsk_correct",
    "PyFENG.DistInvGauss.mc4_correct",
    "PyFENG.DistInvGauss.fromMv_roundtrip",
    "PyFENG.DistInvGauss.fromMv_mvsk",
    "PyFENG.DistGig.fit_roundtrip"
   ],
   "note": "Moments are those of Mathlib's gammaMeasure and of the inverse Gaussian density; GIG fit given that brentq returns a root."
  },
  {
   "property": "C46",
   "status": "proved",
   "theorems": [
    "PyFENG.DistGig.mnc_correct",
    "PyFENG.DistGig.mvskOfRaw_correct",
    "PyFENG.DistGig.mc4_correct",
    "PyFENG.DistGh.mvskOfMixer_correct",
    "PyFENG.DistGh.nigMvsk_correct",
    "PyFENG.DistGh.mvskQuad_eq",
    "PyFENG.DistGh.nig_mvskQuad_exact",
    "PyFENG.DistGh.mc4_correct",
    "PyFENG.DistGh.cdf_valid"
   ],
   "note": ""
  },
  {
   "property": "C47",
   "status": "proved",
   "theorems": [
    "PyFENG.mills_ratio_correct",
    "PyFENG.powrel_correct",
    "PyFENG.logrel_correct",
    "PyFENG.rel_domain",
    "PyFENG.powrel_pos"
   ],
   "note": ""
  },
  {
   "property": "C48",
   "status": "proved",
   "theorems": [
    "PyFENG.NdGHQ.indeces_eq",
    "PyFENG.NdGHQ.zVecWeight_eq",
    "PyFENG.NdGHQ.zVecWeight_empty",
    "PyFENG.NdGHQ.zVecWeightAt_eq",
    "PyFENG.NdGHQ.exact",
    "PyFENG.ghq_exact"
   ],
   "note": ""
  },
  {
   "property": "C49",
   "status": "partial",
   "theorems": [
    "PyFENG.Alloc.ccdCoord_solves",
    "PyFENG.Alloc.fitCcd_riskParity",
    "PyFENG.Alloc.fitCcd_signs",
    "PyFENG.Alloc.ccd_wellDefined",
    "PyFENG.Alloc.fitCcd_marketNeutral_nonFinite",
    "PyFENG.Alloc.fitCcd_short_returns_long",
    "PyFENG.Alloc.fitCcdOriginal_riskParity",
    "PyFENG.Alloc.newton_jacobian_correct",
    "PyFENG.Alloc.fitNewton_riskParity",
    "PyFENG.Alloc.fitNewton_ignores_longshort",
    "PyFENG.Alloc.origCoord_solves",
    "PyFENG.Alloc.ccd_terminates",
    "PyFENG.Alloc.ccd_converges",
    "PyFENG.Alloc.ccd_accuracy",
    "PyFENG.Alloc.riskParity_exists_unique",
    "PyFENG.Alloc.ccdOriginal_terminates",
    "PyFENG.Alloc.fitCcd_budget_sum",
    "PyFENG.Alloc.fitCcd_accepted_budget_fails"
   ],
   "note": "Converged CCD output is a risk-parity portfolio within tolerance, for every problem and iteration count. Part of the documented claim is FALSE for the code and refuted: a market-neutral request gives inf/NaN weights, an all-short request returns the long portfolio (normalisation flips it), fit_newton ignores longshort. Convergence (ccd_terminates, ccd_converges, ccd_accuracy): for every symmetric positive definite correlation matrix and every positive budget with sum one the iteration stops after finitely many passes and its long-only output tends to the unique risk-parity portfolio; the code's fixed limit of 1023 passes is replaced by a large enough one. fit_ccd_original terminates likewise (ccdOriginal_terminates). Finding: budgets whose sum is off one by n*tol or more pass the validation but fit_ccd then never returns weights (fitCcd_budget_sum, fitCcd_accepted_budget_fails)."
  },
  {
   "property": "C50",
   "status": "proved",
   "theorems": [
    "PyFENG.Alloc.project_error_iff",
    "PyFENG.Alloc.project_feasible",
    "PyFENG.Alloc.project_optimal",
    "PyFENG.Alloc.project_near_exact"
   ],
   "note": "Exact reals: finite 1-D input. Includes that the result is the exact projection on its own total, and within tolerance (l1) of the true projection."
  },
  {
   "property": "C51",
   "status": "proved",
   "theorems": [
    "PyFENG.Mgf2Mom.moment_raw_aliasing",
    "PyFENG.Mgf2Mom.moment_raw_polynomial",
    "PyFENG.Mgf2Mom.moment_raw_error",
    "PyFENG.Mgf2Mom.moment_raw_law",
    "PyFENG.Mgf2Mom.run_entries",
    "PyFENG.Mgf2Mom.run_law",
    "PyFENG.Mgf2Mom.moments_analytic"
   ],
   "note": ""
  },
  {
   "property": "C52",
   "status": "proved",
   "theorems": [
    "PyFENG.Svi.svi_min",
    "PyFENG.Svi.vol_sq",
    "PyFENG.Svi.svi_convex",
    "PyFENG.Svi.svi_wings",
    "PyFENG.Svi.svi_parity",
    "PyFENG.Svi.svi_impvol"
   ],
   "note": ""
  },
  {
   "property": "C53",
   "status": "proved",
   "theorems": [
    "PyFENG.Cos.chi_integral",
    "PyFENG.Cos.psi_integral",
    "PyFENG.Cos.payoffCoef_integral"
   ],
   "note": ""
  },
  {
   "property": "C54",
   "status": "proved",
   "theorems": [
    "PyFENG.Fft.fft_parity",
    "PyFENG.Fft.simpson_parity",
    "PyFENG.Cos.lefloch_parity",
    "PyFENG.Cos.priceFO_parity_defect"
   ],
   "note": ""
  },
  {
   "property": "C55",
   "status": "proved",
   "theorems": [
    "PyFENG.Thomas.thomas_solves",
    "PyFENG.Thomas.thomas_unique",
    "PyFENG.Thomas.thomas_pivots"
   ],
   "note": ""
  },
  {
   "property": "C56",
   "status": "proved",
   "theorems": [
    "PyFENG.bilinear_exact",
    "PyFENG.bilinear_node",
    "PyFENG.bilinear_bounds"
   ],
   "note": ""
  },
  {
   "property": "C57",
   "status": "proved",
   "theorems": [
    "PyFENG.SpreadOpt.kirk_parity",
    "PyFENG.SpreadOpt.kirk_eq_exchange",
    "PyFENG.SpreadOpt.kirk_zero_strike_exact",
    "PyFENG.SpreadOpt.kirk_ge_intrinsic",
    "PyFENG.SpreadOpt.bjerksund_parity",
    "PyFENG.SpreadOpt.bjerksund_eq_policy",
    "PyFENG.SpreadOpt.bjerksund_le_true",
    "PyFENG.Basket.norm_basket_exact",
    "PyFENG.Basket.norm_basket_parity",
    "PyFENG.Basket.geo_eq_expectation",
    "PyFENG.Basket.geo_parity",
    "PyFENG.Basket.geo_not_lower_bound"
   ],
   "note": "any dimension; geo_not_lower_bound refutes the documented lower-bound claim of BsmBasketGeoApprox; the Nsvh1 basket (BsmBasketNsvh1) is not included"
  },
  {
   "property": "C58",
   "status": "proved",
   "theorems": [
    "PyFENG.Basket.basket_raw_moments",
    "PyFENG.Basket.price_mvsk_correct",
    "PyFENG.Basket.levy_eq_expectation",
    "PyFENG.Basket.milevsky_eq_expectation"
   ],
   "note": "moments are expectations under the multivariate normal law, any dimension"
  },
  {
   "property": "C59",
   "status": "proved",
   "theorems": [
    "PyFENG.Choi2018.householder_correct"
   ],
   "note": "exact orthogonality; the first column is the direction except in the identity shortcut, where the deviation is bounded"
  },
  {
   "property": "C60",
   "status": "proved",
   "theorems": [
    "PyFENG.BasketMc.norm_mc_unbiased",
    "PyFENG.BasketMc.geo_mc_unbiased",
    "PyFENG.BasketMc.mc_unbiased",
    "PyFENG.BasketMc.mc_geo_cv_unbiased",
    "PyFENG.BasketMc.mc_norm_cv_unbiased",
    "PyFENG.BasketMc.mc_parity",
    "PyFENG.BasketMc.norm_mc_antithetic_parity",
    "PyFENG.BasketMc.mc_geo_cv_exact",
    "PyFENG.NdMc.bm_incr_shape",
    "PyFENG.NdMc.bm_law",
    "PyFENG.NdMc.bsm_nd_unbiased",
    "PyFENG.NdMc.bsm_nd_martingale"
   ],
   "note": "the generator is an infinite stream of independent standard normals; one strike at a time"
  },
  {
   "property": "C61",
   "status": "proved",
   "theorems": [
    "PyFENG.Sabr.avgvar_mnc4_correct",
    "PyFENG.Sabr.avgvar_mnc4_small",
    "PyFENG.Sabr.avgvar_mvsk_correct",
    "PyFENG.Sabr.avgvar_mvsk_zero",
    "PyFENG.Sabr.avgvar_methods_agree"
   ],
   "note": "proved in the stronger form: both methods return the true moments of the Brownian average variance (for vovn\u00b2 \u2264 1e-6 the mean of avgvar_mnc4 is a Taylor polynomial: error bound proved)"
  },
  {
   "property": "C62",
   "status": "partial",
   "theorems": [
    "PyFENG.Sabr.base_parity",
    "PyFENG.Sabr.hagan_parity",
    "PyFENG.Sabr.lorig_parity",
    "PyFENG.Sabr.norm_parity",
    "PyFENG.Sabr.choiWuH_parity",
    "PyFENG.Sabr.choiWuP_parity",
    "PyFENG.Nsvh.nsvh1_price_correct",
    "PyFENG.Nsvh.johnson_mean",
    "PyFENG.Nsvh.nsvh1_parity",
    "PyFENG.Nsvh.nsvh1_atmvol_price",
    "PyFENG.Nsvh.nsvh1_cdf_correct",
    "PyFENG.Nsvh.nsvh1_cdf_ignores_atmvol",
    "PyFENG.Nsvh.nsvh1_priceVsk_correct",
    "PyFENG.Nsvh.nsvh_priceVsk_correct",
    "PyFENG.Nsvh.nsvh_priceVsk_lam1",
    "PyFENG.Nsvh.nsvh_priceVsk_lam0",
    "PyFENG.Nsvh.sabr_norm_priceVsk_correct",
    "PyFENG.Nsvh.nsvh1_fit_min_unique",
    "PyFENG.Nsvh.nsvh1_fit_root_unique",
    "PyFENG.Nsvh.nsvh1_fit_matches",
    "PyFENG.Nsvh.nsvh1_fit_roundtrip",
    "PyFENG.Nsvh.gq_parity",
    "PyFENG.Nsvh.gq_cdf_complement",
    "PyFENG.Nsvh.nsvhMc_mean_zero",
    "PyFENG.Nsvh.nsvhMc_parity_mean"
   ],
   "note": "parity proved; for the normal base model only when the total volatility is at least machine epsilon"
  },
  {
   "property": "C63",
   "status": "partial",
   "theorems": [
    "PyFENG.Asian.price_mnc_correct",
    "PyFENG.Asian.price_mnc_fails",
    "PyFENG.Asian.degenerate_cases",
    "PyFENG.Asian.price_mnc4_correct",
    "PyFENG.Asian.price_mean_correct",
    "PyFENG.Asian.price_var_correct",
    "PyFENG.Asian.price_mvsk_correct",
    "PyFENG.Asian.Ju.moments_correct",
    "PyFENG.Asian.Ju.parity",
    "PyFENG.Asian.Linetsky.parity",
    "PyFENG.Asian.Linetsky.parity_near",
    "PyFENG.Asian.price_var_small",
    "PyFENG.Asian.price_var_small_wrong"
   ],
   "note": "moments proved for every Brownian motion; below sigma^2 T = 0.01 the variance error is bounded for nonnegative carry (price_var_small), and with carry the truncated variance is not asymptotically right as sigma goes to 0 (price_var_small_wrong: its relative error tends to a nonzero limit, about (r-q)T/8); excluded: the truncated skewness and kurtosis below 0.01, the numpy NaNs at p=0,-1,...,-6; parity of BsmAsianJsu fails (C105)"
  },
  {
   "property": "C64",
   "status": "proved",
   "theorems": [
    "PyFENG.Heston.draw_from_mv_correct",
    "PyFENG.Heston.draw_from_mv_rejects",
    "PyFENG.Heston.qe_moments",
    "PyFENG.Heston.qe_martingale_step",
    "PyFENG.Heston.qe_martingale",
    "PyFENG.Heston.andersen_scheme_error",
    "PyFENG.Heston.qe_correction_unique",
    "PyFENG.Heston.cond_log_return_var_correct",
    "PyFENG.Heston.log_returns_aggregate",
    "PyFENG.Heston.realized_cond_differs_qe",
    "PyFENG.Heston.realized_one_step",
    "PyFENG.Heston.spreadZ_correct",
    "PyFENG.Heston.step_pois_td_correction",
    "PyFENG.Heston.andersen_vol_step",
    "PyFENG.Heston.cond_spot_sigma_follows",
    "PyFENG.Heston.return_var_realized_correct"
   ],
   "note": "one path at a time; disagreements found and proved: an unsupported Andersen scheme is an UnboundLocalError, and return_var_realized(cond=True) omits the QE martingale correction that cond=False includes"
  },
  {
   "property": "C65",
   "status": "partial",
   "theorems": [
    "PyFENG.Amer.construct_fails",
    "PyFENG.Amer.qInf_root",
    "PyFENG.Amer.sInf_perpetual",
    "PyFENG.Amer.sInf_le_s0",
    "PyFENG.Amer.ig_between",
    "PyFENG.Amer.ig_above",
    "PyFENG.Amer.qqd_root",
    "PyFENG.Amer.exercise_region",
    "PyFENG.Amer.value_matching",
    "PyFENG.Amer.smooth_pasting",
    "PyFENG.Amer.smooth_pasting_fails_is_fwd",
    "PyFENG.Amer.ge_european_partial",
    "PyFENG.Amer.ge_intrinsic_partial",
    "PyFENG.Amer.hypotheses_hold",
    "PyFENG.Amer.integrand_premium",
    "PyFENG.Amer.integrand_nonneg",
    "PyFENG.Amer.integrand_is_fwd",
    "PyFENG.Amer.integrand_domain"
   ],
   "note": "AmerLi2010QdPlus cannot be constructed (proved); the formulas are proved on the attributes its initialiser is meant to set, with the boundary returned by Newton as a parameter; price >= intrinsic between the boundary and the strike is not proved; integrand is the early-exercise premium integrand for is_fwd=False, with is_fwd=True its dividend leg is not discounted (proved)"
  },
  {
   "property": "C66",
   "status": "partial",
   "theorems": [
    "PyFENG.bsm_vega2_off_by_sqrt",
    "PyFENG.bsm_vega2_correct_partial",
    "PyFENG.bsm_vega2_wrong"
   ],
   "note": "The property is FALSE of the code: vega2 misses a factor sqrt(T). The law is proved for all T, correctness for T=1, and a concrete violation."
  },
  {
   "property": "C67",
   "status": "proved",
   "theorems": [
    "PyFENG.bsmdisp_impvol_reprices"
   ],
   "note": ""
  },
  {
   "property": "C68",
   "status": "partial",
   "theorems": [
    "PyFENG.GhObj.fresh_partial",
    "PyFENG.GhObj.setNQuad_fresh",
    "PyFENG.GhObj.cache_stale_law",
    "PyFENG.GhObj.stale_wrong"
   ],
   "note": "FALSE of the code after assigning gamma, delta or p; what the cache holds is proved for every assignment sequence."
  },
  {
   "property": "C69",
   "status": "proved",
   "theorems": [
    "PyFENG.SubParams.quad_parity",
    "PyFENG.SubParams.quad_bounds",
    "PyFENG.VarGamma.quadPrice_parity",
    "PyFENG.Nig.quadPrice_parity"
   ],
   "note": ""
  },
  {
   "property": "C70",
   "status": "partial",
   "theorems": [
    "PyFENG.Garch.refined_vs_old",
    "PyFENG.Garch.refined_eq_old_partial",
    "PyFENG.Garch.refined_ne_old"
   ],
   "note": "FALSE of the code for every texp other than 1 (real arguments 0<u<1): exact discrepancy factor proved."
  },
  {
   "property": "C71",
   "status": "partial",
   "theorems": [
    "PyFENG.VarGamma.stale_law",
    "PyFENG.VarGamma.stale_sigma",
    "PyFENG.VarGamma.assign_fresh_partial",
    "PyFENG.Nig.stale_sigma"
   ],
   "note": "FALSE of the code after assigning sigma (as vega_numeric does); exact law proved for every assignment sequence."
  },
  {
   "property": "C72",
   "status": "proved",
   "theorems": [
    "PyFENG.Fft.lewis_price",
    "PyFENG.Fft.grid_eq_quadrature",
    "PyFENG.Fft.fft_price_at_knot",
    "PyFENG.Fft.simpson_converges",
    "PyFENG.Fft.bsm_simpson_converges",
    "PyFENG.Fft.vg_simpson_converges",
    "PyFENG.Fft.nig_simpson_converges",
    "PyFENG.Fft.cgmy_simpson_converges"
   ],
   "note": "Law-of-return level: for any martingale law whose MGF logp_mgf is. FFT: exact at the knots relative to the quadrature sum."
  },
  {
   "property": "C73",
   "status": "partial",
   "theorems": [
    "PyFENG.Cos.priceFO_eq_expectation",
    "PyFENG.Cos.priceFO_tendsto",
    "PyFENG.Cos.priceFO_tendsto_exact",
    "PyFENG.Cos.put_truncation_error",
    "PyFENG.Cos.lefloch_truncation_error",
    "PyFENG.Cos.bsmCos_put_error",
    "PyFENG.Cos.hestonPriceFO_eq",
    "PyFENG.Cos.hestonCos_put_error",
    "PyFENG.Cos.hestonCos_call_above_bound",
    "PyFENG.Cos.lefloch_high_strike",
    "PyFENG.Cos.hestonL_spec",
    "PyFENG.Cos.priceFO_rate",
    "PyFENG.Cos.priceFO_rate_law",
    "PyFENG.Cos.bsmCos_put_accuracy",
    "PyFENG.Cos.bsmCos_lefloch_accuracy"
   ],
   "note": "The default HestonCos interval is centred at log(F/K)+c1 although the pricer works in log(S_T/K) relative to the shifted argument; hestonCos_call_above_bound exhibits a call price above df*F. Rates in n: O(1/n) for every law (priceFO_rate_law), times the decay of the characteristic function (priceFO_rate); for BsmCos an explicit end-to-end bound of size exp(-pi^2 n^2/(8 L^2)) + exp(-L^2/2) (bsmCos_put_accuracy, bsmCos_lefloch_accuracy)."
  },
  {
   "property": "C74",
   "status": "proved",
   "theorems": [
    "PyFENG.Cos.truncRange_chebyshev",
    "PyFENG.Cos.vgCum4_eq"
   ],
   "note": ""
  },
  {
   "property": "C75",
   "status": "proved",
   "theorems": [
    "PyFENG.Cos.junike_guarantee",
    "PyFENG.Cos.junike_range"
   ],
   "note": ""
  },
  {
   "property": "C76",
   "status": "proved",
   "theorems": [
    "PyFENG.McState.configure_reproducible",
    "PyFENG.McState.configure_restart",
    "PyFENG.McState.configure_fields"
   ],
   "note": "Generators are abstract streams chosen by the seed."
  },
  {
   "property": "C77",
   "status": "partial",
   "theorems": [
    "PyFENG.CondMc.pathValue_mean",
    "PyFENG.CondMc.pathValue_not_martingale"
   ],
   "note": "FALSE of the code: the drift -sigma^2 dt/2 is missing; the exact mean is proved instead."
  },
  {
   "property": "C78",
   "status": "partial",
   "theorems": [
    "PyFENG.CondMc.cond_result_own",
    "PyFENG.CondMc.mixture_result_shared",
    "PyFENG.CondMc.mixture_result_single_partial"
   ],
   "note": "FALSE for SvMixtureABC (class-level dictionary shared by all instances); true for the Monte-Carlo classes."
  },
  {
   "property": "C79",
   "status": "partial",
   "theorems": [
    "PyFENG.McState.bmIncr_even",
    "PyFENG.McState.bmIncr_plain_raises",
    "PyFENG.McState.bmIncr_odd"
   ],
   "note": "FALSE of the code: antithetic=False always raises TypeError; odd n_path raises ValueError or silently returns too few rows."
  },
  {
   "property": "C80",
   "status": "partial",
   "theorems": [
    "PyFENG.Alloc.objective_gradient",
    "PyFENG.Alloc.scaGrad_eq_of_diagonal",
    "PyFENG.Alloc.scaGrad_ascends"
   ],
   "note": "FALSE for the code in general: it uses w*(cov@resid) where the gradient has cov@(w*resid). True gradient proved; agreement for diagonal covariance; a positive-definite 3-asset case in which the code's direction increases the objective."
  },
  {
   "property": "C81",
   "status": "proved",
   "theorems": [
    "PyFENG.Alloc.lineSearch_terminates",
    "PyFENG.Alloc.lineSearch_decreases",
    "PyFENG.Alloc.fitSca_feasible",
    "PyFENG.Alloc.fitSca_inner_bound"
   ],
   "note": ""
  },
  {
   "property": "C82",
   "status": "proved",
   "theorems": [
    "PyFENG.Cev.cev_delta_correct",
    "PyFENG.Cev.cev_gamma_correct",
    "PyFENG.Cev.cev_vega_correct",
    "PyFENG.Cev.cev_theta_correct",
    "PyFENG.Cev.cev_pde",
    "PyFENG.Cev.cev_pde_fwd",
    "PyFENG.Cev.cev_gamma_vega_pos",
    "PyFENG.Cev.cev_cdf_correct",
    "PyFENG.Cev.cev_price_std",
    "PyFENG.Cev.cev_price_std_vega"
   ],
   "note": "cdf clause for beta<1 only (beta>1 is NaN, see C38)."
  },
  {
   "property": "C83",
   "status": "proved",
   "theorems": [
    "PyFENG.Cev.cev_price_eq_expectation",
    "PyFENG.Cev.cev_price_beta_gt_one",
    "PyFENG.Cev.cev_price_bounds",
    "PyFENG.Cev.cev_mass_zero_mem"
   ],
   "note": "Above the machine-precision variance floor."
  },
  {
   "property": "C84",
   "status": "proved",
   "theorems": [
    "PyFENG.Cev.cevmc_step_exact",
    "PyFENG.Cev.cevmc_step_absorbed",
    "PyFENG.Cev.cevmc_step_nonneg",
    "PyFENG.Cev.cevmc_step_beta_gt_one_fails",
    "PyFENG.Cev.cev_mass_zero_t0"
   ],
   "note": "Single step; the step ignores is_fwd (spot is always a spot price). beta>1 fails."
  },
  {
   "property": "C85",
   "status": "proved",
   "theorems": [
    "PyFENG.Heston.logp_mv_correct",
    "PyFENG.Heston.strike_var_swap_correct",
    "PyFENG.Heston.strike_var_swap_continuous",
    "PyFENG.Cir.avg_mv_correct"
   ],
   "note": "mr != 0 (the code divides by mr)."
  },
  {
   "property": "C86",
   "status": "proved",
   "theorems": [
    "PyFENG.Cir.draw_ncx2_eq_pois_gamma",
    "PyFENG.Cir.draw_pois_gamma_mgf",
    "PyFENG.Cir.draw_pois_gamma_mv",
    "PyFENG.Cir.mgfVt_backward",
    "PyFENG.Cir.mgfVt_initial",
    "PyFENG.Cir.draw_chapman_kolmogorov",
    "PyFENG.Cir.draw_pois_gamma_nonneg"
   ],
   "note": "Random generators are expectation operators of the documented distributions."
  },
  {
   "property": "C87",
   "status": "partial",
   "theorems": [
    "PyFENG.Spec.gatheralJacquier_correct",
    "PyFENG.Heston.logp_mgf_long",
    "PyFENG.Svi.init_from_heston_formula",
    "PyFENG.Svi.init_from_heston_partial",
    "PyFENG.Svi.init_from_heston_wrong"
   ],
   "note": "The code uses sigma where the formula has vov: the property holds when they coincide (init_from_heston_partial) and is false otherwise (init_from_heston_wrong)."
  },
  {
   "property": "C88",
   "status": "proved",
   "theorems": [
    "PyFENG.sabr_fd_parity",
    "PyFENG.heston_cev_fd_parity",
    "PyFENG.heston_fd_parity",
    "PyFENG.heston_fd_homogeneous",
    "PyFENG.sabr_fd_homogeneous",
    "PyFENG.sabr_fd_boundary_wrong"
   ],
   "note": "sabr_fd_boundary_wrong documents that beta<=0 with a grid below zero is outside the property."
  },
  {
   "property": "C89",
   "status": "partial",
   "theorems": [
    "PyFENG.sabr_fd_operator",
    "PyFENG.heston_cev_fd_operator",
    "PyFENG.heston_fd_operator",
    "PyFENG.heston_cev_fd_scale_wrong"
   ],
   "note": "Proved for SABR and Heston; for CEV-Heston the discrete generator is that of the normalised coordinate without the factor F0^(beta-1) of the documented dynamics (heston_cev_fd_scale_wrong)."
  },
  {
   "property": "C90",
   "status": "proved",
   "theorems": [
    "PyFENG.SpreadOpt.kirk_zero_strike_exact",
    "PyFENG.SpreadOpt.bjerksund_zero_strike_exact"
   ],
   "note": ""
  },
  {
   "property": "C91",
   "status": "proved",
   "theorems": [
    "PyFENG.Max2.max2_price_exact"
   ],
   "note": ""
  },
  {
   "property": "C92",
   "status": "proved",
   "theorems": [
    "PyFENG.Basket1Bm.root_accuracy",
    "PyFENG.Basket1Bm.root_no_warning",
    "PyFENG.Basket1Bm.bm1_defined",
    "PyFENG.Basket1Bm.bm1_le_true",
    "PyFENG.Basket1Bm.bm1_error",
    "PyFENG.Basket1Bm.bm1_basket_accuracy",
    "PyFENG.Basket1Bm.bm1_nonpos_strike_exact"
   ],
   "note": "convergence without warning is proved for volatilities not too far apart; otherwise accuracy is conditional on no warning"
  },
  {
   "property": "C93",
   "status": "partial",
   "theorems": [
    "PyFENG.Choi2018.v_mat_correct",
    "PyFENG.Choi2018.lower_bound_defined",
    "PyFENG.Choi2018.lower_bound_le_true",
    "PyFENG.Choi2018.parity_of_weights",
    "PyFENG.Choi2018.lower_bound_parity",
    "PyFENG.Choi2018.quad_parity",
    "PyFENG.Choi2018.conditional_tower",
    "PyFENG.Choi2018.node_value",
    "PyFENG.Choi2018.quad_price_accuracy",
    "PyFENG.Choi2018.quad_price_error",
    "PyFENG.Choi2018.quad_defined"
   ],
   "note": "v_mat_correct excludes the identity shortcut of householder (first component within 100 eps of one), where the factorisation holds only approximately; numpy solve and svd enter as their defining equations; the price is the Gauss-Hermite quadrature of conditional prices within the root error (quad_price_accuracy), with no bound of the quadrature error of the outer sum itself"
  },
  {
   "property": "C94",
   "status": "proved",
   "theorems": [
    "PyFENG.Basket.levy_parity",
    "PyFENG.Basket.ju_parity",
    "PyFENG.Basket.levy_exact_one_factor",
    "PyFENG.Basket.ju_exact_one_factor",
    "PyFENG.Basket.milevsky_parity",
    "PyFENG.Basket.callMoment_basket",
    "PyFENG.Basket.ju_second_moment",
    "PyFENG.Basket.ju_third_fourth_moment"
   ],
   "note": ""
  },
  {
   "property": "C95",
   "status": "partial",
   "theorems": [
    "PyFENG.NdMc.norm_nd_mean",
    "PyFENG.NdMc.norm_nd_drift_wrong"
   ],
   "note": "disagreement: the code is unbiased for the driftless model only; norm_nd_drift_wrong proves the price of the asset itself wrong for every nonzero carry"
  },
  {
   "property": "C96",
   "status": "proved",
   "theorems": [
    "PyFENG.Sabr.cond_avgvar_mnc_correct",
    "PyFENG.Sabr.cond_avgvar_mvsk_correct"
   ],
   "note": "the branches for small vovn are truncated expansions and are excluded by hypothesis"
  },
  {
   "property": "C97",
   "status": "proved",
   "theorems": [
    "PyFENG.Sabr.hh_correct",
    "PyFENG.Sabr.hh_symm",
    "PyFENG.Sabr.hh_pos",
    "PyFENG.Sabr.norm_symm",
    "PyFENG.Sabr.norm_atmvol",
    "PyFENG.Sabr.hagan_smul",
    "PyFENG.Sabr.zero_vov",
    "PyFENG.Sabr.zero_vov_price",
    "PyFENG.Sabr.atm_agree"
   ],
   "note": "inside |z| < 1e-3 the code uses a Taylor polynomial for H: positivity and symmetry proved there, not the geodesic formula; atm_agree excludes beta within np.isclose of 1"
  },
  {
   "property": "C98",
   "status": "partial",
   "theorems": [
    "PyFENG.Sabr.fwd_consistent",
    "PyFENG.Sabr.hagan_fwd_consistent_partial",
    "PyFENG.Sabr.hagan_spot_wrong"
   ],
   "note": "disagreement: proved for the normal, Choi-Wu and Lorig classes; false for Hagan unless beta = 1 (hagan_spot_wrong)"
  },
  {
   "property": "C99",
   "status": "partial",
   "theorems": [
    "PyFENG.Sabr.mass_zero_raises",
    "PyFENG.Sabr.mass_zero_t0_geo",
    "PyFENG.Sabr.mass_zero_t0_limit"
   ],
   "note": "disagreement: mass_zero raises ValueError for every argument; mass_zero_t0 proved correct"
  }
 ]
}