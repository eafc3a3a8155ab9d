claim("C01", "proved", [P+"C01_generate_complete"])
claim("C02", "proved", [P+"C02_generate_sorted"])
claim("C03", "proved", [P+"C03_sizeof_card"])
claim("C04", "proved", [P+"C04_indexof_inverts"])
claim("C05", "proved", [P+"C05_gram_hankel_indices"])
claim("C06", "proved", [P+"C06_prefix"])
claim("C07", "proved", [P+"C07_extract",P+"C07_batched",P+"C07_index"], "")
claim("C08", "proved", [P+"C08_reproduces_moments"])
claim("C09", "proved", [P+"C09_weights_probability"])
claim("C10", "proved", [P+"C10_affine"])
claim("C11", "proved", [P+"C11_raw_central_scaled"])
claim("C12", "proved", [P+"C12_backend_independent"])
claim("C13", "proved", [P+"C13_ldl_option"])
claim("C14", "proved", [P+"C14_golub_welsch"])
claim("C15", "proved", [P+"C15_nodes_in_support"])
claim("C16", "proved", [P+"C16_discrete_recovery"])
claim("C17", "proved", [P+"C17_surplus_moment"])
claim("C18", "proved", [P+"C18_taylor_exact"])
claim("C55", "proved", [P+"C55_ldl_factorises", P+"C55_ldl_pivots_pos"])
claim("C56", "proved", [P+"C56_ldl_chol", P+"C56_default_eps"])
claim("C19", "proved", [P+"C19_cartesian_product"])
claim("C20", "partial", [P+"C20_legacy_product_wrong", P+"C20_legacy_product_partial", P+"C20_legacy_product_entries"], "The property is false for d >= 2: C20_legacy_product_wrong proves that nd_cartesian_prod_2 returns a row that is no combination whenever d, n >= 2 and the first two rows share no value. The partial theorem proves agreement for d = 1; C20_legacy_product_entries says which value every entry of the output is.")
claim("C21", "proved", [P+"C21_nd_reproduces"])
claim("C22", "proved", [P+"C22_nd_weights_sum_one", P+"C22_applies"])
claim("C23", "proved", [P+"C23_nd_one_dim"])
claim("C24", "proved", [P+"C24_nd_affine"])
claim("C25", "proved", [P+"C25_nd_backend_independent"], "Proved for all integrands, not only products.")
claim("C26", "proved", [P+"C26_normalised"])
claim("C27", "proved", [P+"C27_same_filter", P+"C27_same_filter_pos"], "The transition law is an arbitrary linear functional on polynomials with total mass 1.")
claim("C28", "proved", [P+"C28_causal_resumable"], "The three 1-D filters.")
claim("C29", "proved", [P+"C29_likelihood_scaling"])
claim("C30", "proved", [P+"C30_uninformative"])
claim("C31", "proved", [P+"C31_realisable"])
claim("C32", "proved", [P+"C32_records"])
claim("C33", "partial", [P+"C33_predicted_scale_wrong", P+"C33_predicted_scale_relation", P+"C33_predicted_scale_partial",P+"C33_predicted_scale_iff",P+"C33_in_filter"], "The property is false: the scale omits the variance of the conditional means (counterexample and exact relation proved). The partial theorem proves it for conditional means constant over the nodes.")
claim("C34", "proved", [P+"C34_wrong_size"])
claim("C35", "proved", [P+"C35_nd_normalised"])
claim("C36", "proved", [P+"C36_nd_same_filter"], "The transition law is an arbitrary linear functional on polynomials in d variables with total mass 1; N >= 2.")
claim("C37", "proved", [P+"C37_nd_one_dim"])
claim("C38", "proved", [P+"C38_index_signature"])
claim("C85", "proved", [P+"C85_nd_raw_central_scaled"])
claim("C86", "proved", [P+"C86_nd_causal_resumable"])
claim("C87", "proved", [P+"C87_nd_likelihood_scaling"])
claim("C39", "proved", [P+"C39_normal_moments"], "All p for raw moments; for central moments p = 0 holds iff SciPy's factorial2(-1) is 1 (true before SciPy 1.11), which is part of the theorem.")
claim("C40", "proved", [P+"C40_raw_to_central"])
claim("C41", "proved", [P+"C41_conversions_inverse"])
claim("C42", "proved", [P+"C42_transition_consistent"])
claim("C43", "partial", [P+"C43_scaled_wrong", P+"C43_scaled_value", P+"C43_scaled_partial",P+"C43_scaled_iff"], "The property is false: C43_scaled_wrong is a counterexample, C43_scaled_value gives what is returned, C43_scaled_partial the condition under which the property holds.")
claim("C44", "proved", [P+"C44_cumulants", P+"C44_first_cumulant_ignores_s1"])
claim("C45", "proved", [P+"C45_bell"])
claim("C46", "proved", [P+"C46_characteristic"])
claim("C47", "proved", [P+"C47_gaussian_sum", P+"C47_too_few_moments"])
claim("C48", "proved", [P+"C48_hermite"])
claim("C49", "proved", [P+"C49_gram_charlier", P+"C49_from_scaled_moments"])
claim("C50", "proved", [P+"C50_legendre"])
claim("C51", "partial", [P+"C51_legendre_wrong", P+"C51_legendre_value", P+"C51_legendre_partial",P+"C51_legendre_iff"], "The property is false: the code treats the supplied raw moments as moments of the standardised variable (C51_legendre_value); C51_legendre_wrong is a counterexample on [0, 1].")
claim("C52", "partial", [P+"C52_saddle_wrong", P+"C52_saddle_partial", P+"C52_polynomial_roots", P+"C52_repaired"], "The property is false: the coefficients of the saddle-point polynomial are searched instead of its roots. The partial theorem covers x = mean; the polynomial itself is right, and with its real roots in the place of the coefficients the property holds (C52_repaired).")
claim("C53", "proved", [P+"C53_truncated_cgf"])
claim("C88", "proved", [P+"C88_characteristic_from_pdf"])
claim("C89", "proved", [P+"C89_inverse_fourier"])
claim("C54", "proved", [P+"C54_discretise"], "Matrix exponential of Mathlib; the equality with the integral is entrywise.")
claim("C57", "proved", [P+"C57_lanczos"])
claim("C58", "proved", [P+"C58_ritz"])
claim("C60", "proved", [P+"C60_simulate_sde"], "The Gaussian increments are arbitrary inputs.")
claim("C61", "proved", [P+"C61_vmap_list"])
claim("C62", "proved", [P+"C62_binom"])
claim("C67", "proved", [P+"C67_kf_scalar"])
claim("C68", "partial", [P+"C68_kf_vector_wrong", P+"C68_kf_vector_shape", P+"C68_kf_vector_partial",P+"C68_kf_vector_iff",P+"C68_kf_vector_generic"], "The claim is false for the code: with dy > 1 the gain is H P diag(L)^-1 transposed, and dx != dy is a shape error. Proved: a counterexample, the failure of all dx != dy, and what the gain is.")
claim("C69", "partial", [P+"C69_log_mvn_wrong", P+"C69_log_mvn_value", P+"C69_log_mvn_partial",P+"C69_log_mvn_iff"], "The claim is false for the code: only the diagonal of the factor is used. Proved: a counterexample, the value actually computed, and the claim for diagonal factors.")
claim("C70", "proved", [P+"C70_rts", P+"C70_rts_after_kf"])
claim("C71", "proved", [P+"C71_ekf", P+"C71_sgp_scalar", P+"C71_sgp_vector", P+"C71_sgp_smoother"], "For vector measurements sgp_filter is compared with the exact Kalman step, because kf itself is wrong there (C68).")
claim("C84", "proved", [P+"C84_fields", P+"C84_filters", P+"C84_smoothers"])
claim("C72", "proved", [P+"C72_cubature", P+"C72_sigma_points"])
claim("C73", "proved", [P+"C73_roll_table"])
claim("C74", "proved", [P+"C74_gauss_hermite", P+"C74_gaussian_expectation", P+"C74_coefficients", P+"C74_second_order", P+"C74_roots_exist"], "np.roots is a parameter: distinct real roots of the polynomial passed to it. C74_roots_exist shows that such roots exist for every order.")
claim("C75", "proved", [P+"C75_rk4", P+"C75_rk4_affine"])
claim("C59","proved",[P+"C59_pcrlb_recursion",P+"C59_pcrlb_kf",P+"C59_pcrlb_symmetric"],"information recursion for every linear Gaussian model with positive definite Q, R, j0; equality with the kf covariances for scalar measurements (see C68 for vector ones); symmetry for all C2 log-densities")
claim("C76","proved",[P+"C76_in_range",P+"C76_sorted"],"the range holds whatever searchsorted returns; the order needs its contract and non-negative weights")
claim("C77","partial",[P+"C77_systematic_partial",P+"C77_systematic_within_one",P+"C77_systematic_refuted",P+"C77_systematic_zero"],"holds for offsets 0 < u < 1; at u = 0, which jax.random.uniform can draw, only 'within one' holds (counterexample proved)")
claim("C78","partial",[P+"C78_zero_weight_partial",P+"C78_zero_weight_refuted",P+"C78_zero_weight_iff"],"holds for positive draws; a zero draw selects particle 0 even if its weight is zero (counterexample proved)")
claim("C79","proved",[P+"C79_continuous"])
claim("C80","proved",[P+"C80_ancestors",P+"C80_nell",P+"C80_scale",P+"C80_positive_likelihood",P+"C80_particle_filter",P+"C80_continuous"])
claim("C81","proved",[P+"C81_normalised",P+"C81_nonneg",P+"C81_chapman",P+"C81_ingredients"])
claim("C82","partial",[P+"C82_unknown_method_partial",P+"C82_documented",P+"C82_unknown_method_refuted",P+"C82_classification"],"holds for strings that do not contain 'chapman'; for others the code raises other exceptions or accepts undocumented strings (counterexamples proved)")
claim("C83","proved",[P+"C83_bernoulli",P+"C83_poisson"])
claim("C90","proved",[P+"C90_systematic_unbiased",P+"C90_stratified_unbiased"])
claim("C91","proved",[P+"C91_particle_eq_bootstrap"])
claim("C92","proved",[P+"C92_scale_invariance"])
claim("C93","proved",[P+"C93_fokker_planck",P+"C93_quadratic"])
claim("C94","proved",[P+"C94_benes",P+"C94_prey_predator"])
claim("C63","proved",[P+"C63_kan"])
claim("C64","proved",[P+"C64_uniform"])
claim("C65","proved",[P+"C65_transition_consistent"],"for sde_cond_moments_tme_normal the covariance returned by the external package tme is assumed positive semidefinite and its two mean routines to agree")
claim("C66","proved",[P+"C66_gaussian_sum"])
claim("C95","proved",[P+"C95_mgf"])
claim("C96","proved",[P+"C96_tme"])
claim("C97","proved",[P+"C97_finite_state_exact"])
claim("C98","proved",[P+"C98_rule_shape"])
claim("C99","proved",[P+"C99_likelihood_normalised"])
claim("C100","proved",[P+"C100_total_expectation"])
claim("C101","proved",[P+"C101_nd_discrete_recovery"])
claim("C102","proved",[P+"C102_gaussian_sum_density"])
claim("C103","proved",[P+"C103_gaussian_sum_nd_density"],"jax.random draws are modelled as independent categorical and standard normal inputs")
claim("C104","proved",[P+"C104_satellite",P+"C104_milstein",P+"C104_well"])
claim("C105","proved",[P+"C105_kf_exact"],"scalar measurements, the case in which kf computes the update correctly for every state dimension (see C68)")
claim("C106","proved",[P+"C106_rts_exact"],"scalar measurements, as C105")
claim("C107","proved",[P+"C107_bootstrap_unbiased",P+"C107_schemes"],"keys are idealised: split yields independent keys, and the key given to the initial sampler, to the transition and to the resampler act as independent although the code derives them from each other; likelihoods are positive; searchsorted is the canonical one")
claim("C108","proved",[P+"C108_quadrature_converges"])
claim("C109","proved",[P+"C109_filters_converge"])
claim("C110","proved",[P+"C110_nd_finite_state_exact"])
claim("C111","proved",[P+"C111_polynomial_process_exact"])
claim("C112","proved",[P+"C112_normal_is_gauss_hermite"])
claim("C113","partial",[P+"C113_weights_nonneg_refuted",P+"C113_weights_nonneg_partial"],"false in general (counterexample proved); holds for d = 1 and for discrete laws in general position")
claim("C114","proved",[P+"C114_independent_coordinates"])
claim("C115","proved",[P+"C115_mvn_is_gauss_hermite"])
claim("C116","proved",[P+"C116_ou_experiment"])
claim("C117","proved",[P+"C117_script_kf"])
claim("C118","proved",[P+"C118_kl_error"])
claim("C119","proved",[P+"C119_optimal_proposal"])
claim("C120","proved",[P+"C120_parameter_map"])
claim("C121","proved",[P+"C121_cfs",P+"C121_cf_errors"])
claim("C122","partial",[P+"C122_ghf_estimate_wrong",P+"C122_ghf_estimate_partial"],"false (refuted for the script as written); holds only if both objectives coincide")
claim("C123","partial",[P+"C123_notebook_euler_wrong",P+"C123_notebook_euler_partial",P+"C123_notebook_euler_iff"],"false unless dt = 1 or the dispersion vanishes (refuted); dt = 1 proved")
claim("C124","proved",[P+"C124_multinomial_law",P+"C124_multinomial_unbiased",P+"C124_multinomial_scheme"])
claim("C125","proved",[P+"C125_scaled_units",P+"C125_raw_units",P+"C125_central_units",P+"C125_euler_units",P+"C125_euler_scaled_wrong"],"the scaled functions of sde_cond_moments_euler do not meet the hypotheses (C125_euler_scaled_wrong, a consequence of C43)")
claim("C126","proved",[P+"C126_never_breaks",P+"C126_same_filter",P+"C126_euler_never_breaks"])
claim("C127","partial",[P+"C127_nd_noise_refuted",P+"C127_nd_noise_partial"],"false in general (counterexample proved); holds for rules with non-negative weights")
claim("C128","proved",[P+"C128_benes",P+"C128_well",P+"C128_tme_normal"])
claim("C129","proved",[P+"C129_tme_consistent",P+"C129_tme_exact"],"tme.expectation, an external package, is modelled by its documented definition")
claim("C130","partial",[P+"C130_tme_valid_refuted",P+"C130_tme_valid_partial"],"false for N >= tme_order + 2 (refuted for every order); proved for Brownian motion and N <= tme_order + 1")
claim("C131","proved",[P+"C131_modes",P+"C131_benes_normal",P+"C131_benes_tme"],"tme as in C128 and C129")
claim("C132","proved",[P+"C132_prey_extract",P+"C132_prey_modes"])
claim("C133","proved",[P+"C133_quadrature_converges",P+"C133_filters_converge"])
claim("C134","proved",[P+"C134_ou_converges"],"the wrappers of the script are modelled as calling the library filters they shadow; double factorial with (-1)!! = 1")
claim("C135","proved",[P+"C135_euler_converges",P+"C135_benes_converges",P+"C135_tme_normal_converges"])
claim("C136","proved",[P+"C136_benes_errors"],"tme as a parameter")
claim("C137","proved",[P+"C137_nd_polynomial_process_exact"])
claim("C138","proved",[P+"C138_nd_likelihood_normalised",P+"C138_nd_total_expectation"],"positivity of the predictive likelihoods is a hypothesis (ND weights can be negative); C139 gives it for measurements of one coordinate")
claim("C139","proved",[P+"C139_nd_marginals",P+"C139_nd_likelihood_pos",P+"C139_nd_posterior_realisable"])
claim("C140","proved",[P+"C140_nd_nodes_functional",P+"C140_nd_nodes_in_box"])
claim("C141","proved",[P+"C141_nd_scaled_units",P+"C141_nd_central_origin"])
claim("C142","proved",[P+"C142_solution_exists",P+"C142_prediction_rate",P+"C142_kolmogorov_converges"])
claim("C143","proved",[P+"C143_nd_product_bound",P+"C143_nd_rule_converges",P+"C143_gram_posDef"],"integrands that are absolutely convergent sums of products of one-coordinate functions; general continuous integrands are not covered since the weights can be negative")
claim("C144","proved",[P+"C144_kf",P+"C144_ekf",P+"C144_eks",P+"C144_sgp",P+"C144_sgp_smoothers",P+"exists_cholCoord",P+"chol_coord_of_posDef"],"smoothers: the covariances that are factorised are positive definite; sigma-point filters: the Cholesky routine commutes with T also where it fails")
claim("C145","proved",[P+"C145_one_step",P+"C145_order_four",P+"C145_sgp_one_step",P+"C145_sgp_order_four",P+"C145_sgp_cov_order_four"],"covariances of cd_sgp_filter over a whole run: from a positive definite covariance, where its Cholesky factor exists")
claim("C146","proved",[P+"C146_cd_eks",P+"C146_cd_sgp_smoother",P+"C146_first_order_only"],"cd_sgp_smoother: from a positive definite smoothed covariance")
claim("C147","proved",[P+"C147_stratified",P+"C147_multinomial",P+"C147_systematic_refuted"])
claim("C148","proved",[P+"C148_bootstrap_mse",P+"C148_every_step",P+"C148_schemes"],"keys idealised as independent draws, as in C107; systematic is not covered (C147_systematic_refuted)")
claim("C149","proved",[P+"C149_particle_mse",P+"C148_schemes"],"keys idealised as independent draws, as in C107")
claim("C150","proved",[P+"C150_variation",P+"C150_ordered"],"the order matters: C147_systematic_refuted has a mean square error of 1/16 for every number of particles")
claim("C151","proved",[P+"C151_bound",P+"C151_monte_carlo"],"the information matrices inverted by the code are assumed invertible; expectations of the Hessians are assumed to exist")
claim("C152","proved",[P+"C152_chapman_euler",P+"C152_chapman_tme",P+"C152_benes_reference",P+"C152_benes_agree"],"for the tme methods the mean and variance of the package are assumed continuous with variance bounded from below (and of linear growth for the means of the experiment)")
claim("C153","proved",[P+"C153_benes_law",P+"C153_benes_moments",P+"C153_benes_mean_cov",P+"C153_benes_experiment"],"tme.expectation and tme.mean_and_cov are modelled by their documented definitions (Model/Tme); the law is identified by the Fokker-Planck equation and its initial condition, not by a construction of the SDE")
claim("C154","proved",[P+"C154_benes_exact_filter"],"the script uses tme order 3, which meets the condition for N = 2 only; see C130 for what can go wrong below")
claim("C155","proved",[P+"C155_rule_continuous",P+"C155_nodes_continuous",P+"C155_filter_rms",P+"C155_filter_cms",P+"C155_filter_scms",P+"C155_euler"],"")
claim("C156","proved",[P+"C156_second_order",P+"C156_edges",P+"C156_edges_inconsistent"],"the inconsistency at the ends is part of the statement; it is harmless when the density vanishes there")
claim("C157","proved",[P+"C157_rule_error",P+"C157_interval",P+"C157_characteristic",P+"C157_sharp",P+"C157_characteristic_normal"],"exact arithmetic")
claim("C158","proved",[P+"C158_filter_step_error"],"one measurement; the error is assumed smaller than the predictive likelihood")
claim("C159","partial",[P+"C159_draws",P+"C159_draws_nd",P+"C159_free",P+"C159_independent",P+"C159_prefix_refuted",P+"C159_reuse_refuted",P+"C159_two_refuted",P+"C159_prefix_cloud_refuted"],"false with two measurements for every generator, and always for prefix-stable generators; whether the installed JAX is prefix-stable is not checked here")
claim("C160","partial",[P+"C160_law_partial",P+"C160_law_refuted",P+"C160_differ_refuted"],"false when the key is used twice; true for independent draws")
claim("C161","partial",[P+"C161_free",P+"C161_benes_prefix",P+"C161_prey_draws",P+"C161_prey_run_draws",P+"C161_benes_run_draws",P+"C161_prey_refuted",P+"C161_measurement",P+"C161_cloud"],"false for prey_predator/pf.py with prefix-stable generators")
claim("C162","partial",[P+"C162_step_moments",P+"C162_recursion",P+"C162_invariant",P+"C162_runs",P+"C162_positive_partial",P+"C162_positive_refuted",P+"C162_simulate_refuted"],"positivity of the trajectory is false; everything else is proved")
claim("C163","proved",[P+"C163_sampler",P+"C163_sampler_nd"],"the joint law of the draws at the key and at its split key is a hypothesis on the generator; nonnegative variances in one dimension, positive definite covariances in several")
claim("C164","partial",[P+"C164_removed",P+"C164_curve",P+"C164_report",P+"C164_report_partial",P+"C164_report_refuted",P+"C164_compare_partial",P+"C164_compare_refuted",P+"C164_find_valid",P+"C164_find_valid_refuted",P+"C164_errors",P+"C164_curve_nan"],"the printed divergence count and the comparison of curves are false as stated; the conditions under which they hold are proved")
claim("C165","proved",[P+"C165_nd_rule_continuous"],"")
claim("C166","proved",[P+"C166_nd_rms_continuous",P+"C166_nd_cms_continuous",P+"C166_nd_scms_continuous"],"the good inputs are those whose run keeps positive definite Gram matrices and positive likelihoods")
claim("C167","proved",[P+"C167_rule_smooth",P+"C167_nodes_analytic",P+"C167_rule_derivative"],"")
claim("C168","proved",[P+"C168_rms_smooth",P+"C168_cms_smooth",P+"C168_scms_smooth",P+"C168_runs_valid",P+"C168_euler"],"")
claim("C169","proved",[P+"C169_nd_rule_smooth"],"")
claim("C170","proved",[P+"C170_nd_rms_smooth",P+"C170_nd_cms_smooth",P+"C170_nd_scms_smooth"],"")
claim("C171","proved",[P+"C171_rule_jvp",P+"C171_nodes_jvp"],"JAX's rules for cholesky, triangular_solve and eigh are modelled from JAX, which is not part of /repo; ldl=False")
claim("C172","proved",[P+"C172_rms_jvp",P+"C172_cms_jvp",P+"C172_scms_jvp",P+"C172_estimation"],"tangents of the user's functions are taken to be exact; stable=False; the option --euler of the script")
claim("C173","partial",[P+"C173_nd_rule_jvp_partial",P+"C173_nd_jvp_iff",P+"C173_nd_jvp_refuted",P+"C173_nd_jvp_refuted_two",P+"C173_nd_jvp_refuted_three"],"false as stated: if the first coordinate is independent of the others, the tangents divide by zero for all N >= 2 when d >= 3, and for all N >= 3, d >= 2 when its law is symmetric, although the rule is differentiable; proved: tangents are finite iff every coordinate takes pairwise distinct values at the nodes, and then they are right; ldl=False")
claim("C174","proved",[P+"C174_cms_centre_free",P+"C174_scms_centre_free",P+"C174_nd_cms_centre_free",P+"C174_nd_scms_centre_free"],"non-degeneracy of the predicted laws along the run is a hypothesis; in several dimensions also positivity of the predicted variances, since weights may be negative")
claim("C175","proved",[P+"C175_conti_continuousAt",P+"C175_conti_continuous",P+"C175_script_continuous",P+"C175_script_stratified_refuted",P+"C175_script_not_differentiable",P+"C175_fixed_weights_refuted"],"exact arithmetic; C175_conti_continuous and C175_script_continuous set the tolerance of jnp.interp to zero, C175_conti_continuousAt keeps it and asks that the weights exceed it; the witnesses use a generator without noise whose keys all coincide")
claim("C176","proved",[P+"C176_moments",P+"C176_tme_smooth",P+"C176_normal_smooth",P+"C176_estimation"],"exact arithmetic; the package tme is modelled by its documented definition; NaN is an Option, entering through powers of negative variances; the tangents of the functions handed to the filter are their exact derivatives")
claim("C177","proved",[P+"C177_moment_nan_iff",P+"C177_well_variance",P+"C177_objective_iff",P+"C177_nan_large",P+"C177_finite_small"],"NaN from powers of negative variances only; overflow is not modelled")
claim("C178","proved",[P+"C178_bootstrap_prob",P+"C178_particle_prob",P+"C178_linear_bootstrap"],"exact arithmetic; hypotheses on the random numbers as in C148 and C149; the filtering law is the given law eta that the unnormalised expectations of bounded functions are a multiple of")
claim("C179","proved",[P+"C179_keys",P+"C179_draws",P+"C179_errors",P+"C179_script","Mfs.Lemmas.treeGen_ideal"],"exact arithmetic; the generator is ideal in the sense of Spec/IdealGen, which is shown to be satisfiable; searchsorted by its contract")
claim("C180","proved",[P+"C180_ieee",P+"C180_collapse",P+"C180_script",P+"C180_mean",P+"C180_average",P+"C180_average_tendsto"],"exact arithmetic except that log 0 and division are as in floating point (extended reals); ideal generator; searchsorted by its contract")
claim("C181","proved",[P+"C181_errors",P+"C181_script",P+"C181_curves"],"exact arithmetic; ideal generator; searchsorted by its contract")
claim("C182","proved",[P+"C182_limit",P+"C182_variance",P+"C182_inconsistent",P+"C182_mean"],"exact arithmetic; ideal generator; the coincidence of the two first keys is a hypothesis, which holds by definition for two measurements; a positive")
claim("C183","proved",[P+"C183_resampling",P+"C183_bootstrap_mse",P+"C183_nell",P+"C183_linear",P+"C183_well"],"exact arithmetic; ideal generator; scalar states; functions of bounded variation; the double well with an initial sampler whose draws are independent of the step keys (that of the script is not: C160, C182)")
claim("C184","partial",[P+"C184_constant",P+"C184_not_integrable",P+"C184_tail",P+"C184_mean_partial"],"The property is false: C184_not_integrable and C184_tail refute it for whole families of moments. The partial theorem gives the value at the mean, the one point where it is right.")
claim("C185","proved",[P+"C185_best",P+"C185_converge",P+"C185_integrals",P+"C185_negative"],"Moments of the standardised variable, as C51 requires. Convergence in the integrated squared error, not pointwise.")
claim("C186","proved",[P+"C186_best",P+"C186_converge",P+"C186_total_variation",P+"C186_mixture",P+"C186_negative"],"Exact moments. Convergence in the weighted squared error and in mean, not pointwise. Nothing is said about densities with heavier tails.")
claim("C187","proved",[P+"C187_converge",P+"C187_approximations",P+"C187_fixed_nodes",P+"C187_from_moments",P+"C187_normal",P+"C187_fixed_moments"],"Exact arithmetic. The rate at which the three parameters have to grow is not given.")
claim("C188","proved",[P+"C188_converge",P+"C188_round_trip",P+"C188_normal",P+"C188_aliasing",P+"C188_not_uniform"],"Exact arithmetic; no rates.")
claim("C189","proved",[P+"C189_curves",P+"C189_plot",P+"C189_exact"],"Exact arithmetic. The script uses one fixed range [-9, 9], 2000 frequencies and N = 15; no error bound for these is given. The reference curve of the script uses 100 integration steps between two measurements and so belongs to another chain; it is not compared here.")
claim("C190","proved",[P+"C190_ekf",P+"C190_ekf_script",P+"C190_cd_ekf",P+"C190_sgp_reflection",P+"C190_ghf_reflection",P+"C190_ghf_responds",P+"C190_mf_reflection",P+"C190_mf_responds"],"Exact arithmetic. ghf_responds is about the first mean; the sign of later means depends on the data. The moment filters are those with sde_cond_moments_euler in the modes raw and central.")
claim("C191","proved",[P+"C191_gauss_rule",P+"C191_rule_converges",P+"C191_uniform",P+"C191_uniform_converges",P+"C191_gamma",P+"C191_gamma_converges",P+"C191_mixture"],"Exact arithmetic: in double precision the Hankel matrix of 22 raw moments of the gamma law is badly conditioned, which the model does not see.")
claim("C192","proved",[P+"C192_nd_rule_converges_whole",P+"C192_characteristic_function",P+"C192_gaussian_sum"],"Exact arithmetic. No rate of convergence.")
claim("C193","proved",[P+"C193_update_rms",P+"C193_update_cms",P+"C193_update_scms",P+"C193_first_step"],"One step from exact predicted moments; for later steps nothing follows, since the moments of a finite order need not stay those of a law (C113, C127).")
claim("C194","proved",[P+"C194_discretisation",P+"C194_angle",P+"C194_simulation",P+"C194_transition_moments",P+"linear_prediction",P+"C194_prediction",P+"C194_first_step",P+"C194_records"],"Exact arithmetic, signed zeros not modelled. Convergence of the first step as the order grows is not claimed: the likelihood jumps at the negative half axis and is not a sum of products, so C193 does not apply.")
claim("C195","proved",[P+"C195_loop",P+"C195_same_data",P+"C195_law",P+"C195_times",P+"C195_times_law",P+"C195_same_times_refuted",P+"C195_keys",P+"C195_keys_refuted"],"A NaN is a missing value; simulators and filters are arbitrary functions. The time of a filter is a function of the data. Independence of the attempts is a hypothesis about the generator.")
claim("C196","proved",[P+"C196_statistics",P+"C196_points",P+"C196_limit",P+"C196_comparison",P+"C196_comparison_refuted"],"A NaN is a missing value; arithmetic is exact. The limit is for the moment filter script; the particle filter draws with a key that the simulation may use.")
claim("C197","proved",[P+"C197_quantile",P+"C197_coverage",P+"C197_means",P+"C197_bands_refuted",P+"C197_curve_refuted",P+"C197_times",P+"C197_times_refuted"],"np.quantile is the sorted array with linear interpolation; a NaN is a missing value; arithmetic is exact.")
claim("C198","proved",[P+"C198_raw",P+"C198_central",P+"C198_scaled",P+"C198_noise",P+"C198_converges"],"Arithmetic is exact; the conditional moments are given by multi-index.")
claim("C199","proved",[P+"C199_marks",P+"C199_panels",P+"C199_box_marks",P+"C199_box_marks_refuted",P+"C199_box",P+"C199_polygon",P+"C199_gaussian_sum"],"C199_box_marks_refuted records that the three kinds of marks of the uniform panel overlap; polytope_integrate is assumed to return the integrals up to a common nonzero factor.")
claim("C200","proved",[P+"C200_hessian",P+"C200_limit",P+"C200_single",P+"C200_indefinite_refuted",P+"C200_prey",P+"C200_transition",P+"C200_likelihood",P+"C200_likelihood_refuted",P+"C200_run"],"tme.mean_and_cov is a parameter; derivatives are exact.")
claim("C201","partial",[P+"C201_matrix",P+"C201_value",P+"C201_documented_refuted",P+"C201_documented_partial",P+"C201_caller",P+"C201_errors"],"The part about three axes is false (refuted for every d >= 1 and n != k by shape, for n = k >= 2 by entries); it holds for arrays symmetric in the last two axes. Two axes, errors and the use in moment_quadrature_nd are proved.")
claim("C202","partial",["Mfs.Props.C202_runs","Mfs.Props.C202_names","Mfs.Props.C202_estimation","Mfs.Props.C202_benes","Mfs.Props.C202_benes_order","Mfs.Props.C202_convergence_refuted","Mfs.Props.C202_convergence_partial","Mfs.Props.C202_prey_refuted","Mfs.Props.C202_prey_replaced","Mfs.Props.C202_prey_partial"],"False for figures 3 and 7 (refuted for all numbers of runs and orders of the jobs); figures 4 and 6 hold if and only if at least 1000 runs are made. The shapes of the arrays in the files and interleaved jobs are not modelled.")
claim("C203","proved",["Mfs.Props.C203_brackets","Mfs.Props.C203_cdf","Mfs.Props.C203_intervals","Mfs.Props.C203_two_laws","Mfs.Props.C203_attained","Mfs.Props.C203_normal"],"Inequalities of Chebyshev, Markov and Stieltjes, by explicit polynomials that interpolate a step with double nodes.")
claim("C204","proved",["Mfs.Props.C204_breakdown_iff","Mfs.Props.C204_too_many","Mfs.Props.C204_full","Mfs.Props.C204_repeated","Mfs.Props.C204_docstring_refuted","Mfs.Props.C204_ritz"],"Breakdown is a vanishing off-diagonal entry, which the code divides by. The docstring claim that any unit vector will do is refuted.")
claim("C205","proved",["Mfs.Props.C205_uniform","Mfs.Props.C205_weights","Mfs.Props.C205_normal"],"Weak convergence (C191), portmanteau, and uniformity for continuous limits (Polya).")
claim("C206","proved",["Mfs.Props.C206_semigroup","Mfs.Props.C206_paths","Mfs.Props.C206_rate","Mfs.Props.C206_benes","Mfs.Props.C206_benes_rate","Mfs.Props.C206_single_step","Mfs.Props.C206_keys"],"Increments are independent standard normal variables; C206_keys has the keys of an ideal generator.")
claim("C207","proved",["Mfs.Props.C207_exact","Mfs.Props.C207_steps","Mfs.Props.C207_semigroup","Mfs.Props.C207_keys"],"The covariance of one step must be positive definite, as jnp.linalg.cholesky requires.")
claim("C208","proved",["Mfs.Props.C208_filters","Mfs.Props.C208_nd","Mfs.Props.C208_parameters","Mfs.Props.C208_limit","Mfs.Props.C208_benes"],"Several dimensions: the predictive probabilities that occur must be positive (C113: weights may be negative).")
claim("C209","proved",["Mfs.Props.C209_kf","Mfs.Props.C209_parameters"],"Scalar measurements; with several the gain of kf is wrong (C68).")
claim("C210","proved",["Mfs.Props.C210_ekf","Mfs.Props.C210_linear_data"],"Scalar measurements; with several the gain is wrong (C68).")
claim("C211","proved",["Mfs.Props.C211_filters","Mfs.Props.C211_linear_data","Mfs.Props.C211_parameters"],"")
claim("C212","proved",["Mfs.Props.C212_filter","Mfs.Props.C212_smoother","Mfs.Props.C212_rules"],"")
claim("C213","proved",["Mfs.Props.C213_sgp","Mfs.Props.C213_linear_data"],"")
claim("C214","proved",["Mfs.Props.C214_ekf_eks","Mfs.Props.C214_sgp"],"")
claim("C215","proved",["Mfs.Props.C215_integrals","Mfs.Props.C215_order","Mfs.Props.C215_roots","Mfs.Props.C215_const"],"")
claim("C216","proved",["Mfs.Props.C216_filters","Mfs.Props.C216_smoothers"],"")
claim("C217","proved",["Mfs.Props.C217_kalman","Mfs.Props.C217_sgp","Mfs.Props.C217_cd_ekf","Mfs.Props.C217_sgp_mix"],"C217_cd_ekf: the means and covariances only, for every model. C217_sgp_mix: the means and covariances of sgp_filter under all invertible linear combinations of the measurements.")
claim("C218","partial",["Mfs.Props.C218_kf_vector_units_partial","Mfs.Props.C218_kf_vector_units_wrong"],"The claim is false for the code: the gain does not change with the units, so the corrections of mean and covariance are multiplied by a and a^2, and for every model in which the measurements depend on the state there are units in which the reported covariance is not positive semidefinite. The likelihood of the first measurement changes as claimed.")
