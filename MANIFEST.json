{
 "claims": [
  {
   "property": "C01",
   "status": "proved",
   "theorems": [
    "Mfs.Props.C01_generate_complete"
   ],
   "note": ""
  },
  {
   "property": "C02",
   "status": "proved",
   "theorems": [
    "Mfs.Props.C02_generate_sorted"
   ],
   "note": ""
  },
  {
   "property": "C03",
   "status": "proved",
   "theorems": [
    "Mfs.Props.C03_sizeof_card"
   ],
   "note": ""
  },
  {
   "property": "C04",
   "status": "proved",
   "theorems": [
    "Mfs.Props.C04_indexof_inverts"
   ],
   "note": ""
  },
  {
   "property": "C05",
   "status": "proved",
   "theorems": [
    "Mfs.Props.C05_gram_hankel_indices"
   ],
   "note": ""
  },
  {
   "property": "C06",
   "status": "proved",
   "theorems": [
    "Mfs.Props.C06_prefix"
   ],
   "note": ""
  },
  {
   "property": "C07",
   "status": "proved",
   "theorems": [
    "Mfs.Props.C07_extract",
    "Mfs.Props.C07_batched",
    "Mfs.Props.C07_index"
   ],
   "note": ""
  },
  {
   "property": "C08",
   "status": "proved",
   "theorems": [
    "Mfs.Props.C08_reproduces_moments"
   ],
   "note": ""
  },
  {
   "property": "C09",
   "status": "proved",
   "theorems": [
    "Mfs.Props.C09_weights_probability"
   ],
   "note": ""
  },
  {
   "property": "C10",
   "status": "proved",
   "theorems": [
    "Mfs.Props.C10_affine"
   ],
   "note": ""
  },
  {
   "property": "C100",
   "status": "proved",
   "theorems": [
    "Mfs.Props.C100_total_expectation"
   ],
   "note": ""
  },
  {
   "property": "C101",
   "status": "proved",
   "theorems": [
    "Mfs.Props.C101_nd_discrete_recovery"
   ],
   "note": ""
  },
  {
   "property": "C102",
   "status": "proved",
   "theorems": [
    "Mfs.Props.C102_gaussian_sum_density"
   ],
   "note": ""
  },
  {
   "property": "C103",
   "status": "proved",
   "theorems": [
    "Mfs.Props.C103_gaussian_sum_nd_density"
   ],
   "note": "jax.random draws are modelled as independent categorical and standard normal inputs"
  },
  {
   "property": "C104",
   "status": "proved",
   "theorems": [
    "Mfs.Props.C104_satellite",
    "Mfs.Props.C104_milstein",
    "Mfs.Props.C104_well"
   ],
   "note": ""
  },
  {
   "property": "C105",
   "status": "proved",
   "theorems": [
    "Mfs.Props.C105_kf_exact"
   ],
   "note": "scalar measurements, the case in which kf computes the update correctly for every state dimension (see C68)"
  },
  {
   "property": "C106",
   "status": "proved",
   "theorems": [
    "Mfs.Props.C106_rts_exact"
   ],
   "note": "scalar measurements, as C105"
  },
  {
   "property": "C107",
   "status": "proved",
   "theorems": [
    "Mfs.Props.C107_bootstrap_unbiased",
    "Mfs.Props.C107_schemes"
   ],
   "note": "keys are idealised: split yields independent keys, and the key given to the initial sampler, to the transition and to the resampler act as independent although the code derives them from each other; likelihoods are positive; searchsorted is the canonical one"
  },
  {
   "property": "C108",
   "status": "proved",
   "theorems": [
    "Mfs.Props.C108_quadrature_converges"
   ],
   "note": ""
  },
  {
   "property": "C109",
   "status": "proved",
   "theorems": [
    "Mfs.Props.C109_filters_converge"
   ],
   "note": ""
  },
  {
   "property": "C11",
   "status": "proved",
   "theorems": [
    "Mfs.Props.C11_raw_central_scaled"
   ],
   "note": ""
  },
  {
   "property": "C110",
   "status": "proved",
   "theorems": [
    "Mfs.Props.C110_nd_finite_state_exact"
   ],
   "note": ""
  },
  {
   "property": "C111",
   "status": "proved",
   "theorems": [
    "Mfs.Props.C111_polynomial_process_exact"
   ],
   "note": ""
  },
  {
   "property": "C112",
   "status": "proved",
   "theorems": [
    "Mfs.Props.C112_normal_is_gauss_hermite"
   ],
   "note": ""
  },
  {
   "property": "C113",
   "status": "partial",
   "theorems": [
    "Mfs.Props.C113_weights_nonneg_refuted",
    "Mfs.Props.C113_weights_nonneg_partial"
   ],
   "note": "false in general (counterexample proved); holds for d = 1 and for discrete laws in general position"
  },
  {
   "property": "C114",
   "status": "proved",
   "theorems": [
    "Mfs.Props.C114_independent_coordinates"
   ],
   "note": ""
  },
  {
   "property": "C115",
   "status": "proved",
   "theorems": [
    "Mfs.Props.C115_mvn_is_gauss_hermite"
   ],
   "note": ""
  },
  {
   "property": "C116",
   "status": "proved",
   "theorems": [
    "Mfs.Props.C116_ou_experiment"
   ],
   "note": ""
  },
  {
   "property": "C117",
   "status": "proved",
   "theorems": [
    "Mfs.Props.C117_script_kf"
   ],
   "note": ""
  },
  {
   "property": "C118",
   "status": "proved",
   "theorems": [
    "Mfs.Props.C118_kl_error"
   ],
   "note": ""
  },
  {
   "property": "C119",
   "status": "proved",
   "theorems": [
    "Mfs.Props.C119_optimal_proposal"
   ],
   "note": ""
  },
  {
   "property": "C12",
   "status": "proved",
   "theorems": [
    "Mfs.Props.C12_backend_independent"
   ],
   "note": ""
  },
  {
   "property": "C120",
   "status": "proved",
   "theorems": [
    "Mfs.Props.C120_parameter_map"
   ],
   "note": ""
  },
  {
   "property": "C121",
   "status": "proved",
   "theorems": [
    "Mfs.Props.C121_cfs",
    "Mfs.Props.C121_cf_errors"
   ],
   "note": ""
  },
  {
   "property": "C122",
   "status": "partial",
   "theorems": [
    "Mfs.Props.C122_ghf_estimate_wrong",
    "Mfs.Props.C122_ghf_estimate_partial"
   ],
   "note": "false (refuted for the script as written); holds only if both objectives coincide"
  },
  {
   "property": "C123",
   "status": "partial",
   "theorems": [
    "Mfs.Props.C123_notebook_euler_wrong",
    "Mfs.Props.C123_notebook_euler_partial",
    "Mfs.Props.C123_notebook_euler_iff"
   ],
   "note": "false unless dt = 1 or the dispersion vanishes (refuted); dt = 1 proved"
  },
  {
   "property": "C124",
   "status": "proved",
   "theorems": [
    "Mfs.Props.C124_multinomial_law",
    "Mfs.Props.C124_multinomial_unbiased",
    "Mfs.Props.C124_multinomial_scheme"
   ],
   "note": ""
  },
  {
   "property": "C125",
   "status": "proved",
   "theorems": [
    "Mfs.Props.C125_scaled_units",
    "Mfs.Props.C125_raw_units",
    "Mfs.Props.C125_central_units",
    "Mfs.Props.C125_euler_units",
    "Mfs.Props.C125_euler_scaled_wrong"
   ],
   "note": "the scaled functions of sde_cond_moments_euler do not meet the hypotheses (C125_euler_scaled_wrong, a consequence of C43)"
  },
  {
   "property": "C126",
   "status": "proved",
   "theorems": [
    "Mfs.Props.C126_never_breaks",
    "Mfs.Props.C126_same_filter",
    "Mfs.Props.C126_euler_never_breaks"
   ],
   "note": ""
  },
  {
   "property": "C127",
   "status": "partial",
   "theorems": [
    "Mfs.Props.C127_nd_noise_refuted",
    "Mfs.Props.C127_nd_noise_partial"
   ],
   "note": "false in general (counterexample proved); holds for rules with non-negative weights"
  },
  {
   "property": "C128",
   "status": "proved",
   "theorems": [
    "Mfs.Props.C128_benes",
    "Mfs.Props.C128_well",
    "Mfs.Props.C128_tme_normal"
   ],
   "note": ""
  },
  {
   "property": "C129",
   "status": "proved",
   "theorems": [
    "Mfs.Props.C129_tme_consistent",
    "Mfs.Props.C129_tme_exact"
   ],
   "note": "tme.expectation, an external package, is modelled by its documented definition"
  },
  {
   "property": "C13",
   "status": "proved",
   "theorems": [
    "Mfs.Props.C13_ldl_option"
   ],
   "note": ""
  },
  {
   "property": "C130",
   "status": "partial",
   "theorems": [
    "Mfs.Props.C130_tme_valid_refuted",
    "Mfs.Props.C130_tme_valid_partial"
   ],
   "note": "false for N >= tme_order + 2 (refuted for every order); proved for Brownian motion and N <= tme_order + 1"
  },
  {
   "property": "C131",
   "status": "proved",
   "theorems": [
    "Mfs.Props.C131_modes",
    "Mfs.Props.C131_benes_normal",
    "Mfs.Props.C131_benes_tme"
   ],
   "note": "tme as in C128 and C129"
  },
  {
   "property": "C132",
   "status": "proved",
   "theorems": [
    "Mfs.Props.C132_prey_extract",
    "Mfs.Props.C132_prey_modes"
   ],
   "note": ""
  },
  {
   "property": "C133",
   "status": "proved",
   "theorems": [
    "Mfs.Props.C133_quadrature_converges",
    "Mfs.Props.C133_filters_converge"
   ],
   "note": ""
  },
  {
   "property": "C134",
   "status": "proved",
   "theorems": [
    "Mfs.Props.C134_ou_converges"
   ],
   "note": "the wrappers of the script are modelled as calling the library filters they shadow; double factorial with (-1)!! = 1"
  },
  {
   "property": "C135",
   "status": "proved",
   "theorems": [
    "Mfs.Props.C135_euler_converges",
    "Mfs.Props.C135_benes_converges",
    "Mfs.Props.C135_tme_normal_converges"
   ],
   "note": ""
  },
  {
   "property": "C136",
   "status": "proved",
   "theorems": [
    "Mfs.Props.C136_benes_errors"
   ],
   "note": "tme as a parameter"
  },
  {
   "property": "C137",
   "status": "proved",
   "theorems": [
    "Mfs.Props.C137_nd_polynomial_process_exact"
   ],
   "note": ""
  },
  {
   "property": "C138",
   "status": "proved",
   "theorems": [
    "Mfs.Props.C138_nd_likelihood_normalised",
    "Mfs.Props.C138_nd_total_expectation"
   ],
   "note": "positivity of the predictive likelihoods is a hypothesis (ND weights can be negative); C139 gives it for measurements of one coordinate"
  },
  {
   "property": "C139",
   "status": "proved",
   "theorems": [
    "Mfs.Props.C139_nd_marginals",
    "Mfs.Props.C139_nd_likelihood_pos",
    "Mfs.Props.C139_nd_posterior_realisable"
   ],
   "note": ""
  },
  {
   "property": "C14",
   "status": "proved",
   "theorems": [
    "Mfs.Props.C14_golub_welsch"
   ],
   "note": ""
  },
  {
   "property": "C140",
   "status": "proved",
   "theorems": [
    "Mfs.Props.C140_nd_nodes_functional",
    "Mfs.Props.C140_nd_nodes_in_box"
   ],
   "note": ""
  },
  {
   "property": "C141",
   "status": "proved",
   "theorems": [
    "Mfs.Props.C141_nd_scaled_units",
    "Mfs.Props.C141_nd_central_origin"
   ],
   "note": ""
  },
  {
   "property": "C142",
   "status": "proved",
   "theorems": [
    "Mfs.Props.C142_solution_exists",
    "Mfs.Props.C142_prediction_rate",
    "Mfs.Props.C142_kolmogorov_converges"
   ],
   "note": ""
  },
  {
   "property": "C143",
   "status": "proved",
   "theorems": [
    "Mfs.Props.C143_nd_product_bound",
    "Mfs.Props.C143_nd_rule_converges",
    "Mfs.Props.C143_gram_posDef"
   ],
   "note": "integrands that are absolutely convergent sums of products of one-coordinate functions; general continuous integrands are not covered since the weights can be negative"
  },
  {
   "property": "C144",
   "status": "proved",
   "theorems": [
    "Mfs.Props.C144_kf",
    "Mfs.Props.C144_ekf",
    "Mfs.Props.C144_eks",
    "Mfs.Props.C144_sgp",
    "Mfs.Props.C144_sgp_smoothers",
    "Mfs.Props.exists_cholCoord",
    "Mfs.Props.chol_coord_of_posDef"
   ],
   "note": "smoothers: the covariances that are factorised are positive definite; sigma-point filters: the Cholesky routine commutes with T also where it fails"
  },
  {
   "property": "C145",
   "status": "proved",
   "theorems": [
    "Mfs.Props.C145_one_step",
    "Mfs.Props.C145_order_four",
    "Mfs.Props.C145_sgp_one_step",
    "Mfs.Props.C145_sgp_order_four",
    "Mfs.Props.C145_sgp_cov_order_four"
   ],
   "note": "covariances of cd_sgp_filter over a whole run: from a positive definite covariance, where its Cholesky factor exists"
  },
  {
   "property": "C146",
   "status": "proved",
   "theorems": [
    "Mfs.Props.C146_cd_eks",
    "Mfs.Props.C146_cd_sgp_smoother",
    "Mfs.Props.C146_first_order_only"
   ],
   "note": "cd_sgp_smoother: from a positive definite smoothed covariance"
  },
  {
   "property": "C147",
   "status": "proved",
   "theorems": [
    "Mfs.Props.C147_stratified",
    "Mfs.Props.C147_multinomial",
    "Mfs.Props.C147_systematic_refuted"
   ],
   "note": ""
  },
  {
   "property": "C148",
   "status": "proved",
   "theorems": [
    "Mfs.Props.C148_bootstrap_mse",
    "Mfs.Props.C148_every_step",
    "Mfs.Props.C148_schemes"
   ],
   "note": "keys idealised as independent draws, as in C107; systematic is not covered (C147_systematic_refuted)"
  },
  {
   "property": "C149",
   "status": "proved",
   "theorems": [
    "Mfs.Props.C149_particle_mse",
    "Mfs.Props.C148_schemes"
   ],
   "note": "keys idealised as independent draws, as in C107"
  },
  {
   "property": "C15",
   "status": "proved",
   "theorems": [
    "Mfs.Props.C15_nodes_in_support"
   ],
   "note": ""
  },
  {
   "property": "C150",
   "status": "proved",
   "theorems": [
    "Mfs.Props.C150_variation",
    "Mfs.Props.C150_ordered"
   ],
   "note": "the order matters: C147_systematic_refuted has a mean square error of 1/16 for every number of particles"
  },
  {
   "property": "C151",
   "status": "proved",
   "theorems": [
    "Mfs.Props.C151_bound",
    "Mfs.Props.C151_monte_carlo"
   ],
   "note": "the information matrices inverted by the code are assumed invertible; expectations of the Hessians are assumed to exist"
  },
  {
   "property": "C152",
   "status": "proved",
   "theorems": [
    "Mfs.Props.C152_chapman_euler",
    "Mfs.Props.C152_chapman_tme",
    "Mfs.Props.C152_benes_reference",
    "Mfs.Props.C152_benes_agree"
   ],
   "note": "for the tme methods the mean and variance of the package are assumed continuous with variance bounded from below (and of linear growth for the means of the experiment)"
  },
  {
   "property": "C153",
   "status": "proved",
   "theorems": [
    "Mfs.Props.C153_benes_law",
    "Mfs.Props.C153_benes_moments",
    "Mfs.Props.C153_benes_mean_cov",
    "Mfs.Props.C153_benes_experiment"
   ],
   "note": "tme.expectation and tme.mean_and_cov are modelled by their documented definitions (Model/Tme); the law is identified by the Fokker-Planck equation and its initial condition, not by a construction of the SDE"
  },
  {
   "property": "C154",
   "status": "proved",
   "theorems": [
    "Mfs.Props.C154_benes_exact_filter"
   ],
   "note": "the script uses tme order 3, which meets the condition for N = 2 only; see C130 for what can go wrong below"
  },
  {
   "property": "C155",
   "status": "proved",
   "theorems": [
    "Mfs.Props.C155_rule_continuous",
    "Mfs.Props.C155_nodes_continuous",
    "Mfs.Props.C155_filter_rms",
    "Mfs.Props.C155_filter_cms",
    "Mfs.Props.C155_filter_scms",
    "Mfs.Props.C155_euler"
   ],
   "note": ""
  },
  {
   "property": "C156",
   "status": "proved",
   "theorems": [
    "Mfs.Props.C156_second_order",
    "Mfs.Props.C156_edges",
    "Mfs.Props.C156_edges_inconsistent"
   ],
   "note": "the inconsistency at the ends is part of the statement; it is harmless when the density vanishes there"
  },
  {
   "property": "C157",
   "status": "proved",
   "theorems": [
    "Mfs.Props.C157_rule_error",
    "Mfs.Props.C157_interval",
    "Mfs.Props.C157_characteristic",
    "Mfs.Props.C157_sharp",
    "Mfs.Props.C157_characteristic_normal"
   ],
   "note": "exact arithmetic"
  },
  {
   "property": "C158",
   "status": "proved",
   "theorems": [
    "Mfs.Props.C158_filter_step_error"
   ],
   "note": "one measurement; the error is assumed smaller than the predictive likelihood"
  },
  {
   "property": "C159",
   "status": "partial",
   "theorems": [
    "Mfs.Props.C159_draws",
    "Mfs.Props.C159_draws_nd",
    "Mfs.Props.C159_free",
    "Mfs.Props.C159_independent",
    "Mfs.Props.C159_prefix_refuted",
    "Mfs.Props.C159_reuse_refuted",
    "Mfs.Props.C159_two_refuted",
    "Mfs.Props.C159_prefix_cloud_refuted"
   ],
   "note": "false with two measurements for every generator, and always for prefix-stable generators; whether the installed JAX is prefix-stable is not checked here"
  },
  {
   "property": "C16",
   "status": "proved",
   "theorems": [
    "Mfs.Props.C16_discrete_recovery"
   ],
   "note": ""
  },
  {
   "property": "C160",
   "status": "partial",
   "theorems": [
    "Mfs.Props.C160_law_partial",
    "Mfs.Props.C160_law_refuted",
    "Mfs.Props.C160_differ_refuted"
   ],
   "note": "false when the key is used twice; true for independent draws"
  },
  {
   "property": "C161",
   "status": "partial",
   "theorems": [
    "Mfs.Props.C161_free",
    "Mfs.Props.C161_benes_prefix",
    "Mfs.Props.C161_prey_draws",
    "Mfs.Props.C161_prey_run_draws",
    "Mfs.Props.C161_benes_run_draws",
    "Mfs.Props.C161_prey_refuted",
    "Mfs.Props.C161_measurement",
    "Mfs.Props.C161_cloud"
   ],
   "note": "false for prey_predator/pf.py with prefix-stable generators"
  },
  {
   "property": "C162",
   "status": "partial",
   "theorems": [
    "Mfs.Props.C162_step_moments",
    "Mfs.Props.C162_recursion",
    "Mfs.Props.C162_invariant",
    "Mfs.Props.C162_runs",
    "Mfs.Props.C162_positive_partial",
    "Mfs.Props.C162_positive_refuted",
    "Mfs.Props.C162_simulate_refuted"
   ],
   "note": "positivity of the trajectory is false; everything else is proved"
  },
  {
   "property": "C163",
   "status": "proved",
   "theorems": [
    "Mfs.Props.C163_sampler",
    "Mfs.Props.C163_sampler_nd"
   ],
   "note": "the joint law of the draws at the key and at its split key is a hypothesis on the generator; nonnegative variances in one dimension, positive definite covariances in several"
  },
  {
   "property": "C164",
   "status": "partial",
   "theorems": [
    "Mfs.Props.C164_removed",
    "Mfs.Props.C164_curve",
    "Mfs.Props.C164_report",
    "Mfs.Props.C164_report_partial",
    "Mfs.Props.C164_report_refuted",
    "Mfs.Props.C164_compare_partial",
    "Mfs.Props.C164_compare_refuted",
    "Mfs.Props.C164_find_valid",
    "Mfs.Props.C164_find_valid_refuted",
    "Mfs.Props.C164_errors",
    "Mfs.Props.C164_curve_nan"
   ],
   "note": "the printed divergence count and the comparison of curves are false as stated; the conditions under which they hold are proved"
  },
  {
   "property": "C165",
   "status": "proved",
   "theorems": [
    "Mfs.Props.C165_nd_rule_continuous"
   ],
   "note": ""
  },
  {
   "property": "C166",
   "status": "proved",
   "theorems": [
    "Mfs.Props.C166_nd_rms_continuous",
    "Mfs.Props.C166_nd_cms_continuous",
    "Mfs.Props.C166_nd_scms_continuous"
   ],
   "note": "the good inputs are those whose run keeps positive definite Gram matrices and positive likelihoods"
  },
  {
   "property": "C167",
   "status": "proved",
   "theorems": [
    "Mfs.Props.C167_rule_smooth",
    "Mfs.Props.C167_nodes_analytic",
    "Mfs.Props.C167_rule_derivative"
   ],
   "note": ""
  },
  {
   "property": "C168",
   "status": "proved",
   "theorems": [
    "Mfs.Props.C168_rms_smooth",
    "Mfs.Props.C168_cms_smooth",
    "Mfs.Props.C168_scms_smooth",
    "Mfs.Props.C168_runs_valid",
    "Mfs.Props.C168_euler"
   ],
   "note": ""
  },
  {
   "property": "C169",
   "status": "proved",
   "theorems": [
    "Mfs.Props.C169_nd_rule_smooth"
   ],
   "note": ""
  },
  {
   "property": "C17",
   "status": "proved",
   "theorems": [
    "Mfs.Props.C17_surplus_moment"
   ],
   "note": ""
  },
  {
   "property": "C170",
   "status": "proved",
   "theorems": [
    "Mfs.Props.C170_nd_rms_smooth",
    "Mfs.Props.C170_nd_cms_smooth",
    "Mfs.Props.C170_nd_scms_smooth"
   ],
   "note": ""
  },
  {
   "property": "C171",
   "status": "proved",
   "theorems": [
    "Mfs.Props.C171_rule_jvp",
    "Mfs.Props.C171_nodes_jvp"
   ],
   "note": "JAX's rules for cholesky, triangular_solve and eigh are modelled from JAX, which is not part of /repo; ldl=False"
  },
  {
   "property": "C172",
   "status": "proved",
   "theorems": [
    "Mfs.Props.C172_rms_jvp",
    "Mfs.Props.C172_cms_jvp",
    "Mfs.Props.C172_scms_jvp",
    "Mfs.Props.C172_estimation"
   ],
   "note": "tangents of the user's functions are taken to be exact; stable=False; the option --euler of the script"
  },
  {
   "property": "C173",
   "status": "partial",
   "theorems": [
    "Mfs.Props.C173_nd_rule_jvp_partial",
    "Mfs.Props.C173_nd_jvp_iff",
    "Mfs.Props.C173_nd_jvp_refuted",
    "Mfs.Props.C173_nd_jvp_refuted_two",
    "Mfs.Props.C173_nd_jvp_refuted_three"
   ],
   "note": "false as stated: if the first coordinate is independent of the others, the tangents divide by zero for all N >= 2 when d >= 3, and for all N >= 3, d >= 2 when its law is symmetric, although the rule is differentiable; proved: tangents are finite iff every coordinate takes pairwise distinct values at the nodes, and then they are right; ldl=False"
  },
  {
   "property": "C174",
   "status": "proved",
   "theorems": [
    "Mfs.Props.C174_cms_centre_free",
    "Mfs.Props.C174_scms_centre_free",
    "Mfs.Props.C174_nd_cms_centre_free",
    "Mfs.Props.C174_nd_scms_centre_free"
   ],
   "note": "non-degeneracy of the predicted laws along the run is a hypothesis; in several dimensions also positivity of the predicted variances, since weights may be negative"
  },
  {
   "property": "C175",
   "status": "proved",
   "theorems": [
    "Mfs.Props.C175_conti_continuousAt",
    "Mfs.Props.C175_conti_continuous",
    "Mfs.Props.C175_script_continuous",
    "Mfs.Props.C175_script_stratified_refuted",
    "Mfs.Props.C175_script_not_differentiable",
    "Mfs.Props.C175_fixed_weights_refuted"
   ],
   "note": "exact arithmetic; C175_conti_continuous and C175_script_continuous set the tolerance of jnp.interp to zero, C175_conti_continuousAt keeps it and asks that the weights exceed it; the witnesses use a generator without noise whose keys all coincide"
  },
  {
   "property": "C176",
   "status": "proved",
   "theorems": [
    "Mfs.Props.C176_moments",
    "Mfs.Props.C176_tme_smooth",
    "Mfs.Props.C176_normal_smooth",
    "Mfs.Props.C176_estimation"
   ],
   "note": "exact arithmetic; the package tme is modelled by its documented definition; NaN is an Option, entering through powers of negative variances; the tangents of the functions handed to the filter are their exact derivatives"
  },
  {
   "property": "C177",
   "status": "proved",
   "theorems": [
    "Mfs.Props.C177_moment_nan_iff",
    "Mfs.Props.C177_well_variance",
    "Mfs.Props.C177_objective_iff",
    "Mfs.Props.C177_nan_large",
    "Mfs.Props.C177_finite_small"
   ],
   "note": "NaN from powers of negative variances only; overflow is not modelled"
  },
  {
   "property": "C178",
   "status": "proved",
   "theorems": [
    "Mfs.Props.C178_bootstrap_prob",
    "Mfs.Props.C178_particle_prob",
    "Mfs.Props.C178_linear_bootstrap"
   ],
   "note": "exact arithmetic; hypotheses on the random numbers as in C148 and C149; the filtering law is the given law eta that the unnormalised expectations of bounded functions are a multiple of"
  },
  {
   "property": "C179",
   "status": "proved",
   "theorems": [
    "Mfs.Props.C179_keys",
    "Mfs.Props.C179_draws",
    "Mfs.Props.C179_errors",
    "Mfs.Props.C179_script",
    "Mfs.Lemmas.treeGen_ideal"
   ],
   "note": "exact arithmetic; the generator is ideal in the sense of Spec/IdealGen, which is shown to be satisfiable; searchsorted by its contract"
  },
  {
   "property": "C18",
   "status": "proved",
   "theorems": [
    "Mfs.Props.C18_taylor_exact"
   ],
   "note": ""
  },
  {
   "property": "C180",
   "status": "proved",
   "theorems": [
    "Mfs.Props.C180_ieee",
    "Mfs.Props.C180_collapse",
    "Mfs.Props.C180_script",
    "Mfs.Props.C180_mean",
    "Mfs.Props.C180_average",
    "Mfs.Props.C180_average_tendsto"
   ],
   "note": "exact arithmetic except that log 0 and division are as in floating point (extended reals); ideal generator; searchsorted by its contract"
  },
  {
   "property": "C181",
   "status": "proved",
   "theorems": [
    "Mfs.Props.C181_errors",
    "Mfs.Props.C181_script",
    "Mfs.Props.C181_curves"
   ],
   "note": "exact arithmetic; ideal generator; searchsorted by its contract"
  },
  {
   "property": "C182",
   "status": "proved",
   "theorems": [
    "Mfs.Props.C182_limit",
    "Mfs.Props.C182_variance",
    "Mfs.Props.C182_inconsistent",
    "Mfs.Props.C182_mean"
   ],
   "note": "exact arithmetic; ideal generator; the coincidence of the two first keys is a hypothesis, which holds by definition for two measurements; a positive"
  },
  {
   "property": "C183",
   "status": "proved",
   "theorems": [
    "Mfs.Props.C183_resampling",
    "Mfs.Props.C183_bootstrap_mse",
    "Mfs.Props.C183_nell",
    "Mfs.Props.C183_linear",
    "Mfs.Props.C183_well"
   ],
   "note": "exact arithmetic; ideal generator; scalar states; functions of bounded variation; the double well with an initial sampler whose draws are independent of the step keys (that of the script is not: C160, C182)"
  },
  {
   "property": "C184",
   "status": "partial",
   "theorems": [
    "Mfs.Props.C184_constant",
    "Mfs.Props.C184_not_integrable",
    "Mfs.Props.C184_tail",
    "Mfs.Props.C184_mean_partial"
   ],
   "note": "The property is false: C184_not_integrable and C184_tail refute it for whole families of moments. The partial theorem gives the value at the mean, the one point where it is right."
  },
  {
   "property": "C185",
   "status": "proved",
   "theorems": [
    "Mfs.Props.C185_best",
    "Mfs.Props.C185_converge",
    "Mfs.Props.C185_integrals",
    "Mfs.Props.C185_negative"
   ],
   "note": "Moments of the standardised variable, as C51 requires. Convergence in the integrated squared error, not pointwise."
  },
  {
   "property": "C186",
   "status": "proved",
   "theorems": [
    "Mfs.Props.C186_best",
    "Mfs.Props.C186_converge",
    "Mfs.Props.C186_total_variation",
    "Mfs.Props.C186_mixture",
    "Mfs.Props.C186_negative"
   ],
   "note": "Exact moments. Convergence in the weighted squared error and in mean, not pointwise. Nothing is said about densities with heavier tails."
  },
  {
   "property": "C187",
   "status": "proved",
   "theorems": [
    "Mfs.Props.C187_converge",
    "Mfs.Props.C187_approximations",
    "Mfs.Props.C187_fixed_nodes",
    "Mfs.Props.C187_from_moments",
    "Mfs.Props.C187_normal",
    "Mfs.Props.C187_fixed_moments"
   ],
   "note": "Exact arithmetic. The rate at which the three parameters have to grow is not given."
  },
  {
   "property": "C188",
   "status": "proved",
   "theorems": [
    "Mfs.Props.C188_converge",
    "Mfs.Props.C188_round_trip",
    "Mfs.Props.C188_normal",
    "Mfs.Props.C188_aliasing",
    "Mfs.Props.C188_not_uniform"
   ],
   "note": "Exact arithmetic; no rates."
  },
  {
   "property": "C189",
   "status": "proved",
   "theorems": [
    "Mfs.Props.C189_curves",
    "Mfs.Props.C189_plot",
    "Mfs.Props.C189_exact"
   ],
   "note": "Exact arithmetic. The script uses one fixed range [-9, 9], 2000 frequencies and N = 15; no error bound for these is given. The reference curve of the script uses 100 integration steps between two measurements and so belongs to another chain; it is not compared here."
  },
  {
   "property": "C19",
   "status": "proved",
   "theorems": [
    "Mfs.Props.C19_cartesian_product"
   ],
   "note": ""
  },
  {
   "property": "C190",
   "status": "proved",
   "theorems": [
    "Mfs.Props.C190_ekf",
    "Mfs.Props.C190_ekf_script",
    "Mfs.Props.C190_cd_ekf",
    "Mfs.Props.C190_sgp_reflection",
    "Mfs.Props.C190_ghf_reflection",
    "Mfs.Props.C190_ghf_responds",
    "Mfs.Props.C190_mf_reflection",
    "Mfs.Props.C190_mf_responds"
   ],
   "note": "Exact arithmetic. ghf_responds is about the first mean; the sign of later means depends on the data. The moment filters are those with sde_cond_moments_euler in the modes raw and central."
  },
  {
   "property": "C191",
   "status": "proved",
   "theorems": [
    "Mfs.Props.C191_gauss_rule",
    "Mfs.Props.C191_rule_converges",
    "Mfs.Props.C191_uniform",
    "Mfs.Props.C191_uniform_converges",
    "Mfs.Props.C191_gamma",
    "Mfs.Props.C191_gamma_converges",
    "Mfs.Props.C191_mixture"
   ],
   "note": "Exact arithmetic: in double precision the Hankel matrix of 22 raw moments of the gamma law is badly conditioned, which the model does not see."
  },
  {
   "property": "C192",
   "status": "proved",
   "theorems": [
    "Mfs.Props.C192_nd_rule_converges_whole",
    "Mfs.Props.C192_characteristic_function",
    "Mfs.Props.C192_gaussian_sum"
   ],
   "note": "Exact arithmetic. No rate of convergence."
  },
  {
   "property": "C193",
   "status": "proved",
   "theorems": [
    "Mfs.Props.C193_update_rms",
    "Mfs.Props.C193_update_cms",
    "Mfs.Props.C193_update_scms",
    "Mfs.Props.C193_first_step"
   ],
   "note": "One step from exact predicted moments; for later steps nothing follows, since the moments of a finite order need not stay those of a law (C113, C127)."
  },
  {
   "property": "C194",
   "status": "proved",
   "theorems": [
    "Mfs.Props.C194_discretisation",
    "Mfs.Props.C194_angle",
    "Mfs.Props.C194_simulation",
    "Mfs.Props.C194_transition_moments",
    "Mfs.Props.linear_prediction",
    "Mfs.Props.C194_prediction",
    "Mfs.Props.C194_first_step",
    "Mfs.Props.C194_records"
   ],
   "note": "Exact arithmetic, signed zeros not modelled. Convergence of the first step as the order grows is not claimed: the likelihood jumps at the negative half axis and is not a sum of products, so C193 does not apply."
  },
  {
   "property": "C195",
   "status": "proved",
   "theorems": [
    "Mfs.Props.C195_loop",
    "Mfs.Props.C195_same_data",
    "Mfs.Props.C195_law",
    "Mfs.Props.C195_times",
    "Mfs.Props.C195_times_law",
    "Mfs.Props.C195_same_times_refuted",
    "Mfs.Props.C195_keys",
    "Mfs.Props.C195_keys_refuted"
   ],
   "note": "A NaN is a missing value; simulators and filters are arbitrary functions. The time of a filter is a function of the data. Independence of the attempts is a hypothesis about the generator."
  },
  {
   "property": "C196",
   "status": "proved",
   "theorems": [
    "Mfs.Props.C196_statistics",
    "Mfs.Props.C196_points",
    "Mfs.Props.C196_limit",
    "Mfs.Props.C196_comparison",
    "Mfs.Props.C196_comparison_refuted"
   ],
   "note": "A NaN is a missing value; arithmetic is exact. The limit is for the moment filter script; the particle filter draws with a key that the simulation may use."
  },
  {
   "property": "C197",
   "status": "proved",
   "theorems": [
    "Mfs.Props.C197_quantile",
    "Mfs.Props.C197_coverage",
    "Mfs.Props.C197_means",
    "Mfs.Props.C197_bands_refuted",
    "Mfs.Props.C197_curve_refuted",
    "Mfs.Props.C197_times",
    "Mfs.Props.C197_times_refuted"
   ],
   "note": "np.quantile is the sorted array with linear interpolation; a NaN is a missing value; arithmetic is exact."
  },
  {
   "property": "C198",
   "status": "proved",
   "theorems": [
    "Mfs.Props.C198_raw",
    "Mfs.Props.C198_central",
    "Mfs.Props.C198_scaled",
    "Mfs.Props.C198_noise",
    "Mfs.Props.C198_converges"
   ],
   "note": "Arithmetic is exact; the conditional moments are given by multi-index."
  },
  {
   "property": "C199",
   "status": "proved",
   "theorems": [
    "Mfs.Props.C199_marks",
    "Mfs.Props.C199_panels",
    "Mfs.Props.C199_box_marks",
    "Mfs.Props.C199_box_marks_refuted",
    "Mfs.Props.C199_box",
    "Mfs.Props.C199_polygon",
    "Mfs.Props.C199_gaussian_sum"
   ],
   "note": "C199_box_marks_refuted records that the three kinds of marks of the uniform panel overlap; polytope_integrate is assumed to return the integrals up to a common nonzero factor."
  },
  {
   "property": "C20",
   "status": "partial",
   "theorems": [
    "Mfs.Props.C20_legacy_product_wrong",
    "Mfs.Props.C20_legacy_product_partial",
    "Mfs.Props.C20_legacy_product_entries"
   ],
   "note": "The property is false for d >= 2: C20_legacy_product_wrong proves that nd_cartesian_prod_2 returns a row that is no combination whenever d, n >= 2 and the first two rows share no value. The partial theorem proves agreement for d = 1; C20_legacy_product_entries says which value every entry of the output is."
  },
  {
   "property": "C200",
   "status": "proved",
   "theorems": [
    "Mfs.Props.C200_hessian",
    "Mfs.Props.C200_limit",
    "Mfs.Props.C200_single",
    "Mfs.Props.C200_indefinite_refuted",
    "Mfs.Props.C200_prey",
    "Mfs.Props.C200_transition",
    "Mfs.Props.C200_likelihood",
    "Mfs.Props.C200_likelihood_refuted",
    "Mfs.Props.C200_run"
   ],
   "note": "tme.mean_and_cov is a parameter; derivatives are exact."
  },
  {
   "property": "C201",
   "status": "partial",
   "theorems": [
    "Mfs.Props.C201_matrix",
    "Mfs.Props.C201_value",
    "Mfs.Props.C201_documented_refuted",
    "Mfs.Props.C201_documented_partial",
    "Mfs.Props.C201_caller",
    "Mfs.Props.C201_errors"
   ],
   "note": "The part about three axes is false (refuted for every d >= 1 and n != k by shape, for n = k >= 2 by entries); it holds for arrays symmetric in the last two axes. Two axes, errors and the use in moment_quadrature_nd are proved."
  },
  {
   "property": "C202",
   "status": "partial",
   "theorems": [
    "Mfs.Props.C202_runs",
    "Mfs.Props.C202_names",
    "Mfs.Props.C202_estimation",
    "Mfs.Props.C202_benes",
    "Mfs.Props.C202_benes_order",
    "Mfs.Props.C202_convergence_refuted",
    "Mfs.Props.C202_convergence_partial",
    "Mfs.Props.C202_prey_refuted",
    "Mfs.Props.C202_prey_replaced",
    "Mfs.Props.C202_prey_partial"
   ],
   "note": "False for figures 3 and 7 (refuted for all numbers of runs and orders of the jobs); figures 4 and 6 hold if and only if at least 1000 runs are made. The shapes of the arrays in the files and interleaved jobs are not modelled."
  },
  {
   "property": "C203",
   "status": "proved",
   "theorems": [
    "Mfs.Props.C203_brackets",
    "Mfs.Props.C203_cdf",
    "Mfs.Props.C203_intervals",
    "Mfs.Props.C203_two_laws",
    "Mfs.Props.C203_attained",
    "Mfs.Props.C203_normal"
   ],
   "note": "Inequalities of Chebyshev, Markov and Stieltjes, by explicit polynomials that interpolate a step with double nodes."
  },
  {
   "property": "C204",
   "status": "proved",
   "theorems": [
    "Mfs.Props.C204_breakdown_iff",
    "Mfs.Props.C204_too_many",
    "Mfs.Props.C204_full",
    "Mfs.Props.C204_repeated",
    "Mfs.Props.C204_docstring_refuted",
    "Mfs.Props.C204_ritz"
   ],
   "note": "Breakdown is a vanishing off-diagonal entry, which the code divides by. The docstring claim that any unit vector will do is refuted."
  },
  {
   "property": "C205",
   "status": "proved",
   "theorems": [
    "Mfs.Props.C205_uniform",
    "Mfs.Props.C205_weights",
    "Mfs.Props.C205_normal"
   ],
   "note": "Weak convergence (C191), portmanteau, and uniformity for continuous limits (Polya)."
  },
  {
   "property": "C206",
   "status": "proved",
   "theorems": [
    "Mfs.Props.C206_semigroup",
    "Mfs.Props.C206_paths",
    "Mfs.Props.C206_rate",
    "Mfs.Props.C206_benes",
    "Mfs.Props.C206_benes_rate",
    "Mfs.Props.C206_single_step",
    "Mfs.Props.C206_keys"
   ],
   "note": "Increments are independent standard normal variables; C206_keys has the keys of an ideal generator."
  },
  {
   "property": "C207",
   "status": "proved",
   "theorems": [
    "Mfs.Props.C207_exact",
    "Mfs.Props.C207_steps",
    "Mfs.Props.C207_semigroup",
    "Mfs.Props.C207_keys"
   ],
   "note": "The covariance of one step must be positive definite, as jnp.linalg.cholesky requires."
  },
  {
   "property": "C208",
   "status": "proved",
   "theorems": [
    "Mfs.Props.C208_filters",
    "Mfs.Props.C208_nd",
    "Mfs.Props.C208_parameters",
    "Mfs.Props.C208_limit",
    "Mfs.Props.C208_benes"
   ],
   "note": "Several dimensions: the predictive probabilities that occur must be positive (C113: weights may be negative)."
  },
  {
   "property": "C209",
   "status": "proved",
   "theorems": [
    "Mfs.Props.C209_kf",
    "Mfs.Props.C209_parameters"
   ],
   "note": "Scalar measurements; with several the gain of kf is wrong (C68)."
  },
  {
   "property": "C21",
   "status": "proved",
   "theorems": [
    "Mfs.Props.C21_nd_reproduces"
   ],
   "note": ""
  },
  {
   "property": "C210",
   "status": "proved",
   "theorems": [
    "Mfs.Props.C210_ekf",
    "Mfs.Props.C210_linear_data"
   ],
   "note": "Scalar measurements; with several the gain is wrong (C68)."
  },
  {
   "property": "C211",
   "status": "proved",
   "theorems": [
    "Mfs.Props.C211_filters",
    "Mfs.Props.C211_linear_data",
    "Mfs.Props.C211_parameters"
   ],
   "note": ""
  },
  {
   "property": "C212",
   "status": "proved",
   "theorems": [
    "Mfs.Props.C212_filter",
    "Mfs.Props.C212_smoother",
    "Mfs.Props.C212_rules"
   ],
   "note": ""
  },
  {
   "property": "C213",
   "status": "proved",
   "theorems": [
    "Mfs.Props.C213_sgp",
    "Mfs.Props.C213_linear_data"
   ],
   "note": ""
  },
  {
   "property": "C214",
   "status": "proved",
   "theorems": [
    "Mfs.Props.C214_ekf_eks",
    "Mfs.Props.C214_sgp"
   ],
   "note": ""
  },
  {
   "property": "C215",
   "status": "proved",
   "theorems": [
    "Mfs.Props.C215_integrals",
    "Mfs.Props.C215_order",
    "Mfs.Props.C215_roots",
    "Mfs.Props.C215_const"
   ],
   "note": ""
  },
  {
   "property": "C216",
   "status": "proved",
   "theorems": [
    "Mfs.Props.C216_filters",
    "Mfs.Props.C216_smoothers"
   ],
   "note": ""
  },
  {
   "property": "C217",
   "status": "proved",
   "theorems": [
    "Mfs.Props.C217_kalman",
    "Mfs.Props.C217_sgp",
    "Mfs.Props.C217_cd_ekf",
    "Mfs.Props.C217_sgp_mix"
   ],
   "note": "C217_cd_ekf: the means and covariances only, for every model. C217_sgp_mix: the means and covariances of sgp_filter under all invertible linear combinations of the measurements."
  },
  {
   "property": "C218",
   "status": "partial",
   "theorems": [
    "Mfs.Props.C218_kf_vector_units_partial",
    "Mfs.Props.C218_kf_vector_units_wrong"
   ],
   "note": "The claim is false for the code: the gain does not change with the units, so the corrections of mean and covariance are multiplied by a and a^2, and for every model in which the measurements depend on the state there are units in which the reported covariance is not positive semidefinite. The likelihood of the first measurement changes as claimed."
  },
  {
   "property": "C22",
   "status": "proved",
   "theorems": [
    "Mfs.Props.C22_nd_weights_sum_one",
    "Mfs.Props.C22_applies"
   ],
   "note": ""
  },
  {
   "property": "C23",
   "status": "proved",
   "theorems": [
    "Mfs.Props.C23_nd_one_dim"
   ],
   "note": ""
  },
  {
   "property": "C24",
   "status": "proved",
   "theorems": [
    "Mfs.Props.C24_nd_affine"
   ],
   "note": ""
  },
  {
   "property": "C25",
   "status": "proved",
   "theorems": [
    "Mfs.Props.C25_nd_backend_independent"
   ],
   "note": "Proved for all integrands, not only products."
  },
  {
   "property": "C26",
   "status": "proved",
   "theorems": [
    "Mfs.Props.C26_normalised"
   ],
   "note": ""
  },
  {
   "property": "C27",
   "status": "proved",
   "theorems": [
    "Mfs.Props.C27_same_filter",
    "Mfs.Props.C27_same_filter_pos"
   ],
   "note": "The transition law is an arbitrary linear functional on polynomials with total mass 1."
  },
  {
   "property": "C28",
   "status": "proved",
   "theorems": [
    "Mfs.Props.C28_causal_resumable"
   ],
   "note": "The three 1-D filters."
  },
  {
   "property": "C29",
   "status": "proved",
   "theorems": [
    "Mfs.Props.C29_likelihood_scaling"
   ],
   "note": ""
  },
  {
   "property": "C30",
   "status": "proved",
   "theorems": [
    "Mfs.Props.C30_uninformative"
   ],
   "note": ""
  },
  {
   "property": "C31",
   "status": "proved",
   "theorems": [
    "Mfs.Props.C31_realisable"
   ],
   "note": ""
  },
  {
   "property": "C32",
   "status": "proved",
   "theorems": [
    "Mfs.Props.C32_records"
   ],
   "note": ""
  },
  {
   "property": "C33",
   "status": "partial",
   "theorems": [
    "Mfs.Props.C33_predicted_scale_wrong",
    "Mfs.Props.C33_predicted_scale_relation",
    "Mfs.Props.C33_predicted_scale_partial",
    "Mfs.Props.C33_predicted_scale_iff",
    "Mfs.Props.C33_in_filter"
   ],
   "note": "The property is false: the scale omits the variance of the conditional means (counterexample and exact relation proved). The partial theorem proves it for conditional means constant over the nodes."
  },
  {
   "property": "C34",
   "status": "proved",
   "theorems": [
    "Mfs.Props.C34_wrong_size"
   ],
   "note": ""
  },
  {
   "property": "C35",
   "status": "proved",
   "theorems": [
    "Mfs.Props.C35_nd_normalised"
   ],
   "note": ""
  },
  {
   "property": "C36",
   "status": "proved",
   "theorems": [
    "Mfs.Props.C36_nd_same_filter"
   ],
   "note": "The transition law is an arbitrary linear functional on polynomials in d variables with total mass 1; N >= 2."
  },
  {
   "property": "C37",
   "status": "proved",
   "theorems": [
    "Mfs.Props.C37_nd_one_dim"
   ],
   "note": ""
  },
  {
   "property": "C38",
   "status": "proved",
   "theorems": [
    "Mfs.Props.C38_index_signature"
   ],
   "note": ""
  },
  {
   "property": "C39",
   "status": "proved",
   "theorems": [
    "Mfs.Props.C39_normal_moments"
   ],
   "note": "All p for raw moments; for central moments p = 0 holds iff SciPy's factorial2(-1) is 1 (true before SciPy 1.11), which is part of the theorem."
  },
  {
   "property": "C40",
   "status": "proved",
   "theorems": [
    "Mfs.Props.C40_raw_to_central"
   ],
   "note": ""
  },
  {
   "property": "C41",
   "status": "proved",
   "theorems": [
    "Mfs.Props.C41_conversions_inverse"
   ],
   "note": ""
  },
  {
   "property": "C42",
   "status": "proved",
   "theorems": [
    "Mfs.Props.C42_transition_consistent"
   ],
   "note": ""
  },
  {
   "property": "C43",
   "status": "partial",
   "theorems": [
    "Mfs.Props.C43_scaled_wrong",
    "Mfs.Props.C43_scaled_value",
    "Mfs.Props.C43_scaled_partial",
    "Mfs.Props.C43_scaled_iff"
   ],
   "note": "The property is false: C43_scaled_wrong is a counterexample, C43_scaled_value gives what is returned, C43_scaled_partial the condition under which the property holds."
  },
  {
   "property": "C44",
   "status": "proved",
   "theorems": [
    "Mfs.Props.C44_cumulants",
    "Mfs.Props.C44_first_cumulant_ignores_s1"
   ],
   "note": ""
  },
  {
   "property": "C45",
   "status": "proved",
   "theorems": [
    "Mfs.Props.C45_bell"
   ],
   "note": ""
  },
  {
   "property": "C46",
   "status": "proved",
   "theorems": [
    "Mfs.Props.C46_characteristic"
   ],
   "note": ""
  },
  {
   "property": "C47",
   "status": "proved",
   "theorems": [
    "Mfs.Props.C47_gaussian_sum",
    "Mfs.Props.C47_too_few_moments"
   ],
   "note": ""
  },
  {
   "property": "C48",
   "status": "proved",
   "theorems": [
    "Mfs.Props.C48_hermite"
   ],
   "note": ""
  },
  {
   "property": "C49",
   "status": "proved",
   "theorems": [
    "Mfs.Props.C49_gram_charlier",
    "Mfs.Props.C49_from_scaled_moments"
   ],
   "note": ""
  },
  {
   "property": "C50",
   "status": "proved",
   "theorems": [
    "Mfs.Props.C50_legendre"
   ],
   "note": ""
  },
  {
   "property": "C51",
   "status": "partial",
   "theorems": [
    "Mfs.Props.C51_legendre_wrong",
    "Mfs.Props.C51_legendre_value",
    "Mfs.Props.C51_legendre_partial",
    "Mfs.Props.C51_legendre_iff"
   ],
   "note": "The property is false: the code treats the supplied raw moments as moments of the standardised variable (C51_legendre_value); C51_legendre_wrong is a counterexample on [0, 1]."
  },
  {
   "property": "C52",
   "status": "partial",
   "theorems": [
    "Mfs.Props.C52_saddle_wrong",
    "Mfs.Props.C52_saddle_partial",
    "Mfs.Props.C52_polynomial_roots",
    "Mfs.Props.C52_repaired"
   ],
   "note": "The property is false: the coefficients of the saddle-point polynomial are searched instead of its roots. The partial theorem covers x = mean; the polynomial itself is right, and with its real roots in the place of the coefficients the property holds (C52_repaired)."
  },
  {
   "property": "C53",
   "status": "proved",
   "theorems": [
    "Mfs.Props.C53_truncated_cgf"
   ],
   "note": ""
  },
  {
   "property": "C54",
   "status": "proved",
   "theorems": [
    "Mfs.Props.C54_discretise"
   ],
   "note": "Matrix exponential of Mathlib; the equality with the integral is entrywise."
  },
  {
   "property": "C55",
   "status": "proved",
   "theorems": [
    "Mfs.Props.C55_ldl_factorises",
    "Mfs.Props.C55_ldl_pivots_pos"
   ],
   "note": ""
  },
  {
   "property": "C56",
   "status": "proved",
   "theorems": [
    "Mfs.Props.C56_ldl_chol",
    "Mfs.Props.C56_default_eps"
   ],
   "note": ""
  },
  {
   "property": "C57",
   "status": "proved",
   "theorems": [
    "Mfs.Props.C57_lanczos"
   ],
   "note": ""
  },
  {
   "property": "C58",
   "status": "proved",
   "theorems": [
    "Mfs.Props.C58_ritz"
   ],
   "note": ""
  },
  {
   "property": "C59",
   "status": "proved",
   "theorems": [
    "Mfs.Props.C59_pcrlb_recursion",
    "Mfs.Props.C59_pcrlb_kf",
    "Mfs.Props.C59_pcrlb_symmetric"
   ],
   "note": "information recursion for every linear Gaussian model with positive definite Q, R, j0; equality with the kf covariances for scalar measurements (see C68 for vector ones); symmetry for all C2 log-densities"
  },
  {
   "property": "C60",
   "status": "proved",
   "theorems": [
    "Mfs.Props.C60_simulate_sde"
   ],
   "note": "The Gaussian increments are arbitrary inputs."
  },
  {
   "property": "C61",
   "status": "proved",
   "theorems": [
    "Mfs.Props.C61_vmap_list"
   ],
   "note": ""
  },
  {
   "property": "C62",
   "status": "proved",
   "theorems": [
    "Mfs.Props.C62_binom"
   ],
   "note": ""
  },
  {
   "property": "C63",
   "status": "proved",
   "theorems": [
    "Mfs.Props.C63_kan"
   ],
   "note": ""
  },
  {
   "property": "C64",
   "status": "proved",
   "theorems": [
    "Mfs.Props.C64_uniform"
   ],
   "note": ""
  },
  {
   "property": "C65",
   "status": "proved",
   "theorems": [
    "Mfs.Props.C65_transition_consistent"
   ],
   "note": "for sde_cond_moments_tme_normal the covariance returned by the external package tme is assumed positive semidefinite and its two mean routines to agree"
  },
  {
   "property": "C66",
   "status": "proved",
   "theorems": [
    "Mfs.Props.C66_gaussian_sum"
   ],
   "note": ""
  },
  {
   "property": "C67",
   "status": "proved",
   "theorems": [
    "Mfs.Props.C67_kf_scalar"
   ],
   "note": ""
  },
  {
   "property": "C68",
   "status": "partial",
   "theorems": [
    "Mfs.Props.C68_kf_vector_wrong",
    "Mfs.Props.C68_kf_vector_shape",
    "Mfs.Props.C68_kf_vector_partial",
    "Mfs.Props.C68_kf_vector_iff",
    "Mfs.Props.C68_kf_vector_generic"
   ],
   "note": "The claim is false for the code: with dy > 1 the gain is H P diag(L)^-1 transposed, and dx != dy is a shape error. Proved: a counterexample, the failure of all dx != dy, and what the gain is."
  },
  {
   "property": "C69",
   "status": "partial",
   "theorems": [
    "Mfs.Props.C69_log_mvn_wrong",
    "Mfs.Props.C69_log_mvn_value",
    "Mfs.Props.C69_log_mvn_partial",
    "Mfs.Props.C69_log_mvn_iff"
   ],
   "note": "The claim is false for the code: only the diagonal of the factor is used. Proved: a counterexample, the value actually computed, and the claim for diagonal factors."
  },
  {
   "property": "C70",
   "status": "proved",
   "theorems": [
    "Mfs.Props.C70_rts",
    "Mfs.Props.C70_rts_after_kf"
   ],
   "note": ""
  },
  {
   "property": "C71",
   "status": "proved",
   "theorems": [
    "Mfs.Props.C71_ekf",
    "Mfs.Props.C71_sgp_scalar",
    "Mfs.Props.C71_sgp_vector",
    "Mfs.Props.C71_sgp_smoother"
   ],
   "note": "For vector measurements sgp_filter is compared with the exact Kalman step, because kf itself is wrong there (C68)."
  },
  {
   "property": "C72",
   "status": "proved",
   "theorems": [
    "Mfs.Props.C72_cubature",
    "Mfs.Props.C72_sigma_points"
   ],
   "note": ""
  },
  {
   "property": "C73",
   "status": "proved",
   "theorems": [
    "Mfs.Props.C73_roll_table"
   ],
   "note": ""
  },
  {
   "property": "C74",
   "status": "proved",
   "theorems": [
    "Mfs.Props.C74_gauss_hermite",
    "Mfs.Props.C74_gaussian_expectation",
    "Mfs.Props.C74_coefficients",
    "Mfs.Props.C74_second_order",
    "Mfs.Props.C74_roots_exist"
   ],
   "note": "np.roots is a parameter: distinct real roots of the polynomial passed to it. C74_roots_exist shows that such roots exist for every order."
  },
  {
   "property": "C75",
   "status": "proved",
   "theorems": [
    "Mfs.Props.C75_rk4",
    "Mfs.Props.C75_rk4_affine"
   ],
   "note": ""
  },
  {
   "property": "C76",
   "status": "proved",
   "theorems": [
    "Mfs.Props.C76_in_range",
    "Mfs.Props.C76_sorted"
   ],
   "note": "the range holds whatever searchsorted returns; the order needs its contract and non-negative weights"
  },
  {
   "property": "C77",
   "status": "partial",
   "theorems": [
    "Mfs.Props.C77_systematic_partial",
    "Mfs.Props.C77_systematic_within_one",
    "Mfs.Props.C77_systematic_refuted",
    "Mfs.Props.C77_systematic_zero"
   ],
   "note": "holds for offsets 0 < u < 1; at u = 0, which jax.random.uniform can draw, only 'within one' holds (counterexample proved)"
  },
  {
   "property": "C78",
   "status": "partial",
   "theorems": [
    "Mfs.Props.C78_zero_weight_partial",
    "Mfs.Props.C78_zero_weight_refuted",
    "Mfs.Props.C78_zero_weight_iff"
   ],
   "note": "holds for positive draws; a zero draw selects particle 0 even if its weight is zero (counterexample proved)"
  },
  {
   "property": "C79",
   "status": "proved",
   "theorems": [
    "Mfs.Props.C79_continuous"
   ],
   "note": ""
  },
  {
   "property": "C80",
   "status": "proved",
   "theorems": [
    "Mfs.Props.C80_ancestors",
    "Mfs.Props.C80_nell",
    "Mfs.Props.C80_scale",
    "Mfs.Props.C80_positive_likelihood",
    "Mfs.Props.C80_particle_filter",
    "Mfs.Props.C80_continuous"
   ],
   "note": ""
  },
  {
   "property": "C81",
   "status": "proved",
   "theorems": [
    "Mfs.Props.C81_normalised",
    "Mfs.Props.C81_nonneg",
    "Mfs.Props.C81_chapman",
    "Mfs.Props.C81_ingredients"
   ],
   "note": ""
  },
  {
   "property": "C82",
   "status": "partial",
   "theorems": [
    "Mfs.Props.C82_unknown_method_partial",
    "Mfs.Props.C82_documented",
    "Mfs.Props.C82_unknown_method_refuted",
    "Mfs.Props.C82_classification"
   ],
   "note": "holds for strings that do not contain 'chapman'; for others the code raises other exceptions or accepts undocumented strings (counterexamples proved)"
  },
  {
   "property": "C83",
   "status": "proved",
   "theorems": [
    "Mfs.Props.C83_bernoulli",
    "Mfs.Props.C83_poisson"
   ],
   "note": ""
  },
  {
   "property": "C84",
   "status": "proved",
   "theorems": [
    "Mfs.Props.C84_fields",
    "Mfs.Props.C84_filters",
    "Mfs.Props.C84_smoothers"
   ],
   "note": ""
  },
  {
   "property": "C85",
   "status": "proved",
   "theorems": [
    "Mfs.Props.C85_nd_raw_central_scaled"
   ],
   "note": ""
  },
  {
   "property": "C86",
   "status": "proved",
   "theorems": [
    "Mfs.Props.C86_nd_causal_resumable"
   ],
   "note": ""
  },
  {
   "property": "C87",
   "status": "proved",
   "theorems": [
    "Mfs.Props.C87_nd_likelihood_scaling"
   ],
   "note": ""
  },
  {
   "property": "C88",
   "status": "proved",
   "theorems": [
    "Mfs.Props.C88_characteristic_from_pdf"
   ],
   "note": ""
  },
  {
   "property": "C89",
   "status": "proved",
   "theorems": [
    "Mfs.Props.C89_inverse_fourier"
   ],
   "note": ""
  },
  {
   "property": "C90",
   "status": "proved",
   "theorems": [
    "Mfs.Props.C90_systematic_unbiased",
    "Mfs.Props.C90_stratified_unbiased"
   ],
   "note": ""
  },
  {
   "property": "C91",
   "status": "proved",
   "theorems": [
    "Mfs.Props.C91_particle_eq_bootstrap"
   ],
   "note": ""
  },
  {
   "property": "C92",
   "status": "proved",
   "theorems": [
    "Mfs.Props.C92_scale_invariance"
   ],
   "note": ""
  },
  {
   "property": "C93",
   "status": "proved",
   "theorems": [
    "Mfs.Props.C93_fokker_planck",
    "Mfs.Props.C93_quadratic"
   ],
   "note": ""
  },
  {
   "property": "C94",
   "status": "proved",
   "theorems": [
    "Mfs.Props.C94_benes",
    "Mfs.Props.C94_prey_predator"
   ],
   "note": ""
  },
  {
   "property": "C95",
   "status": "proved",
   "theorems": [
    "Mfs.Props.C95_mgf"
   ],
   "note": ""
  },
  {
   "property": "C96",
   "status": "proved",
   "theorems": [
    "Mfs.Props.C96_tme"
   ],
   "note": ""
  },
  {
   "property": "C97",
   "status": "proved",
   "theorems": [
    "Mfs.Props.C97_finite_state_exact"
   ],
   "note": ""
  },
  {
   "property": "C98",
   "status": "proved",
   "theorems": [
    "Mfs.Props.C98_rule_shape"
   ],
   "note": ""
  },
  {
   "property": "C99",
   "status": "proved",
   "theorems": [
    "Mfs.Props.C99_likelihood_normalised"
   ],
   "note": ""
  }
 ]
}