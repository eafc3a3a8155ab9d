'Mfs.Lemmas.treeGen_ideal' depends on axioms: [propext, Classical.choice, Quot.sound]
'Mfs.Props.C01_generate_complete' depends on axioms: [propext, Classical.choice, Quot.sound]
'Mfs.Props.C02_generate_sorted' depends on axioms: [propext, Classical.choice, Quot.sound]
'Mfs.Props.C03_sizeof_card' depends on axioms: [propext, Classical.choice, Quot.sound]
'Mfs.Props.C04_indexof_inverts' depends on axioms: [propext, Classical.choice, Quot.sound]
'Mfs.Props.C05_gram_hankel_indices' depends on axioms: [propext, Classical.choice, Quot.sound]
'Mfs.Props.C06_prefix' depends on axioms: [propext, Classical.choice, Quot.sound]
'Mfs.Props.C07_batched' depends on axioms: [propext, Classical.choice, Quot.sound]
'Mfs.Props.C07_extract' depends on axioms: [propext, Classical.choice, Quot.sound]
'Mfs.Props.C07_index' depends on axioms: [propext, Classical.choice, Quot.sound]
'Mfs.Props.C08_reproduces_moments' depends on axioms: [propext, Classical.choice, Quot.sound]
'Mfs.Props.C09_weights_probability' depends on axioms: [propext, Classical.choice, Quot.sound]
'Mfs.Props.C100_total_expectation' depends on axioms: [propext, Classical.choice, Quot.sound]
'Mfs.Props.C101_nd_discrete_recovery' depends on axioms: [propext, Classical.choice, Quot.sound]
'Mfs.Props.C102_gaussian_sum_density' depends on axioms: [propext, Classical.choice, Quot.sound]
'Mfs.Props.C103_gaussian_sum_nd_density' depends on axioms: [propext, Classical.choice, Quot.sound]
'Mfs.Props.C104_milstein' depends on axioms: [propext, Classical.choice, Quot.sound]
'Mfs.Props.C104_satellite' depends on axioms: [propext, Classical.choice, Quot.sound]
'Mfs.Props.C104_well' depends on axioms: [propext, Classical.choice, Quot.sound]
'Mfs.Props.C105_kf_exact' depends on axioms: [propext, Classical.choice, Quot.sound]
'Mfs.Props.C106_rts_exact' depends on axioms: [propext, Classical.choice, Quot.sound]
'Mfs.Props.C107_bootstrap_unbiased' depends on axioms: [propext, Classical.choice, Quot.sound]
'Mfs.Props.C107_schemes' depends on axioms: [propext, Classical.choice, Quot.sound]
'Mfs.Props.C108_quadrature_converges' depends on axioms: [propext, Classical.choice, Quot.sound]
'Mfs.Props.C109_filters_converge' depends on axioms: [propext, Classical.choice, Quot.sound]
'Mfs.Props.C10_affine' depends on axioms: [propext, Classical.choice, Quot.sound]
'Mfs.Props.C110_nd_finite_state_exact' depends on axioms: [propext, Classical.choice, Quot.sound]
'Mfs.Props.C111_polynomial_process_exact' depends on axioms: [propext, Classical.choice, Quot.sound]
'Mfs.Props.C112_normal_is_gauss_hermite' depends on axioms: [propext, Classical.choice, Quot.sound]
'Mfs.Props.C113_weights_nonneg_partial' depends on axioms: [propext, Classical.choice, Quot.sound]
'Mfs.Props.C113_weights_nonneg_refuted' depends on axioms: [propext, Classical.choice, Quot.sound]
'Mfs.Props.C114_independent_coordinates' depends on axioms: [propext, Classical.choice, Quot.sound]
'Mfs.Props.C115_mvn_is_gauss_hermite' depends on axioms: [propext, Classical.choice, Quot.sound]
'Mfs.Props.C116_ou_experiment' depends on axioms: [propext, Classical.choice, Quot.sound]
'Mfs.Props.C117_script_kf' depends on axioms: [propext, Classical.choice, Quot.sound]
'Mfs.Props.C118_kl_error' depends on axioms: [propext, Classical.choice, Quot.sound]
'Mfs.Props.C119_optimal_proposal' depends on axioms: [propext, Classical.choice, Quot.sound]
'Mfs.Props.C11_raw_central_scaled' depends on axioms: [propext, Classical.choice, Quot.sound]
'Mfs.Props.C120_parameter_map' depends on axioms: [propext, Classical.choice, Quot.sound]
'Mfs.Props.C121_cf_errors' depends on axioms: [propext, Classical.choice, Quot.sound]
'Mfs.Props.C121_cfs' depends on axioms: [propext, Classical.choice, Quot.sound]
'Mfs.Props.C122_ghf_estimate_partial' depends on axioms: [propext, Classical.choice, Quot.sound]
'Mfs.Props.C122_ghf_estimate_wrong' depends on axioms: [propext, Classical.choice, Quot.sound]
'Mfs.Props.C123_notebook_euler_iff' depends on axioms: [propext, Classical.choice, Quot.sound]
'Mfs.Props.C123_notebook_euler_partial' depends on axioms: [propext, Classical.choice, Quot.sound]
'Mfs.Props.C123_notebook_euler_wrong' depends on axioms: [propext, Classical.choice, Quot.sound]
'Mfs.Props.C124_multinomial_law' depends on axioms: [propext, Classical.choice, Quot.sound]
'Mfs.Props.C124_multinomial_scheme' depends on axioms: [propext, Classical.choice, Quot.sound]
'Mfs.Props.C124_multinomial_unbiased' depends on axioms: [propext, Classical.choice, Quot.sound]
'Mfs.Props.C125_central_units' depends on axioms: [propext, Classical.choice, Quot.sound]
'Mfs.Props.C125_euler_scaled_wrong' depends on axioms: [propext, Classical.choice, Quot.sound]
'Mfs.Props.C125_euler_units' depends on axioms: [propext, Classical.choice, Quot.sound]
'Mfs.Props.C125_raw_units' depends on axioms: [propext, Classical.choice, Quot.sound]
'Mfs.Props.C125_scaled_units' depends on axioms: [propext, Classical.choice, Quot.sound]
'Mfs.Props.C126_euler_never_breaks' depends on axioms: [propext, Classical.choice, Quot.sound]
'Mfs.Props.C126_never_breaks' depends on axioms: [propext, Classical.choice, Quot.sound]
'Mfs.Props.C126_same_filter' depends on axioms: [propext, Classical.choice, Quot.sound]
'Mfs.Props.C127_nd_noise_partial' depends on axioms: [propext, Classical.choice, Quot.sound]
'Mfs.Props.C127_nd_noise_refuted' depends on axioms: [propext, Classical.choice, Quot.sound]
'Mfs.Props.C128_benes' depends on axioms: [propext, Classical.choice, Quot.sound]
'Mfs.Props.C128_tme_normal' depends on axioms: [propext, Classical.choice, Quot.sound]
'Mfs.Props.C128_well' depends on axioms: [propext, Classical.choice, Quot.sound]
'Mfs.Props.C129_tme_consistent' depends on axioms: [propext, Classical.choice, Quot.sound]
'Mfs.Props.C129_tme_exact' depends on axioms: [propext, Classical.choice, Quot.sound]
'Mfs.Props.C12_backend_independent' depends on axioms: [propext, Classical.choice, Quot.sound]
'Mfs.Props.C130_tme_valid_partial' depends on axioms: [propext, Classical.choice, Quot.sound]
'Mfs.Props.C130_tme_valid_refuted' depends on axioms: [propext, Classical.choice, Quot.sound]
'Mfs.Props.C131_benes_normal' depends on axioms: [propext, Classical.choice, Quot.sound]
'Mfs.Props.C131_benes_tme' depends on axioms: [propext, Classical.choice, Quot.sound]
'Mfs.Props.C131_modes' depends on axioms: [propext, Classical.choice, Quot.sound]
'Mfs.Props.C132_prey_extract' depends on axioms: [propext, Classical.choice, Quot.sound]
'Mfs.Props.C132_prey_modes' depends on axioms: [propext, Classical.choice, Quot.sound]
'Mfs.Props.C133_filters_converge' depends on axioms: [propext, Classical.choice, Quot.sound]
'Mfs.Props.C133_quadrature_converges' depends on axioms: [propext, Classical.choice, Quot.sound]
'Mfs.Props.C134_ou_converges' depends on axioms: [propext, Classical.choice, Quot.sound]
'Mfs.Props.C135_benes_converges' depends on axioms: [propext, Classical.choice, Quot.sound]
'Mfs.Props.C135_euler_converges' depends on axioms: [propext, Classical.choice, Quot.sound]
'Mfs.Props.C135_tme_normal_converges' depends on axioms: [propext, Classical.choice, Quot.sound]
'Mfs.Props.C136_benes_errors' depends on axioms: [propext, Classical.choice, Quot.sound]
'Mfs.Props.C137_nd_polynomial_process_exact' depends on axioms: [propext, Classical.choice, Quot.sound]
'Mfs.Props.C138_nd_likelihood_normalised' depends on axioms: [propext, Classical.choice, Quot.sound]
'Mfs.Props.C138_nd_total_expectation' depends on axioms: [propext, Classical.choice, Quot.sound]
'Mfs.Props.C139_nd_likelihood_pos' depends on axioms: [propext, Classical.choice, Quot.sound]
'Mfs.Props.C139_nd_marginals' depends on axioms: [propext, Classical.choice, Quot.sound]
'Mfs.Props.C139_nd_posterior_realisable' depends on axioms: [propext, Classical.choice, Quot.sound]
'Mfs.Props.C13_ldl_option' depends on axioms: [propext, Classical.choice, Quot.sound]
'Mfs.Props.C140_nd_nodes_functional' depends on axioms: [propext, Classical.choice, Quot.sound]
'Mfs.Props.C140_nd_nodes_in_box' depends on axioms: [propext, Classical.choice, Quot.sound]
'Mfs.Props.C141_nd_central_origin' depends on axioms: [propext, Classical.choice, Quot.sound]
'Mfs.Props.C141_nd_scaled_units' depends on axioms: [propext, Classical.choice, Quot.sound]
'Mfs.Props.C142_kolmogorov_converges' depends on axioms: [propext, Classical.choice, Quot.sound]
'Mfs.Props.C142_prediction_rate' depends on axioms: [propext, Classical.choice, Quot.sound]
'Mfs.Props.C142_solution_exists' depends on axioms: [propext, Classical.choice, Quot.sound]
'Mfs.Props.C143_gram_posDef' depends on axioms: [propext, Classical.choice, Quot.sound]
'Mfs.Props.C143_nd_product_bound' depends on axioms: [propext, Classical.choice, Quot.sound]
'Mfs.Props.C143_nd_rule_converges' depends on axioms: [propext, Classical.choice, Quot.sound]
'Mfs.Props.C144_ekf' depends on axioms: [propext, Classical.choice, Quot.sound]
'Mfs.Props.C144_eks' depends on axioms: [propext, Classical.choice, Quot.sound]
'Mfs.Props.C144_kf' depends on axioms: [propext, Classical.choice, Quot.sound]
'Mfs.Props.C144_sgp' depends on axioms: [propext, Classical.choice, Quot.sound]
'Mfs.Props.C144_sgp_smoothers' depends on axioms: [propext, Classical.choice, Quot.sound]
'Mfs.Props.C145_one_step' depends on axioms: [propext, Classical.choice, Quot.sound]
'Mfs.Props.C145_order_four' depends on axioms: [propext, Classical.choice, Quot.sound]
'Mfs.Props.C145_sgp_cov_order_four' depends on axioms: [propext, Classical.choice, Quot.sound]
'Mfs.Props.C145_sgp_one_step' depends on axioms: [propext, Classical.choice, Quot.sound]
'Mfs.Props.C145_sgp_order_four' depends on axioms: [propext, Classical.choice, Quot.sound]
'Mfs.Props.C146_cd_eks' depends on axioms: [propext, Classical.choice, Quot.sound]
'Mfs.Props.C146_cd_sgp_smoother' depends on axioms: [propext, Classical.choice, Quot.sound]
'Mfs.Props.C146_first_order_only' depends on axioms: [propext, Classical.choice, Quot.sound]
'Mfs.Props.C147_multinomial' depends on axioms: [propext, Classical.choice, Quot.sound]
'Mfs.Props.C147_stratified' depends on axioms: [propext, Classical.choice, Quot.sound]
'Mfs.Props.C147_systematic_refuted' depends on axioms: [propext, Classical.choice, Quot.sound]
'Mfs.Props.C148_bootstrap_mse' depends on axioms: [propext, Classical.choice, Quot.sound]
'Mfs.Props.C148_every_step' depends on axioms: [propext, Classical.choice, Quot.sound]
'Mfs.Props.C148_schemes' depends on axioms: [propext, Classical.choice, Quot.sound]
'Mfs.Props.C149_particle_mse' depends on axioms: [propext, Classical.choice, Quot.sound]
'Mfs.Props.C14_golub_welsch' depends on axioms: [propext, Classical.choice, Quot.sound]
'Mfs.Props.C150_ordered' depends on axioms: [propext, Classical.choice, Quot.sound]
'Mfs.Props.C150_variation' depends on axioms: [propext, Classical.choice, Quot.sound]
'Mfs.Props.C151_bound' depends on axioms: [propext, Classical.choice, Quot.sound]
'Mfs.Props.C151_monte_carlo' depends on axioms: [propext, Classical.choice, Quot.sound]
'Mfs.Props.C152_benes_agree' depends on axioms: [propext, Classical.choice, Quot.sound]
'Mfs.Props.C152_benes_reference' depends on axioms: [propext, Classical.choice, Quot.sound]
'Mfs.Props.C152_chapman_euler' depends on axioms: [propext, Classical.choice, Quot.sound]
'Mfs.Props.C152_chapman_tme' depends on axioms: [propext, Classical.choice, Quot.sound]
'Mfs.Props.C153_benes_experiment' depends on axioms: [propext, Classical.choice, Quot.sound]
'Mfs.Props.C153_benes_law' depends on axioms: [propext, Classical.choice, Quot.sound]
'Mfs.Props.C153_benes_mean_cov' depends on axioms: [propext, Classical.choice, Quot.sound]
'Mfs.Props.C153_benes_moments' depends on axioms: [propext, Classical.choice, Quot.sound]
'Mfs.Props.C154_benes_exact_filter' depends on axioms: [propext, Classical.choice, Quot.sound]
'Mfs.Props.C155_euler' depends on axioms: [propext, Classical.choice, Quot.sound]
'Mfs.Props.C155_filter_cms' depends on axioms: [propext, Classical.choice, Quot.sound]
'Mfs.Props.C155_filter_rms' depends on axioms: [propext, Classical.choice, Quot.sound]
'Mfs.Props.C155_filter_scms' depends on axioms: [propext, Classical.choice, Quot.sound]
'Mfs.Props.C155_nodes_continuous' depends on axioms: [propext, Classical.choice, Quot.sound]
'Mfs.Props.C155_rule_continuous' depends on axioms: [propext, Classical.choice, Quot.sound]
'Mfs.Props.C156_edges' depends on axioms: [propext, Classical.choice, Quot.sound]
'Mfs.Props.C156_edges_inconsistent' depends on axioms: [propext, Classical.choice, Quot.sound]
'Mfs.Props.C156_second_order' depends on axioms: [propext, Classical.choice, Quot.sound]
'Mfs.Props.C157_characteristic' depends on axioms: [propext, Classical.choice, Quot.sound]
'Mfs.Props.C157_characteristic_normal' depends on axioms: [propext, Classical.choice, Quot.sound]
'Mfs.Props.C157_interval' depends on axioms: [propext, Classical.choice, Quot.sound]
'Mfs.Props.C157_rule_error' depends on axioms: [propext, Classical.choice, Quot.sound]
'Mfs.Props.C157_sharp' depends on axioms: [propext, Classical.choice, Quot.sound]
'Mfs.Props.C158_filter_step_error' depends on axioms: [propext, Classical.choice, Quot.sound]
'Mfs.Props.C159_draws' depends on axioms: [propext, Classical.choice, Quot.sound]
'Mfs.Props.C159_draws_nd' depends on axioms: [propext, Classical.choice, Quot.sound]
'Mfs.Props.C159_free' depends on axioms: [propext, Classical.choice, Quot.sound]
'Mfs.Props.C159_independent' depends on axioms: [propext, Classical.choice, Quot.sound]
'Mfs.Props.C159_prefix_cloud_refuted' depends on axioms: [propext, Classical.choice, Quot.sound]
'Mfs.Props.C159_prefix_refuted' depends on axioms: [propext, Classical.choice, Quot.sound]
'Mfs.Props.C159_reuse_refuted' depends on axioms: [propext, Classical.choice, Quot.sound]
'Mfs.Props.C159_two_refuted' depends on axioms: [propext, Classical.choice, Quot.sound]
'Mfs.Props.C15_nodes_in_support' depends on axioms: [propext, Classical.choice, Quot.sound]
'Mfs.Props.C160_differ_refuted' depends on axioms: [propext, Classical.choice, Quot.sound]
'Mfs.Props.C160_law_partial' depends on axioms: [propext, Classical.choice, Quot.sound]
'Mfs.Props.C160_law_refuted' depends on axioms: [propext, Classical.choice, Quot.sound]
'Mfs.Props.C161_benes_prefix' depends on axioms: [propext, Classical.choice, Quot.sound]
'Mfs.Props.C161_benes_run_draws' depends on axioms: [propext, Classical.choice, Quot.sound]
'Mfs.Props.C161_cloud' depends on axioms: [propext, Classical.choice, Quot.sound]
'Mfs.Props.C161_free' depends on axioms: [propext, Classical.choice, Quot.sound]
'Mfs.Props.C161_measurement' depends on axioms: [propext, Classical.choice, Quot.sound]
'Mfs.Props.C161_prey_draws' depends on axioms: [propext, Classical.choice, Quot.sound]
'Mfs.Props.C161_prey_refuted' depends on axioms: [propext, Classical.choice, Quot.sound]
'Mfs.Props.C161_prey_run_draws' depends on axioms: [propext, Classical.choice, Quot.sound]
'Mfs.Props.C162_invariant' depends on axioms: [propext, Classical.choice, Quot.sound]
'Mfs.Props.C162_positive_partial' depends on axioms: [propext, Classical.choice, Quot.sound]
'Mfs.Props.C162_positive_refuted' depends on axioms: [propext, Classical.choice, Quot.sound]
'Mfs.Props.C162_recursion' depends on axioms: [propext, Classical.choice, Quot.sound]
'Mfs.Props.C162_runs' depends on axioms: [propext, Classical.choice, Quot.sound]
'Mfs.Props.C162_simulate_refuted' depends on axioms: [propext, Classical.choice, Quot.sound]
'Mfs.Props.C162_step_moments' depends on axioms: [propext, Classical.choice, Quot.sound]
'Mfs.Props.C163_sampler' depends on axioms: [propext, Classical.choice, Quot.sound]
'Mfs.Props.C163_sampler_nd' depends on axioms: [propext, Classical.choice, Quot.sound]
'Mfs.Props.C164_compare_partial' depends on axioms: [propext, Classical.choice, Quot.sound]
'Mfs.Props.C164_compare_refuted' depends on axioms: [propext, Classical.choice, Quot.sound]
'Mfs.Props.C164_curve' depends on axioms: [propext, Classical.choice, Quot.sound]
'Mfs.Props.C164_curve_nan' depends on axioms: [propext, Classical.choice, Quot.sound]
'Mfs.Props.C164_errors' depends on axioms: [propext, Classical.choice, Quot.sound]
'Mfs.Props.C164_find_valid' depends on axioms: [propext, Classical.choice, Quot.sound]
'Mfs.Props.C164_find_valid_refuted' depends on axioms: [propext, Classical.choice, Quot.sound]
'Mfs.Props.C164_removed' depends on axioms: [propext, Classical.choice, Quot.sound]
'Mfs.Props.C164_report' depends on axioms: [propext, Classical.choice, Quot.sound]
'Mfs.Props.C164_report_partial' depends on axioms: [propext, Classical.choice, Quot.sound]
'Mfs.Props.C164_report_refuted' depends on axioms: [propext, Classical.choice, Quot.sound]
'Mfs.Props.C165_nd_rule_continuous' depends on axioms: [propext, Classical.choice, Quot.sound]
'Mfs.Props.C166_nd_cms_continuous' depends on axioms: [propext, Classical.choice, Quot.sound]
'Mfs.Props.C166_nd_rms_continuous' depends on axioms: [propext, Classical.choice, Quot.sound]
'Mfs.Props.C166_nd_scms_continuous' depends on axioms: [propext, Classical.choice, Quot.sound]
'Mfs.Props.C167_nodes_analytic' depends on axioms: [propext, Classical.choice, Quot.sound]
'Mfs.Props.C167_rule_derivative' depends on axioms: [propext, Classical.choice, Quot.sound]
'Mfs.Props.C167_rule_smooth' depends on axioms: [propext, Classical.choice, Quot.sound]
'Mfs.Props.C168_cms_smooth' depends on axioms: [propext, Classical.choice, Quot.sound]
'Mfs.Props.C168_euler' depends on axioms: [propext, Classical.choice, Quot.sound]
'Mfs.Props.C168_rms_smooth' depends on axioms: [propext, Classical.choice, Quot.sound]
'Mfs.Props.C168_runs_valid' depends on axioms: [propext, Classical.choice, Quot.sound]
'Mfs.Props.C168_scms_smooth' depends on axioms: [propext, Classical.choice, Quot.sound]
'Mfs.Props.C169_nd_rule_smooth' depends on axioms: [propext, Classical.choice, Quot.sound]
'Mfs.Props.C16_discrete_recovery' depends on axioms: [propext, Classical.choice, Quot.sound]
'Mfs.Props.C170_nd_cms_smooth' depends on axioms: [propext, Classical.choice, Quot.sound]
'Mfs.Props.C170_nd_rms_smooth' depends on axioms: [propext, Classical.choice, Quot.sound]
'Mfs.Props.C170_nd_scms_smooth' depends on axioms: [propext, Classical.choice, Quot.sound]
'Mfs.Props.C171_nodes_jvp' depends on axioms: [propext, Classical.choice, Quot.sound]
'Mfs.Props.C171_rule_jvp' depends on axioms: [propext, Classical.choice, Quot.sound]
'Mfs.Props.C172_cms_jvp' depends on axioms: [propext, Classical.choice, Quot.sound]
'Mfs.Props.C172_estimation' depends on axioms: [propext, Classical.choice, Quot.sound]
'Mfs.Props.C172_rms_jvp' depends on axioms: [propext, Classical.choice, Quot.sound]
'Mfs.Props.C172_scms_jvp' depends on axioms: [propext, Classical.choice, Quot.sound]
'Mfs.Props.C173_nd_jvp_iff' depends on axioms: [propext, Classical.choice, Quot.sound]
'Mfs.Props.C173_nd_jvp_refuted' depends on axioms: [propext, Classical.choice, Quot.sound]
'Mfs.Props.C173_nd_jvp_refuted_three' depends on axioms: [propext, Classical.choice, Quot.sound]
'Mfs.Props.C173_nd_jvp_refuted_two' depends on axioms: [propext, Classical.choice, Quot.sound]
'Mfs.Props.C173_nd_rule_jvp_partial' depends on axioms: [propext, Classical.choice, Quot.sound]
'Mfs.Props.C174_cms_centre_free' depends on axioms: [propext, Classical.choice, Quot.sound]
'Mfs.Props.C174_nd_cms_centre_free' depends on axioms: [propext, Classical.choice, Quot.sound]
'Mfs.Props.C174_nd_scms_centre_free' depends on axioms: [propext, Classical.choice, Quot.sound]
'Mfs.Props.C174_scms_centre_free' depends on axioms: [propext, Classical.choice, Quot.sound]
'Mfs.Props.C175_conti_continuous' depends on axioms: [propext, Classical.choice, Quot.sound]
'Mfs.Props.C175_conti_continuousAt' depends on axioms: [propext, Classical.choice, Quot.sound]
'Mfs.Props.C175_fixed_weights_refuted' depends on axioms: [propext, Classical.choice, Quot.sound]
'Mfs.Props.C175_script_continuous' depends on axioms: [propext, Classical.choice, Quot.sound]
'Mfs.Props.C175_script_not_differentiable' depends on axioms: [propext, Classical.choice, Quot.sound]
'Mfs.Props.C175_script_stratified_refuted' depends on axioms: [propext, Classical.choice, Quot.sound]
'Mfs.Props.C176_estimation' depends on axioms: [propext, Classical.choice, Quot.sound]
'Mfs.Props.C176_moments' depends on axioms: [propext, Classical.choice, Quot.sound]
'Mfs.Props.C176_normal_smooth' depends on axioms: [propext, Classical.choice, Quot.sound]
'Mfs.Props.C176_tme_smooth' depends on axioms: [propext, Classical.choice, Quot.sound]
'Mfs.Props.C177_finite_small' depends on axioms: [propext, Classical.choice, Quot.sound]
'Mfs.Props.C177_moment_nan_iff' depends on axioms: [propext, Classical.choice, Quot.sound]
'Mfs.Props.C177_nan_large' depends on axioms: [propext, Classical.choice, Quot.sound]
'Mfs.Props.C177_objective_iff' depends on axioms: [propext, Classical.choice, Quot.sound]
'Mfs.Props.C177_well_variance' depends on axioms: [propext, Classical.choice, Quot.sound]
'Mfs.Props.C178_bootstrap_prob' depends on axioms: [propext, Classical.choice, Quot.sound]
'Mfs.Props.C178_linear_bootstrap' depends on axioms: [propext, Classical.choice, Quot.sound]
'Mfs.Props.C178_particle_prob' depends on axioms: [propext, Classical.choice, Quot.sound]
'Mfs.Props.C179_draws' depends on axioms: [propext, Classical.choice, Quot.sound]
'Mfs.Props.C179_errors' depends on axioms: [propext, Classical.choice, Quot.sound]
'Mfs.Props.C179_keys' depends on axioms: [propext, Classical.choice, Quot.sound]
'Mfs.Props.C179_script' depends on axioms: [propext, Classical.choice, Quot.sound]
'Mfs.Props.C17_surplus_moment' depends on axioms: [propext, Classical.choice, Quot.sound]
'Mfs.Props.C180_average' depends on axioms: [propext, Classical.choice, Quot.sound]
'Mfs.Props.C180_average_tendsto' depends on axioms: [propext, Classical.choice, Quot.sound]
'Mfs.Props.C180_collapse' depends on axioms: [propext, Classical.choice, Quot.sound]
'Mfs.Props.C180_ieee' depends on axioms: [propext, Classical.choice, Quot.sound]
'Mfs.Props.C180_mean' depends on axioms: [propext, Classical.choice, Quot.sound]
'Mfs.Props.C180_script' depends on axioms: [propext, Classical.choice, Quot.sound]
'Mfs.Props.C181_curves' depends on axioms: [propext, Classical.choice, Quot.sound]
'Mfs.Props.C181_errors' depends on axioms: [propext, Classical.choice, Quot.sound]
'Mfs.Props.C181_script' depends on axioms: [propext, Classical.choice, Quot.sound]
'Mfs.Props.C182_inconsistent' depends on axioms: [propext, Classical.choice, Quot.sound]
'Mfs.Props.C182_limit' depends on axioms: [propext, Classical.choice, Quot.sound]
'Mfs.Props.C182_mean' depends on axioms: [propext, Classical.choice, Quot.sound]
'Mfs.Props.C182_variance' depends on axioms: [propext, Classical.choice, Quot.sound]
'Mfs.Props.C183_bootstrap_mse' depends on axioms: [propext, Classical.choice, Quot.sound]
'Mfs.Props.C183_linear' depends on axioms: [propext, Classical.choice, Quot.sound]
'Mfs.Props.C183_nell' depends on axioms: [propext, Classical.choice, Quot.sound]
'Mfs.Props.C183_resampling' depends on axioms: [propext, Classical.choice, Quot.sound]
'Mfs.Props.C183_well' depends on axioms: [propext, Classical.choice, Quot.sound]
'Mfs.Props.C184_constant' depends on axioms: [propext, Classical.choice, Quot.sound]
'Mfs.Props.C184_mean_partial' depends on axioms: [propext, Classical.choice, Quot.sound]
'Mfs.Props.C184_not_integrable' depends on axioms: [propext, Classical.choice, Quot.sound]
'Mfs.Props.C184_tail' depends on axioms: [propext, Classical.choice, Quot.sound]
'Mfs.Props.C185_best' depends on axioms: [propext, Classical.choice, Quot.sound]
'Mfs.Props.C185_converge' depends on axioms: [propext, Classical.choice, Quot.sound]
'Mfs.Props.C185_integrals' depends on axioms: [propext, Classical.choice, Quot.sound]
'Mfs.Props.C185_negative' depends on axioms: [propext, Classical.choice, Quot.sound]
'Mfs.Props.C186_best' depends on axioms: [propext, Classical.choice, Quot.sound]
'Mfs.Props.C186_converge' depends on axioms: [propext, Classical.choice, Quot.sound]
'Mfs.Props.C186_mixture' depends on axioms: [propext, Classical.choice, Quot.sound]
'Mfs.Props.C186_negative' depends on axioms: [propext, Classical.choice, Quot.sound]
'Mfs.Props.C186_total_variation' depends on axioms: [propext, Classical.choice, Quot.sound]
'Mfs.Props.C187_approximations' depends on axioms: [propext, Classical.choice, Quot.sound]
'Mfs.Props.C187_converge' depends on axioms: [propext, Classical.choice, Quot.sound]
'Mfs.Props.C187_fixed_moments' depends on axioms: [propext, Classical.choice, Quot.sound]
'Mfs.Props.C187_fixed_nodes' depends on axioms: [propext, Classical.choice, Quot.sound]
'Mfs.Props.C187_from_moments' depends on axioms: [propext, Classical.choice, Quot.sound]
'Mfs.Props.C187_normal' depends on axioms: [propext, Classical.choice, Quot.sound]
'Mfs.Props.C188_aliasing' depends on axioms: [propext, Classical.choice, Quot.sound]
'Mfs.Props.C188_converge' depends on axioms: [propext, Classical.choice, Quot.sound]
'Mfs.Props.C188_normal' depends on axioms: [propext, Classical.choice, Quot.sound]
'Mfs.Props.C188_not_uniform' depends on axioms: [propext, Classical.choice, Quot.sound]
'Mfs.Props.C188_round_trip' depends on axioms: [propext, Classical.choice, Quot.sound]
'Mfs.Props.C189_curves' depends on axioms: [propext, Classical.choice, Quot.sound]
'Mfs.Props.C189_exact' depends on axioms: [propext, Classical.choice, Quot.sound]
'Mfs.Props.C189_plot' depends on axioms: [propext, Classical.choice, Quot.sound]
'Mfs.Props.C18_taylor_exact' depends on axioms: [propext, Classical.choice, Quot.sound]
'Mfs.Props.C190_cd_ekf' depends on axioms: [propext, Classical.choice, Quot.sound]
'Mfs.Props.C190_ekf' depends on axioms: [propext, Classical.choice, Quot.sound]
'Mfs.Props.C190_ekf_script' depends on axioms: [propext, Classical.choice, Quot.sound]
'Mfs.Props.C190_ghf_reflection' depends on axioms: [propext, Classical.choice, Quot.sound]
'Mfs.Props.C190_ghf_responds' depends on axioms: [propext, Classical.choice, Quot.sound]
'Mfs.Props.C190_mf_reflection' depends on axioms: [propext, Classical.choice, Quot.sound]
'Mfs.Props.C190_mf_responds' depends on axioms: [propext, Classical.choice, Quot.sound]
'Mfs.Props.C190_sgp_reflection' depends on axioms: [propext, Classical.choice, Quot.sound]
'Mfs.Props.C191_gamma' depends on axioms: [propext, Classical.choice, Quot.sound]
'Mfs.Props.C191_gamma_converges' depends on axioms: [propext, Classical.choice, Quot.sound]
'Mfs.Props.C191_gauss_rule' depends on axioms: [propext, Classical.choice, Quot.sound]
'Mfs.Props.C191_mixture' depends on axioms: [propext, Classical.choice, Quot.sound]
'Mfs.Props.C191_rule_converges' depends on axioms: [propext, Classical.choice, Quot.sound]
'Mfs.Props.C191_uniform' depends on axioms: [propext, Classical.choice, Quot.sound]
'Mfs.Props.C191_uniform_converges' depends on axioms: [propext, Classical.choice, Quot.sound]
'Mfs.Props.C192_characteristic_function' depends on axioms: [propext, Classical.choice, Quot.sound]
'Mfs.Props.C192_gaussian_sum' depends on axioms: [propext, Classical.choice, Quot.sound]
'Mfs.Props.C192_nd_rule_converges_whole' depends on axioms: [propext, Classical.choice, Quot.sound]
'Mfs.Props.C193_first_step' depends on axioms: [propext, Classical.choice, Quot.sound]
'Mfs.Props.C193_update_cms' depends on axioms: [propext, Classical.choice, Quot.sound]
'Mfs.Props.C193_update_rms' depends on axioms: [propext, Classical.choice, Quot.sound]
'Mfs.Props.C193_update_scms' depends on axioms: [propext, Classical.choice, Quot.sound]
'Mfs.Props.C194_angle' depends on axioms: [propext, Classical.choice, Quot.sound]
'Mfs.Props.C194_discretisation' depends on axioms: [propext, Classical.choice, Quot.sound]
'Mfs.Props.C194_first_step' depends on axioms: [propext, Classical.choice, Quot.sound]
'Mfs.Props.C194_prediction' depends on axioms: [propext, Classical.choice, Quot.sound]
'Mfs.Props.C194_records' depends on axioms: [propext, Classical.choice, Quot.sound]
'Mfs.Props.C194_simulation' depends on axioms: [propext, Classical.choice, Quot.sound]
'Mfs.Props.C194_transition_moments' depends on axioms: [propext, Classical.choice, Quot.sound]
'Mfs.Props.C195_keys' depends on axioms: [propext, Classical.choice, Quot.sound]
'Mfs.Props.C195_keys_refuted' depends on axioms: [propext, Classical.choice, Quot.sound]
'Mfs.Props.C195_law' depends on axioms: [propext, Classical.choice, Quot.sound]
'Mfs.Props.C195_loop' depends on axioms: [propext, Classical.choice, Quot.sound]
'Mfs.Props.C195_same_data' depends on axioms: [propext, Classical.choice, Quot.sound]
'Mfs.Props.C195_same_times_refuted' depends on axioms: [propext, Classical.choice, Quot.sound]
'Mfs.Props.C195_times' depends on axioms: [propext, Classical.choice, Quot.sound]
'Mfs.Props.C195_times_law' depends on axioms: [propext, Classical.choice, Quot.sound]
'Mfs.Props.C196_comparison' depends on axioms: [propext, Classical.choice, Quot.sound]
'Mfs.Props.C196_comparison_refuted' depends on axioms: [propext, Classical.choice, Quot.sound]
'Mfs.Props.C196_limit' depends on axioms: [propext, Classical.choice, Quot.sound]
'Mfs.Props.C196_points' depends on axioms: [propext, Classical.choice, Quot.sound]
'Mfs.Props.C196_statistics' depends on axioms: [propext, Classical.choice, Quot.sound]
'Mfs.Props.C197_bands_refuted' depends on axioms: [propext, Classical.choice, Quot.sound]
'Mfs.Props.C197_coverage' depends on axioms: [propext, Classical.choice, Quot.sound]
'Mfs.Props.C197_curve_refuted' depends on axioms: [propext, Classical.choice, Quot.sound]
'Mfs.Props.C197_means' depends on axioms: [propext, Classical.choice, Quot.sound]
'Mfs.Props.C197_quantile' depends on axioms: [propext, Classical.choice, Quot.sound]
'Mfs.Props.C197_times' depends on axioms: [propext, Classical.choice, Quot.sound]
'Mfs.Props.C197_times_refuted' depends on axioms: [propext, Classical.choice, Quot.sound]
'Mfs.Props.C198_central' depends on axioms: [propext, Classical.choice, Quot.sound]
'Mfs.Props.C198_converges' depends on axioms: [propext, Classical.choice, Quot.sound]
'Mfs.Props.C198_noise' depends on axioms: [propext, Classical.choice, Quot.sound]
'Mfs.Props.C198_raw' depends on axioms: [propext, Classical.choice, Quot.sound]
'Mfs.Props.C198_scaled' depends on axioms: [propext, Classical.choice, Quot.sound]
'Mfs.Props.C199_box' depends on axioms: [propext, Classical.choice, Quot.sound]
'Mfs.Props.C199_box_marks' depends on axioms: [propext, Classical.choice, Quot.sound]
'Mfs.Props.C199_box_marks_refuted' depends on axioms: [propext, Classical.choice, Quot.sound]
'Mfs.Props.C199_gaussian_sum' depends on axioms: [propext, Classical.choice, Quot.sound]
'Mfs.Props.C199_marks' depends on axioms: [propext, Classical.choice, Quot.sound]
'Mfs.Props.C199_panels' depends on axioms: [propext, Classical.choice, Quot.sound]
'Mfs.Props.C199_polygon' depends on axioms: [propext, Classical.choice, Quot.sound]
'Mfs.Props.C19_cartesian_product' depends on axioms: [propext, Classical.choice, Quot.sound]
'Mfs.Props.C200_hessian' depends on axioms: [propext, Classical.choice, Quot.sound]
'Mfs.Props.C200_indefinite_refuted' depends on axioms: [propext, Classical.choice, Quot.sound]
'Mfs.Props.C200_likelihood' depends on axioms: [propext, Classical.choice, Quot.sound]
'Mfs.Props.C200_likelihood_refuted' depends on axioms: [propext, Classical.choice, Quot.sound]
'Mfs.Props.C200_limit' depends on axioms: [propext, Classical.choice, Quot.sound]
'Mfs.Props.C200_prey' depends on axioms: [propext, Classical.choice, Quot.sound]
'Mfs.Props.C200_run' depends on axioms: [propext, Classical.choice, Quot.sound]
'Mfs.Props.C200_single' depends on axioms: [propext, Classical.choice, Quot.sound]
'Mfs.Props.C200_transition' depends on axioms: [propext, Classical.choice, Quot.sound]
'Mfs.Props.C201_caller' depends on axioms: [propext, Classical.choice, Quot.sound]
'Mfs.Props.C201_documented_partial' depends on axioms: [propext, Classical.choice, Quot.sound]
'Mfs.Props.C201_documented_refuted' depends on axioms: [propext, Classical.choice, Quot.sound]
'Mfs.Props.C201_errors' depends on axioms: [propext, Classical.choice, Quot.sound]
'Mfs.Props.C201_matrix' depends on axioms: [propext, Classical.choice, Quot.sound]
'Mfs.Props.C201_value' depends on axioms: [propext, Classical.choice, Quot.sound]
'Mfs.Props.C202_benes' depends on axioms: [propext, Classical.choice, Quot.sound]
'Mfs.Props.C202_benes_order' depends on axioms: [propext, Classical.choice, Quot.sound]
'Mfs.Props.C202_convergence_partial' depends on axioms: [propext, Classical.choice, Quot.sound]
'Mfs.Props.C202_convergence_refuted' depends on axioms: [propext, Classical.choice, Quot.sound]
'Mfs.Props.C202_estimation' depends on axioms: [propext, Classical.choice, Quot.sound]
'Mfs.Props.C202_names' depends on axioms: [propext, Classical.choice, Quot.sound]
'Mfs.Props.C202_prey_partial' depends on axioms: [propext, Classical.choice, Quot.sound]
'Mfs.Props.C202_prey_refuted' depends on axioms: [propext, Classical.choice, Quot.sound]
'Mfs.Props.C202_prey_replaced' depends on axioms: [propext, Classical.choice, Quot.sound]
'Mfs.Props.C202_runs' depends on axioms: [propext, Quot.sound]
'Mfs.Props.C203_attained' depends on axioms: [propext, Classical.choice, Quot.sound]
'Mfs.Props.C203_brackets' depends on axioms: [propext, Classical.choice, Quot.sound]
'Mfs.Props.C203_cdf' depends on axioms: [propext, Classical.choice, Quot.sound]
'Mfs.Props.C203_intervals' depends on axioms: [propext, Classical.choice, Quot.sound]
'Mfs.Props.C203_normal' depends on axioms: [propext, Classical.choice, Quot.sound]
'Mfs.Props.C203_two_laws' depends on axioms: [propext, Classical.choice, Quot.sound]
'Mfs.Props.C204_breakdown_iff' depends on axioms: [propext, Classical.choice, Quot.sound]
'Mfs.Props.C204_docstring_refuted' depends on axioms: [propext, Classical.choice, Quot.sound]
'Mfs.Props.C204_full' depends on axioms: [propext, Classical.choice, Quot.sound]
'Mfs.Props.C204_repeated' depends on axioms: [propext, Classical.choice, Quot.sound]
'Mfs.Props.C204_ritz' depends on axioms: [propext, Classical.choice, Quot.sound]
'Mfs.Props.C204_too_many' depends on axioms: [propext, Classical.choice, Quot.sound]
'Mfs.Props.C205_normal' depends on axioms: [propext, Classical.choice, Quot.sound]
'Mfs.Props.C205_uniform' depends on axioms: [propext, Classical.choice, Quot.sound]
'Mfs.Props.C205_weights' depends on axioms: [propext, Classical.choice, Quot.sound]
'Mfs.Props.C206_benes' depends on axioms: [propext, Classical.choice, Quot.sound]
'Mfs.Props.C206_benes_rate' depends on axioms: [propext, Classical.choice, Quot.sound]
'Mfs.Props.C206_keys' depends on axioms: [propext, Classical.choice, Quot.sound]
'Mfs.Props.C206_paths' depends on axioms: [propext, Classical.choice, Quot.sound]
'Mfs.Props.C206_rate' depends on axioms: [propext, Classical.choice, Quot.sound]
'Mfs.Props.C206_semigroup' depends on axioms: [propext, Classical.choice, Quot.sound]
'Mfs.Props.C206_single_step' depends on axioms: [propext, Classical.choice, Quot.sound]
'Mfs.Props.C207_exact' depends on axioms: [propext, Classical.choice, Quot.sound]
'Mfs.Props.C207_keys' depends on axioms: [propext, Classical.choice, Quot.sound]
'Mfs.Props.C207_semigroup' depends on axioms: [propext, Classical.choice, Quot.sound]
'Mfs.Props.C207_steps' depends on axioms: [propext, Classical.choice, Quot.sound]
'Mfs.Props.C208_benes' depends on axioms: [propext, Classical.choice, Quot.sound]
'Mfs.Props.C208_filters' depends on axioms: [propext, Classical.choice, Quot.sound]
'Mfs.Props.C208_limit' depends on axioms: [propext, Classical.choice, Quot.sound]
'Mfs.Props.C208_nd' depends on axioms: [propext, Classical.choice, Quot.sound]
'Mfs.Props.C208_parameters' depends on axioms: [propext, Classical.choice, Quot.sound]
'Mfs.Props.C209_kf' depends on axioms: [propext, Classical.choice, Quot.sound]
'Mfs.Props.C209_parameters' depends on axioms: [propext, Classical.choice, Quot.sound]
'Mfs.Props.C20_legacy_product_entries' depends on axioms: [propext, Classical.choice, Quot.sound]
'Mfs.Props.C20_legacy_product_partial' depends on axioms: [propext, Quot.sound]
'Mfs.Props.C20_legacy_product_wrong' depends on axioms: [propext, Classical.choice, Quot.sound]
'Mfs.Props.C210_ekf' depends on axioms: [propext, Classical.choice, Quot.sound]
'Mfs.Props.C210_linear_data' depends on axioms: [propext, Classical.choice, Quot.sound]
'Mfs.Props.C211_filters' depends on axioms: [propext, Classical.choice, Quot.sound]
'Mfs.Props.C211_linear_data' depends on axioms: [propext, Classical.choice, Quot.sound]
'Mfs.Props.C211_parameters' depends on axioms: [propext, Classical.choice, Quot.sound]
'Mfs.Props.C212_filter' depends on axioms: [propext, Classical.choice, Quot.sound]
'Mfs.Props.C212_rules' depends on axioms: [propext, Classical.choice, Quot.sound]
'Mfs.Props.C212_smoother' depends on axioms: [propext, Classical.choice, Quot.sound]
'Mfs.Props.C213_linear_data' depends on axioms: [propext, Classical.choice, Quot.sound]
'Mfs.Props.C213_sgp' depends on axioms: [propext, Classical.choice, Quot.sound]
'Mfs.Props.C214_ekf_eks' depends on axioms: [propext, Classical.choice, Quot.sound]
'Mfs.Props.C214_sgp' depends on axioms: [propext, Classical.choice, Quot.sound]
'Mfs.Props.C215_const' depends on axioms: [propext, Classical.choice, Quot.sound]
'Mfs.Props.C215_integrals' depends on axioms: [propext, Classical.choice, Quot.sound]
'Mfs.Props.C215_order' depends on axioms: [propext, Classical.choice, Quot.sound]
'Mfs.Props.C215_roots' depends on axioms: [propext, Classical.choice, Quot.sound]
'Mfs.Props.C216_filters' depends on axioms: [propext, Classical.choice, Quot.sound]
'Mfs.Props.C216_smoothers' depends on axioms: [propext, Classical.choice, Quot.sound]
'Mfs.Props.C217_cd_ekf' depends on axioms: [propext, Classical.choice, Quot.sound]
'Mfs.Props.C217_kalman' depends on axioms: [propext, Classical.choice, Quot.sound]
'Mfs.Props.C217_sgp' depends on axioms: [propext, Classical.choice, Quot.sound]
'Mfs.Props.C217_sgp_mix' depends on axioms: [propext, Classical.choice, Quot.sound]
'Mfs.Props.C218_kf_vector_units_partial' depends on axioms: [propext, Classical.choice, Quot.sound]
'Mfs.Props.C218_kf_vector_units_wrong' depends on axioms: [propext, Classical.choice, Quot.sound]
'Mfs.Props.C21_nd_reproduces' depends on axioms: [propext, Classical.choice, Quot.sound]
'Mfs.Props.C22_applies' depends on axioms: [propext, Classical.choice, Quot.sound]
'Mfs.Props.C22_nd_weights_sum_one' depends on axioms: [propext, Classical.choice, Quot.sound]
'Mfs.Props.C23_nd_one_dim' depends on axioms: [propext, Classical.choice, Quot.sound]
'Mfs.Props.C24_nd_affine' depends on axioms: [propext, Classical.choice, Quot.sound]
'Mfs.Props.C25_nd_backend_independent' depends on axioms: [propext, Classical.choice, Quot.sound]
'Mfs.Props.C26_normalised' depends on axioms: [propext, Classical.choice, Quot.sound]
'Mfs.Props.C27_same_filter' depends on axioms: [propext, Classical.choice, Quot.sound]
'Mfs.Props.C27_same_filter_pos' depends on axioms: [propext, Classical.choice, Quot.sound]
'Mfs.Props.C28_causal_resumable' depends on axioms: [propext, Classical.choice, Quot.sound]
'Mfs.Props.C29_likelihood_scaling' depends on axioms: [propext, Classical.choice, Quot.sound]
'Mfs.Props.C30_uninformative' depends on axioms: [propext, Classical.choice, Quot.sound]
'Mfs.Props.C31_realisable' depends on axioms: [propext, Classical.choice, Quot.sound]
'Mfs.Props.C32_records' depends on axioms: [propext, Classical.choice, Quot.sound]
'Mfs.Props.C33_in_filter' depends on axioms: [propext, Classical.choice, Quot.sound]
'Mfs.Props.C33_predicted_scale_iff' depends on axioms: [propext, Classical.choice, Quot.sound]
'Mfs.Props.C33_predicted_scale_partial' depends on axioms: [propext, Classical.choice, Quot.sound]
'Mfs.Props.C33_predicted_scale_relation' depends on axioms: [propext, Classical.choice, Quot.sound]
'Mfs.Props.C33_predicted_scale_wrong' depends on axioms: [propext, Classical.choice, Quot.sound]
'Mfs.Props.C34_wrong_size' depends on axioms: [propext, Classical.choice, Quot.sound]
'Mfs.Props.C35_nd_normalised' depends on axioms: [propext, Classical.choice, Quot.sound]
'Mfs.Props.C36_nd_same_filter' depends on axioms: [propext, Classical.choice, Quot.sound]
'Mfs.Props.C37_nd_one_dim' depends on axioms: [propext, Classical.choice, Quot.sound]
'Mfs.Props.C38_index_signature' depends on axioms: [propext, Classical.choice, Quot.sound]
'Mfs.Props.C39_normal_moments' depends on axioms: [propext, Classical.choice, Quot.sound]
'Mfs.Props.C40_raw_to_central' depends on axioms: [propext, Classical.choice, Quot.sound]
'Mfs.Props.C41_conversions_inverse' depends on axioms: [propext, Classical.choice, Quot.sound]
'Mfs.Props.C42_transition_consistent' depends on axioms: [propext, Classical.choice, Quot.sound]
'Mfs.Props.C43_scaled_iff' depends on axioms: [propext, Classical.choice, Quot.sound]
'Mfs.Props.C43_scaled_partial' depends on axioms: [propext, Classical.choice, Quot.sound]
'Mfs.Props.C43_scaled_value' depends on axioms: [propext, Classical.choice, Quot.sound]
'Mfs.Props.C43_scaled_wrong' depends on axioms: [propext, Classical.choice, Quot.sound]
'Mfs.Props.C44_cumulants' depends on axioms: [propext, Classical.choice, Quot.sound]
'Mfs.Props.C44_first_cumulant_ignores_s1' depends on axioms: [propext, Classical.choice, Quot.sound]
'Mfs.Props.C45_bell' depends on axioms: [propext, Classical.choice, Quot.sound]
'Mfs.Props.C46_characteristic' depends on axioms: [propext, Classical.choice, Quot.sound]
'Mfs.Props.C47_gaussian_sum' depends on axioms: [propext, Classical.choice, Quot.sound]
'Mfs.Props.C47_too_few_moments' depends on axioms: [propext, Classical.choice, Quot.sound]
'Mfs.Props.C48_hermite' depends on axioms: [propext, Classical.choice, Quot.sound]
'Mfs.Props.C49_from_scaled_moments' depends on axioms: [propext, Classical.choice, Quot.sound]
'Mfs.Props.C49_gram_charlier' depends on axioms: [propext, Classical.choice, Quot.sound]
'Mfs.Props.C50_legendre' depends on axioms: [propext, Classical.choice, Quot.sound]
'Mfs.Props.C51_legendre_iff' depends on axioms: [propext, Classical.choice, Quot.sound]
'Mfs.Props.C51_legendre_partial' depends on axioms: [propext, Classical.choice, Quot.sound]
'Mfs.Props.C51_legendre_value' depends on axioms: [propext, Classical.choice, Quot.sound]
'Mfs.Props.C51_legendre_wrong' depends on axioms: [propext, Classical.choice, Quot.sound]
'Mfs.Props.C52_polynomial_roots' depends on axioms: [propext, Classical.choice, Quot.sound]
'Mfs.Props.C52_repaired' depends on axioms: [propext, Classical.choice, Quot.sound]
'Mfs.Props.C52_saddle_partial' depends on axioms: [propext, Classical.choice, Quot.sound]
'Mfs.Props.C52_saddle_wrong' depends on axioms: [propext, Classical.choice, Quot.sound]
'Mfs.Props.C53_truncated_cgf' depends on axioms: [propext, Classical.choice, Quot.sound]
'Mfs.Props.C54_discretise' depends on axioms: [propext, Classical.choice, Quot.sound]
'Mfs.Props.C55_ldl_factorises' depends on axioms: [propext, Classical.choice, Quot.sound]
'Mfs.Props.C55_ldl_pivots_pos' depends on axioms: [propext, Classical.choice, Quot.sound]
'Mfs.Props.C56_default_eps' depends on axioms: [propext, Classical.choice, Quot.sound]
'Mfs.Props.C56_ldl_chol' depends on axioms: [propext, Classical.choice, Quot.sound]
'Mfs.Props.C57_lanczos' depends on axioms: [propext, Classical.choice, Quot.sound]
'Mfs.Props.C58_ritz' depends on axioms: [propext, Classical.choice, Quot.sound]
'Mfs.Props.C59_pcrlb_kf' depends on axioms: [propext, Classical.choice, Quot.sound]
'Mfs.Props.C59_pcrlb_recursion' depends on axioms: [propext, Classical.choice, Quot.sound]
'Mfs.Props.C59_pcrlb_symmetric' depends on axioms: [propext, Classical.choice, Quot.sound]
'Mfs.Props.C60_simulate_sde' depends on axioms: [propext, Classical.choice, Quot.sound]
'Mfs.Props.C61_vmap_list' depends on axioms: [propext, Quot.sound]
'Mfs.Props.C62_binom' depends on axioms: [propext, Classical.choice, Quot.sound]
'Mfs.Props.C63_kan' depends on axioms: [propext, Classical.choice, Quot.sound]
'Mfs.Props.C64_uniform' depends on axioms: [propext, Classical.choice, Quot.sound]
'Mfs.Props.C65_transition_consistent' depends on axioms: [propext, Classical.choice, Quot.sound]
'Mfs.Props.C66_gaussian_sum' depends on axioms: [propext, Classical.choice, Quot.sound]
'Mfs.Props.C67_kf_scalar' depends on axioms: [propext, Classical.choice, Quot.sound]
'Mfs.Props.C68_kf_vector_generic' depends on axioms: [propext, Classical.choice, Quot.sound]
'Mfs.Props.C68_kf_vector_iff' depends on axioms: [propext, Classical.choice, Quot.sound]
'Mfs.Props.C68_kf_vector_partial' depends on axioms: [propext, Classical.choice, Quot.sound]
'Mfs.Props.C68_kf_vector_shape' depends on axioms: [propext, Classical.choice, Quot.sound]
'Mfs.Props.C68_kf_vector_wrong' depends on axioms: [propext, Classical.choice, Quot.sound]
'Mfs.Props.C69_log_mvn_iff' depends on axioms: [propext, Classical.choice, Quot.sound]
'Mfs.Props.C69_log_mvn_partial' depends on axioms: [propext, Classical.choice, Quot.sound]
'Mfs.Props.C69_log_mvn_value' depends on axioms: [propext, Classical.choice, Quot.sound]
'Mfs.Props.C69_log_mvn_wrong' depends on axioms: [propext, Classical.choice, Quot.sound]
'Mfs.Props.C70_rts' depends on axioms: [propext, Classical.choice, Quot.sound]
'Mfs.Props.C70_rts_after_kf' depends on axioms: [propext, Classical.choice, Quot.sound]
'Mfs.Props.C71_ekf' depends on axioms: [propext, Classical.choice, Quot.sound]
'Mfs.Props.C71_sgp_scalar' depends on axioms: [propext, Classical.choice, Quot.sound]
'Mfs.Props.C71_sgp_smoother' depends on axioms: [propext, Classical.choice, Quot.sound]
'Mfs.Props.C71_sgp_vector' depends on axioms: [propext, Classical.choice, Quot.sound]
'Mfs.Props.C72_cubature' depends on axioms: [propext, Classical.choice, Quot.sound]
'Mfs.Props.C72_sigma_points' depends on axioms: [propext, Classical.choice, Quot.sound]
'Mfs.Props.C73_roll_table' depends on axioms: [propext, Classical.choice, Quot.sound]
'Mfs.Props.C74_coefficients' depends on axioms: [propext, Classical.choice, Quot.sound]
'Mfs.Props.C74_gauss_hermite' depends on axioms: [propext, Classical.choice, Quot.sound]
'Mfs.Props.C74_gaussian_expectation' depends on axioms: [propext, Classical.choice, Quot.sound]
'Mfs.Props.C74_roots_exist' depends on axioms: [propext, Classical.choice, Quot.sound]
'Mfs.Props.C74_second_order' depends on axioms: [propext, Classical.choice, Quot.sound]
'Mfs.Props.C75_rk4' depends on axioms: [propext, Classical.choice, Quot.sound]
'Mfs.Props.C75_rk4_affine' depends on axioms: [propext, Classical.choice, Quot.sound]
'Mfs.Props.C76_in_range' depends on axioms: [propext, Classical.choice, Quot.sound]
'Mfs.Props.C76_sorted' depends on axioms: [propext, Classical.choice, Quot.sound]
'Mfs.Props.C77_systematic_partial' depends on axioms: [propext, Classical.choice, Quot.sound]
'Mfs.Props.C77_systematic_refuted' depends on axioms: [propext, Classical.choice, Quot.sound]
'Mfs.Props.C77_systematic_within_one' depends on axioms: [propext, Classical.choice, Quot.sound]
'Mfs.Props.C77_systematic_zero' depends on axioms: [propext, Classical.choice, Quot.sound]
'Mfs.Props.C78_zero_weight_iff' depends on axioms: [propext, Classical.choice, Quot.sound]
'Mfs.Props.C78_zero_weight_partial' depends on axioms: [propext, Classical.choice, Quot.sound]
'Mfs.Props.C78_zero_weight_refuted' depends on axioms: [propext, Classical.choice, Quot.sound]
'Mfs.Props.C79_continuous' depends on axioms: [propext, Classical.choice, Quot.sound]
'Mfs.Props.C80_ancestors' depends on axioms: [propext, Classical.choice, Quot.sound]
'Mfs.Props.C80_continuous' depends on axioms: [propext, Classical.choice, Quot.sound]
'Mfs.Props.C80_nell' depends on axioms: [propext, Classical.choice, Quot.sound]
'Mfs.Props.C80_particle_filter' depends on axioms: [propext, Classical.choice, Quot.sound]
'Mfs.Props.C80_positive_likelihood' depends on axioms: [propext, Classical.choice, Quot.sound]
'Mfs.Props.C80_scale' depends on axioms: [propext, Classical.choice, Quot.sound]
'Mfs.Props.C81_chapman' depends on axioms: [propext, Classical.choice, Quot.sound]
'Mfs.Props.C81_ingredients' depends on axioms: [propext, Classical.choice, Quot.sound]
'Mfs.Props.C81_nonneg' depends on axioms: [propext, Classical.choice, Quot.sound]
'Mfs.Props.C81_normalised' depends on axioms: [propext, Classical.choice, Quot.sound]
'Mfs.Props.C82_classification' depends on axioms: [propext, Classical.choice, Quot.sound]
'Mfs.Props.C82_documented' depends on axioms: [propext, Classical.choice, Quot.sound]
'Mfs.Props.C82_unknown_method_partial' depends on axioms: [propext, Classical.choice, Quot.sound]
'Mfs.Props.C82_unknown_method_refuted' depends on axioms: [propext, Classical.choice, Quot.sound]
'Mfs.Props.C83_bernoulli' depends on axioms: [propext, Classical.choice, Quot.sound]
'Mfs.Props.C83_poisson' depends on axioms: [propext, Classical.choice, Quot.sound]
'Mfs.Props.C84_fields' depends on axioms: [propext, Classical.choice, Quot.sound]
'Mfs.Props.C84_filters' depends on axioms: [propext, Classical.choice, Quot.sound]
'Mfs.Props.C84_smoothers' depends on axioms: [propext, Classical.choice, Quot.sound]
'Mfs.Props.C85_nd_raw_central_scaled' depends on axioms: [propext, Classical.choice, Quot.sound]
'Mfs.Props.C86_nd_causal_resumable' depends on axioms: [propext, Classical.choice, Quot.sound]
'Mfs.Props.C87_nd_likelihood_scaling' depends on axioms: [propext, Classical.choice, Quot.sound]
'Mfs.Props.C88_characteristic_from_pdf' depends on axioms: [propext, Classical.choice, Quot.sound]
'Mfs.Props.C89_inverse_fourier' depends on axioms: [propext, Classical.choice, Quot.sound]
'Mfs.Props.C90_stratified_unbiased' depends on axioms: [propext, Classical.choice, Quot.sound]
'Mfs.Props.C90_systematic_unbiased' depends on axioms: [propext, Classical.choice, Quot.sound]
'Mfs.Props.C91_particle_eq_bootstrap' depends on axioms: [propext, Classical.choice, Quot.sound]
'Mfs.Props.C92_scale_invariance' depends on axioms: [propext, Classical.choice, Quot.sound]
'Mfs.Props.C93_fokker_planck' depends on axioms: [propext, Classical.choice, Quot.sound]
'Mfs.Props.C93_quadratic' depends on axioms: [propext, Classical.choice, Quot.sound]
'Mfs.Props.C94_benes' depends on axioms: [propext, Classical.choice, Quot.sound]
'Mfs.Props.C94_prey_predator' depends on axioms: [propext, Classical.choice, Quot.sound]
'Mfs.Props.C95_mgf' depends on axioms: [propext, Classical.choice, Quot.sound]
'Mfs.Props.C96_tme' depends on axioms: [propext, Classical.choice, Quot.sound]
'Mfs.Props.C97_finite_state_exact' depends on axioms: [propext, Classical.choice, Quot.sound]
'Mfs.Props.C98_rule_shape' depends on axioms: [propext, Classical.choice, Quot.sound]
'Mfs.Props.C99_likelihood_normalised' depends on axioms: [propext, Classical.choice, Quot.sound]
'Mfs.Props.chol_coord_of_posDef' depends on axioms: [propext, Classical.choice, Quot.sound]
'Mfs.Props.exists_cholCoord' depends on axioms: [propext, Classical.choice, Quot.sound]
'Mfs.Props.linear_prediction' depends on axioms: [propext, Classical.choice, Quot.sound]
