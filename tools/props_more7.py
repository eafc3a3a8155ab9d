CV = 'dardel/convergence/convergence_pf.py:'
p('C116', 'The Ornstein-Uhlenbeck experiment simulates the discretised model',
  'The hand-written F and Sigma of the convergence experiment are what discretise_lti_sde returns for its drift and dispersion, the initial variance is stationary for them, and the simulated path (Cholesky factor of the Matern covariance times standard normal draws) is the autoregression x_{k+1} = F x_k + sqrt(Sigma) z_{k+1} started from sigma z_0.',
  'all ell, sigma, dt > 0, lengths, draws, Cholesky backends', 'Two constructions of the same process are compared for every draw and every length.', CV+'matern12', UT+'discretise_lti_sde')
p('C117', "The experiment's own Kalman filter is the library's",
  "The scalar Kalman filter written in the convergence scripts returns the same means, variances and negative log-likelihood as mfs' kf on the corresponding one-by-one matrices.",
  'all F, Sigma, R, initial values, measurement sequences', 'Equality of two recursions over unbounded sequences.', CV+'kf', GF+'kf')
p('C118', 'The reported Kullback-Leibler error is a Kullback-Leibler divergence',
  'The error computed from estimated and true mean and variance is the Kullback-Leibler divergence of the two normal laws (estimate first); it is finite, non-negative, and zero exactly if both means and variances agree.',
  'all means, all positive variances', 'The reference is an integral over the real line of a log-density ratio.', CV+'errs_kls', 'dardel/convergence/convergence_mf.py:errs_kls')
p('C119', 'The proposal of the particle-filter experiment is the optimal one',
  'The sampler draws from the density that proposal_density evaluates; transition density times likelihood equals predictive density times proposal density; hence in the library particle filter every particle weight is the predictive density of the measurement given the ancestor, whatever was sampled.',
  'all F, Sigma > 0, R > 0, ancestors, measurements, keys, particle numbers, resampling schemes', 'Independence of the weights from the draws is a statement about all draws.', CV+'proposal_sampler', CV+'proposal_density', CV+'transition_density', SM+'particle_filter')
p('C120', 'The parameter map of the estimation scripts is a bijection onto positive parameters',
  'log(exp(p) + 1) is positive and strictly increasing, reaches every positive number, has the inverse log(exp(p) - 1) used for the initial value, and so minimising over unconstrained parameters is minimising over positive ones.',
  'all real and all positive parameters, all objectives', 'Surjectivity and equivalence of minimisation problems quantify over all reals.', 'dardel/parameter_estimation/mf.py:obj_func', 'dardel/parameter_estimation/mf.py:init_params')
p('C121', 'Characteristic-function errors of the Benes experiment',
  'The characteristic functions computed for the Gaussian filter and for the particle filter are those of the normal law and of the empirical measure, with modulus at most one. The L1, L2 and sup errors on the grid are metrics on functions on the grid (non-negative, symmetric, zero only for equal values, triangle inequality) and satisfy L1 <= length * sup, L2^2 <= sup * L1, L1^2 <= length * L2^2.',
  'all grids with at least two increasing points, all complex-valued functions on them, all means, variances, particle sets', 'Metric laws quantify over all functions.', 'dardel/benes_bernoulli/compute_errs.py:ghf_filtering_cfs', 'dardel/benes_bernoulli/pf.py:pf_filtering_cfs')
p('C122', 'The estimate saved for the Gauss-Hermite filter minimises the Gauss-Hermite objective',
  'A user reads the file of the Gauss-Hermite run as the estimate of that filter. It is false: the script passes the objective of the extended Kalman filter to both optimisations, so both files hold the same estimate whatever the optimiser, and with an exact optimiser it need not minimise the Gauss-Hermite objective.',
  'all optimisers, objectives, initial values', 'A plausible-looking number is saved; only a comparison over all objectives shows it is the wrong one.', 'dardel/parameter_estimation/ghf_ekf.py:opt_solver')
p('C123', "The notebook's Euler-Maruyama moments are those of the library",
  'False: the conditional variance lacks the factor dt, so the second moments differ at every point with non-zero dispersion unless dt = 1.',
  'all drifts, dispersions, dt >= 0 with dt != 1, orders, points', 'The result is still a valid normal moment sequence, of another law.', 'examples/benes_bernoulli.ipynb:state_cond_raw_moments_euler_maruyama', M1+'sde_cond_moments_euler')
