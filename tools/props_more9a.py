p('C137', 'ND filters are exact on polynomial processes',
  'If the conditional moments of the transition up to degree 2N-1 are polynomials in the state of no larger degree and the measurements carry no information, the moments, means and scales returned by each of the three ND filters are those of the exact law at every step.',
  'all d, N >= 2, polynomial transitions, initial laws, horizons, as long as the Gram matrices stay positive definite', 'A statement for every dimension, order and horizon about exactness, not approximation.', MF+'moment_filter_nd_rms', MF+'moment_filter_nd_cms', MF+'moment_filter_nd_scms', MQ+'moment_quadrature_nd')
p('C138', 'The likelihoods of the ND filters are a probability on measurement sequences',
  'For a discrete measurement with a pmf, exp(-nell) summed over all measurement sequences of a given length is one, for each of the three ND filters, if the predictive likelihoods along the runs are positive; and the predicted moments are the average of the posterior moments (law of total expectation).',
  'all moments (also those of no law), models, pmfs, lengths', 'A sum over all measurement sequences of every length.', MF+'moment_filter_nd_rms', MF+'moment_filter_nd_cms', MF+'moment_filter_nd_scms')
p('C139', 'One-dimensional marginals of the ND rule are probability laws',
  'Although the ND rule can have negative weights, the weights of the nodes grouped by one coordinate are non-negative and sum to one, whatever the moments. Hence a measurement of one coordinate always has a positive predictive likelihood, and the posterior moments of this coordinate are moments of a law (positive semidefinite Hankel matrix).',
  'all moment vectors, dimensions, coordinates, positive likelihoods of one coordinate, sequences', 'Holds for moment vectors of no law, where the signs of single weights are arbitrary.', MQ+'moment_quadrature_nd', MF+'moment_filter_nd_rms', MF+'moment_filter_nd_cms', MF+'moment_filter_nd_scms')
p('C140', 'ND nodes stay in the bounding box of the support',
  'If the moments are those of a finite measure on a box, every coordinate of every node of the ND rule lies in the corresponding side of the box.',
  'all d, N, boxes, measures, flags', 'All measures on all boxes.', MQ+'moment_quadrature_nd')
p('C141', 'The ND filters do not depend on the units and the origin of the state',
  'Measure each coordinate in other units, x_j -> a_j + b_j x_j with b_j > 0: moment_filter_nd_scms returns the same scaled moments, the transformed means and scales and the same nell; for a change of origin, moment_filter_nd_cms returns the same central moments, the moved means and the same nell.',
  'all a, b, models, moments (also those of no law), sequences with non-zero predictive likelihoods', 'A relation between two runs for all inputs.', MF+'moment_filter_nd_scms', MF+'moment_filter_nd_cms', MQ+'moment_quadrature_nd')
p('C142', 'The Kolmogorov method of the brute-force filter converges in the number of integration steps',
  'As integration_steps grows, the kolmogorov prediction over dt converges, with an error of order 1 / integration_steps, to the solution at time dt of the linear differential equation given by the operator of C93 on the grid, and all densities returned by brute_force_filter converge to those of the filter with this exact prediction.',
  'all drifts, dispersions, grids, likelihoods, initial densities, sequences with non-zero normalising constants', 'A limit.', BF+'brute_force_filter')
p('C143', 'The ND rule converges as the order grows',
  'For a probability law on a box that is not concentrated on the zeros of a polynomial, and an integrand that is a sum of products of continuous functions of single coordinates (finitely many, or with summable bounds), the results of moment_quadrature_nd converge to the integral as N grows, in the raw, central and scaled representation. On products of bounded functions of single coordinates the rule is bounded by the product of the bounds for all moments, although its weights can be negative.',
  'all d, laws, boxes, integrands of this form, orders, flags', 'A limit, for all laws and integrands.', MQ+'moment_quadrature_nd')
p('C144', 'The Gaussian filters and smoothers do not depend on the coordinates of the state',
  'Write the state in other coordinates z = T x + c, and the model accordingly: the filters and smoothers return the transformed means T m + c and covariances T P T^t and the same nell. For kf, ekf, cd_ekf (scalar measurements), rts, eks and cd_eks with T any invertible matrix; for sgp_filter, cd_sgp_filter, sgp_smoother and cd_sgp_smoother with any T that commutes with the Cholesky factor, e.g. lower triangular with positive diagonal, in particular a change of units.',
  'all T, c, models (linear or not), sigma-point rules, measurement sequences', 'A relation between two runs for all models; the tests use linear models, where e.g. the point of linearisation does not matter.', GF+'kf', GF+'ekf', GF+'cd_ekf', GF+'sgp_filter', GF+'cd_sgp_filter', GF+'rts', GF+'eks', GF+'cd_eks', GF+'sgp_smoother', GF+'cd_sgp_smoother')
p('C145', 'On linear SDEs the continuous-discrete filters follow the exact transition to fourth order',
  'For dX = A X dt + B dW one RK4 prediction of cd_ekf agrees with the transition of discretise_lti_sde up to C dt^5 in every entry of mean and covariance; cd_ekf over n uninformative measurements spaced D / n ends with an error of at most C / n^4; the prediction of cd_sgp_filter from a positive definite covariance equals the one of cd_ekf for all small enough dt; cd_sgp_filter over n uninformative measurements also ends with an error of at most C / n^4 in the mean, and from a positive definite covariance in the covariance too.',
  'all A, B, initial beliefs, second-order sigma-point rules, horizons D, n', 'An order of convergence, for all linear models.', GF+'cd_ekf', GF+'cd_sgp_filter', CQ+'rk4_m_cov', UT+'discretise_lti_sde')
p('C146', 'On linear SDEs the continuous-discrete smoothers are consistent with the RTS smoother, to first order only',
  'For dX = A X dt + B dW one backward step of cd_eks and of cd_sgp_smoother differs from the step of rts with the transition of discretise_lti_sde by o(dt) in every entry of mean and covariance. The order is not higher although a fourth-order method is used: for Brownian motion the difference of the means is -dt^2 / 2 to leading order, since the filtering law is held fixed over the interval.',
  'all A, B, second-order sigma-point rules, positive definite filtering covariances, smoothed beliefs', 'An order of convergence, for all linear models.', GF+'cd_eks', GF+'cd_sgp_smoother', GF+'rts', CQ+'rk4_m_cov_backward', UT+'discretise_lti_sde')
p('C147', 'Stratified resampling is never worse than independent draws; systematic resampling can be',
  'The average of any function over the ancestors chosen by stratified has a mean square error of at most Var_w / n about its weighted mean, and for multinomial exactly Var_w / n. For systematic there is no such bound: for every even n there are weights and a 0/1 function with mean square error 1/16.',
  'all n, normalised weights, functions', 'An expectation over the random draws, for all weights and functions.', RS+'stratified', RS+'multinomial', RS+'systematic')
p('C148', 'The bootstrap filter converges in mean square',
  'With idealised keys, particles moved independently, a bounded likelihood and stratified or multinomial resampling, exp(-nell) times the average of a bounded f over the last cloud has a mean square error of at most (2T+1) (G^T F)^2 / n about E[f(x_T) p(y | x)], and the average itself one of at most 4 (2T+1) (G^T F)^2 / (n p(y)^2) about the filtering mean; f = 1 covers the likelihood estimate exp(-nell).',
  'all numbers of particles, horizons, models with bounded positive likelihood, bounded measurable f, measurement sequences', 'An expectation over all random draws, for every number of particles.', SM+'bootstrap_filter', RS+'stratified', RS+'multinomial')

p("C149","The particle filter converges to the filtering mean, whatever the proposal",
  "For idealised keys, proposals with positive densities, bounded importance weights and unbiased resampling with at most the variance of independent draws, the average of a bounded function over every cloud returned by particle_filter estimates the filtering mean of the model (transition density, likelihood) with a mean square error of at most an explicit constant over the number of particles; the limit does not depend on the proposal.",
  "all state and measurement spaces, models, proposals, bounded functions, measurement sequences, steps, numbers of particles",
  "A rate in the number of particles and independence of the proposal are statements about the law of all runs.",
  SM+"particle_filter")

p("C150","Systematic and stratified resampling of ordered particles",
  "Whatever the draws, the average over the particles picked by systematic or stratified differs from the weighted average by at most the variation of the values from each particle to the next, over the number of particles. Hence for particles in increasing order the distribution function changes by at most 1/n everywhere.",
  "all weights, values, draws, numbers of particles",
  "A bound for all draws and all test functions.",
  RS+"systematic",RS+"stratified")

p("C151","posterior_cramer_rao bounds the error of every estimator",
  "Let J be the limit of the matrices returned by posterior_cramer_rao as the number of independent sample trajectories grows (it exists almost surely), started from the information of the initial law. Then every estimator of the state computed from the measurements up to that time has, in every direction b, a mean square error of at least b^T J^-1 b.",
  "all dimensions, horizons, twice continuously differentiable log-densities with square integrable scores, measurement spaces, estimators, directions",
  "Quantifies over all estimators and over the law of all trajectories.",
  UT+"posterior_cramer_rao")

p("C152","The Chapman methods of the brute-force filter converge to the exact Bayes filter",
  "With pred_method 'chapman-euler' or 'chapman-tme-<order>', on every sufficiently fine grid (not necessarily uniform) of every sufficiently long interval, the densities returned by brute_force_filter are uniformly close, at all times and points of the grid, to the filtering densities of the chain that makes integration_steps normal transitions of duration dt / integration_steps between two measurements, and their trapezoidal integrals are close to the posterior expectations. In particular the means and characteristic functions that the Benes-Bernoulli post-processing computes converge, and with one integration step they agree in the limit with those of the moment filters.",
  "all continuous drifts and dispersions bounded away from zero, bounded continuous positive likelihoods, bounded continuous initial densities, measurement sequences, numbers of integration steps, test functions, grids",
  "A limit over all grids and intervals, and the exact filter is an infinite-dimensional recursion.",
  BF+"brute_force_filter", M1+"characteristic_from_pdf", "dardel/benes_bernoulli/post_processing_brute_force.py")

p("C153","On the Benes model the Taylor moment expansion is exact",
  "For benes_bernoulli, whose SDE dX = tanh(X) dt + dW has a known transition law, the raw, central and scaled conditional moments of sde_cond_moments_tme are exactly those of the SDE up to the order tme_order, for every step; tme.mean_and_cov gives the exact mean x + tanh(x) dt from order one and the exact variance dt + (1 - tanh(x)^2) dt^2 from order two. Consequently the assumptions about the package under which the experiment converges (C136, C152) hold for every order.",
  "all states, steps, orders, moments up to the order, centres and scales",
  "The transition law of an SDE is not available to a test; agreement with a simulation is statistical and has a discretisation bias.",
  M1+"sde_cond_moments_tme", S1+"benes_bernoulli", M1+"sde_cond_moments_tme_normal")
p("C154","With an expansion of sufficient order the moment filters solve the continuous-time Benes filtering problem",
  "For benes_bernoulli with sde_cond_moments_tme of an order of at least 2 N - 1, the raw and central moment filters never break down and agree, for every N, every measurement sequence and every step; as N grows, their negative log-likelihoods, moments, means and expectations converge to those of the exact filter of the SDE itself, with no discretisation error left.",
  "all numbers of moments, measurement sequences, steps",
  "The limit in N and the exact continuous-time filter are out of reach of tests.",
  F1+"moment_filter_rms", F1+"moment_filter_cms", M1+"sde_cond_moments_tme", S1+"benes_bernoulli")

p("C155","The quadrature and the one-dimensional filters are continuous in their inputs",
  "At valid moment vectors (which form an open set) the value of moment_quadrature on any continuous function is continuous in the moments, the mean and the scale, whatever eigenvectors the routine picks; with sort_nodes each node and each weight is continuous by itself. For conditional laws that are positive on squares with continuous moments (such as Euler-Maruyama with continuous drift and non-vanishing dispersion) and a positive jointly continuous measurement density, the negative log-likelihood and all filtering moments, means and scales of the three filters are jointly continuous in the initial moments, mean and scale and in the measurements.",
  "all valid moment vectors, continuous integrands, models, measurement sequences, backends",
  "Continuity at every point; small perturbations on examples cannot show the absence of jumps, and eigenvectors do jump.",
  Q1+"moment_quadrature", F1+"moment_filter_rms", F1+"moment_filter_cms", F1+"moment_filter_scms")

p("C156","Order of consistency of the Kolmogorov operator",
  "On an evenly spaced grid, at points at least two steps away from both ends, the operator of the method 'kolmogorov' differs from the Kolmogorov forward operator -(a p)' + (b^2 p)''/2 of a four times differentiable density by at most (|(b^2)' - a| M3 + b^2 M4) / 6 times the square of the grid step. At the two outermost points of each end it does not converge: the limit misses a quarter (end points) or an eighth (their neighbours) of b^2 p''.",
  "all drifts, dispersions, densities with the stated smoothness, grids, steps, points",
  "A limit in the grid step for all densities; the wrong constants at the ends are hidden by densities that vanish there.",
  BF+"brute_force_filter")

p("C157","Error bound of the quadrature rule",
  "Given the first 2n (scaled, centred) moments of a probability law carried by an interval I (bounded or the whole line, at least n points of support), the nodes of moment_quadrature lie in I and for every integrand with 2n continuous derivatives the rule differs from the expectation by at most sup_I |f^(2n)| / (2n)! times the second moment of any monic polynomial of degree n. On [a, b] this is M ((b-a)/2)^(2n) / (2n)!. characteristic_fn(z) differs from the characteristic function of the law by at most |z|^(2n)/(2n)! times that second moment, for a normal law by at most (z^2 v/2)^n / n!. The constant is attained by the square of a polynomial.",
  "all laws with 2n moments, numbers of moments, centres, scales, smooth integrands, frequencies, flags",
  "Tests compare a few integrands with closed forms up to a tolerance; the bound is over all laws and integrands.",
  Q1+"moment_quadrature",M1+"characteristic_fn")
p("C158","Error bound of one filtering step",
  "With exact initial moments and a transition that maps polynomials to polynomials without raising the degree, the negative log-likelihood returned by the three one-dimensional filters after one measurement differs from the exact one by at most d0/(Z-d0), and the filtered mean (raw filter: every returned moment of order k) from the exact posterior moment E_k by at most (d_k + |E_k| d0)/(Z-d0), where Z is the exact predictive likelihood of the measurement, d_k = M_k/(2n)! times the second moment of any monic polynomial of degree n under the predictive law, and M_k bounds the derivative of order 2n of x^k p(y|x).",
  "all initial laws, polynomial transitions, smooth measurement densities, measurements, numbers of moments, modes",
  "A quantitative statement about distance to the exact posterior, which no test can compute for general models.",
  F1+"moment_filter_rms",F1+"moment_filter_cms",F1+"moment_filter_scms")

p("C159","Every draw of the bootstrap filter uses a key of its own",
  "bootstrap_filter with a GaussianSum1D or GaussianSumND sampler, a normal transition sampler of the form used by the scripts and any of the three index resampling schemes never draws twice from one key. The output depends on the generator only through the draws at 2 + 2T listed keys. FALSE with two measurements for every generator: the sampler draws its normals from split(key)[0], and the first transition uses split(key, T)[0]. FALSE for every T >= 1 when split(key, n)[i] does not depend on n. Every particle of the first filtered cloud is then a deterministic function of an initial particle and its mixture component. TRUE for T != 2 when different derivations give different keys.",
  "all generators, keys, mixtures, transition means and variances, likelihoods, measurements, numbers of particles, resampling schemes",
  "Reused randomness gives plausible output; a test sees numbers of the right size.",
  SM+"bootstrap_filter",UT+"GaussianSum1D.sampler",RS+"systematic",RS+"stratified",RS+"multinomial",UT+"GaussianSumND.sampler")
p("C160","The first predictive cloud has the law of the model",
  "On x0 ~ N(m0, s0^2), x1 = a x0 + sigma w, each particle propagated by the first step of bootstrap_filter is N(a m0, a^2 s0^2 + sigma^2). FALSE when the key of the first transition is that of the initial normals (C159): it is then N(a m0, (a s0 + sigma)^2), a different law unless a s0 sigma = 0. TRUE when the two draws are independent.",
  "all linear scalar models, generators, keys, numbers of particles and of measurements",
  "A statement about a law; a sample test needs the exact reference and would have to look at the first step only.",
  SM+"bootstrap_filter",UT+"GaussianSum1D.sampler")
p("C161","Simulated data and particle filter of the scripts do not share randomness",
  "In dardel/prey_predator/pf.py and dardel/benes_bernoulli/pf.py the filter draws from no key the simulation drew from. TRUE for both when different derivations give different keys. FALSE for prey_predator when keys and draws do not depend on how many are asked for: the first initial particle is the true initial state. The Benes script is safe in that case too. simulate of prey_predator depends on the generator only through the draws at four pairwise different keys.",
  "all generators, keys, model parameters, mixtures, numbers of steps and particles",
  "The leak is one particle among many, invisible in an error average.",
  "dardel/prey_predator/pf.py","dardel/benes_bernoulli/pf.py","mfs/multi_dims/ss_models.py:prey_predator")

p("C162","Simulated populations of the prey-predator model",
  "simulate of prey_predator returns T states and T measurements; each state comes from the previous one by integration_steps Milstein steps of length dt/integration_steps, and every normal draw is used exactly once; each integration step has the mean of the Euler scheme and its covariance plus sigma^4 ddt^2 x_i^2 / 2 on the diagonal; a set preserved by the integrator contains the whole trajectory, so an extinct species stays extinct. Simulated populations stay positive: FALSE, there are draws for which simulate, with the model as it is, returns a negative prey; a step from a positive population is positive for every noise exactly when 1/2 + (growth - sigma^2/2) ddt > 0, and the whole trajectory is positive for small steps when beta = 0.",
  "all parameters, step sizes, states, generators, keys, numbers of steps",
  "The violating noise is too rare for a test to draw; the moments are statements about a law.",
  "mfs/multi_dims/ss_models.py:prey_predator")

p("C163","Samples from a Gaussian sum are independent draws from the mixture",
  "If the uniforms drawn with the key given to GaussianSum1D.sampler or GaussianSumND.sampler are independent and uniform on [0, 1), and the normals drawn with the first key of its split are independent standard normals independent of the uniforms, then the n returned particles are independent and each has the law of the mixture.",
  "all numbers of particles, components with nonnegative weights summing to one, nonnegative variances (positive definite covariances), keys, generators",
  "Independence and equality in law are statements about all events, which finitely many draws cannot establish.",
  "mfs/utils.py:GaussianSum1D.sampler", "mfs/utils.py:GaussianSumND.sampler")

p("C164","The divergence counts and averages of the plots",
  "rm_divergent keeps exactly the runs without NaN and counts the others; each curve is the average over the kept runs; find_valid splits the runs into counted and kept, the kept being the successful ones below the bound. The printed number of divergences of a filter is the number of runs in which the true filter is fine and the filter has a NaN: FALSE when a simulated trajectory has a NaN but the true filter has none (the printed number may be negative), true otherwise. A lower curve means a better filter on the runs where both work: FALSE, as each filter is averaged over its own runs; true when they fail in the same runs. find_valid drops runs without a usable estimate: FALSE for NaN estimates flagged as success.",
  "all numbers of runs and times, all arrays with and without NaN, all bounds",
  "A plot shows one data set; whether the bookkeeping is right depends on the pattern of failures.",
  "reproduce_paper_plots/plot_benes_bernoulli_errs_and_times.py:rm_divergent", "reproduce_paper_plots/plot_benes_bernoulli_errs_and_times.py:unpack", "reproduce_paper_plots/plot_parameter_estimation.py:find_valid")

p("C165","The multidimensional rule is continuous in the moments",
  "At every moment vector with a positive definite Gram matrix, the value of moment_quadrature_nd on a continuous function is jointly continuous in the moments, the mean and the scale; such moment vectors form an open set. No assumption on how eigh picks eigenvectors or their signs, on repeated eigenvalues or on the signs of the weights.",
  "all orders and dimensions, all valid backends, all continuous functions, all moment vectors, means and scales",
  "eigh may return quite different eigenvectors for two nearly equal matrices, so nodes and weights may jump between two runs; a test cannot exclude that the value jumps at an unseen point.",
  "mfs/multi_dims/quadratures.py:moment_quadrature_nd")
p("C166","The multidimensional filters are continuous in initial moments and measurements",
  "For conditional moments continuous in the state and a jointly continuous measurement density, the inputs for which all Gram matrices along the run are positive definite and all predictive likelihoods positive (for scaled moments: and all scales positive) form an open set, on which the negative log-likelihood and every filtering moment, mean and scale are continuous in the initial moments, the mean, the scale and the measurements.",
  "all orders, dimensions and numbers of measurements, all continuous models, all valid backends, both Cholesky options, raw, central and scaled moments",
  "A gradient-based fit needs the objective to be continuous; a test sees finitely many inputs.",
  "mfs/multi_dims/filtering.py:moment_filter_nd_rms", "mfs/multi_dims/filtering.py:moment_filter_nd_cms", "mfs/multi_dims/filtering.py:moment_filter_nd_scms")

p("C167","The one-dimensional rule is differentiable in the moments",
  "At every valid moment vector (positive definite Hankel matrix), the value of moment_quadrature on a C^r function is C^r in the moments, the mean and the scale jointly, for every r up to infinitely often and analytic; with sort_nodes every single node and weight is an analytic function of them. Its derivative along a curve of moments is the derivative of the normalised moments applied to the coefficients of the polynomial that agrees with the function and its derivative at the nodes.",
  "all orders r and n, all valid backends, both Cholesky options, sorted or not, all functions, moment vectors, means and scales",
  "Automatic differentiation goes through Cholesky factors and eigenvectors, whose choice is not unique; tests compare gradients at a few points only and cannot exclude points where the derivative does not exist.",
  "mfs/one_dim/quadtures.py:moment_quadrature")
p("C168","The negative log-likelihood of the one-dimensional filters is differentiable in the model parameters",
  "If the initial moments (mean, scale), the conditional moments and the measurement density at the given measurements are C^r in a parameter (and the state), then at every parameter for which the run is valid, i.e. Gram matrices are positive definite and likelihoods and scales positive, the negative log-likelihood and all filtering moments, means and scales are C^r in the parameter. Runs are valid for positive densities and conditional laws positive on squares, in particular for Euler-Maruyama moments with a dispersion that does not vanish.",
  "all parameter spaces, all r up to analytic, all orders and numbers of measurements, raw, central and scaled moments, all valid backends",
  "Parameters are fitted with gradients of this function; a test can compare the gradient with differences at a few parameters but not show that it exists everywhere.",
  "mfs/one_dim/filtering.py:moment_filter_rms", "mfs/one_dim/filtering.py:moment_filter_cms", "mfs/one_dim/filtering.py:moment_filter_scms", "mfs/one_dim/moments.py:sde_cond_moments_euler")

p("C169","The multidimensional rule is differentiable in the moments",
  "At every moment vector with a positive definite Gram matrix, the value of moment_quadrature_nd on a C^r function is C^r in the moments, the mean and the scale jointly, for every finite r and for r infinite. This holds although the eigenvalues of the multiplication matrices may be repeated, where nodes and eigenvectors themselves are not differentiable, and whatever eigenvectors the backend returns there.",
  "all r, dimensions and orders, all valid backends, both Cholesky options, sorted or not, all functions, moment vectors, means and scales",
  "The textbook derivative of an eigen-decomposition divides by differences of eigenvalues; tests at generic points cannot tell whether the rule itself has a derivative where eigenvalues coincide.",
  "mfs/multi_dims/quadratures.py:moment_quadrature_nd")
p("C170","The negative log-likelihood of the multidimensional filters is differentiable in the model parameters",
  "If the initial moments (means, scales), the conditional moments and the measurement density at the given measurements are C^r in a parameter (and the state), then at every parameter for which the run is valid, i.e. Gram matrices are positive definite and likelihoods and scales positive, the negative log-likelihood and all filtering moments, means and scales of the multidimensional filters are C^r in the parameter.",
  "all parameter spaces, all r finite or infinite, all dimensions, orders and numbers of measurements, raw, central and scaled moments, all valid backends",
  "Parameters are fitted with gradients of this function; a test can compare the gradient with differences at a few parameters but not show that it exists at all of them.",
  "mfs/multi_dims/filtering.py:moment_filter_nd_rms", "mfs/multi_dims/filtering.py:moment_filter_nd_cms", "mfs/multi_dims/filtering.py:moment_filter_nd_scms")

p("C171","Forward-mode differentiation of the one-dimensional rule gives its derivative",
  "Differentiating moment_quadrature with jax.jvp line by line, with JAX's rules for cholesky, triangular_solve and eigh, gives finite tangents of weights and nodes at every valid moment vector; for every C^1 integrand they sum up to the derivative of the value of the rule along the curve of moments, means and scales, whatever eigenvectors eigh returned, and with sort_nodes they are the derivatives of the single weights and nodes.",
  "all orders, all valid backends, all C^1 curves of valid moments, means and scales, all C^1 integrands; ldl=False",
  "The rule for eigh divides by differences of eigenvalues and its result depends on the eigenvectors chosen; a test checks the gradient at finitely many moment vectors with one backend.",
  "mfs/one_dim/quadtures.py:moment_quadrature")
p("C172","Gradients of the one-dimensional filters used for parameter estimation are right",
  "Forward mode through moment_filter_rms, moment_filter_cms and moment_filter_scms returns, on every valid run, finite tangents which are the derivatives of the negative log-likelihood and of all filtering moments, means and scales. For the objective of dardel/parameter_estimation/mf.py with --euler, the run is valid at all parameters: the objective is analytic on the whole plane for every order N >= 2 and all measurements, and jax.jvp returns its directional derivative at every parameter in every direction.",
  "all C^1 models, orders, numbers of measurements and valid backends; for the script all orders N >= 2, all count sequences, all parameters and directions; stable=False",
  "L-BFGS-B follows these gradients through a thousand filter steps to parameters that no test visits; a gradient that is wrong or NaN somewhere shows only as a bad fit.",
  "mfs/one_dim/filtering.py:moment_filter_rms", "mfs/one_dim/filtering.py:moment_filter_cms", "mfs/one_dim/filtering.py:moment_filter_scms", "dardel/parameter_estimation/mf.py:obj_func")

p("C173","Forward-mode differentiation of the multidimensional rule gives its derivative",
  "Differentiating moment_quadrature_nd with jax.jvp line by line, with JAX's rules for cholesky, triangular_solve and eigh, gives finite tangents of weights and nodes at every valid moment vector, and for every C^1 integrand they sum up to the derivative of the value of the rule.",
  "all dimensions, orders, valid backends, C^1 curves of valid moments, means and scales, and C^1 integrands; ldl=False",
  "The rule for eigh divides by differences of eigenvalues. Whether two of them coincide depends on the law, on the order and on the dimension; a test at a generic moment vector sees no coincidence.",
  "mfs/multi_dims/quadratures.py:moment_quadrature_nd")
p("C174","The filters do not depend on the functions that supply centre and scale of the prediction",
  "If the conditional central (scaled) moments handed to the central (scaled) moment filter are those of a transition law about whatever centre (and scale) they are asked for, then replacing the conditional mean function (and the positive conditional variances) by any other leaves all filtering moments, means, scales and the negative log-likelihood unchanged, as long as the predicted laws are not degenerate.",
  "all transition laws, centre and scale functions, densities, orders, dimensions, numbers of measurements and valid backends",
  "A wrong mean function handed to a filter changes every intermediate array but no result; tests compare with one mean function only.",
  "mfs/one_dim/filtering.py:moment_filter_cms", "mfs/one_dim/filtering.py:moment_filter_scms", "mfs/multi_dims/filtering.py:moment_filter_nd_cms", "mfs/multi_dims/filtering.py:moment_filter_nd_scms")

p("C175","With continuous resampling the likelihood of the bootstrap filter is a continuous function of the parameters",
  "For a fixed key, the particles and the negative log-likelihood of bootstrap_filter with conti_resampling=True are continuous in the parameters of the transition sampler and of the density, for every sampler and positive density that are continuous. In particular the objective of the particle-filter parameter estimation with --euler --cr is continuous for every generator, key and data. Without --cr it can jump; with --cr it can have kinks, so gradients need not exist; and continuous_resampling with weights held fixed is not continuous in the samples.",
  "all numbers of particles, measurements, keys, generators, samplers, positive continuous densities; with a positive tolerance of jnp.interp, all parameters at which every normalised weight exceeds it",
  "Continuity at all parameters and through all exchanges in the order of the particles; a test compares finitely many values.",
  "mfs/classical_filters_smoothers/smc.py:bootstrap_filter", "mfs/classical_filters_smoothers/resampling.py:continuous_resampling", "dardel/parameter_estimation/pf.py:obj_func")

p("C176","Filters with Taylor-moment-expansion moments are smooth in parameters, and so is the default estimation objective",
  "If drift and dispersion are C-infinity (or analytic) in parameter and state, then all conditional moments from sde_cond_moments_tme and sde_cond_moments_tme_normal are so in parameter, state, centre and scale, and the negative log-likelihoods of the three filters with sde_cond_moments_tme are so wherever the run is valid. With sde_cond_moments_tme_normal, positivity of the conditional variances met along the run suffices: the likelihood of the central filter is then a number and smooth near the parameter. The objective of the parameter estimation without --euler is finite and analytic near such parameters, and forward mode through it gives its directional derivatives.",
  "all drifts, dispersions, steps, expansion orders, moment orders, measurements; all parameters where the run is valid (variances positive)",
  "Smoothness is a statement about limits at every parameter; tests compare finite differences at some.",
  "mfs/one_dim/moments.py:sde_cond_moments_tme", "mfs/one_dim/moments.py:sde_cond_moments_tme_normal", "mfs/one_dim/filtering.py:moment_filter_cms", "dardel/parameter_estimation/mf.py:obj_func")
p("C177","Exactly when negative variances of the Taylor moment expansion turn the estimation objective into NaN",
  "raw_moment_of_normal is NaN exactly for a negative variance and an order of at least one. For the double-well model and expansion order two the conditional variance is dt + dt^2 (1 - 3 p x^2). The estimation objective without --euler is a number exactly when no conditional variance met along the run is negative. For every order and every non-empty sequence of measurements it is NaN for all large enough first parameters, and for every second parameter it is finite for all small enough first parameters.",
  "all means, variances and orders; all N >= 2, all sequences of measurements, all parameters",
  "The set of parameters with NaN is unbounded and depends on the nodes of all rules along the run; tests try finitely many parameters.",
  "mfs/one_dim/moments.py:raw_moment_of_normal", "mfs/one_dim/moments.py:sde_cond_moments_tme_normal", "dardel/parameter_estimation/mf.py:obj_func")

p("C178","The particle filters converge in probability for every integrable function",
  "For every measurable function that is integrable under the filtering law (bounded or not), its average over the particles returned by bootstrap_filter or by particle_filter with any proposal of bounded weights is within 3 eps of its expectation under the filtering law at that step, except with a probability bounded explicitly; the bound can be made as small as one likes by taking many particles. In particular means and variances of the particles converge.",
  "all models with bounded positive likelihoods (weights), all proposals, stratified and multinomial resampling, all measurements, all steps, all integrable functions, all eps",
  "Convergence in probability is a statement about all numbers of particles and the law of the random numbers.",
  "mfs/classical_filters_smoothers/smc.py:bootstrap_filter", "mfs/classical_filters_smoothers/smc.py:particle_filter")
p("C179","The errors that convergence_pf.py reports tend to zero in probability, and it never uses a random key twice",
  "With a generator whose draws are independent of each other and of the keys split off, the errors of mean and variance and the Kullback-Leibler error between the particle filter and the Kalman filter of the script tend to zero in probability at every time as the number of particles grows: for any fixed measurements, and for the whole script started from one random key. The keys at which the script draws are pairwise different for any number of measurements, whether or not the children of a key depend on how many are asked for, and the script reads the generator at no other key. Such a generator exists.",
  "all lengths, lengthscales, magnitudes, steps and noise variances, all numbers of measurements, all times, all eps",
  "The claim concerns the limit of infinitely many particles and all keys; the experiment runs finitely many.",
  "dardel/convergence/convergence_pf.py:pf", "dardel/convergence/convergence_pf.py:init_sampler", "dardel/convergence/convergence_pf.py:proposal_sampler", "mfs/classical_filters_smoothers/smc.py:particle_filter")

p("C180","The particle filter of convergence_pf.py collapses with positive probability, so an average over Monte Carlo runs of the Kullback-Leibler errors it saves is infinite for enough runs",
  "For any number of particles, any measurements and any time, the variance of the particles returned by the script's particle filter is exactly zero with positive probability, and the Kullback-Leibler error of the script at that time is infinite exactly when it is zero. Hence the script started from a random key saves an infinite error with some probability p > 0, and the sum over independent Monte Carlo runs is finite with probability at most (1 - p)^runs, which tends to zero: more runs do not give a better average.",
  "all numbers of particles and measurements, all times, all positive parameters, all numbers of runs",
  "The event is rare for many particles, so a test never sees it; that its probability is positive is a statement about the law of all keys.",
  "dardel/convergence/convergence_pf.py:pf", "dardel/convergence/convergence_pf_post_processing.py", "mfs/classical_filters_smoothers/smc.py:particle_filter", "mfs/classical_filters_smoothers/resampling.py:_systematic_or_stratified")

p("C181","The particle-filter curves of the convergence plot tend to zero in mean as the number of particles grows",
  "The expected errors of mean and variance between the particle filter and the Kalman filter of convergence_pf.py are finite and tend to zero at every time as the number of particles grows: for any fixed measurements, for the script started from one random key, and for the averages over any number of Monte Carlo runs that plot_convergence.py draws as dotted lines. The second moments of the errors are bounded uniformly in the number of particles.",
  "all positive parameters, all numbers of measurements and runs, all times",
  "Convergence in mean needs a bound on rare large errors for every number of particles; a simulation sees finitely many of them.",
  "dardel/convergence/convergence_pf.py:pf", "reproduce_paper_plots/plot_convergence.py", "dardel/convergence/convergence_pf_post_processing.py", "dardel/generate_rng_key.py")

p("C182","Started with the library's own initial sampler, the bootstrap filter converges to the filtering laws of a model with a larger initial variance",
  "bootstrap_filter hands the same key to the initial sampler and to the split for the measurements, and GaussianSum1D's sampler splits it again. When the first key of the two splits is the same (always with two measurements, and for every number of measurements when the children of a key do not depend on how many are asked for), on the model x' = a x + sigma w with initial law N(m0, s0^2), the particle averages of every integrable function tend in probability at every time to the filtering mean of the model with initial variance s0^2 + 2 s0 sigma / a. The variance of the particles tends to a number larger than the filtering variance at every time, so it is wrong by a fixed amount with probability tending to one; the mean of the first cloud tends to the Kalman mean only if the measurement is the predicted one.",
  "all ideal generators, all positive a, s0, sigma, R, all m0, all measurements, all times, all integrable functions",
  "The claim concerns the limit of infinitely many particles and the law of all random numbers; a test sees a noisy average and cannot tell a biased limit from a slow one.",
  "mfs/classical_filters_smoothers/smc.py:bootstrap_filter", "mfs/utils.py:GaussianSum1D", "mfs/classical_filters_smoothers/resampling.py:stratified")

p("C183","The bootstrap filter with continuous resampling converges too",
  "continuous_resampling changes the average of a function of bounded variation by at most 2 A (1/n + max weight / 2), for all samples, weights and draws. Along the whole run of bootstrap_filter with this resampling, the mean square error of the likelihood estimate and of the final particle averages is at most C / n with C independent of the number of particles n and of the interpolation tolerance. For the linear Gaussian model the limit is the law and the likelihood of the Kalman filter, including the empirical distribution function at every point. For the Euler-discretised double well with Poisson measurements of the parameter-estimation script the objective converges in probability to the exact negative log-likelihood, for all parameters.",
  "all sample vectors, weights, uniform draws, all numbers of particles, all measurement sequences, all functions of bounded variation, all parameters, all ideal generators",
  "The resampled particles are new points, interpolated and not conditionally independent, and the bias of every step enters the next one: only an argument over all clouds shows that the errors do not add up to more than C/n.",
  "mfs/classical_filters_smoothers/resampling.py:continuous_resampling", "mfs/classical_filters_smoothers/smc.py:bootstrap_filter", "dardel/parameter_estimation/pf.py")

p("C184","saddle_point returns a probability density",
  "The function returned by saddle_point is a finite, integrable density approximating the one with the given moments. This is false. For every even number of non-negative scaled moments of a symmetric standardised law (1, 0, 1, 0, ...) it equals 1 / (sqrt(2 pi) scale) at every point left of the mean, so it is not integrable. With four normal moments, right of mean + scale^3 / 2 it is a multiple of exp(mean - x) if scale^2 < 2, and NaN if scale^2 > 2. At the mean it has the value of the normal density.",
  "all moment lists of the stated kind, all means, all positive scales, all points",
  "Integrability concerns infinitely many points; a test on a short grid around the mean sees plausible values.",
  "mfs/one_dim/pdf_approximations.py:saddle_point")

p("C185","legendre_poly_expansion is the best polynomial approximation and converges",
  "For a square-integrable density f on [a, b], let rms be the first n moments of the standardised variable (2x - a - b) / (b - a). Among all polynomials of degree below n, legendre_poly_expansion(rms, a, b) has the least integrated squared error. As n grows the integrated squared error tends to zero, and so do the errors in the integrals of all square-integrable functions, probabilities of intervals among them. The expansion can be negative: with two moments it is non-negative on [-1, 1] exactly if the mean is at most 1/3 in absolute value.",
  "all intervals, all square-integrable functions on them, all numbers of moments, all competing polynomials",
  "Optimality is over all polynomials and convergence is a limit; tests compare a few orders for one density.",
  "mfs/one_dim/pdf_approximations.py:legendre_poly_expansion")
p("C186","gram_charlier is the best polynomial correction of the normal density and converges",
  "Let f be a density with mean m and variance v > 0 such that f^2 / phi is integrable, phi the normal density with the same mean and variance. The function gram_charlier(sms_to_cumulants(...)) of its first s >= 3 scaled central moments minimises the integral of (f - phi p)^2 / phi over all polynomials p of degree below s. As s grows this integral tends to zero, and so does the integral of |f - gram_charlier|. The condition holds for every Gaussian mixture whose component variances are below twice the mixture variance, for example all mixtures with a common component variance. With three cumulants, the third not zero, the function takes negative values.",
  "all densities of the stated kind, all non-zero scales, all numbers of moments, all competing polynomials",
  "Optimality is over all polynomials and convergence is a limit; tests compare a few orders for one density.",
  "mfs/one_dim/pdf_approximations.py:gram_charlier", "mfs/one_dim/moments.py:sms_to_cumulants")

p("C187","inverse_fourier recovers the density",
  "Let f be a continuous integrable density whose characteristic function is integrable. On every bounded set of points, inverse_fourier is as close to f as desired if the frequency range [-Z, Z] is long enough, the (possibly non-uniform) grid on it fine enough and the supplied values accurate enough. Hence the densities computed through characteristic_fn from the first N exact moments of a law with all exponential moments converge to its density, first N, then the grid, then the range. The order matters: for any fixed list of moments there is a point at which the result tends to infinity as the range grows.",
  "all densities of the stated kind, all grids, all bounded sets of points; all lists of moments",
  "Limits in three parameters and non-uniform grids; a test uses one grid and one law.",
  "mfs/one_dim/pdf_approximations.py:inverse_fourier", "mfs/one_dim/moments.py:characteristic_fn", "reproduce_paper_plots/plot_benes_bernoulli_estimation.py:127-161")

p("C188","characteristic_from_pdf: convergence, round trip and aliasing",
  "For a continuous integrable density, characteristic_from_pdf converges to the characteristic function, uniformly over every bounded set of frequencies, as the spatial range grows, the (possibly non-uniform) grid on it is refined and the supplied values become exact. Feeding its values to inverse_fourier recovers the density on every bounded set if the characteristic function is integrable. The convergence is not uniform over all frequencies: on an equally spaced grid of step h the result is periodic up to a phase, with period 2 pi / h, so that at frequencies beyond any bound the error is almost the whole mass of the supplied values.",
  "all densities of the stated kind, all grids, all frequencies",
  "Limits in several parameters; the failure occurs at frequencies no test looks at.",
  "mfs/one_dim/moments.py:characteristic_from_pdf", "mfs/one_dim/pdf_approximations.py:inverse_fourier", "reproduce_paper_plots/plot_benes_bernoulli_estimation.py:178")

p("C189","The plotted densities of the moment filter converge to those of the exact filter",
  "In the Benes-Bernoulli experiment the curves labelled Moment filter PDF, that is inverse_fourier of characteristic_fn of the filter outputs, converge uniformly on bounded sets to the density of the exact filtering law, at every time and for all measurements, in the modes raw and central, as first the number of moments grows, then the frequency grid is refined, then the frequency range grows. With sde_cond_moments_tme_normal the limit is the filter of the chain with the normal transitions of the expansion; with sde_cond_moments_tme at order at least 2 N - 1 it is the filter of the stochastic differential equation itself.",
  "all measurement sequences, all times, all expansion orders, all grids, both modes",
  "Limits in three parameters; needs that the exact filtering law has a continuous density with an integrable characteristic function.",
  "reproduce_paper_plots/plot_benes_bernoulli_estimation.py:127-161", "mfs/one_dim/pdf_approximations.py:inverse_fourier", "mfs/one_dim/moments.py:characteristic_fn", "mfs/one_dim/filtering.py:moment_filter_cms")

p("C190","On the Benes-Bernoulli model the extended Kalman filters ignore the data, the Gauss-Hermite and the moment filters do not",
  "The script says that the extended Kalman filter will fail for this model by definition. Precisely: ekf and cd_ekf, started at the initial mean 0 of the model, return mean 0 at every time and the same variances and likelihoods for all measurement sequences of the same length; with the transition of the script the variance is (1+dt)^(2k) (v0 + (1+dt)/(2+dt)) - (1+dt)/(2+dt) and the negative log-likelihood k (1 + log(pi/2)) / 2 after k steps. The Gauss-Hermite filter of the script and the moment filters do respond: the first mean is some c > 0 after a measurement True and -c after False, and exchanging True and False in all measurements changes the sign of all means and leaves variances and likelihoods as they are.",
  "all measurement sequences, initial variances, steps dt > 0, expansion orders >= 2, orders of Gauss-Hermite quadrature >= 2, N >= 2",
  "Independence of all data and symmetry over all sequences; a run on one data set shows a flat line but not why.",
  "dardel/benes_bernoulli/ghf.py:28-50", "dardel/time_profile/ghf.py:30-47", "mfs/classical_filters_smoothers/gfs.py:ekf", "mfs/classical_filters_smoothers/gfs.py:sgp_filter", "mfs/one_dim/ss_models.py:benes_bernoulli", "mfs/one_dim/filtering.py:moment_filter_rms")

p("C191","moment_quadrature of a law is its Gauss rule; the three rules of the figure are Gauss, Legendre and Laguerre rules and converge",
  "If the moments passed to moment_quadrature are those of a law not concentrated on finitely many points, the weights are positive with sum one, the nodes distinct and strictly inside every half-line carrying the law, the rule is exact below degree 2n, and the nodes are exactly the zeros of the orthogonal polynomial of degree n. If the law has some exponential moment, the rule converges for every continuous integrand of polynomial growth. The script plot_quadrature_rules.py computes by its formulas the true moments of the Gaussian mixture, of U(a, b) and of the gamma law; the nodes drawn for U(a, b) are the zeros of the Legendre polynomial carried to [a, b] and lie in (a, b); those for the gamma law are theta times the zeros of the generalised Laguerre polynomial and are positive; all three rules converge as N grows.",
  "all laws with all moments and infinite support, all orders, means, scales, both factorisations; all a < b, k > 0, theta > 0, mixtures with positive variances; N >= 1",
  "The nodes for N = 11 are irrational numbers and the statement is about every N and its limit.",
  "reproduce_paper_plots/plot_quadrature_rules.py:20-62", "mfs/one_dim/quadtures.py:moment_quadrature", "mfs/one_dim/moments.py:raw_to_central")

p("C192","The multidimensional rule converges for laws on the whole space, Gaussian sums among them",
  "If the moments passed to moment_quadrature_nd are those of a law on R^d with some exponential moment which is not concentrated on the zeros of a polynomial, then, as N grows, the rule converges to the integral for every integrand that is a finite sum of products of continuous functions of the coordinates (arbitrary ones of polynomial growth in two dimensions; in any dimension one or two adjacent ones of polynomial growth, bounded ones between them, polynomials elsewhere) plus a series of products of bounded continuous functions with summable bounds. This holds for the raw, central and scaled central moments, about any mean and with any positive scale. In particular the characteristic function of the rule converges pointwise to that of the law. The moments that GaussianSumND computes, with positive definite covariances, meet the hypotheses.",
  "all dimensions, all such laws, integrands, means, scales, both factorisations and both orderings of the eigenvalues; all N >= 2 and the limit",
  "A limit over all orders for a rule whose nodes and weights have no closed form and whose weights may be negative.",
  "mfs/multi_dims/quadratures.py:moment_quadrature_nd", "mfs/utils.py:GaussianSumND")
p("C193","One step of the multidimensional filters converges to the exact posterior law",
  "If the predicted moments computed in a step of moment_filter_nd_rms, moment_filter_nd_cms or moment_filter_nd_scms are those of a law with some exponential moment, not concentrated on the zeros of a polynomial, and the likelihood is positive and a finite sum of products of continuous functions of the coordinates of which at most two, in adjacent coordinates, are not polynomials, then, as N grows, the updated moments, means and scales converge to those of the Bayes posterior, and the increment of the negative log-likelihood to minus the logarithm of the evidence. The hypothesis on the prediction holds in the first step whenever the conditional moments of the transition are polynomials of the state of degree at most the order; that on the likelihood holds for the prey-predator model.",
  "all dimensions, laws, likelihoods of this form, measurements; predicted means and positive scales that may depend on N; the limit N to infinity",
  "The posterior moments are integrals without closed form and the claim is a limit over all orders.",
  "mfs/multi_dims/filtering.py:moment_filter_nd_rms", "mfs/multi_dims/filtering.py:moment_filter_nd_cms", "mfs/multi_dims/filtering.py:moment_filter_nd_scms", "mfs/multi_dims/ss_models.py:prey_predator")

p("C194","The tracking notebook: its model, its simulation and the first step of its filter",
  "In examples/2d_bearing_only.ipynb, discretise_lti_sde returns F = [[1, dt], [0, 1]] and Q = [[dt^3/3, dt^2/2], [dt^2/2, dt]] for every dt, and Q is positive definite for dt > 0. The measurement is the argument of the point, which equals the arctan(X2 / X1) of the text exactly in the right half plane and differs from it by pi in the left one. simulate draws from the normal transition with F and Q and from the normal law about the angle with variance 0.1, whose density is measurement_cond_pdf. state_cond_central_moments and state_cond_mean are the moments of the transition about any point. For every law of the state with some exponential moment, not concentrated on the zeros of a polynomial, and every order, the prediction of the filter returns the moments of the exact predicted law, and the Gram matrix of these is positive definite. The first step of moment_filter is Bayes' formula for the rule of the exact predicted law, the sum of the two propagated normal laws.",
  "all dt, states, draws, measurements, laws, orders N and tables, both factorisations",
  "The notebook shows one trajectory; exactness of the prediction holds for all laws and orders, and the equality of the angles on half planes.",
  "examples/2d_bearing_only.ipynb", "mfs/utils.py:discretise_lti_sde", "mfs/multi_dims/moments.py:raw_moments_mvn_kan", "mfs/multi_dims/filtering.py:moment_filter_nd_cms")

p("C195","The Monte Carlo loops that repeat a simulation sample from the conditional law",
  "The loop `while np.any(np.isnan(xs))` of the prey-predator scripts ends if and only if some simulation along the chain key, split(key)[0], ... is free of NaNs, and returns the first. In every run the moment filter, the particle filter, the Gauss-Hermite and the extended Kalman filter get the same data, and the saved errors of a filter are the distances of its means from the simulated states and contain a NaN exactly if its means do, so that the counts of divergences in the plots are right. If the simulations of the chains are independent, all loops end almost surely and the accepted data of the runs are independent with the law of the simulation conditioned on the absence of NaNs. time_profile/mf.py saves for run k the time for its own data if the moment filter returns no NaN for them, else the time for the next data of a reserve for which it returns none; no data of the reserve are used twice. With independent data the script ends almost surely and the times are independent, distributed as the time for data conditioned on the success of the filter; so they may be for other data than those of the other filters, and are for the same when the moment filter does not fail. With keys that never coincide all attempts of all runs draw at different keys; with keys that do not depend on how many are asked for, the next attempt of a prey-predator run chooses the component of its initial state with the key of the normals of the rejected one.",
  "all generators, simulators, filters, key files, numbers of runs, laws of the data with a positive probability of success",
  "Termination with probability one, independence and the conditional law are statements about infinitely many attempts.",
  "dardel/prey_predator/mf.py", "dardel/prey_predator/pf.py", "dardel/prey_predator/ghf_ekf.py", "dardel/time_profile/mf.py", "dardel/generate_rng_key.py")

p("C196","The statistics of the prey-predator figure and their limits",
  "From the saved errors of the runs, plot_prey_predator_errs.py counts the runs with a NaN, plots at every tenth time the average over the other runs of the summed absolute errors, prints as mean the average of this curve over time, and as standard deviation the root of the variance of the curve over time plus the time average of the variance over the runs; so the printed deviation is not that of a run average. If all runs have a NaN, everything is NaN. With independent simulations, as the number of runs grows, almost surely the fraction of divergences of the moment filter converges to the conditional probability of a NaN, the curve to the expected error given that neither the simulation nor the filter has a NaN, and the printed numbers to the mean and deviation of the error at a uniformly chosen time under this law. If two filters fail in the same runs, the one with the smaller errors has the lower curve; in general not: a filter that is better in every run where the other works can have the higher curve.",
  "all errors, numbers of runs and times, simulators, filters and generators; laws of the data with square integrable errors",
  "The limits concern infinitely many runs; the decomposition of the deviation holds for all arrays of errors.",
  "reproduce_paper_plots/plot_prey_predator_errs.py", "dardel/prey_predator/mf.py")

p("C197","The bands in the figure of errors and times",
  "In plot_benes_bernoulli_errs_and_times.py the plotted values of the moment filter (mean of means over time) and of the other filters (mean of all entries) are the same function of the errors. np.quantile as used there: at least floor(q(n-1))+1 of the numbers are at most the quantile and at least n-ceil(q(n-1)) at least it, it does not decrease with the level, and the levels zero and one give the extremes; so a band of the quantiles 0.025 and 0.975 contains at least floor(0.975(n-1))+1-ceil(0.025(n-1)) of its numbers, 950 of 1000. The band of the times, mean plus and minus two standard deviations, contains its curve and more than three quarters of the times, always. Not true: that the bands of the errors mean the same for all filters (for the moment filter they are quantiles of run averages, for the others quantiles of all single errors; for the same errors one can be a point and the other the whole range), that the curve of the moment filter lies in its band, that the band of the times contains 95 percent of them, or that its lower end is positive, as the logarithmic axis needs.",
  "all arrays of errors and times",
  "The bounds on the counts hold for all arrays; the figures show one.",
  "reproduce_paper_plots/plot_benes_bernoulli_errs_and_times.py")

p("C198","On decoupled models the multidimensional filters run the one-dimensional filters",
  "When the coordinates of the state are independent at the start, move independently and enter the likelihood as a product, a run of the multidimensional filter of raw, central or scaled central moments, with the tables that the library builds and any order and dimension, succeeds and returns exactly the products of the moments, the means and the scales of the one-dimensional filters run on the coordinates, and its negative log-likelihood is the sum of theirs. With process noise in every coordinate this needs no condition beyond the initial moments. In consequence the multidimensional filters converge as the order grows: the negative log-likelihood to minus the logarithm of the exact marginal likelihood of the vector-valued model, every mixed moment and every mean and scale after every measurement to that of the exact posterior.",
  "all dimensions, orders, product models, initial moments and measurement sequences",
  "The equality is over whole runs at every dimension and order, and the limit is never reached by a computation.",
  "mfs/multi_dims/filtering.py:moment_filter_nd_rms", "mfs/multi_dims/filtering.py:moment_filter_nd_cms", "mfs/multi_dims/filtering.py:moment_filter_nd_scms",
  "mfs/multi_dims/quadratures.py:moment_quadrature_nd")

p("C199","The rules of the two-dimensional figure",
  "In the figure of two-dimensional rules, for every order and dimension, the weights drawn are those of the rule divided by their largest absolute value, which is never zero; for the Gaussian sum and the polygon every node gets exactly one mark, of a size between zero and the marker size, and at least one is round. The rule of the Gaussian sum and that of the uniform law on any bounded region with interior points reproduce all moments of order below 2N, whichever way round the vertices of the region are listed, and the nodes of the latter lie in every box around the region. For the uniform law on a box the total weight at a point is the product of the weights of the Gauss-Legendre rules of the sides, so it is never negative, and it is positive exactly at the grid of the zeros of the Legendre polynomials, inside the box. There every node is drawn, and twice exactly if its weight is not zero but below the tolerance.",
  "all orders and dimensions, all Gaussian sums with positive definite covariances, boxes and bounded regions",
  "The exactness is for every law and order, and which nodes carry no weight in exact arithmetic cannot be read off a floating-point run.",
  "reproduce_paper_plots/plot_quadrature_rules_2d.py", "mfs/multi_dims/quadratures.py:moment_quadrature_nd", "mfs/multi_dims/moments.py:moments_nd_uniform", "mfs/utils.py:GaussianSumND")

p("C200","The initial information of the Cramer-Rao script",
  "The matrix j0 of the prey-predator Cramer-Rao script, minus the mean Hessian of the log-density of the initial Gaussian sum, converges almost surely to the information matrix of that law as the number of samples grows; the limit is positive definite and the bound from it never exceeds the covariance of the law. For a single Gaussian j0 is its inverse covariance whatever the samples, and for the initial law of the model it is positive definite for every set of samples, while for a general Gaussian sum it can be negative definite for finitely many samples. Minus the Hessian of the transition log-density in the new state is the inverse of the conditional covariance. The Hessian of the measurement log-likelihood has one entry, whose mean over the measurement is never positive, though a single measurement can contribute negative information.",
  "all dimensions, Gaussian sums with positive definite covariances, sample sizes, samples, states",
  "The limit is never reached by a computation, and positivity for all samples cannot be tested.",
  "dardel/prey_predator/cramer_rao.py", "mfs/utils.py:GaussianSumND.logpdf", "mfs/multi_dims/ss_models.py:prey_predator")

p("C201","nd_cartesian_prod on arrays with two or three axes",
  "nd_cartesian_prod(x) returns the documented array: for x of shape (d, n) shape (n ** d, d) with every vector (x[0, i_0], ..., x[d-1, i_{d-1}]) once, and for x of shape (d, n, k) shape (n ** d, k, d) with every tuple of the sub-arrays x[a, i_a, :]. Other numbers of axes raise. (The part about three axes is false: the last axis is combined instead of the second, so the shape is (n ** d, n, d) and columns are combined; moment_quadrature_nd, which passes eigenvectors as columns, is right.)",
  "all d, n, k, arrays x, rules for indices out of range",
  "All dimensions and shapes; the only caller passes square matrices, for which the shape does not reveal the exchanged axes.",
  "mfs/multi_dims/quadratures.py:nd_cartesian_prod", "mfs/multi_dims/quadratures.py:nd_cartesian_prod_indices")

p("C202","After the job scripts have run, the plot scripts find the files they load",
  "Starting from a folder with only the random keys, after all jobs of dardel/run_all.sh have run in any order (and run_benes_bernoulli_compute_errs.sh after them), every file loaded by the scripts of reproduce_paper_plots has been written, for any numbers of parallel and sequential runs chosen by the user; every run 0, ..., P*S-1 is made once and writes its own file. (False in three places: plot_convergence.py loads pf.npz, which no script writes; plot_prey_predator_errs.py loads results for N = 7, which no job of run_all.sh computes, and with the replacement that its comment proposes those for N = 5 are missing; the post-processing of the Benes-Bernoulli particle filter and the plot of the estimates have 1000 runs fixed in them, so smaller numbers of runs fail.)",
  "all numbers of parallel and sequential runs, all orders of the jobs",
  "Tests do not run the Slurm jobs, and the names of the files are compared only when a plot is made after hours of computation; the numbers of runs and the order are free.",
  "dardel/run_all.sh", "dardel/run_convergence_pf.sh", "dardel/run_benes_bernoulli_ghf_pf.sh", "dardel/run_prey_predator_mf.sh", "dardel/convergence/convergence_pf_post_processing.py", "dardel/benes_bernoulli/post_processing_pf.py", "reproduce_paper_plots/plot_convergence.py", "reproduce_paper_plots/plot_prey_predator_errs.py", "reproduce_paper_plots/plot_parameter_estimation.py", "reproduce_paper_plots/plot_benes_bernoulli_errs_and_times.py")

p("C203","The weights of moment_quadrature bracket the distribution function of every law with the given moments",
  "Let a law have the moments given to moment_quadrature (raw, central or scaled) and at least as many points in its support as the rule has nodes. At every node the sum of the weights of the nodes to the left is at most the probability of lying to the left of the node, and the sum including the node is at least the probability of not exceeding it; hence the cumulative weights differ from the distribution function nowhere by more than the largest weight, the open interval between two nodes has at least the probability of the weights inside, the closed one at most that of the weights inside and at the ends, and two laws with the same moments differ at a node by at most its weight. The bounds are attained by a law with the same moments.",
  "all laws with enough moments and support points, all numbers of moments, all forms of moments, all nodes and thresholds",
  "Laws are infinite-dimensional; a test compares the rule with one law, while the claim bounds all laws with the same moments at once.",
  "mfs/one_dim/quadtures.py:moment_quadrature")

p("C204","lanczos divides by zero exactly when the Krylov vectors are dependent; otherwise the Ritz values stay inside the spectrum",
  "For a symmetric matrix and a unit start vector, m iterations of lanczos divide by zero if and only if v0, a v0, ..., a^(m-1) v0 are linearly dependent. So more iterations than rows always fail, n iterations succeed if and only if no eigenvector is orthogonal to v0, and for a matrix with a repeated eigenvalue they fail whatever v0 (the docstring allows an arbitrary unit vector and calls the factorisation precise for m = n). Without a breakdown the Ritz vectors of lanczos_ritz are orthogonal in both inner products, the Ritz values are their Rayleigh quotients and lie between any bounds of the spectrum of a, and their squared lengths are the weights of a quadrature rule that gives v0^T a^k v0 for all k < 2 m.",
  "all sizes, symmetric matrices, start vectors, numbers of iterations, bounds",
  "Breakdown happens on a set of measure zero, which random tests never hit, while the matrices of practice (identity, repeated eigenvalues) lie in it.",
  "mfs/utils.py:lanczos", "mfs/utils.py:lanczos_ritz")

p("C205","With more and more moments the cumulative weights of moment_quadrature converge uniformly to the distribution function",
  "For a law without atoms and with an exponential moment, and for any centres and scales, the sums of the weights of the nodes up to x converge to the distribution function uniformly in x as the number of moments grows, and all weights converge to zero uniformly; in particular for every normal law. So probabilities of half lines and intervals can be read off the rule.",
  "all laws without atoms and with an exponential moment, all centres and scales, uniformly in the threshold",
  "A limit statement, uniform over a continuum of thresholds, for an infinite-dimensional class of laws.",
  "mfs/one_dim/quadtures.py:moment_quadrature")

p("C206","The simulated trajectories of the Benes model converge in law to the solution of the equation as the number of integration steps grows",
  "For every initial law and every number of observations, the law of the whole trajectory returned by simulate_trajectory converges weakly, as integration_steps grows, to the law of the solution of dX = tanh(X) dt + dW at the observed times; the error of the mean of a function with four bounded derivatives is at most a constant over integration_steps, uniformly in the initial value. The same holds for simulate_sde with any conditional mean and variance right to first order in the step. For one integration step from a nonzero state the law is not exact, although mean and variance are.",
  "all initial laws, horizons, time intervals, TME orders from one, bounded continuous functionals of the path, initial values",
  "A limit of laws on path space over a continuum of initial values and functionals; simulation shows one sample at one number of steps.",
  "mfs/utils.py:simulate_sde", "mfs/one_dim/ss_models.py:benes_bernoulli")

p("C207","On linear equations simulate_sde is exact for every number of integration steps",
  "For dX = A X dt + B dW and the transition moments of discretise_lti_sde, the whole trajectory returned by simulate_sde has exactly the law of the Markov chain with transition N(F x, Q), (F, Q) = discretise_lti_sde(A, B, dt), whatever integration_steps; so two numbers of steps give the same law. The transitions over consecutive times compose, and the same holds for the trajectory drawn from a random key of an ideal generator.",
  "all dimensions, matrices A and B, time intervals, numbers of integration steps with positive definite step covariance, horizons, initial states, valid Cholesky routines, ideal generators",
  "Equality of laws on path space for every number of steps; sampling can only bound the discrepancy of finitely many statistics at finitely many settings.",
  "mfs/utils.py:simulate_sde", "mfs/utils.py:discretise_lti_sde")

p("C208","The negative log-likelihood of the moment filters is a proper score of the data",
  "For discrete measurements whose probabilities are positive and sum to one, whatever law the data have: the expected negative log-likelihood of a moment filter is at least the entropy of that law, with equality only if the filter's likelihood is that law; and the probability that the filter's likelihood exceeds the true one by a factor exp(c) is at most exp(-c). Hence, if the data have the law of the filter at one parameter, no other parameter has a smaller expected objective. For the Benes-Bernoulli experiment the expected negative log-likelihood tends to the entropy of the exact law of the data as the number of moments grows. The multidimensional filters have the same property as long as the predictive probabilities that occur are positive.",
  "all laws of data, horizons, numbers of moments, initial moments and model moments, valid or not, valid backends, measurement models with positive probabilities",
  "An inequality over all laws on measurement sequences and all model moments; a test compares two numbers for one data set.",
  "mfs/one_dim/filtering.py:moment_filter_rms", "mfs/one_dim/filtering.py:moment_filter_cms", "mfs/one_dim/filtering.py:moment_filter_scms", "mfs/multi_dims/filtering.py:moment_filter_nd_rms")

p("C209","The negative log-likelihood of the Kalman filter is a proper score for data with a density",
  "For scalar measurements the exponential of minus the last negative log-likelihood that kf returns, as a function of the whole measurement sequence, is continuous and integrates to one. Whatever density the data have, the expected negative log-likelihood is at least their entropy, with equality only if the filter's likelihood is that density; and the probability that the filter's likelihood exceeds the true density by a factor exp(c) is at most exp(-c). Hence, if the data come from one linear Gaussian model, the expected difference of the negative log-likelihoods at any other model (of whatever state dimension) and at the true one exists and is nonnegative.",
  "all densities of data, horizons, state dimensions, matrices F and H, positive definite Sigma, Xi and v0, initial means, backends",
  "An inequality over all densities on measurement sequences of any length; a test evaluates the likelihood at one sequence.",
  "mfs/classical_filters_smoothers/gfs.py:kf")

p("C210","The likelihood of the extended Kalman filter integrates to one and is a proper score",
  "For scalar measurements and continuous model functions with continuous Jacobians, the exponential of minus the last negative log-likelihood that ekf returns is a continuous probability density of the whole measurement sequence, although the filter is an approximation. Hence the expected negative log-likelihood is at least the entropy of the data whatever density they have, with equality only if the filter's likelihood is that density. In particular, on data from a linear Gaussian model, ekf with any nonlinear model has on average no smaller negative log-likelihood than kf with the true one, and is better by c with probability at most exp(-c).",
  "all densities of data, horizons, state dimensions, continuous transition and measurement functions, positive semidefinite transition covariances, positive measurement variances, backends",
  "An integral over all measurement sequences of any length and an inequality over all densities; a test evaluates the filter at one sequence.",
  "mfs/classical_filters_smoothers/gfs.py:ekf", "mfs/classical_filters_smoothers/gfs.py:kf")

p("C211","The likelihoods of the moment filters are probability densities of measurement sequences",
  "For measurements with a positive continuous density (with respect to any sigma-finite measure) and conditional laws of the state with continuous moments, the exponential of minus the negative log-likelihood of each one-dimensional moment filter, started from valid moments, is a continuous function of the measurement sequence that integrates to one. Hence the expected negative log-likelihood is at least the entropy of the data whatever density they have, with equality only if the filter's likelihood is that density; on data with the law of the filter at one model no other model, with whatever number of moments, does better on average; and on data from a linear Gaussian model the moment filter of any model does not do better on average than the Kalman filter with the true one.",
  "all horizons, numbers of moments, valid initial moments, positive jointly continuous measurement densities, conditional laws positive on squares with continuous moments, densities of data, valid backends, with and without LDL",
  "An integral over all measurement sequences of any length and inequalities over all models; a test evaluates the filter at one sequence.",
  "mfs/one_dim/filtering.py:moment_filter_rms", "mfs/one_dim/filtering.py:moment_filter_cms", "mfs/one_dim/filtering.py:moment_filter_scms", "mfs/classical_filters_smoothers/gfs.py:kf")

p("C212","The covariances of the sigma-point filter and smoother stay positive definite for nonlinear models",
  "If the sigma-point rule integrates quadratics exactly with nonnegative weights and the transition, measurement and initial covariances are positive definite, then every covariance returned by sgp_filter is positive definite, with either way of computing the innovation covariance, and sgp_smoother maps positive definite filtering covariances to positive definite smoothing covariances. So no Cholesky factorisation on the way is of an invalid matrix. The cubature and Gauss-Hermite rules of the package meet the conditions.",
  "all nonlinear dynamics and measurement functions, all dimensions of state and measurement, measurement sequences of any length, second-order rules with nonnegative weights, both values of const_measurement_cov, valid backends",
  "Positive definiteness along executions of any length for all nonlinear models; a test runs one model on one sequence.",
  "mfs/classical_filters_smoothers/gfs.py:sgp_filter", "mfs/classical_filters_smoothers/gfs.py:sgp_smoother", "mfs/classical_filters_smoothers/gfs.py:_sgp_update", "mfs/classical_filters_smoothers/gfs.py:_sgp_prediction")
p("C213","The likelihood of the sigma-point filter is a probability density of measurement sequences",
  "For continuous model functions, positive definite covariances and a sigma-point rule that integrates quadratics exactly with nonnegative weights, the last negative log-likelihood that sgp_filter returns is a continuous function of the measurements, the exponential of its negative integrates to one over all measurement sequences, and it is a proper score: its expectation is at least the entropy of the data whatever density they have, with equality only if the filter's likelihood is that density. This holds for measurements of every dimension. On scalar data from a linear Gaussian model the filter for any model does not do better on average than the Kalman filter with the true one.",
  "all horizons, dimensions of state and measurement, continuous nonlinear models with positive definite covariances, second-order rules with nonnegative weights, both values of const_measurement_cov, densities of data, valid backends",
  "An integral over all measurement sequences of any length; a test evaluates the filter at one sequence.",
  "mfs/classical_filters_smoothers/gfs.py:sgp_filter", "mfs/classical_filters_smoothers/gfs.py:_sgp_update", "mfs/classical_filters_smoothers/gfs.py:_log_mvn_pdf")

p("C214","Smoothing after nonlinear Gaussian filtering never increases a covariance",
  "For positive definite transition, measurement and initial covariances and nonempty data, running ekf and then eks (scalar measurements), or sgp_filter and then sgp_smoother (measurements of every dimension, rules that integrate quadratics exactly with nonnegative weights), succeeds and returns one smoothing covariance per step, which is positive definite and does not exceed the filtering covariance of that step; and no filtering covariance of ekf exceeds the covariance predicted from the step before.",
  "all nonlinear models with positive definite covariances, dimensions of the state, measurement sequences of any length, second-order rules with nonnegative weights, valid backends",
  "Matrix inequalities along executions of any length for all nonlinear models; a test runs one model on one sequence.",
  "mfs/classical_filters_smoothers/gfs.py:ekf", "mfs/classical_filters_smoothers/gfs.py:eks", "mfs/classical_filters_smoothers/gfs.py:sgp_filter", "mfs/classical_filters_smoothers/gfs.py:sgp_smoother", "mfs/classical_filters_smoothers/gfs.py:_gaussian_smoother_shared")

p("C215","The sigma-point filters depend on the rule only through its integrals",
  "Two sigma-point rules with the same integrals of all functions give the same results of sgp_filter, sgp_smoother, cd_sgp_filter and cd_sgp_smoother, whatever the model, the data and the Cholesky routine. In particular the order of the sigma points does not matter, nor does the order in which np.roots lists the roots for the Gauss-Hermite rule. If the measurement covariance is constant and the weights sum to one, the option for constant measurement covariances changes nothing.",
  "all rules, models, dimensions, measurement sequences, lists of filtering results, permutations of points and roots, Cholesky routines",
  "Equality of whole runs for all pairs of equivalent rules and all models; a test compares two rules on one model.",
  "mfs/classical_filters_smoothers/gfs.py:sgp_filter", "mfs/classical_filters_smoothers/gfs.py:sgp_smoother", "mfs/classical_filters_smoothers/gfs.py:cd_sgp_filter", "mfs/classical_filters_smoothers/gfs.py:cd_sgp_smoother", "mfs/classical_filters_smoothers/quadratures.py:SigmaPoints.gauss_hermite")

p("C216","The Gaussian filters and smoothers are causal and resumable",
  "kf, ekf, cd_ekf, sgp_filter and cd_sgp_filter can be stopped after any measurement and restarted from the last filtering mean and covariance: the records are those of one run, the negative log-likelihoods continuing from the last one; so earlier records do not depend on later measurements. rts, eks, cd_eks, sgp_smoother and cd_sgp_smoother can be run on the last part of the filtering results first: the results there do not depend on the earlier part, and the earlier part is smoothed correctly with the first smoothing belief of the last part put in place of its filtering belief.",
  "every model (also vector measurements), every split of every measurement sequence and list of filtering results, whatever the decomposition routines return",
  "All splits of all sequences for all models.",
  "mfs/classical_filters_smoothers/gfs.py:kf", "mfs/classical_filters_smoothers/gfs.py:ekf", "mfs/classical_filters_smoothers/gfs.py:cd_ekf", "mfs/classical_filters_smoothers/gfs.py:sgp_filter", "mfs/classical_filters_smoothers/gfs.py:cd_sgp_filter", "mfs/classical_filters_smoothers/gfs.py:rts", "mfs/classical_filters_smoothers/gfs.py:eks", "mfs/classical_filters_smoothers/gfs.py:cd_eks", "mfs/classical_filters_smoothers/gfs.py:sgp_smoother", "mfs/classical_filters_smoothers/gfs.py:cd_sgp_smoother")

p("C217","The Gaussian filters do not depend on the units of the measurements",
  "Expressing the measurements in other units or from another origin, with the measurement model changed accordingly, leaves every filtering mean and covariance of kf, ekf and sgp_filter unchanged, and increases the negative log-likelihood by the logarithm of the unit change at every measurement. For kf and ekf: scalar measurements, y -> a y + b with a nonzero (b = 0 for kf). For sgp_filter: measurements of any dimension, y_i -> d_i y_i + b_i with d_i positive. Moreover the means and covariances of cd_ekf (scalar measurements) are unchanged for every model, and those of sgp_filter under every invertible linear recombination of the components of the measurement.",
  "every model with positive semidefinite state noise and positive definite measurement noise (positive definite state noise for sgp_filter, with a rule with nonnegative weights and correct first two moments), every unit change, every measurement sequence, both settings of const_measurement_cov",
  "All unit changes for all models and all sequences.",
  "mfs/classical_filters_smoothers/gfs.py:kf", "mfs/classical_filters_smoothers/gfs.py:ekf", "mfs/classical_filters_smoothers/gfs.py:sgp_filter", "mfs/classical_filters_smoothers/gfs.py:_linear_update", "mfs/classical_filters_smoothers/gfs.py:_sgp_update")

p("C218","With several measurements the Kalman filter does not depend on their units",
  "Expressing all measurements of kf in other units (y, H, Xi replaced by a y, a H, a^2 Xi with a positive) leaves every filtering mean and covariance unchanged and increases the negative log-likelihood by n log a per measurement, where n is the number of components of a measurement.",
  "every linear model with n >= 2 measurements of n states, positive definite measurement noise, every a > 0",
  "All models and all units.",
  "mfs/classical_filters_smoothers/gfs.py:kf", "mfs/classical_filters_smoothers/gfs.py:_linear_update")
