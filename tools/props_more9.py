p('C128', 'The filters run on the one-dimensional models of the library',
  'On benes_bernoulli(N) with any Boolean measurements and on well_poisson(N) with any counts and any parameters, with the initial moments of the model and sde_cond_moments_euler or (variances of tme positive) sde_cond_moments_tme_normal, every Gram matrix met by moment_filter_rms and moment_filter_cms is positive definite, both return the same nell, and each pair of records holds the raw moments and the mean and central moments of one law of positive variance.',
  'all N >= 2, parameters, measurement sequences of any length', 'Validity at every step of every run of a concrete model; no finite set of measurement sequences covers it.', S1+'benes_bernoulli', S1+'well_poisson', F1+'moment_filter_rms', F1+'moment_filter_cms', M1+'sde_cond_moments_euler', M1+'sde_cond_moments_tme_normal')
p('C129', 'Moments of the Taylor moment expansion are consistent',
  'For smooth drift and dispersion, any step and order, the functions returned by sde_cond_moments_tme are the raw, central and scaled moments and the mean of one linear functional of mass one (tme.expectation being the truncated series of the generator); for Brownian motion the moments of order up to 2*tme_order + 1 are those of the exact transition law.',
  'all smooth coefficients, steps, orders, states, centres and scales', 'Relates five functions over all models and orders.', M1+'sde_cond_moments_tme')
p('C130', 'Moments of the Taylor moment expansion keep the filters valid',
  'A user expects that moment_filter_rms with sde_cond_moments_tme never factorises an indefinite matrix, as with sde_cond_moments_euler. It is false: for every tme_order M >= 1, every N >= M + 2 and Brownian motion of any step and dispersion, the first prediction from N(0, s), s small, is not the moment vector of any law. For Brownian motion and N <= M + 1 it holds from every Gaussian sum.',
  'all orders, N, steps, dispersions', 'The failure happens for every order, but only for small initial variances; the positive part concerns all runs.', M1+'sde_cond_moments_tme', F1+'moment_filter_rms')
p('C131', 'Results of the Benes-Bernoulli experiment do not depend on the mode',
  'The means and characteristic functions that post_processing_mf.py computes from the modes raw and central are equal on every measurement sequence with --normal and N >= 2; without --normal the modes raw, central and scaled agree as long as the predictions stay valid.',
  'all N, measurement sequences, grids', 'Equality of three pipelines over all runs.', 'dardel/benes_bernoulli/post_processing_mf.py', 'dardel/benes_bernoulli/mf.py', M1+'characteristic_fn')
p('C132', 'The prey-predator script reads the means from the right positions',
  'The positions 2 and 1 of a moment vector read in mode raw are those of extract_mean, and on valid runs the means so obtained equal, at every step, the means returned in mode central.',
  'all moment vectors; all valid runs for every N >= 2', 'Depends on the graded order of the multi-indices for every N, and on the equivalence of two filters.', 'dardel/prey_predator/mf.py', MF+'moment_filter_nd_rms', MF+'moment_filter_nd_cms', MM+'extract_mean')
p('C133', 'On the whole line the rule and the filters converge to the exact Bayes filter',
  'For a law with all exponential moments that is not concentrated on finitely many points, moment_quadrature converges, as the number of moments grows, for every continuous integrand of polynomial growth. With transition laws of the same kind (moments continuous and of polynomial growth in the state) and continuous positive bounded likelihoods, nell of each of the three filters converges to minus the logarithm of the exact marginal likelihood, and all returned moments, means and scales, and expectations computed from them, converge to those of the exact filtering laws.',
  'all such laws, kernels, likelihoods, measurement sequences, integrands, centres, scales, sort and stable flags', 'A limit in the number of moments, on an unbounded state space, for all models.', Q1+'moment_quadrature', F1+'moment_filter_rms', F1+'moment_filter_cms', F1+'moment_filter_scms')
p('C134', 'The errors of the convergence experiment tend to zero',
  'In convergence_mf.py, as N grows, the errors of the mean and of the variance and the Kullback-Leibler error between the moment filters (raw and central) and the Kalman filter of the script tend to zero at every time, and the negative log-likelihoods converge to that of the Kalman filter.',
  'all F, all positive Sigma, R, var0, all measurement sequences and times', 'A limit; the experiment itself only samples N up to 15.', 'dardel/convergence/convergence_mf.py', F1+'moment_filter_rms', F1+'moment_filter_cms', M1+'raw_moment_of_normal')
p('C135', 'The filters converge to the exact filter of the Euler-Maruyama chain',
  'For a continuous drift of linear growth, a continuous nowhere vanishing dispersion with square of linear growth, and a Gaussian sum as initial law, the raw and central filters with sde_cond_moments_euler converge, as N grows, to the exact Bayes filter of the chain x -> N(x + drift(x) dt, dispersion(x)^2 dt); the same with sde_cond_moments_tme_normal for continuous conditional means and positive variances of linear growth. The Benes-Bernoulli model is an instance.',
  'all such models, steps, likelihoods, measurement sequences', 'A limit over the number of moments for a class of models.', M1+'sde_cond_moments_euler', M1+'sde_cond_moments_tme_normal', UT+'GaussianSum1D', S1+'benes_bernoulli')
p('C136', 'The errors of the Benes-Bernoulli experiment tend to zero',
  'With --normal, in the modes raw and central, the errors reported by compute_errs.py for the moment filter with respect to the exact filter of the normal chain (absolute error of the mean; L1, L2 and supremum errors of the characteristic function on any grid) tend to zero as N grows.',
  'all measurement sequences, grids and times; conditional means and variances of tme continuous, of linear growth, variances positive', 'A limit; needs convergence of expectations of functions that are not polynomials.', 'dardel/benes_bernoulli/compute_errs.py', 'dardel/benes_bernoulli/post_processing_mf.py', M1+'characteristic_fn', M1+'sde_cond_moments_tme_normal')
