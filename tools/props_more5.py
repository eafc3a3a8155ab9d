p('C97', 'On a finite-state chain the filters are exact',
  'If the hidden state is a Markov chain on n distinct reals and the filters are run with 2n or 2n+1 moments, all three one-dimensional filters return exactly minus the log of the marginal likelihood (a sum over all hidden paths) and exactly the posterior raw, central or scaled central moments at every time.',
  'all n, supports, initial laws, transition matrices with every state reachable, positive likelihoods, measurement sequences, both numeric paths', 'Ranges over all chains and all sequence lengths; the reference is a sum over exponentially many paths.', F1+'moment_filter_rms', F1+'moment_filter_cms', F1+'moment_filter_scms', Q1+'moment_quadrature')
p('C98', 'Shape of the one-dimensional rule',
  'For valid moments weights are strictly positive and nodes distinct; no other n-point rule has the same 2n moments; vanishing odd moments give a symmetric rule; and the moment of order 2n is never overestimated, with error equal to the expectation of the squared monic polynomial vanishing at the nodes.',
  'all valid moment vectors, means and scales, both numeric paths', 'Uniqueness and one-sided error bounds range over all rules and all laws with the given moments.', Q1+'moment_quadrature')
p('C99', 'The filter likelihoods are a probability law on sequences',
  'For discrete measurements with positive probabilities summing to one at each state, the sum over all measurement sequences of length T of exp(-nell) is one.',
  'all T, finite or countable measurement alphabets, initial vectors (valid or not), conditional moment functions; the three one-dimensional filters', 'Infinite sum over all sequences.', F1+'moment_filter_rms', F1+'moment_filter_cms', F1+'moment_filter_scms')
p('C100', 'Law of total expectation for one filter step',
  'For a measurement density integrating to one at each state (for any dominating measure), the predictive density exp(-nell) integrates to one and posterior raw moments averaged over it equal the predicted moments.',
  'all dominating measures, densities, valid predicted moments, orders below 2n', 'An integral over all measurements.', F1+'moment_filter_rms')
p('C101', 'The multivariate rule recovers discrete laws',
  'If the moments are those of a law with as many atoms as there are multi-indices of order below N, in general position, then the moments are valid and the rule integrates every function exactly as that law does.',
  'all N, d >= 1, atoms in general position, positive masses, all integrands, both numeric paths', 'Ranges over all laws and integrands.', MQ+'moment_quadrature_nd', MI+'gram_and_hankel_indices_graded_lexico')
p('C102', 'GaussianSum1D density and sampler agree with its moments',
  'GaussianSum1D.pdf is evaluated entry by entry, is non-negative, is the Lebesgue density of the mixture, integrates to one, and its moments are the stored raw moments; the sampler produces independent draws from the same mixture.',
  'all component lists with non-negative weights summing to one, positive variances, evaluation points, sample counts', 'Equality of probability laws and integrals over the line.', UT+'GaussianSum1D')
p('C103', 'GaussianSumND density and sampler agree',
  'GaussianSumND.pdf is the positive density of the mixture of multivariate normals and integrates to one, logpdf is its logarithm, and the sampler produces independent draws from the same mixture.',
  'all dimensions, component lists with positive definite covariances, points, sample counts', 'Equality of probability laws in every dimension.', UT+'GaussianSumND')
p('C104', 'Structure of the test models',
  'The satellite drift dissipates the energy at rate b w^2 and rests, without noise, at the multiples of pi; the prey-predator integrator is the Milstein scheme; the double-well drift is minus the gradient of its potential with wells at plus and minus 1/sqrt(p).',
  'all states, parameters, steps and increments', 'All real states.', S2+'satellite_orbital_stability', S2+'prey_predator', S1+'well_poisson')
p('C105', 'The Kalman filter computes the exact likelihood and filtering law',
  'For a linear Gaussian model with scalar measurements, exp(-nell) returned by kf at time k is the integral over all hidden paths of the joint density of states and measurements up to k, and the returned mean and covariance are those of the exact conditional law of the state given the measurements up to k, a normal law.',
  'all state dimensions, F, H, positive definite Sigma, Xi, v0, means, measurement sequences, test functions', 'The reference is an integral over a path space of unbounded dimension.', GF+'kf')
p('C106', 'The RTS smoother computes the exact smoothing law',
  'Running rts on the output of kf gives, at every time, the mean and covariance of the exact conditional law of the state given all measurements.',
  'all state dimensions, F, H, positive definite Sigma, Xi, v0, means, nonempty measurement sequences, test functions', 'The reference is an integral over a path space of unbounded dimension.', GF+'rts', GF+'kf')
p('C107', 'The bootstrap filter estimates likelihoods without bias',
  'With systematic or stratified resampling, the expectation of exp(-nell) returned by bootstrap_filter is the exact marginal likelihood, for every number of particles; more generally exp(-nell) times the mean of f over the last particles has as expectation the unnormalised posterior expectation of f.',
  'all numbers of particles, state spaces, transition kernels, positive likelihoods, measurement sequences, non-negative test functions; independent keys', 'An expectation over all random draws, equal to an integral over hidden paths.', SM+'bootstrap_filter', RS+'systematic', RS+'stratified')
p('C108', 'The one-dimensional rule converges for continuous integrands',
  'For moments of a law on a bounded interval that is not concentrated on finitely many points, the error of moment_quadrature for a continuous function is at most twice its distance from any polynomial of degree below the number of moments used, and tends to zero as the number of moments grows, for raw, central or scaled moments.',
  'all laws on bounded intervals, continuous functions, centres and scales, both numeric paths', 'A limit, over all continuous functions and laws.', Q1+'moment_quadrature')
p('C109', 'The one-dimensional filters converge to the exact Bayes filter',
  'For a hidden Markov model on a bounded interval with continuous conditional moments and continuous positive likelihoods, as the number of moments grows the negative log-likelihood returned by each of the three filters converges to that of the exact model, and all returned moments after every measurement converge to those of the exact posterior.',
  'all such models (transition laws not concentrated on finitely many points), measurement sequences, both numeric paths', 'A limit in the number of moments; the reference is an integral over hidden paths.', F1+'moment_filter_rms', F1+'moment_filter_cms', F1+'moment_filter_scms')
