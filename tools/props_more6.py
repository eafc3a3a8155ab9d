p('C110', 'On a finite set of points the multivariate filters are exact',
  'If the state of a hidden Markov model lives on as many points as there are multi-indices of order below N, in general position, then each of the three multidimensional filters, given exact initial and conditional moments, returns the exact negative log-likelihood (sum over all hidden paths) and the exact posterior moments, mean and standard deviations after every measurement.',
  'all N >= 2, d >= 1, point sets in general position, chains, positive likelihoods, measurement sequences, both calling conventions, both numeric paths', 'The reference sums over all hidden paths of unbounded length.', MF+'moment_filter_nd_rms', MF+'moment_filter_nd_cms', MF+'moment_filter_nd_scms')

p('C111', 'Multi-step prediction of polynomial processes is exact',
  'For a transition that maps polynomials to polynomials without raising the degree (affine autoregressions with any noise, polynomial diffusions) and measurements that carry no information, the one-dimensional filters return after every step exactly the true first 2n moments (raw, central or scaled, with mean and standard deviation): re-quadrature at every step loses nothing. The returned value is minus the sum of the log constants.',
  'all n >= 1, transitions of that kind, initial laws, horizons, conditional means/variances supplied, both numeric paths', 'A tolerance over a finite horizon cannot exclude slow accumulation of error.', F1+'moment_filter_rms', F1+'moment_filter_cms', F1+'moment_filter_scms')
p('C112', 'The moment quadrature of a normal law is the Gauss-Hermite rule',
  'For N(m, v), v > 0, moment_quadrature applied to the closed-form normal moments of the library (raw, central with its mean, or standard with mean and scale) integrates every function exactly as gaussian_expectation with the Gauss-Hermite rule of the same order in one dimension.',
  'all n >= 1, m, v > 0, integrands, both numeric paths, sorted or not', 'Two independent implementations agree on all functions, for every order.', Q1+'moment_quadrature', M1+'raw_moment_of_normal', CQ+'gaussian_expectation')

p('C113', 'Weights of the multidimensional quadrature are not all non-negative',
  'A user would expect moment_quadrature_nd to return non-negative weights for the moments of a genuine law, hence non-negative integrals of non-negative functions and non-negative posterior second moments. This holds in one dimension for every moment vector and in any dimension for discrete laws in general position; it fails in general: for a law on four points of the plane with N = 2 a weight is negative, the integral of a square is negative, and moment_filter_nd_rms returns the posterior second moment -1 for a likelihood bounded below by 1.',
  'all moment vectors for d = 1; all discrete laws in general position; explicit counterexample for d = N = 2 and every backend', 'Whether weights can be negative depends on commutation of the Hankel matrices; sampled tests use benign laws.', MQ+'moment_quadrature_nd', MF+'moment_filter_nd_rms')
p('C114', 'Independent coordinates: the multidimensional rule is the tensor product',
  'If the mixed moments are those of independent coordinates with non-degenerate one-dimensional moments, then the Gram matrix is positive definite and moment_quadrature_nd integrates every function exactly as the product of the one-dimensional moment_quadrature rules, also with mean and with mean and scale.',
  'all N >= 1, d >= 1, moment sequences with positive definite Hankel matrices, integrands, means, scales, backends, both numeric paths', 'Agreement of two implementations for all dimensions, orders and integrands.', MQ+'moment_quadrature_nd', Q1+'moment_quadrature')
p('C115', 'The multidimensional moment quadrature of a diagonal normal law is the Gauss-Hermite product rule',
  'For N(m, diag v), v > 0, moment_quadrature_nd applied to the mixed normal moments of the library (raw, central with its mean, or standard with mean and scale) integrates every function exactly as gaussian_expectation with the Gauss-Hermite product rule of order N.',
  'all N >= 1, d >= 1, m, v > 0, integrands, backends, both numeric paths', 'Two independent implementations agree on all functions, for every order and dimension.', MQ+'moment_quadrature_nd', MM+'raw_moments_mvn_kan', CQ+'gaussian_expectation')
