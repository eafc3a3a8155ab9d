p('C95', 'The two Gaussian moment routines agree',
  'raw_moments_mvn_mgf (iterated gradients of the moment-generating function at zero) equals E[prod X_i^alpha_i] for X ~ N(mean, cov), hence raw_moments_mvn_kan.',
  'all d, means, positive semidefinite covariances, multi-indices', 'Involves derivatives of every order; two different algorithms compared on all inputs.', MM+'raw_moments_mvn_mgf', MM+'raw_moments_mvn_kan')
p('C96', 'ND TME moment functions are mutually consistent',
  'For sde_cond_moments_tme, with any linear normalised expectation routine, scaled moments are central moments over prod scale^alpha, central moments about zero are raw moments, the zeroth moment is one and first central moments are the conditional mean minus the centre.',
  'all models, orders, states, multi-indices, centres and non-zero scales', 'Relation between functions for all inputs.', MM+'sde_cond_moments_tme')
