p('C124', 'Multinomial resampling draws independent ancestors',
  'For independent uniform draws, the multiset of ancestor indices returned by multinomial has the law of n independent draws from the categorical law given by the weights; the expected number of copies of particle i is n times its weight; and the scheme may be used in the bootstrap filter, whose likelihood estimate is then unbiased.',
  'all non-negative weight vectors with sum one, all functions of the multiset of indices', 'An equality of laws over all draws; the sorted uniforms are built from normalised sums of exponentials, so the claim is an integral identity in every dimension.', RS+'_sorted_uniforms', RS+'multinomial')
p('C125', 'The one-dimensional filters do not depend on units and origin of the state',
  'For x2 = a + b*x with correspondingly transformed conditional moments and measurement density, moment_filter_scms (b > 0) returns the same scaled moments, the means a + b*mean, the scales b*scale and the same nell; moment_filter_rms (b != 0) the moments of a + b*X and moment_filter_cms b**k times the central moments, with the same nell, while the Gram matrices stay positive definite. With the raw and central moments of sde_cond_moments_euler and non-vanishing dispersion no condition on the run is needed.',
  'all a, b, models, positive measurement densities, initial moments, measurement sequences', 'Relates all pairs of runs of two models in different coordinates.', F1+'moment_filter_rms', F1+'moment_filter_cms', F1+'moment_filter_scms', M1+'sde_cond_moments_euler')
p('C126', 'Process noise keeps the one-dimensional filters valid',
  'If the conditional laws are positive on squares of polynomials (for instance sde_cond_moments_euler with dt > 0 and non-vanishing dispersion) and the measurement density is positive, then every Gram matrix factorised in a run of any of the three filters is positive definite, the scales are positive, and the three filters agree on every measurement sequence.',
  'all models of this kind, initial vectors, measurement sequences', 'Positive definiteness at every step of every run.', F1+'moment_filter_rms', F1+'moment_filter_cms', F1+'moment_filter_scms', M1+'sde_cond_moments_euler')
p('C127', 'Process noise keeps the multidimensional filters valid',
  'A user expects the same in several dimensions. It is false: from a genuine law with identity covariance, with a polynomial drift and unit normal noise, the first prediction of moment_filter_nd_rms has a negative second moment, so the Cholesky factorisation of the update fails. It holds whenever the weights of the rule are non-negative.',
  'all models with non-degenerate conditional laws', 'The failure needs a particular law; a random test is unlikely to hit it, and the positive statement concerns all rules.', MF+'moment_filter_nd_rms', MQ+'moment_quadrature_nd')
