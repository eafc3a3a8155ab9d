p('C85', 'ND rule does not depend on the representation of the moments',
  'moment_quadrature_nd fed with the raw moments, with the central moments and their mean, or with the scaled central moments, mean and scales of one law gives the same integral of every function.',
  'every d, N, law with positive definite Gram matrix, every mean and positive scales, every integrand',
  'The shift and the scaling interact with d index matrices of combinatorial size.', MQ+'moment_quadrature_nd')
p('C86', 'ND filters are causal and resumable',
  'The first k outputs of an ND filter are its outputs on the first k measurements; filtering ys1 then restarting from the last output on ys2 gives the outputs on ys1+ys2, and the negative log-likelihoods add up.',
  'every model, dimension and measurement sequence, every k and split', 'All executions.',
  MF+'moment_filter_nd_rms', MF+'moment_filter_nd_cms', MF+'moment_filter_nd_scms')
p('C87', 'ND filters: measurement densities may be unnormalised',
  'Multiplying the measurement density by c > 0 leaves the ND filtered moments unchanged and shifts the negative log-likelihood by -T log c.',
  'every model, dimension, measurement sequence, c > 0', 'All executions.',
  MF+'moment_filter_nd_rms', MF+'moment_filter_nd_cms', MF+'moment_filter_nd_scms')
