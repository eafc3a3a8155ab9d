S2 = 'mfs/multi_dims/ss_models.py:'
p('C90', 'Systematic and stratified resampling are unbiased',
  'Over the uniform random draws, the expected number of copies of particle i is exactly n w_i, for systematic (one draw) and stratified (n independent draws) resampling.',
  'every number of particles, every normalised non-negative weight vector, every particle', 'An expectation over a continuum of draws.', RS+'systematic', RS+'stratified')
p('C91', 'particle_filter with the transition as proposal is bootstrap_filter',
  'If the proposal sampler is the transition sampler and both densities are the same non-vanishing function, particle_filter returns exactly the particle clouds of bootstrap_filter.',
  'all models, measurement sequences, keys and resampling schemes', 'Equality of two programs on all inputs.', SM+'particle_filter', SM+'bootstrap_filter')
p('C92', 'Brute-force filtering is invariant under rescaling',
  'Multiplying the initial density values by a non-zero constant, or the likelihood by any non-zero factor depending on the measurement only, leaves every returned density unchanged, for every prediction method.',
  'all models, grids, measurement sequences, methods, factors', 'Equality on all inputs.', BF+'brute_force_filter')
p('C93', 'The Kolmogorov operator is the Fokker-Planck operator',
  'Where the finite differences of the grid values are exact, the operator used by the kolmogorov method equals -(drift p)_x + (dispersion^2 p)_xx / 2; on even grids this is the case for quadratic p two steps away from the boundary.',
  'all twice differentiable drifts and dispersions, all even grids, all interior points', 'Needs calculus for arbitrary drift and dispersion.', BF+'brute_force_filter')
p('C94', 'State-space models have the advertised dynamics',
  'benes_bernoulli: the drift satisfies the Benes condition a_x + a^2 = 1. prey_predator: the drift is the Lotka-Volterra field with its equilibria and conserved quantity, and an extinct species stays extinct in drift, dispersion and every Milstein step.',
  'all states, parameters and Brownian increments', 'All real states and parameters.', S1+'benes_bernoulli', S2+'prey_predator')
