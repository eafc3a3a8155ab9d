# Source of properties.jsonl (run: python3 tools/props.py > properties.jsonl)
import json
P = []
def p(id, title, statement, quantifier, why, *anchors):
    P.append(dict(id=id, title=title, statement=statement, quantifier=quantifier,
                  why_tests_cant=why, anchors=list(anchors)))
MI = 'mfs/multi_dims/multi_indices.py:'
MQ = 'mfs/multi_dims/quadratures.py:'
MM = 'mfs/multi_dims/moments.py:'
MF = 'mfs/multi_dims/filtering.py:'
Q1 = 'mfs/one_dim/quadtures.py:'
F1 = 'mfs/one_dim/filtering.py:'
M1 = 'mfs/one_dim/moments.py:'
PD = 'mfs/one_dim/pdf_approximations.py:'
UT = 'mfs/utils.py:'
GF = 'mfs/classical_filters_smoothers/gfs.py:'
CQ = 'mfs/classical_filters_smoothers/quadratures.py:'
RS = 'mfs/classical_filters_smoothers/resampling.py:'
SM = 'mfs/classical_filters_smoothers/smc.py:'
BF = 'mfs/classical_filters_smoothers/brute_force.py:'
S1 = 'mfs/one_dim/ss_models.py:'

# ---- multi-indices
p('C01', 'Multi-index generation is complete and duplicate free',
  'generate_graded_lexico_multi_indices(d, upper, lower) returns every length-d vector of non-negative integers whose entries sum to between lower and upper, each exactly once, and nothing else.',
  'every dimension d >= 1 and every pair lower <= upper',
  'Tests compare small (d, upper) tables; the successor step has three branches that only interact for long carries in higher dimension.',
  MI+'generate_graded_lexico_multi_indices', MI+'_next_graded_lexico_multi_index')
p('C02', 'Multi-indices come out in graded lexicographic order',
  'Consecutive rows of the generated table are strictly increasing in the graded lexicographic order of Dunkl and Xu (larger total first decides; ties by the first non-zero entry of the difference).',
  'every d >= 1, lower <= upper and every pair of rows i < j',
  'The order must hold for all row pairs of tables whose size grows combinatorially.',
  MI+'generate_graded_lexico_multi_indices', MI+'_next_graded_lexico_multi_index')
p('C03', 'The closed-form count is the true cardinality',
  'sizeof_multi_indices(d, upper, lower) equals the number of length-d non-negative integer vectors with lower <= sum <= upper (0 when lower > upper), and equals the number of rows generated.',
  'every d >= 1 and all natural lower, upper',
  'A counting identity over an infinite family; tests sample finitely many.',
  MI+'sizeof_multi_indices', MI+'generate_graded_lexico_multi_indices')
p('C04', 'Index lookup inverts generation',
  'graded_lexico_indexof_multi_index(x, lower) is the row number of x in the table generated with that lower sum: looking up row i returns i, and row number index(x) is x, whatever upper sum the table was built with.',
  'every d >= 1, lower <= |x| <= upper',
  'Round trip over an unbounded family of tables; off-by-one errors in later coordinates only show in high dimension.',
  MI+'graded_lexico_indexof_multi_index', MI+'generate_graded_lexico_multi_indices', MI+'find_indices')
p('C05', 'Gram and Hankel index matrices address the right moments',
  'Entry (a, b) of matrix 0 of gram_and_hankel_indices_graded_lexico(N, d) is the position, in the vector of moments of order <= 2N-1, of the multi-index basis_a + basis_b; entry (a, b) of matrix i+1 is the position of basis_a + basis_b + e_i. No index is ever out of range.',
  'every N >= 1, d >= 1, every matrix i and entry (a, b)',
  'jnp indexing clamps silently, so an out-of-range index gives a wrong moment, not an error.',
  MI+'gram_and_hankel_indices_graded_lexico', MQ+'moment_quadrature_nd')
p('C06', 'Moment vectors of different order agree on their common prefix',
  'The table for upper sum u is a prefix of the table for any larger upper sum, so the position of a moment never depends on how many orders are stored.',
  'every d >= 1 and u <= u\'',
  'Users mix vectors of different truncation order; needs all orders.',
  MI+'generate_graded_lexico_multi_indices', MI+'find_indices')
p('C07', 'Extraction helpers return the requested moments',
  'For a graded-lexicographically ordered vector of moments of any (possibly signed) family m(alpha): extract_moments returns m(alpha), extract_mean returns (m(e_i))_i, extract_cov returns the symmetric matrix (m(e_i+e_j))_ij, and marginalise_moments returns (m(k e_axis))_{k<2N}.',
  'every d, N, every moment family, every axis',
  'Depends on the index arithmetic for every dimension and order.',
  MM+'extract_moments', MM+'extract_mean', MM+'extract_cov', MM+'marginalise_moments')

# ---- 1-D quadrature
p('C08', 'Moment quadrature reproduces the moments it was built from',
  'If the 2n given moments have a positive definite Gram matrix, the returned weights w and nodes x satisfy sum_i w_i x_i^k = ms[k]/ms[0] for every k = 0..2n-1.',
  'every n >= 1 and every moment vector of length 2n (or 2n+1) with positive definite Gram matrix',
  'Exactness for all moment sequences and all orders cannot be sampled; numeric tests have tolerance and fixed distributions.',
  Q1+'moment_quadrature', Q1+'hankel_indices')
p('C09', 'Quadrature weights form a probability vector',
  'The weights returned by moment_quadrature are non-negative and sum to one, for any moment input (even an invalid one), as long as the eigendecomposition is orthogonal.',
  'every moment vector',
  'Must hold for every input, also unrealisable moment vectors met inside the filter.',
  Q1+'moment_quadrature')
p('C10', 'Mean and scale arguments act as an affine change of variable',
  'moment_quadrature(ms, mean, scale) returns the weights of moment_quadrature(ms) with nodes scale*x+mean, so sum_i w_i ((x_i-mean)/scale)^k = ms[k]/ms[0] for k <= 2n-1.',
  'all ms with positive definite Gram matrix, all real mean, all non-zero scale',
  'Universally quantified over real parameters.',
  Q1+'moment_quadrature')
p('C11', 'Raw, central and scaled inputs give the same quadrature rule',
  'Feeding raw moments, central moments with the mean, or scaled central moments with mean and scale of the same distribution gives quadrature rules that integrate every function to the same value.',
  'all moment vectors with positive definite Gram matrix and m0 = 1, all scales != 0, all integrands f: R -> R',
  'Tests compare on one distribution up to float tolerance; here the claim is equality as functionals.',
  Q1+'moment_quadrature', M1+'raw_to_central', M1+'raw_to_scaled')
p('C12', 'The quadrature does not depend on how the decompositions are computed',
  'sum_i w_i f(x_i) is the same for any valid eigendecomposition (order, signs, basis in eigenspaces; hence sort_nodes) returned by the linear-algebra backend.',
  'all moment vectors, all pairs of valid eigendecompositions, all integrands f',
  'Backends differ in eigenvector sign and order; only a proof covers all valid outputs.',
  Q1+'moment_quadrature')
p('C13', 'The stable (LDL) option changes nothing on valid moments',
  'With ldl=True the quadrature equals the Cholesky one whenever the Gram matrix is positive definite.',
  'all moment vectors with positive definite Gram matrix, all eps',
  'Needs equality of two factorisation algorithms for all sizes.',
  Q1+'moment_quadrature', UT+'ldl_chol')
p('C14', 'Golub-Welsch and Hankel constructions agree',
  'For valid scaled moments, _gauss_quadrature_golub_welsch(sms) integrates every function to the same value as moment_quadrature(sms[:2n-2]).',
  'all n >= 2 and all moment vectors with positive definite Gram matrix',
  'Equality of two different tridiagonalisations for all orders.',
  Q1+'_gauss_quadrature_golub_welsch', Q1+'moment_quadrature')
p('C15', 'Nodes stay inside the support',
  'If the moments come from a distribution supported in [a, b], every quadrature node lies in [a, b].',
  'all compactly supported distributions with positive definite Gram matrix, every node',
  'Ranges over all distributions.',
  Q1+'moment_quadrature')
p('C16', 'Discrete distributions are recovered',
  'If the moments come from a distribution with n distinct atoms of positive probability and 2n moments are supplied, the rule integrates every function exactly as that distribution does.',
  'all n, all atoms and weights, all integrands f',
  'Ranges over all finite distributions and arbitrary integrands.',
  Q1+'moment_quadrature')
p('C17', 'A surplus moment is ignored',
  'With an odd number 2n+1 of moments the result only depends on the first 2n.',
  'all moment vectors of odd length',
  'Holds for all vectors; a test cannot show independence of an input.',
  Q1+'moment_quadrature', Q1+'hankel_indices')
p('C18', 'Taylor quadrature is exact on polynomials',
  'taylor_quadrature(f, cms, mean, order) equals E[f(X)] for every polynomial f of degree at most order when cms are the central moments of X about mean.',
  'every order, every polynomial of degree <= order, every moment functional',
  'All degrees and all coefficients.',
  Q1+'taylor_quadrature', Q1+'make_derivatives')

# ---- ND quadrature
p('C19', 'Cartesian product indices enumerate every tuple once',
  'nd_cartesian_prod_indices(d, n) lists each of the n**d tuples in {0..n-1}^d exactly once, and nd_cartesian_prod(x) lists every vector (x[0,i_0],...,x[d-1,i_{d-1}]).',
  'all d, n and arrays x',
  'All dimensions; includes the diagonal-gather trick used instead of take_along_axis.',
  MQ+'nd_cartesian_prod_indices', MQ+'nd_cartesian_prod')
p('C20', 'The legacy Cartesian product agrees with the current one',
  'nd_cartesian_prod_2(x) returns all the combinations of the rows of x, as its documentation says.',
  'all d, n and arrays x',
  'Disagreement appears only for d >= 2 and particular shapes.',
  MQ+'nd_cartesian_prod_2')
p('C21', 'Multidimensional quadrature reproduces all its moments',
  'For moments of order <= 2N-1 with positive definite Gram matrix, sum_i w_i prod_j x_ij^{alpha_j} = m(alpha)/m(0) for every multi-index |alpha| <= 2N-1.',
  'all N >= 1, d >= 1, all moment vectors, all |alpha| <= 2N-1',
  'Exactness in every dimension and order for every moment family.',
  MQ+'moment_quadrature_nd', MI+'gram_and_hankel_indices_graded_lexico')
p('C22', 'Multidimensional weights sum to one',
  'The weights returned by moment_quadrature_nd sum to one for every input.',
  'every N, d and moment vector',
  'Must hold for every input including invalid moments.',
  MQ+'moment_quadrature_nd')
p('C23', 'In one dimension the ND rule is the 1-D rule',
  'For d = 1 moment_quadrature_nd and moment_quadrature integrate every function identically, for raw, central and scaled inputs.',
  'all n, all moment vectors, all integrands',
  'Tested on one model only.',
  MQ+'moment_quadrature_nd', Q1+'moment_quadrature')
p('C24', 'ND mean and scale arguments act coordinatewise affinely',
  'Passing mean (and scale) maps every node coordinate to scale_j x_j + mean_j with the same weights, so central and scaled moments are reproduced.',
  'all inputs, all mean and all scale vectors with non-zero entries',
  'Universally quantified over real vectors.',
  MQ+'moment_quadrature_nd')
p('C25', 'ND quadrature does not depend on the eigendecompositions chosen',
  'The integral of every product function prod_j f_j(x_j) is the same for all valid eigendecompositions of the multiplication matrices.',
  'all inputs, all valid decompositions, all product integrands',
  'Backends may return any sign/order/basis.',
  MQ+'moment_quadrature_nd')

# ---- 1-D filters
p('C26', 'Filtered moment vectors are normalised',
  'Every time step of the 1-D moment filters returns zeroth moment 1; the central filter returns first central moment 0; the scaled filter also returns second scaled moment 1 (when the predictive likelihood is non-zero and the posterior variance positive).',
  'every model, every measurement sequence, every time step',
  'An invariant over all executions.',
  F1+'moment_filter_rms', F1+'moment_filter_cms', F1+'moment_filter_scms')
p('C27', 'Raw, central and scaled filters are the same filter',
  'Given consistent conditional-moment functions and consistent initial moments, the three filters produce the same negative log-likelihood and, at each step, representations of the same moments.',
  'every model, every measurement sequence for which the Gram matrices stay positive definite',
  'Tested for equality on one linear model with tolerances.',
  F1+'moment_filter_rms', F1+'moment_filter_cms', F1+'moment_filter_scms')
p('C28', 'The filter is causal and resumable',
  'Output k depends on the first k measurements only, and filtering ys1 ++ ys2 equals filtering ys1 then restarting from the last state on ys2, with negative log-likelihoods adding.',
  'every model, every split of every measurement sequence',
  'All prefixes of all sequences.',
  F1+'moment_filter_rms', F1+'moment_filter_cms', F1+'moment_filter_scms', MF+'moment_filter_nd_scms')
p('C29', 'Rescaling the likelihood only shifts the log-likelihood',
  'Multiplying measurement_cond_pdf by a constant c > 0 leaves all filtered moments unchanged and changes the negative log-likelihood by -T log c.',
  'every model, every c > 0, every measurement sequence of length T with non-zero predictive likelihoods',
  'All constants and sequences.',
  F1+'moment_filter_rms', F1+'moment_filter_cms', F1+'moment_filter_scms')
p('C30', 'An uninformative measurement leaves the prediction unchanged',
  'If measurement_cond_pdf(y, .) is a non-zero constant then the update step returns exactly the predicted moments.',
  'every model and state with positive definite predicted Gram matrix',
  'Relies on exactness of the quadrature for all orders.',
  F1+'moment_filter_rms', F1+'moment_filter_cms')
p('C31', 'Filtered moments are realisable',
  'With a non-negative likelihood, every filtered moment vector is the moment vector of a probability measure on finitely many points, so its Gram matrix is positive semidefinite and its mean lies between the extreme nodes.',
  'every model, every measurement sequence with positive predictive likelihood, every step',
  'Invariant over all executions.',
  F1+'moment_filter_rms', F1+'moment_filter_cms', F1+'moment_filter_scms')
p('C32', 'Filters return one record per measurement',
  'The stacked outputs have exactly as many entries as measurements, and the reported negative log-likelihood is minus the sum of the logs of the per-step predictive likelihoods.',
  'every model and measurement sequence',
  'All lengths.',
  F1+'moment_filter_rms', F1+'moment_filter_cms', F1+'moment_filter_scms')
p('C33', 'The predicted scale is the predictive standard deviation',
  'In the scaled filter the scale used after prediction is the standard deviation of the predicted state, as documented (r_k = sqrt(E[(X_k-m_k)^2])), so the predicted second scaled moment is one.',
  'every model and state',
  'The code uses the mean of conditional variances; the two agree only when conditional means are constant.',
  F1+'moment_filter_scms', MF+'moment_filter_nd_scms')

# ---- ND filters
p('C34', 'ND filters reject a moment vector of the wrong size',
  'Each ND filter raises ValueError exactly when the number of multi-indices differs from the number of initial moments.',
  'all inputs', 'Decision logic over all sizes.',
  MF+'moment_filter_nd_rms', MF+'moment_filter_nd_cms', MF+'moment_filter_nd_scms')
p('C35', 'ND filtered moments are normalised',
  'At every step the moment of multi-index 0 is 1, first-order central moments are 0, and second-order pure scaled moments are 1.',
  'every model, dimension, measurement sequence, step',
  'Invariant over all executions.',
  MF+'moment_filter_nd_rms', MF+'moment_filter_nd_cms', MF+'moment_filter_nd_scms')
p('C36', 'ND raw, central and scaled filters are the same filter',
  'With consistent inputs the three ND filters give the same negative log-likelihood and equivalent moments.',
  'every model, dimension and measurement sequence for which the Gram matrices stay positive definite',
  'Tested on one 2-D linear model.',
  MF+'moment_filter_nd_rms', MF+'moment_filter_nd_cms', MF+'moment_filter_nd_scms')
p('C37', 'The ND filter with d = 1 is the 1-D filter',
  'Running an ND filter on a scalar state returns the same moments and negative log-likelihood as the 1-D filter.',
  'every scalar model and measurement sequence', 'Tested on one model.',
  MF+'moment_filter_nd_rms', F1+'moment_filter_rms')
p('C38', 'Index and multi-index signatures are interchangeable',
  "Passing a conditional-moment function by 'index' or the same function by 'multi-index' gives identical filter outputs.",
  'every model and measurement sequence', 'All models.',
  MF+'moment_filter_nd_rms', MF+'moment_filter_nd_cms', MF+'moment_filter_nd_scms')

# ---- 1-D moments
p('C39', 'Closed-form normal moments are the integrals',
  'raw_moment_of_normal(m, v, p) = E[X^p] and central_moment_of_normal(v, p) = E[(X-m)^p] for X ~ N(m, v); raw_moment_of_standard_normal(p) = E[Z^p]. (central_moment_of_normal(v, 0) is right exactly when the SciPy function factorial2 maps -1 to 1.)',
  'all m, all v >= 0, all p', 'Identity of integrals for all orders.',
  M1+'raw_moment_of_normal', M1+'central_moment_of_normal', M1+'raw_moment_of_standard_normal')
p('C40', 'raw_to_central computes central moments',
  'If rms are the raw moments of X (any moment functional with m0 = 1), raw_to_central(rms)[n] = E[(X - E X)^n].',
  'every moment functional and length', 'All orders and distributions.',
  M1+'raw_to_central')
p('C41', 'Raw/central/scaled conversions are mutually inverse',
  'central_to_raw(raw_to_central(rms), rms[1]) = rms when rms[0] = 1; raw_to_central(central_to_raw(cms, mean)) = cms when cms[0] = 1 and cms[1] = 0; scaled_to_central(raw_to_scaled(rms, s), s) = raw_to_central(rms) for s != 0.',
  'all vectors of every length', 'Binomial inversion for all orders.',
  M1+'raw_to_central', M1+'central_to_raw', M1+'raw_to_scaled', M1+'scaled_to_central')
p('C42', 'Transition moments are mutually consistent (1-D raw and central)',
  'The conditional raw and central moment functions returned by sde_cond_moments_euler / sde_cond_moments_tme_normal are E[X^n] and E[(X-mean)^n] of the same normal law, whose mean and variance are those returned by state_cond_mean_var.',
  'all drifts, dispersions, dt >= 0, x, mean, n < 2N', 'All models.',
  M1+'sde_cond_moments_euler', M1+'sde_cond_moments_tme_normal')
p('C43', 'Transition moments are mutually consistent (1-D scaled)',
  'The conditional scaled central moment function returns E[((X-mean)/scale)^n].',
  'all models, mean, scale > 0, n < 2N',
  'The code divides by prod_k scale^k instead of scale^n; the test suite says these are not tested.',
  M1+'sde_cond_moments_euler', M1+'sde_cond_moments_tme_normal')
p('C44', 'sms_to_cumulants returns the cumulants',
  'With s_0 = 1, s_1 = 0, the given mean and a non-zero scale, the returned numbers are the Taylor coefficients (times n!) of log of the moment generating series of mean + scale*Z.',
  'every length and every scaled moment vector', 'All orders; Faa di Bruno combinatorics.',
  M1+'sms_to_cumulants', UT+'partial_bell')
p('C45', 'Bell polynomials are the set-partition polynomials',
  'partial_bell(n, k, xs) is n! [t^n] (1/k!) (sum_j x_j t^j / j!)^k, and complete_bell(n, xs) = n! [t^n] exp(sum_j x_j t^j / j!).',
  'all n, k, xs', 'All orders.',
  UT+'partial_bell', UT+'complete_bell')
p('C46', 'Characteristic function sanity',
  'characteristic_fn(0) = 1, |characteristic_fn(z)| <= 1 and characteristic_fn(-z) is its complex conjugate.',
  'all z, all moment vectors', 'All z and moments.',
  M1+'characteristic_fn')
p('C47', 'Gaussian-sum moments are the moments of the mixture',
  'GaussianSum1D.new: mean, variance, rms, cms, scms are E[X], Var[X], E[X^p], E[(X-EX)^p] and E[((X-EX)/sd)^p] of the weighted mixture (weights summing to one), for N >= 2.',
  'all component lists, weights, N >= 2', 'All mixtures and orders.',
  UT+'GaussianSum1D')
# ---- pdf approximations
p('C48', 'Hermite recurrence gives the probabilists\' Hermite polynomials',
  'hermite_probabilist(n, x) is He_n(x), hence orthogonal under the standard normal law with squared norm n!.',
  'all n, x', 'All orders.', UT+'hermite_probabilist')
p('C49', 'Gram-Charlier density is normalised and matches the cumulants',
  'The density returned by gram_charlier integrates to one, and its moments up to the given order are those determined by the cumulants.',
  'all cumulant vectors with positive variance', 'All orders and values.',
  PD+'gram_charlier')
p('C50', 'Legendre density matches moments on [-1, 1]',
  'legendre_poly_expansion(rms) with the default interval integrates to rms[0] and reproduces every supplied moment.',
  'all rms', 'All orders.', PD+'legendre_poly_expansion')
p('C51', 'Legendre density matches moments on [a, b]',
  'legendre_poly_expansion(rms, a, b) reproduces the supplied raw moments of a density on [a, b].',
  'all rms, a < b', 'The test only uses a = -1, b = 1, where the missing change of variable is invisible.',
  PD+'legendre_poly_expansion')
p('C52', 'Saddle-point density evaluates at a saddle point',
  'The s used by saddle_point solves the saddle-point equation K\'(s) = x whenever a real root exists.',
  'all moments, mean, scale, x', 'Marked NOT TESTED in the suite; needs all polynomials.',
  PD+'saddle_point')
p('C53', 'Truncated cumulant generating function is consistent',
  'truncated_cumulant_generating_function(0) = 0 when ms[0] = 1, its derivative at 0 is mean + scale*ms[1], and its derivatives at 0 of every order below the number of moments are the cumulants, whether the moments are given raw, central or scaled.',
  'all moment vectors', 'All moments.', PD+'truncated_cumulant_generating_function')
# ---- utils
p('C54', 'LTI discretisation is the exact transition',
  'discretise_lti_sde(A, B, dt) returns F = exp(A dt) and cov = int_0^dt exp(A s) B B^T exp(A s)^T ds; in particular two half steps compose to a full step and cov is symmetric positive semidefinite.',
  'all A, B, dt >= 0', 'Analytic identity for all matrices.', UT+'discretise_lti_sde')
p('C55', 'LDL factorises',
  'For a symmetric matrix with non-zero pivots ldl returns a unit lower triangular L and a diagonal D with L D L^T = mat.',
  'all sizes, all symmetric matrices with non-zero pivots', 'All sizes.', UT+'ldl')
p('C56', 'ldl_chol is the Cholesky factor on positive definite input and a repaired factor otherwise',
  'On positive definite input ldl_chol returns the Cholesky factor; otherwise R R^T = L diag(d_j if d_j >= 0 else eps^2) L^T, so it is always positive semidefinite and it is singular only if some pivot is exactly zero.',
  'all symmetric matrices with non-zero leading pivots, all eps > 0', 'All matrices.', UT+'ldl_chol')
p('C57', 'Lanczos tridiagonalises',
  'For symmetric a and unit v0, if no breakdown occurs, the columns of V are orthonormal, V^T a V is the returned tridiagonal matrix, and for m = n a = V T V^T.',
  'all n, all symmetric a, all m <= n without breakdown', 'All sizes; three-term recurrence orthogonality is global.',
  UT+'lanczos')
p('C58', 'Ritz vectors reproduce Krylov powers',
  'sum_j lambda_j^k ritz_j = a^k v0 for k < m (and for all k if m = n without breakdown), for unnormalised v0.',
  'all symmetric a, all non-zero v0, all m', 'All sizes.', UT+'lanczos_ritz')
p('C59', 'PCRLB recursion equals the Kalman information recursion',
  'For linear Gaussian transition and likelihood, posterior_cramer_rao returns the inverse of the Kalman filter covariance at every step, and its outputs are always symmetric when j0 is.',
  'all linear Gaussian models with invertible covariances, all sample sets, all T', 'Tested on one model.',
  UT+'posterior_cramer_rao', GF+'kf')
p('C60', 'SDE simulation has one state per step and is resumable',
  'simulate_sde returns T states, each one integration_steps sub-steps after the previous one; with zero covariance (and diagonal_cov) it is the deterministic iteration of the mean map, diagonal_cov agrees with the Cholesky path on positive diagonal covariances, and the first T1 states only depend on the first T1 increments.',
  'all models, T, integration_steps, increments', 'All lengths.', UT+'simulate_sde')
p('C61', 'vmap_list_of_funcs evaluates every function once in order',
  'vmap_list_of_funcs(fs)(x)[i] = fs[i](x) for every i < len(fs).', 'all lists and x', 'All lists.',
  UT+'vmap_list_of_funcs')
p('C62', 'binom and factorial via Gamma are the combinatorial ones',
  'factorial(n) = n! and binom(n, k) = C(n, k) for natural k <= n.', 'all n, k', 'All n, k.',
  UT+'factorial', UT+'binom')
# ---- ND moments
p('C63', 'Kan moments are the Gaussian moments',
  'raw_moments_mvn_kan(mu, S, alpha) = E[prod X_i^alpha_i] for X ~ N(mu, S), and central_moments_mvn_kan(S, alpha) is the case mu = 0.',
  'all d, mu, positive semidefinite S, alpha', 'Identity for every order and dimension.',
  MM+'raw_moments_mvn_kan', MM+'central_moments_mvn_kan')
p('C64', 'Uniform moments are the integrals',
  'moments_nd_uniform(bounds, alpha, means) = E[prod (U_i - mean_i)^alpha_i] for independent uniforms on the bounds.',
  'all d, bounds a_i < b_i, alpha, means', 'All orders.', MM+'moments_nd_uniform')
p('C65', 'ND transition moments are mutually consistent',
  'For sde_cond_moments_euler_maruyama / sde_cond_moments_tme_normal, raw, central and scaled functions are E[X^alpha], E[(X-m)^alpha], E[((X-m)/s)^alpha] of the same normal law.',
  'all models, x, m, s with non-zero entries, all listed multi-indices', 'All models and orders.',
  MM+'sde_cond_moments_euler_maruyama', MM+'sde_cond_moments_tme_normal')
p('C66', 'Multivariate Gaussian-sum moments are those of the mixture',
  'GaussianSumND.new: mean, cov, rms, cms are those of the weighted mixture.',
  'all components, weights summing to one, multi-indices', 'All mixtures.', UT+'GaussianSumND')
# ---- classical
p('C67', 'Kalman filter with scalar measurements is exact Bayes',
  'For one-dimensional measurements each kf step multiplies the Gaussian prior by the likelihood: prior(x) * lik(y|x) = exp(-nell_inc) * posterior(x), and covariances stay symmetric positive semidefinite.',
  'all models, all measurement sequences, all steps', 'All models.', GF+'kf', GF+'_linear_update')
p('C68', 'Kalman filter with vector measurements is exact Bayes',
  'The same for dy > 1: gain = P H^T S^-1 and the log-likelihood is that of N(H m, S).',
  'all models with dy > 1', 'The suite has only scalar measurement tests for kf; triangular_solve is called with defaults that read the wrong triangle.',
  GF+'_linear_update', GF+'_log_mvn_pdf')
p('C69', 'Multivariate normal log-density helper is the log-density',
  '_log_mvn_pdf(x, mu, chol) (the likelihood reported by sgp_filter and cd_sgp_filter) is log N(x; mu, chol chol^T).',
  'all dimensions, all lower triangular chol with positive diagonal',
  'Coincides for scalar measurements and for diagonal covariances, which are the only ones tested.',
  GF+'_log_mvn_pdf', GF+'_sgp_update')
p('C70', 'RTS smoother is anchored and shrinks uncertainty',
  'The last smoothed mean and covariance are the last filtered ones, one record per step is returned, smoothed covariances are symmetric positive semidefinite, and never exceed the filtered covariances when started from a Kalman filter.',
  'all linear models and filter outputs', 'All models and lengths.', GF+'rts', GF+'_gaussian_smoother_shared')
p('C71', 'Non-linear filters reduce to the Kalman filter on linear models',
  'ekf, and sgp_filter with any rule integrating quadratics exactly, return the kf means and covariances on linear Gaussian models; eks and sgp_smoother return the rts results.',
  'all linear models, measurement sequences, sigma-point rules', 'Tested on one model.',
  GF+'ekf', GF+'sgp_filter', GF+'eks', GF+'sgp_smoother')
p('C72', 'Cubature points match Gaussian moments up to order three',
  'SigmaPoints.cubature(d) has weights summing to one, zero mean, identity covariance and vanishing third moments; gen_sigma_points with a Cholesky factor gives mean m and covariance P.',
  'all d >= 1, m, chol', 'All dimensions.', CQ+'SigmaPoints')
p('C73', 'Gauss-Hermite grid is the full product grid',
  'The roll table of SigmaPoints.gauss_hermite(d, order) enumerates every tuple of 1-D nodes exactly once, so the rule factorises over coordinates.',
  'all d, order', 'All dimensions.', CQ+'SigmaPoints')
p('C74', 'Gauss-Hermite rule is exact for Gaussian polynomials',
  'sum_i w_i g(xi_i) = E[g(Z)], Z ~ N(0, I_d), for every polynomial g of degree at most 2*order-1 in each variable.',
  'all d, order >= 1, polynomials', 'All orders.', CQ+'SigmaPoints')
p('C75', 'Runge-Kutta step consistency',
  'rk4_m_cov with dt = 0 is the identity, preserves symmetry of the covariance when the vector field does, and on linear fields reproduces the degree-4 Taylor polynomial of the exact flow.',
  'all vector fields, dt', 'All fields.', CQ+'rk4_m_cov', CQ+'rk4_m_cov_backward')
p('C76', 'Resampling returns valid ancestor indices',
  'systematic, stratified and multinomial return n sorted indices in [0, n-1].',
  'all weight vectors and random draws', 'All randomness.', RS+'systematic', RS+'stratified', RS+'multinomial')
p('C77', 'Systematic resampling is proportional',
  'For normalised non-negative weights each particle i is selected either floor(n w_i) or ceil(n w_i) times (within one of n w_i).',
  'all weights, all offsets u in [0, 1)', 'All offsets.', RS+'systematic')
p('C78', 'Particles of zero weight are never selected',
  'A particle of weight zero is never an ancestor.',
  'all weights and draws', 'Fails for the single draw u = 0 that jax.random.uniform can produce.',
  RS+'systematic', RS+'stratified', RS+'multinomial')
p('C79', 'Continuous resampling stays in the convex hull',
  'continuous_resampling returns nsamples sorted values between the smallest and the largest sample.',
  'all samples, weights, draws', 'All randomness.', RS+'continuous_resampling')
p('C80', 'Particle filter outputs are propagated particles and the likelihood estimate is the mean weight',
  'Every filtering particle of bootstrap_filter is one of the particles proposed at that step; nell = -sum log mean weight; rescaling the likelihood by c only shifts nell by -T log c.',
  'all models, resampling schemes returning in-range indices, draws', 'All randomness.',
  SM+'bootstrap_filter', SM+'particle_filter')
p('C81', 'Brute-force densities are normalised and non-negative',
  'Every density returned by brute_force_filter integrates to one under the trapezoidal rule used; with Chapman prediction, non-negative inputs and an increasing grid it is non-negative.',
  'all models, grids, measurements with non-zero normaliser', 'All executions.', BF+'brute_force_filter')
p('C82', 'Unknown prediction methods are rejected',
  'brute_force_filter raises NotImplementedError for every pred_method that is not one of the documented ones.',
  'all method strings', 'Any string containing "chapman" passes the second check.', BF+'brute_force_filter')
p('C83', 'Measurement models are proper probability mass functions',
  'benes_bernoulli: the likelihood is in (0,1) and sums to one over y in {0,1}; well_poisson: the emission is positive and the pmf sums to one over the naturals.',
  'all states x and parameters', 'All real x.', S1+'benes_bernoulli', S1+'well_poisson')
p('C84', 'Continuous-discrete covariance fields preserve symmetry',
  'The moment ODE right-hand sides of cd_ekf, cd_eks, cd_sgp_filter and cd_sgp_smoother map symmetric covariances to symmetric ones, so all returned covariances are symmetric.',
  'all models and measurement sequences', 'All executions.',
  GF+'cd_ekf', GF+'cd_eks', GF+'cd_sgp_filter', GF+'cd_sgp_smoother')
import os
for f in sorted(x for x in os.listdir(os.path.dirname(os.path.abspath(__file__))) if x.startswith('props_more')):
    exec(open(os.path.join(os.path.dirname(os.path.abspath(__file__)), f)).read())
for x in P:
    print(json.dumps(x))
