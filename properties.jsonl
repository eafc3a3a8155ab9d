{"id": "C01", "title": "Multi-index generation is complete and duplicate free", "statement": "generate_graded_lexico_multi_indices(d, upper, lower) returns every length-d vector of non-negative integers whose entries sum to between lower and upper, each exactly once, and nothing else.", "quantifier": "every dimension d >= 1 and every pair lower <= upper", "why_tests_cant": "Tests compare small (d, upper) tables; the successor step has three branches that only interact for long carries in higher dimension.", "anchors": ["mfs/multi_dims/multi_indices.py:generate_graded_lexico_multi_indices", "mfs/multi_dims/multi_indices.py:_next_graded_lexico_multi_index"]}
{"id": "C02", "title": "Multi-indices come out in graded lexicographic order", "statement": "Consecutive rows of the generated table are strictly increasing in the graded lexicographic order of Dunkl and Xu (larger total first decides; ties by the first non-zero entry of the difference).", "quantifier": "every d >= 1, lower <= upper and every pair of rows i < j", "why_tests_cant": "The order must hold for all row pairs of tables whose size grows combinatorially.", "anchors": ["mfs/multi_dims/multi_indices.py:generate_graded_lexico_multi_indices", "mfs/multi_dims/multi_indices.py:_next_graded_lexico_multi_index"]}
{"id": "C03", "title": "The closed-form count is the true cardinality", "statement": "sizeof_multi_indices(d, upper, lower) equals the number of length-d non-negative integer vectors with lower <= sum <= upper (0 when lower > upper), and equals the number of rows generated.", "quantifier": "every d >= 1 and all natural lower, upper", "why_tests_cant": "A counting identity over an infinite family; tests sample finitely many.", "anchors": ["mfs/multi_dims/multi_indices.py:sizeof_multi_indices", "mfs/multi_dims/multi_indices.py:generate_graded_lexico_multi_indices"]}
{"id": "C04", "title": "Index lookup inverts generation", "statement": "graded_lexico_indexof_multi_index(x, lower) is the row number of x in the table generated with that lower sum: looking up row i returns i, and row number index(x) is x, whatever upper sum the table was built with.", "quantifier": "every d >= 1, lower <= |x| <= upper", "why_tests_cant": "Round trip over an unbounded family of tables; off-by-one errors in later coordinates only show in high dimension.", "anchors": ["mfs/multi_dims/multi_indices.py:graded_lexico_indexof_multi_index", "mfs/multi_dims/multi_indices.py:generate_graded_lexico_multi_indices", "mfs/multi_dims/multi_indices.py:find_indices"]}
{"id": "C05", "title": "Gram and Hankel index matrices address the right moments", "statement": "Entry (a, b) of matrix 0 of gram_and_hankel_indices_graded_lexico(N, d) is the position, in the vector of moments of order <= 2N-1, of the multi-index basis_a + basis_b; entry (a, b) of matrix i+1 is the position of basis_a + basis_b + e_i. No index is ever out of range.", "quantifier": "every N >= 1, d >= 1, every matrix i and entry (a, b)", "why_tests_cant": "jnp indexing clamps silently, so an out-of-range index gives a wrong moment, not an error.", "anchors": ["mfs/multi_dims/multi_indices.py:gram_and_hankel_indices_graded_lexico", "mfs/multi_dims/quadratures.py:moment_quadrature_nd"]}
{"id": "C06", "title": "Moment vectors of different order agree on their common prefix", "statement": "The table for upper sum u is a prefix of the table for any larger upper sum, so the position of a moment never depends on how many orders are stored.", "quantifier": "every d >= 1 and u <= u'", "why_tests_cant": "Users mix vectors of different truncation order; needs all orders.", "anchors": ["mfs/multi_dims/multi_indices.py:generate_graded_lexico_multi_indices", "mfs/multi_dims/multi_indices.py:find_indices"]}
{"id": "C07", "title": "Extraction helpers return the requested moments", "statement": "For a graded-lexicographically ordered vector of moments of any (possibly signed) family m(alpha): extract_moments returns m(alpha), extract_mean returns (m(e_i))_i, extract_cov returns the symmetric matrix (m(e_i+e_j))_ij, and marginalise_moments returns (m(k e_axis))_{k<2N}.", "quantifier": "every d, N, every moment family, every axis", "why_tests_cant": "Depends on the index arithmetic for every dimension and order.", "anchors": ["mfs/multi_dims/moments.py:extract_moments", "mfs/multi_dims/moments.py:extract_mean", "mfs/multi_dims/moments.py:extract_cov", "mfs/multi_dims/moments.py:marginalise_moments"]}
{"id": "C08", "title": "Moment quadrature reproduces the moments it was built from", "statement": "If the 2n given moments have a positive definite Gram matrix, the returned weights w and nodes x satisfy sum_i w_i x_i^k = ms[k]/ms[0] for every k = 0..2n-1.", "quantifier": "every n >= 1 and every moment vector of length 2n (or 2n+1) with positive definite Gram matrix", "why_tests_cant": "Exactness for all moment sequences and all orders cannot be sampled; numeric tests have tolerance and fixed distributions.", "anchors": ["mfs/one_dim/quadtures.py:moment_quadrature", "mfs/one_dim/quadtures.py:hankel_indices"]}
{"id": "C09", "title": "Quadrature weights form a probability vector", "statement": "The weights returned by moment_quadrature are non-negative and sum to one, for any moment input (even an invalid one), as long as the eigendecomposition is orthogonal.", "quantifier": "every moment vector", "why_tests_cant": "Must hold for every input, also unrealisable moment vectors met inside the filter.", "anchors": ["mfs/one_dim/quadtures.py:moment_quadrature"]}
{"id": "C10", "title": "Mean and scale arguments act as an affine change of variable", "statement": "moment_quadrature(ms, mean, scale) returns the weights of moment_quadrature(ms) with nodes scale*x+mean, so sum_i w_i ((x_i-mean)/scale)^k = ms[k]/ms[0] for k <= 2n-1.", "quantifier": "all ms with positive definite Gram matrix, all real mean, all non-zero scale", "why_tests_cant": "Universally quantified over real parameters.", "anchors": ["mfs/one_dim/quadtures.py:moment_quadrature"]}
{"id": "C11", "title": "Raw, central and scaled inputs give the same quadrature rule", "statement": "Feeding raw moments, central moments with the mean, or scaled central moments with mean and scale of the same distribution gives quadrature rules that integrate every function to the same value.", "quantifier": "all moment vectors with positive definite Gram matrix and m0 = 1, all scales != 0, all integrands f: R -> R", "why_tests_cant": "Tests compare on one distribution up to float tolerance; here the claim is equality as functionals.", "anchors": ["mfs/one_dim/quadtures.py:moment_quadrature", "mfs/one_dim/moments.py:raw_to_central", "mfs/one_dim/moments.py:raw_to_scaled"]}
{"id": "C12", "title": "The quadrature does not depend on how the decompositions are computed", "statement": "sum_i w_i f(x_i) is the same for any valid eigendecomposition (order, signs, basis in eigenspaces; hence sort_nodes) returned by the linear-algebra backend.", "quantifier": "all moment vectors, all pairs of valid eigendecompositions, all integrands f", "why_tests_cant": "Backends differ in eigenvector sign and order; only a proof covers all valid outputs.", "anchors": ["mfs/one_dim/quadtures.py:moment_quadrature"]}
{"id": "C13", "title": "The stable (LDL) option changes nothing on valid moments", "statement": "With ldl=True the quadrature equals the Cholesky one whenever the Gram matrix is positive definite.", "quantifier": "all moment vectors with positive definite Gram matrix, all eps", "why_tests_cant": "Needs equality of two factorisation algorithms for all sizes.", "anchors": ["mfs/one_dim/quadtures.py:moment_quadrature", "mfs/utils.py:ldl_chol"]}
{"id": "C14", "title": "Golub-Welsch and Hankel constructions agree", "statement": "For valid scaled moments, _gauss_quadrature_golub_welsch(sms) integrates every function to the same value as moment_quadrature(sms[:2n-2]).", "quantifier": "all n >= 2 and all moment vectors with positive definite Gram matrix", "why_tests_cant": "Equality of two different tridiagonalisations for all orders.", "anchors": ["mfs/one_dim/quadtures.py:_gauss_quadrature_golub_welsch", "mfs/one_dim/quadtures.py:moment_quadrature"]}
{"id": "C15", "title": "Nodes stay inside the support", "statement": "If the moments come from a distribution supported in [a, b], every quadrature node lies in [a, b].", "quantifier": "all compactly supported distributions with positive definite Gram matrix, every node", "why_tests_cant": "Ranges over all distributions.", "anchors": ["mfs/one_dim/quadtures.py:moment_quadrature"]}
{"id": "C16", "title": "Discrete distributions are recovered", "statement": "If the moments come from a distribution with n distinct atoms of positive probability and 2n moments are supplied, the rule integrates every function exactly as that distribution does.", "quantifier": "all n, all atoms and weights, all integrands f", "why_tests_cant": "Ranges over all finite distributions and arbitrary integrands.", "anchors": ["mfs/one_dim/quadtures.py:moment_quadrature"]}
{"id": "C17", "title": "A surplus moment is ignored", "statement": "With an odd number 2n+1 of moments the result only depends on the first 2n.", "quantifier": "all moment vectors of odd length", "why_tests_cant": "Holds for all vectors; a test cannot show independence of an input.", "anchors": ["mfs/one_dim/quadtures.py:moment_quadrature", "mfs/one_dim/quadtures.py:hankel_indices"]}
{"id": "C18", "title": "Taylor quadrature is exact on polynomials", "statement": "taylor_quadrature(f, cms, mean, order) equals E[f(X)] for every polynomial f of degree at most order when cms are the central moments of X about mean.", "quantifier": "every order, every polynomial of degree <= order, every moment functional", "why_tests_cant": "All degrees and all coefficients.", "anchors": ["mfs/one_dim/quadtures.py:taylor_quadrature", "mfs/one_dim/quadtures.py:make_derivatives"]}
{"id": "C19", "title": "Cartesian product indices enumerate every tuple once", "statement": "nd_cartesian_prod_indices(d, n) lists each of the n**d tuples in {0..n-1}^d exactly once, and nd_cartesian_prod(x) lists every vector (x[0,i_0],...,x[d-1,i_{d-1}]).", "quantifier": "all d, n and arrays x", "why_tests_cant": "All dimensions; includes the diagonal-gather trick used instead of take_along_axis.", "anchors": ["mfs/multi_dims/quadratures.py:nd_cartesian_prod_indices", "mfs/multi_dims/quadratures.py:nd_cartesian_prod"]}
{"id": "C20", "title": "The legacy Cartesian product agrees with the current one", "statement": "nd_cartesian_prod_2(x) returns all the combinations of the rows of x, as its documentation says.", "quantifier": "all d, n and arrays x", "why_tests_cant": "Disagreement appears only for d >= 2 and particular shapes.", "anchors": ["mfs/multi_dims/quadratures.py:nd_cartesian_prod_2"]}
{"id": "C21", "title": "Multidimensional quadrature reproduces all its moments", "statement": "For moments of order <= 2N-1 with positive definite Gram matrix, sum_i w_i prod_j x_ij^{alpha_j} = m(alpha)/m(0) for every multi-index |alpha| <= 2N-1.", "quantifier": "all N >= 1, d >= 1, all moment vectors, all |alpha| <= 2N-1", "why_tests_cant": "Exactness in every dimension and order for every moment family.", "anchors": ["mfs/multi_dims/quadratures.py:moment_quadrature_nd", "mfs/multi_dims/multi_indices.py:gram_and_hankel_indices_graded_lexico"]}
{"id": "C22", "title": "Multidimensional weights sum to one", "statement": "The weights returned by moment_quadrature_nd sum to one for every input.", "quantifier": "every N, d and moment vector", "why_tests_cant": "Must hold for every input including invalid moments.", "anchors": ["mfs/multi_dims/quadratures.py:moment_quadrature_nd"]}
{"id": "C23", "title": "In one dimension the ND rule is the 1-D rule", "statement": "For d = 1 moment_quadrature_nd and moment_quadrature integrate every function identically, for raw, central and scaled inputs.", "quantifier": "all n, all moment vectors, all integrands", "why_tests_cant": "Tested on one model only.", "anchors": ["mfs/multi_dims/quadratures.py:moment_quadrature_nd", "mfs/one_dim/quadtures.py:moment_quadrature"]}
{"id": "C24", "title": "ND mean and scale arguments act coordinatewise affinely", "statement": "Passing mean (and scale) maps every node coordinate to scale_j x_j + mean_j with the same weights, so central and scaled moments are reproduced.", "quantifier": "all inputs, all mean and all scale vectors with non-zero entries", "why_tests_cant": "Universally quantified over real vectors.", "anchors": ["mfs/multi_dims/quadratures.py:moment_quadrature_nd"]}
{"id": "C25", "title": "ND quadrature does not depend on the eigendecompositions chosen", "statement": "The integral of every product function prod_j f_j(x_j) is the same for all valid eigendecompositions of the multiplication matrices.", "quantifier": "all inputs, all valid decompositions, all product integrands", "why_tests_cant": "Backends may return any sign/order/basis.", "anchors": ["mfs/multi_dims/quadratures.py:moment_quadrature_nd"]}
{"id": "C26", "title": "Filtered moment vectors are normalised", "statement": "Every time step of the 1-D moment filters returns zeroth moment 1; the central filter returns first central moment 0; the scaled filter also returns second scaled moment 1 (when the predictive likelihood is non-zero and the posterior variance positive).", "quantifier": "every model, every measurement sequence, every time step", "why_tests_cant": "An invariant over all executions.", "anchors": ["mfs/one_dim/filtering.py:moment_filter_rms", "mfs/one_dim/filtering.py:moment_filter_cms", "mfs/one_dim/filtering.py:moment_filter_scms"]}
{"id": "C27", "title": "Raw, central and scaled filters are the same filter", "statement": "Given consistent conditional-moment functions and consistent initial moments, the three filters produce the same negative log-likelihood and, at each step, representations of the same moments.", "quantifier": "every model, every measurement sequence for which the Gram matrices stay positive definite", "why_tests_cant": "Tested for equality on one linear model with tolerances.", "anchors": ["mfs/one_dim/filtering.py:moment_filter_rms", "mfs/one_dim/filtering.py:moment_filter_cms", "mfs/one_dim/filtering.py:moment_filter_scms"]}
{"id": "C28", "title": "The filter is causal and resumable", "statement": "Output k depends on the first k measurements only, and filtering ys1 ++ ys2 equals filtering ys1 then restarting from the last state on ys2, with negative log-likelihoods adding.", "quantifier": "every model, every split of every measurement sequence", "why_tests_cant": "All prefixes of all sequences.", "anchors": ["mfs/one_dim/filtering.py:moment_filter_rms", "mfs/one_dim/filtering.py:moment_filter_cms", "mfs/one_dim/filtering.py:moment_filter_scms", "mfs/multi_dims/filtering.py:moment_filter_nd_scms"]}
{"id": "C29", "title": "Rescaling the likelihood only shifts the log-likelihood", "statement": "Multiplying measurement_cond_pdf by a constant c > 0 leaves all filtered moments unchanged and changes the negative log-likelihood by -T log c.", "quantifier": "every model, every c > 0, every measurement sequence of length T with non-zero predictive likelihoods", "why_tests_cant": "All constants and sequences.", "anchors": ["mfs/one_dim/filtering.py:moment_filter_rms", "mfs/one_dim/filtering.py:moment_filter_cms", "mfs/one_dim/filtering.py:moment_filter_scms"]}
{"id": "C30", "title": "An uninformative measurement leaves the prediction unchanged", "statement": "If measurement_cond_pdf(y, .) is a non-zero constant then the update step returns exactly the predicted moments.", "quantifier": "every model and state with positive definite predicted Gram matrix", "why_tests_cant": "Relies on exactness of the quadrature for all orders.", "anchors": ["mfs/one_dim/filtering.py:moment_filter_rms", "mfs/one_dim/filtering.py:moment_filter_cms"]}
{"id": "C31", "title": "Filtered moments are realisable", "statement": "With a non-negative likelihood, every filtered moment vector is the moment vector of a probability measure on finitely many points, so its Gram matrix is positive semidefinite and its mean lies between the extreme nodes.", "quantifier": "every model, every measurement sequence with positive predictive likelihood, every step", "why_tests_cant": "Invariant over all executions.", "anchors": ["mfs/one_dim/filtering.py:moment_filter_rms", "mfs/one_dim/filtering.py:moment_filter_cms", "mfs/one_dim/filtering.py:moment_filter_scms"]}
{"id": "C32", "title": "Filters return one record per measurement", "statement": "The stacked outputs have exactly as many entries as measurements, and the reported negative log-likelihood is minus the sum of the logs of the per-step predictive likelihoods.", "quantifier": "every model and measurement sequence", "why_tests_cant": "All lengths.", "anchors": ["mfs/one_dim/filtering.py:moment_filter_rms", "mfs/one_dim/filtering.py:moment_filter_cms", "mfs/one_dim/filtering.py:moment_filter_scms"]}
{"id": "C33", "title": "The predicted scale is the predictive standard deviation", "statement": "In the scaled filter the scale used after prediction is the standard deviation of the predicted state, as documented (r_k = sqrt(E[(X_k-m_k)^2])), so the predicted second scaled moment is one.", "quantifier": "every model and state", "why_tests_cant": "The code uses the mean of conditional variances; the two agree only when conditional means are constant.", "anchors": ["mfs/one_dim/filtering.py:moment_filter_scms", "mfs/multi_dims/filtering.py:moment_filter_nd_scms"]}
{"id": "C34", "title": "ND filters reject a moment vector of the wrong size", "statement": "Each ND filter raises ValueError exactly when the number of multi-indices differs from the number of initial moments.", "quantifier": "all inputs", "why_tests_cant": "Decision logic over all sizes.", "anchors": ["mfs/multi_dims/filtering.py:moment_filter_nd_rms", "mfs/multi_dims/filtering.py:moment_filter_nd_cms", "mfs/multi_dims/filtering.py:moment_filter_nd_scms"]}
{"id": "C35", "title": "ND filtered moments are normalised", "statement": "At every step the moment of multi-index 0 is 1, first-order central moments are 0, and second-order pure scaled moments are 1.", "quantifier": "every model, dimension, measurement sequence, step", "why_tests_cant": "Invariant over all executions.", "anchors": ["mfs/multi_dims/filtering.py:moment_filter_nd_rms", "mfs/multi_dims/filtering.py:moment_filter_nd_cms", "mfs/multi_dims/filtering.py:moment_filter_nd_scms"]}
{"id": "C36", "title": "ND raw, central and scaled filters are the same filter", "statement": "With consistent inputs the three ND filters give the same negative log-likelihood and equivalent moments.", "quantifier": "every model, dimension and measurement sequence for which the Gram matrices stay positive definite", "why_tests_cant": "Tested on one 2-D linear model.", "anchors": ["mfs/multi_dims/filtering.py:moment_filter_nd_rms", "mfs/multi_dims/filtering.py:moment_filter_nd_cms", "mfs/multi_dims/filtering.py:moment_filter_nd_scms"]}
{"id": "C37", "title": "The ND filter with d = 1 is the 1-D filter", "statement": "Running an ND filter on a scalar state returns the same moments and negative log-likelihood as the 1-D filter.", "quantifier": "every scalar model and measurement sequence", "why_tests_cant": "Tested on one model.", "anchors": ["mfs/multi_dims/filtering.py:moment_filter_nd_rms", "mfs/one_dim/filtering.py:moment_filter_rms"]}
{"id": "C38", "title": "Index and multi-index signatures are interchangeable", "statement": "Passing a conditional-moment function by 'index' or the same function by 'multi-index' gives identical filter outputs.", "quantifier": "every model and measurement sequence", "why_tests_cant": "All models.", "anchors": ["mfs/multi_dims/filtering.py:moment_filter_nd_rms", "mfs/multi_dims/filtering.py:moment_filter_nd_cms", "mfs/multi_dims/filtering.py:moment_filter_nd_scms"]}
{"id": "C39", "title": "Closed-form normal moments are the integrals", "statement": "raw_moment_of_normal(m, v, p) = E[X^p] and central_moment_of_normal(v, p) = E[(X-m)^p] for X ~ N(m, v); raw_moment_of_standard_normal(p) = E[Z^p]. (central_moment_of_normal(v, 0) is right exactly when the SciPy function factorial2 maps -1 to 1.)", "quantifier": "all m, all v >= 0, all p", "why_tests_cant": "Identity of integrals for all orders.", "anchors": ["mfs/one_dim/moments.py:raw_moment_of_normal", "mfs/one_dim/moments.py:central_moment_of_normal", "mfs/one_dim/moments.py:raw_moment_of_standard_normal"]}
{"id": "C40", "title": "raw_to_central computes central moments", "statement": "If rms are the raw moments of X (any moment functional with m0 = 1), raw_to_central(rms)[n] = E[(X - E X)^n].", "quantifier": "every moment functional and length", "why_tests_cant": "All orders and distributions.", "anchors": ["mfs/one_dim/moments.py:raw_to_central"]}
{"id": "C41", "title": "Raw/central/scaled conversions are mutually inverse", "statement": "central_to_raw(raw_to_central(rms), rms[1]) = rms when rms[0] = 1; raw_to_central(central_to_raw(cms, mean)) = cms when cms[0] = 1 and cms[1] = 0; scaled_to_central(raw_to_scaled(rms, s), s) = raw_to_central(rms) for s != 0.", "quantifier": "all vectors of every length", "why_tests_cant": "Binomial inversion for all orders.", "anchors": ["mfs/one_dim/moments.py:raw_to_central", "mfs/one_dim/moments.py:central_to_raw", "mfs/one_dim/moments.py:raw_to_scaled", "mfs/one_dim/moments.py:scaled_to_central"]}
{"id": "C42", "title": "Transition moments are mutually consistent (1-D raw and central)", "statement": "The conditional raw and central moment functions returned by sde_cond_moments_euler / sde_cond_moments_tme_normal are E[X^n] and E[(X-mean)^n] of the same normal law, whose mean and variance are those returned by state_cond_mean_var.", "quantifier": "all drifts, dispersions, dt >= 0, x, mean, n < 2N", "why_tests_cant": "All models.", "anchors": ["mfs/one_dim/moments.py:sde_cond_moments_euler", "mfs/one_dim/moments.py:sde_cond_moments_tme_normal"]}
{"id": "C43", "title": "Transition moments are mutually consistent (1-D scaled)", "statement": "The conditional scaled central moment function returns E[((X-mean)/scale)^n].", "quantifier": "all models, mean, scale > 0, n < 2N", "why_tests_cant": "The code divides by prod_k scale^k instead of scale^n; the test suite says these are not tested.", "anchors": ["mfs/one_dim/moments.py:sde_cond_moments_euler", "mfs/one_dim/moments.py:sde_cond_moments_tme_normal"]}
{"id": "C44", "title": "sms_to_cumulants returns the cumulants", "statement": "With s_0 = 1, s_1 = 0, the given mean and a non-zero scale, the returned numbers are the Taylor coefficients (times n!) of log of the moment generating series of mean + scale*Z.", "quantifier": "every length and every scaled moment vector", "why_tests_cant": "All orders; Faa di Bruno combinatorics.", "anchors": ["mfs/one_dim/moments.py:sms_to_cumulants", "mfs/utils.py:partial_bell"]}
{"id": "C45", "title": "Bell polynomials are the set-partition polynomials", "statement": "partial_bell(n, k, xs) is n! [t^n] (1/k!) (sum_j x_j t^j / j!)^k, and complete_bell(n, xs) = n! [t^n] exp(sum_j x_j t^j / j!).", "quantifier": "all n, k, xs", "why_tests_cant": "All orders.", "anchors": ["mfs/utils.py:partial_bell", "mfs/utils.py:complete_bell"]}
{"id": "C46", "title": "Characteristic function sanity", "statement": "characteristic_fn(0) = 1, |characteristic_fn(z)| <= 1 and characteristic_fn(-z) is its complex conjugate.", "quantifier": "all z, all moment vectors", "why_tests_cant": "All z and moments.", "anchors": ["mfs/one_dim/moments.py:characteristic_fn"]}
{"id": "C47", "title": "Gaussian-sum moments are the moments of the mixture", "statement": "GaussianSum1D.new: mean, variance, rms, cms, scms are E[X], Var[X], E[X^p], E[(X-EX)^p] and E[((X-EX)/sd)^p] of the weighted mixture (weights summing to one), for N >= 2.", "quantifier": "all component lists, weights, N >= 2", "why_tests_cant": "All mixtures and orders.", "anchors": ["mfs/utils.py:GaussianSum1D"]}
{"id": "C48", "title": "Hermite recurrence gives the probabilists' Hermite polynomials", "statement": "hermite_probabilist(n, x) is He_n(x), hence orthogonal under the standard normal law with squared norm n!.", "quantifier": "all n, x", "why_tests_cant": "All orders.", "anchors": ["mfs/utils.py:hermite_probabilist"]}
{"id": "C49", "title": "Gram-Charlier density is normalised and matches the cumulants", "statement": "The density returned by gram_charlier integrates to one, and its moments up to the given order are those determined by the cumulants.", "quantifier": "all cumulant vectors with positive variance", "why_tests_cant": "All orders and values.", "anchors": ["mfs/one_dim/pdf_approximations.py:gram_charlier"]}
{"id": "C50", "title": "Legendre density matches moments on [-1, 1]", "statement": "legendre_poly_expansion(rms) with the default interval integrates to rms[0] and reproduces every supplied moment.", "quantifier": "all rms", "why_tests_cant": "All orders.", "anchors": ["mfs/one_dim/pdf_approximations.py:legendre_poly_expansion"]}
{"id": "C51", "title": "Legendre density matches moments on [a, b]", "statement": "legendre_poly_expansion(rms, a, b) reproduces the supplied raw moments of a density on [a, b].", "quantifier": "all rms, a < b", "why_tests_cant": "The test only uses a = -1, b = 1, where the missing change of variable is invisible.", "anchors": ["mfs/one_dim/pdf_approximations.py:legendre_poly_expansion"]}
{"id": "C52", "title": "Saddle-point density evaluates at a saddle point", "statement": "The s used by saddle_point solves the saddle-point equation K'(s) = x whenever a real root exists.", "quantifier": "all moments, mean, scale, x", "why_tests_cant": "Marked NOT TESTED in the suite; needs all polynomials.", "anchors": ["mfs/one_dim/pdf_approximations.py:saddle_point"]}
{"id": "C53", "title": "Truncated cumulant generating function is consistent", "statement": "truncated_cumulant_generating_function(0) = 0 when ms[0] = 1, its derivative at 0 is mean + scale*ms[1], and its derivatives at 0 of every order below the number of moments are the cumulants, whether the moments are given raw, central or scaled.", "quantifier": "all moment vectors", "why_tests_cant": "All moments.", "anchors": ["mfs/one_dim/pdf_approximations.py:truncated_cumulant_generating_function"]}
{"id": "C54", "title": "LTI discretisation is the exact transition", "statement": "discretise_lti_sde(A, B, dt) returns F = exp(A dt) and cov = int_0^dt exp(A s) B B^T exp(A s)^T ds; in particular two half steps compose to a full step and cov is symmetric positive semidefinite.", "quantifier": "all A, B, dt >= 0", "why_tests_cant": "Analytic identity for all matrices.", "anchors": ["mfs/utils.py:discretise_lti_sde"]}
{"id": "C55", "title": "LDL factorises", "statement": "For a symmetric matrix with non-zero pivots ldl returns a unit lower triangular L and a diagonal D with L D L^T = mat.", "quantifier": "all sizes, all symmetric matrices with non-zero pivots", "why_tests_cant": "All sizes.", "anchors": ["mfs/utils.py:ldl"]}
{"id": "C56", "title": "ldl_chol is the Cholesky factor on positive definite input and a repaired factor otherwise", "statement": "On positive definite input ldl_chol returns the Cholesky factor; otherwise R R^T = L diag(d_j if d_j >= 0 else eps^2) L^T, so it is always positive semidefinite and it is singular only if some pivot is exactly zero.", "quantifier": "all symmetric matrices with non-zero leading pivots, all eps > 0", "why_tests_cant": "All matrices.", "anchors": ["mfs/utils.py:ldl_chol"]}
{"id": "C57", "title": "Lanczos tridiagonalises", "statement": "For symmetric a and unit v0, if no breakdown occurs, the columns of V are orthonormal, V^T a V is the returned tridiagonal matrix, and for m = n a = V T V^T.", "quantifier": "all n, all symmetric a, all m <= n without breakdown", "why_tests_cant": "All sizes; three-term recurrence orthogonality is global.", "anchors": ["mfs/utils.py:lanczos"]}
{"id": "C58", "title": "Ritz vectors reproduce Krylov powers", "statement": "sum_j lambda_j^k ritz_j = a^k v0 for k < m (and for all k if m = n without breakdown), for unnormalised v0.", "quantifier": "all symmetric a, all non-zero v0, all m", "why_tests_cant": "All sizes.", "anchors": ["mfs/utils.py:lanczos_ritz"]}
{"id": "C59", "title": "PCRLB recursion equals the Kalman information recursion", "statement": "For linear Gaussian transition and likelihood, posterior_cramer_rao returns the inverse of the Kalman filter covariance at every step, and its outputs are always symmetric when j0 is.", "quantifier": "all linear Gaussian models with invertible covariances, all sample sets, all T", "why_tests_cant": "Tested on one model.", "anchors": ["mfs/utils.py:posterior_cramer_rao", "mfs/classical_filters_smoothers/gfs.py:kf"]}
{"id": "C60", "title": "SDE simulation has one state per step and is resumable", "statement": "simulate_sde returns T states, each one integration_steps sub-steps after the previous one; with zero covariance (and diagonal_cov) it is the deterministic iteration of the mean map, diagonal_cov agrees with the Cholesky path on positive diagonal covariances, and the first T1 states only depend on the first T1 increments.", "quantifier": "all models, T, integration_steps, increments", "why_tests_cant": "All lengths.", "anchors": ["mfs/utils.py:simulate_sde"]}
{"id": "C61", "title": "vmap_list_of_funcs evaluates every function once in order", "statement": "vmap_list_of_funcs(fs)(x)[i] = fs[i](x) for every i < len(fs).", "quantifier": "all lists and x", "why_tests_cant": "All lists.", "anchors": ["mfs/utils.py:vmap_list_of_funcs"]}
{"id": "C62", "title": "binom and factorial via Gamma are the combinatorial ones", "statement": "factorial(n) = n! and binom(n, k) = C(n, k) for natural k <= n.", "quantifier": "all n, k", "why_tests_cant": "All n, k.", "anchors": ["mfs/utils.py:factorial", "mfs/utils.py:binom"]}
{"id": "C63", "title": "Kan moments are the Gaussian moments", "statement": "raw_moments_mvn_kan(mu, S, alpha) = E[prod X_i^alpha_i] for X ~ N(mu, S), and central_moments_mvn_kan(S, alpha) is the case mu = 0.", "quantifier": "all d, mu, positive semidefinite S, alpha", "why_tests_cant": "Identity for every order and dimension.", "anchors": ["mfs/multi_dims/moments.py:raw_moments_mvn_kan", "mfs/multi_dims/moments.py:central_moments_mvn_kan"]}
{"id": "C64", "title": "Uniform moments are the integrals", "statement": "moments_nd_uniform(bounds, alpha, means) = E[prod (U_i - mean_i)^alpha_i] for independent uniforms on the bounds.", "quantifier": "all d, bounds a_i < b_i, alpha, means", "why_tests_cant": "All orders.", "anchors": ["mfs/multi_dims/moments.py:moments_nd_uniform"]}
{"id": "C65", "title": "ND transition moments are mutually consistent", "statement": "For sde_cond_moments_euler_maruyama / sde_cond_moments_tme_normal, raw, central and scaled functions are E[X^alpha], E[(X-m)^alpha], E[((X-m)/s)^alpha] of the same normal law.", "quantifier": "all models, x, m, s with non-zero entries, all listed multi-indices", "why_tests_cant": "All models and orders.", "anchors": ["mfs/multi_dims/moments.py:sde_cond_moments_euler_maruyama", "mfs/multi_dims/moments.py:sde_cond_moments_tme_normal"]}
{"id": "C66", "title": "Multivariate Gaussian-sum moments are those of the mixture", "statement": "GaussianSumND.new: mean, cov, rms, cms are those of the weighted mixture.", "quantifier": "all components, weights summing to one, multi-indices", "why_tests_cant": "All mixtures.", "anchors": ["mfs/utils.py:GaussianSumND"]}
{"id": "C67", "title": "Kalman filter with scalar measurements is exact Bayes", "statement": "For one-dimensional measurements each kf step multiplies the Gaussian prior by the likelihood: prior(x) * lik(y|x) = exp(-nell_inc) * posterior(x), and covariances stay symmetric positive semidefinite.", "quantifier": "all models, all measurement sequences, all steps", "why_tests_cant": "All models.", "anchors": ["mfs/classical_filters_smoothers/gfs.py:kf", "mfs/classical_filters_smoothers/gfs.py:_linear_update"]}
{"id": "C68", "title": "Kalman filter with vector measurements is exact Bayes", "statement": "The same for dy > 1: gain = P H^T S^-1 and the log-likelihood is that of N(H m, S).", "quantifier": "all models with dy > 1", "why_tests_cant": "The suite has only scalar measurement tests for kf; triangular_solve is called with defaults that read the wrong triangle.", "anchors": ["mfs/classical_filters_smoothers/gfs.py:_linear_update", "mfs/classical_filters_smoothers/gfs.py:_log_mvn_pdf"]}
{"id": "C69", "title": "Multivariate normal log-density helper is the log-density", "statement": "_log_mvn_pdf(x, mu, chol) (the likelihood reported by sgp_filter and cd_sgp_filter) is log N(x; mu, chol chol^T).", "quantifier": "all dimensions, all lower triangular chol with positive diagonal", "why_tests_cant": "Coincides for scalar measurements and for diagonal covariances, which are the only ones tested.", "anchors": ["mfs/classical_filters_smoothers/gfs.py:_log_mvn_pdf", "mfs/classical_filters_smoothers/gfs.py:_sgp_update"]}
{"id": "C70", "title": "RTS smoother is anchored and shrinks uncertainty", "statement": "The last smoothed mean and covariance are the last filtered ones, one record per step is returned, smoothed covariances are symmetric positive semidefinite, and never exceed the filtered covariances when started from a Kalman filter.", "quantifier": "all linear models and filter outputs", "why_tests_cant": "All models and lengths.", "anchors": ["mfs/classical_filters_smoothers/gfs.py:rts", "mfs/classical_filters_smoothers/gfs.py:_gaussian_smoother_shared"]}
{"id": "C71", "title": "Non-linear filters reduce to the Kalman filter on linear models", "statement": "ekf, and sgp_filter with any rule integrating quadratics exactly, return the kf means and covariances on linear Gaussian models; eks and sgp_smoother return the rts results.", "quantifier": "all linear models, measurement sequences, sigma-point rules", "why_tests_cant": "Tested on one model.", "anchors": ["mfs/classical_filters_smoothers/gfs.py:ekf", "mfs/classical_filters_smoothers/gfs.py:sgp_filter", "mfs/classical_filters_smoothers/gfs.py:eks", "mfs/classical_filters_smoothers/gfs.py:sgp_smoother"]}
{"id": "C72", "title": "Cubature points match Gaussian moments up to order three", "statement": "SigmaPoints.cubature(d) has weights summing to one, zero mean, identity covariance and vanishing third moments; gen_sigma_points with a Cholesky factor gives mean m and covariance P.", "quantifier": "all d >= 1, m, chol", "why_tests_cant": "All dimensions.", "anchors": ["mfs/classical_filters_smoothers/quadratures.py:SigmaPoints"]}
{"id": "C73", "title": "Gauss-Hermite grid is the full product grid", "statement": "The roll table of SigmaPoints.gauss_hermite(d, order) enumerates every tuple of 1-D nodes exactly once, so the rule factorises over coordinates.", "quantifier": "all d, order", "why_tests_cant": "All dimensions.", "anchors": ["mfs/classical_filters_smoothers/quadratures.py:SigmaPoints"]}
{"id": "C74", "title": "Gauss-Hermite rule is exact for Gaussian polynomials", "statement": "sum_i w_i g(xi_i) = E[g(Z)], Z ~ N(0, I_d), for every polynomial g of degree at most 2*order-1 in each variable.", "quantifier": "all d, order >= 1, polynomials", "why_tests_cant": "All orders.", "anchors": ["mfs/classical_filters_smoothers/quadratures.py:SigmaPoints"]}
{"id": "C75", "title": "Runge-Kutta step consistency", "statement": "rk4_m_cov with dt = 0 is the identity, preserves symmetry of the covariance when the vector field does, and on linear fields reproduces the degree-4 Taylor polynomial of the exact flow.", "quantifier": "all vector fields, dt", "why_tests_cant": "All fields.", "anchors": ["mfs/classical_filters_smoothers/quadratures.py:rk4_m_cov", "mfs/classical_filters_smoothers/quadratures.py:rk4_m_cov_backward"]}
{"id": "C76", "title": "Resampling returns valid ancestor indices", "statement": "systematic, stratified and multinomial return n sorted indices in [0, n-1].", "quantifier": "all weight vectors and random draws", "why_tests_cant": "All randomness.", "anchors": ["mfs/classical_filters_smoothers/resampling.py:systematic", "mfs/classical_filters_smoothers/resampling.py:stratified", "mfs/classical_filters_smoothers/resampling.py:multinomial"]}
{"id": "C77", "title": "Systematic resampling is proportional", "statement": "For normalised non-negative weights each particle i is selected either floor(n w_i) or ceil(n w_i) times (within one of n w_i).", "quantifier": "all weights, all offsets u in [0, 1)", "why_tests_cant": "All offsets.", "anchors": ["mfs/classical_filters_smoothers/resampling.py:systematic"]}
{"id": "C78", "title": "Particles of zero weight are never selected", "statement": "A particle of weight zero is never an ancestor.", "quantifier": "all weights and draws", "why_tests_cant": "Fails for the single draw u = 0 that jax.random.uniform can produce.", "anchors": ["mfs/classical_filters_smoothers/resampling.py:systematic", "mfs/classical_filters_smoothers/resampling.py:stratified", "mfs/classical_filters_smoothers/resampling.py:multinomial"]}
{"id": "C79", "title": "Continuous resampling stays in the convex hull", "statement": "continuous_resampling returns nsamples sorted values between the smallest and the largest sample.", "quantifier": "all samples, weights, draws", "why_tests_cant": "All randomness.", "anchors": ["mfs/classical_filters_smoothers/resampling.py:continuous_resampling"]}
{"id": "C80", "title": "Particle filter outputs are propagated particles and the likelihood estimate is the mean weight", "statement": "Every filtering particle of bootstrap_filter is one of the particles proposed at that step; nell = -sum log mean weight; rescaling the likelihood by c only shifts nell by -T log c.", "quantifier": "all models, resampling schemes returning in-range indices, draws", "why_tests_cant": "All randomness.", "anchors": ["mfs/classical_filters_smoothers/smc.py:bootstrap_filter", "mfs/classical_filters_smoothers/smc.py:particle_filter"]}
{"id": "C81", "title": "Brute-force densities are normalised and non-negative", "statement": "Every density returned by brute_force_filter integrates to one under the trapezoidal rule used; with Chapman prediction, non-negative inputs and an increasing grid it is non-negative.", "quantifier": "all models, grids, measurements with non-zero normaliser", "why_tests_cant": "All executions.", "anchors": ["mfs/classical_filters_smoothers/brute_force.py:brute_force_filter"]}
{"id": "C82", "title": "Unknown prediction methods are rejected", "statement": "brute_force_filter raises NotImplementedError for every pred_method that is not one of the documented ones.", "quantifier": "all method strings", "why_tests_cant": "Any string containing \"chapman\" passes the second check.", "anchors": ["mfs/classical_filters_smoothers/brute_force.py:brute_force_filter"]}
{"id": "C83", "title": "Measurement models are proper probability mass functions", "statement": "benes_bernoulli: the likelihood is in (0,1) and sums to one over y in {0,1}; well_poisson: the emission is positive and the pmf sums to one over the naturals.", "quantifier": "all states x and parameters", "why_tests_cant": "All real x.", "anchors": ["mfs/one_dim/ss_models.py:benes_bernoulli", "mfs/one_dim/ss_models.py:well_poisson"]}
{"id": "C84", "title": "Continuous-discrete covariance fields preserve symmetry", "statement": "The moment ODE right-hand sides of cd_ekf, cd_eks, cd_sgp_filter and cd_sgp_smoother map symmetric covariances to symmetric ones, so all returned covariances are symmetric.", "quantifier": "all models and measurement sequences", "why_tests_cant": "All executions.", "anchors": ["mfs/classical_filters_smoothers/gfs.py:cd_ekf", "mfs/classical_filters_smoothers/gfs.py:cd_eks", "mfs/classical_filters_smoothers/gfs.py:cd_sgp_filter", "mfs/classical_filters_smoothers/gfs.py:cd_sgp_smoother"]}
{"id": "C85", "title": "ND rule does not depend on the representation of the moments", "statement": "moment_quadrature_nd fed with the raw moments, with the central moments and their mean, or with the scaled central moments, mean and scales of one law gives the same integral of every function.", "quantifier": "every d, N, law with positive definite Gram matrix, every mean and positive scales, every integrand", "why_tests_cant": "The shift and the scaling interact with d index matrices of combinatorial size.", "anchors": ["mfs/multi_dims/quadratures.py:moment_quadrature_nd"]}
{"id": "C86", "title": "ND filters are causal and resumable", "statement": "The first k outputs of an ND filter are its outputs on the first k measurements; filtering ys1 then restarting from the last output on ys2 gives the outputs on ys1+ys2, and the negative log-likelihoods add up.", "quantifier": "every model, dimension and measurement sequence, every k and split", "why_tests_cant": "All executions.", "anchors": ["mfs/multi_dims/filtering.py:moment_filter_nd_rms", "mfs/multi_dims/filtering.py:moment_filter_nd_cms", "mfs/multi_dims/filtering.py:moment_filter_nd_scms"]}
{"id": "C87", "title": "ND filters: measurement densities may be unnormalised", "statement": "Multiplying the measurement density by c > 0 leaves the ND filtered moments unchanged and shifts the negative log-likelihood by -T log c.", "quantifier": "every model, dimension, measurement sequence, c > 0", "why_tests_cant": "All executions.", "anchors": ["mfs/multi_dims/filtering.py:moment_filter_nd_rms", "mfs/multi_dims/filtering.py:moment_filter_nd_cms", "mfs/multi_dims/filtering.py:moment_filter_nd_scms"]}
{"id": "C88", "title": "characteristic_from_pdf behaves like a characteristic function", "statement": "For sorted abscissae and non-negative density values, characteristic_from_pdf(0) is the trapezoidal mass, its modulus never exceeds the mass, and characteristic_from_pdf(-z) is its complex conjugate.", "quantifier": "every grid, every density table, every z", "why_tests_cant": "Bounds over all z and all tables.", "anchors": ["mfs/one_dim/moments.py:characteristic_from_pdf"]}
{"id": "C89", "title": "inverse_fourier discards nothing on symmetric grids", "statement": "If the grid is symmetric about zero and the characteristic function values are conjugate-symmetric, the trapezoidal integral is real, so taking its real part loses nothing.", "quantifier": "every x, every symmetric grid of any length", "why_tests_cant": "All grids.", "anchors": ["mfs/one_dim/pdf_approximations.py:inverse_fourier"]}
{"id": "C90", "title": "Systematic and stratified resampling are unbiased", "statement": "Over the uniform random draws, the expected number of copies of particle i is exactly n w_i, for systematic (one draw) and stratified (n independent draws) resampling.", "quantifier": "every number of particles, every normalised non-negative weight vector, every particle", "why_tests_cant": "An expectation over a continuum of draws.", "anchors": ["mfs/classical_filters_smoothers/resampling.py:systematic", "mfs/classical_filters_smoothers/resampling.py:stratified"]}
{"id": "C91", "title": "particle_filter with the transition as proposal is bootstrap_filter", "statement": "If the proposal sampler is the transition sampler and both densities are the same non-vanishing function, particle_filter returns exactly the particle clouds of bootstrap_filter.", "quantifier": "all models, measurement sequences, keys and resampling schemes", "why_tests_cant": "Equality of two programs on all inputs.", "anchors": ["mfs/classical_filters_smoothers/smc.py:particle_filter", "mfs/classical_filters_smoothers/smc.py:bootstrap_filter"]}
{"id": "C92", "title": "Brute-force filtering is invariant under rescaling", "statement": "Multiplying the initial density values by a non-zero constant, or the likelihood by any non-zero factor depending on the measurement only, leaves every returned density unchanged, for every prediction method.", "quantifier": "all models, grids, measurement sequences, methods, factors", "why_tests_cant": "Equality on all inputs.", "anchors": ["mfs/classical_filters_smoothers/brute_force.py:brute_force_filter"]}
{"id": "C93", "title": "The Kolmogorov operator is the Fokker-Planck operator", "statement": "Where the finite differences of the grid values are exact, the operator used by the kolmogorov method equals -(drift p)_x + (dispersion^2 p)_xx / 2; on even grids this is the case for quadratic p two steps away from the boundary.", "quantifier": "all twice differentiable drifts and dispersions, all even grids, all interior points", "why_tests_cant": "Needs calculus for arbitrary drift and dispersion.", "anchors": ["mfs/classical_filters_smoothers/brute_force.py:brute_force_filter"]}
{"id": "C94", "title": "State-space models have the advertised dynamics", "statement": "benes_bernoulli: the drift satisfies the Benes condition a_x + a^2 = 1. prey_predator: the drift is the Lotka-Volterra field with its equilibria and conserved quantity, and an extinct species stays extinct in drift, dispersion and every Milstein step.", "quantifier": "all states, parameters and Brownian increments", "why_tests_cant": "All real states and parameters.", "anchors": ["mfs/one_dim/ss_models.py:benes_bernoulli", "mfs/multi_dims/ss_models.py:prey_predator"]}
{"id": "C95", "title": "The two Gaussian moment routines agree", "statement": "raw_moments_mvn_mgf (iterated gradients of the moment-generating function at zero) equals E[prod X_i^alpha_i] for X ~ N(mean, cov), hence raw_moments_mvn_kan.", "quantifier": "all d, means, positive semidefinite covariances, multi-indices", "why_tests_cant": "Involves derivatives of every order; two different algorithms compared on all inputs.", "anchors": ["mfs/multi_dims/moments.py:raw_moments_mvn_mgf", "mfs/multi_dims/moments.py:raw_moments_mvn_kan"]}
{"id": "C96", "title": "ND TME moment functions are mutually consistent", "statement": "For sde_cond_moments_tme, with any linear normalised expectation routine, scaled moments are central moments over prod scale^alpha, central moments about zero are raw moments, the zeroth moment is one and first central moments are the conditional mean minus the centre.", "quantifier": "all models, orders, states, multi-indices, centres and non-zero scales", "why_tests_cant": "Relation between functions for all inputs.", "anchors": ["mfs/multi_dims/moments.py:sde_cond_moments_tme"]}
{"id": "C97", "title": "On a finite-state chain the filters are exact", "statement": "If the hidden state is a Markov chain on n distinct reals and the filters are run with 2n or 2n+1 moments, all three one-dimensional filters return exactly minus the log of the marginal likelihood (a sum over all hidden paths) and exactly the posterior raw, central or scaled central moments at every time.", "quantifier": "all n, supports, initial laws, transition matrices with every state reachable, positive likelihoods, measurement sequences, both numeric paths", "why_tests_cant": "Ranges over all chains and all sequence lengths; the reference is a sum over exponentially many paths.", "anchors": ["mfs/one_dim/filtering.py:moment_filter_rms", "mfs/one_dim/filtering.py:moment_filter_cms", "mfs/one_dim/filtering.py:moment_filter_scms", "mfs/one_dim/quadtures.py:moment_quadrature"]}
{"id": "C98", "title": "Shape of the one-dimensional rule", "statement": "For valid moments weights are strictly positive and nodes distinct; no other n-point rule has the same 2n moments; vanishing odd moments give a symmetric rule; and the moment of order 2n is never overestimated, with error equal to the expectation of the squared monic polynomial vanishing at the nodes.", "quantifier": "all valid moment vectors, means and scales, both numeric paths", "why_tests_cant": "Uniqueness and one-sided error bounds range over all rules and all laws with the given moments.", "anchors": ["mfs/one_dim/quadtures.py:moment_quadrature"]}
{"id": "C99", "title": "The filter likelihoods are a probability law on sequences", "statement": "For discrete measurements with positive probabilities summing to one at each state, the sum over all measurement sequences of length T of exp(-nell) is one.", "quantifier": "all T, finite or countable measurement alphabets, initial vectors (valid or not), conditional moment functions; the three one-dimensional filters", "why_tests_cant": "Infinite sum over all sequences.", "anchors": ["mfs/one_dim/filtering.py:moment_filter_rms", "mfs/one_dim/filtering.py:moment_filter_cms", "mfs/one_dim/filtering.py:moment_filter_scms"]}
{"id": "C100", "title": "Law of total expectation for one filter step", "statement": "For a measurement density integrating to one at each state (for any dominating measure), the predictive density exp(-nell) integrates to one and posterior raw moments averaged over it equal the predicted moments.", "quantifier": "all dominating measures, densities, valid predicted moments, orders below 2n", "why_tests_cant": "An integral over all measurements.", "anchors": ["mfs/one_dim/filtering.py:moment_filter_rms"]}
{"id": "C101", "title": "The multivariate rule recovers discrete laws", "statement": "If the moments are those of a law with as many atoms as there are multi-indices of order below N, in general position, then the moments are valid and the rule integrates every function exactly as that law does.", "quantifier": "all N, d >= 1, atoms in general position, positive masses, all integrands, both numeric paths", "why_tests_cant": "Ranges over all laws and integrands.", "anchors": ["mfs/multi_dims/quadratures.py:moment_quadrature_nd", "mfs/multi_dims/multi_indices.py:gram_and_hankel_indices_graded_lexico"]}
{"id": "C102", "title": "GaussianSum1D density and sampler agree with its moments", "statement": "GaussianSum1D.pdf is evaluated entry by entry, is non-negative, is the Lebesgue density of the mixture, integrates to one, and its moments are the stored raw moments; the sampler produces independent draws from the same mixture.", "quantifier": "all component lists with non-negative weights summing to one, positive variances, evaluation points, sample counts", "why_tests_cant": "Equality of probability laws and integrals over the line.", "anchors": ["mfs/utils.py:GaussianSum1D"]}
{"id": "C103", "title": "GaussianSumND density and sampler agree", "statement": "GaussianSumND.pdf is the positive density of the mixture of multivariate normals and integrates to one, logpdf is its logarithm, and the sampler produces independent draws from the same mixture.", "quantifier": "all dimensions, component lists with positive definite covariances, points, sample counts", "why_tests_cant": "Equality of probability laws in every dimension.", "anchors": ["mfs/utils.py:GaussianSumND"]}
{"id": "C104", "title": "Structure of the test models", "statement": "The satellite drift dissipates the energy at rate b w^2 and rests, without noise, at the multiples of pi; the prey-predator integrator is the Milstein scheme; the double-well drift is minus the gradient of its potential with wells at plus and minus 1/sqrt(p).", "quantifier": "all states, parameters, steps and increments", "why_tests_cant": "All real states.", "anchors": ["mfs/multi_dims/ss_models.py:satellite_orbital_stability", "mfs/multi_dims/ss_models.py:prey_predator", "mfs/one_dim/ss_models.py:well_poisson"]}
{"id": "C105", "title": "The Kalman filter computes the exact likelihood and filtering law", "statement": "For a linear Gaussian model with scalar measurements, exp(-nell) returned by kf at time k is the integral over all hidden paths of the joint density of states and measurements up to k, and the returned mean and covariance are those of the exact conditional law of the state given the measurements up to k, a normal law.", "quantifier": "all state dimensions, F, H, positive definite Sigma, Xi, v0, means, measurement sequences, test functions", "why_tests_cant": "The reference is an integral over a path space of unbounded dimension.", "anchors": ["mfs/classical_filters_smoothers/gfs.py:kf"]}
{"id": "C106", "title": "The RTS smoother computes the exact smoothing law", "statement": "Running rts on the output of kf gives, at every time, the mean and covariance of the exact conditional law of the state given all measurements.", "quantifier": "all state dimensions, F, H, positive definite Sigma, Xi, v0, means, nonempty measurement sequences, test functions", "why_tests_cant": "The reference is an integral over a path space of unbounded dimension.", "anchors": ["mfs/classical_filters_smoothers/gfs.py:rts", "mfs/classical_filters_smoothers/gfs.py:kf"]}
{"id": "C107", "title": "The bootstrap filter estimates likelihoods without bias", "statement": "With systematic or stratified resampling, the expectation of exp(-nell) returned by bootstrap_filter is the exact marginal likelihood, for every number of particles; more generally exp(-nell) times the mean of f over the last particles has as expectation the unnormalised posterior expectation of f.", "quantifier": "all numbers of particles, state spaces, transition kernels, positive likelihoods, measurement sequences, non-negative test functions; independent keys", "why_tests_cant": "An expectation over all random draws, equal to an integral over hidden paths.", "anchors": ["mfs/classical_filters_smoothers/smc.py:bootstrap_filter", "mfs/classical_filters_smoothers/resampling.py:systematic", "mfs/classical_filters_smoothers/resampling.py:stratified"]}
{"id": "C108", "title": "The one-dimensional rule converges for continuous integrands", "statement": "For moments of a law on a bounded interval that is not concentrated on finitely many points, the error of moment_quadrature for a continuous function is at most twice its distance from any polynomial of degree below the number of moments used, and tends to zero as the number of moments grows, for raw, central or scaled moments.", "quantifier": "all laws on bounded intervals, continuous functions, centres and scales, both numeric paths", "why_tests_cant": "A limit, over all continuous functions and laws.", "anchors": ["mfs/one_dim/quadtures.py:moment_quadrature"]}
{"id": "C109", "title": "The one-dimensional filters converge to the exact Bayes filter", "statement": "For a hidden Markov model on a bounded interval with continuous conditional moments and continuous positive likelihoods, as the number of moments grows the negative log-likelihood returned by each of the three filters converges to that of the exact model, and all returned moments after every measurement converge to those of the exact posterior.", "quantifier": "all such models (transition laws not concentrated on finitely many points), measurement sequences, both numeric paths", "why_tests_cant": "A limit in the number of moments; the reference is an integral over hidden paths.", "anchors": ["mfs/one_dim/filtering.py:moment_filter_rms", "mfs/one_dim/filtering.py:moment_filter_cms", "mfs/one_dim/filtering.py:moment_filter_scms"]}
{"id": "C110", "title": "On a finite set of points the multivariate filters are exact", "statement": "If the state of a hidden Markov model lives on as many points as there are multi-indices of order below N, in general position, then each of the three multidimensional filters, given exact initial and conditional moments, returns the exact negative log-likelihood (sum over all hidden paths) and the exact posterior moments, mean and standard deviations after every measurement.", "quantifier": "all N >= 2, d >= 1, point sets in general position, chains, positive likelihoods, measurement sequences, both calling conventions, both numeric paths", "why_tests_cant": "The reference sums over all hidden paths of unbounded length.", "anchors": ["mfs/multi_dims/filtering.py:moment_filter_nd_rms", "mfs/multi_dims/filtering.py:moment_filter_nd_cms", "mfs/multi_dims/filtering.py:moment_filter_nd_scms"]}
{"id": "C111", "title": "Multi-step prediction of polynomial processes is exact", "statement": "For a transition that maps polynomials to polynomials without raising the degree (affine autoregressions with any noise, polynomial diffusions) and measurements that carry no information, the one-dimensional filters return after every step exactly the true first 2n moments (raw, central or scaled, with mean and standard deviation): re-quadrature at every step loses nothing. The returned value is minus the sum of the log constants.", "quantifier": "all n >= 1, transitions of that kind, initial laws, horizons, conditional means/variances supplied, both numeric paths", "why_tests_cant": "A tolerance over a finite horizon cannot exclude slow accumulation of error.", "anchors": ["mfs/one_dim/filtering.py:moment_filter_rms", "mfs/one_dim/filtering.py:moment_filter_cms", "mfs/one_dim/filtering.py:moment_filter_scms"]}
{"id": "C112", "title": "The moment quadrature of a normal law is the Gauss-Hermite rule", "statement": "For N(m, v), v > 0, moment_quadrature applied to the closed-form normal moments of the library (raw, central with its mean, or standard with mean and scale) integrates every function exactly as gaussian_expectation with the Gauss-Hermite rule of the same order in one dimension.", "quantifier": "all n >= 1, m, v > 0, integrands, both numeric paths, sorted or not", "why_tests_cant": "Two independent implementations agree on all functions, for every order.", "anchors": ["mfs/one_dim/quadtures.py:moment_quadrature", "mfs/one_dim/moments.py:raw_moment_of_normal", "mfs/classical_filters_smoothers/quadratures.py:gaussian_expectation"]}
{"id": "C113", "title": "Weights of the multidimensional quadrature are not all non-negative", "statement": "A user would expect moment_quadrature_nd to return non-negative weights for the moments of a genuine law, hence non-negative integrals of non-negative functions and non-negative posterior second moments. This holds in one dimension for every moment vector and in any dimension for discrete laws in general position; it fails in general: for a law on four points of the plane with N = 2 a weight is negative, the integral of a square is negative, and moment_filter_nd_rms returns the posterior second moment -1 for a likelihood bounded below by 1.", "quantifier": "all moment vectors for d = 1; all discrete laws in general position; explicit counterexample for d = N = 2 and every backend", "why_tests_cant": "Whether weights can be negative depends on commutation of the Hankel matrices; sampled tests use benign laws.", "anchors": ["mfs/multi_dims/quadratures.py:moment_quadrature_nd", "mfs/multi_dims/filtering.py:moment_filter_nd_rms"]}
{"id": "C114", "title": "Independent coordinates: the multidimensional rule is the tensor product", "statement": "If the mixed moments are those of independent coordinates with non-degenerate one-dimensional moments, then the Gram matrix is positive definite and moment_quadrature_nd integrates every function exactly as the product of the one-dimensional moment_quadrature rules, also with mean and with mean and scale.", "quantifier": "all N >= 1, d >= 1, moment sequences with positive definite Hankel matrices, integrands, means, scales, backends, both numeric paths", "why_tests_cant": "Agreement of two implementations for all dimensions, orders and integrands.", "anchors": ["mfs/multi_dims/quadratures.py:moment_quadrature_nd", "mfs/one_dim/quadtures.py:moment_quadrature"]}
{"id": "C115", "title": "The multidimensional moment quadrature of a diagonal normal law is the Gauss-Hermite product rule", "statement": "For N(m, diag v), v > 0, moment_quadrature_nd applied to the mixed normal moments of the library (raw, central with its mean, or standard with mean and scale) integrates every function exactly as gaussian_expectation with the Gauss-Hermite product rule of order N.", "quantifier": "all N >= 1, d >= 1, m, v > 0, integrands, backends, both numeric paths", "why_tests_cant": "Two independent implementations agree on all functions, for every order and dimension.", "anchors": ["mfs/multi_dims/quadratures.py:moment_quadrature_nd", "mfs/multi_dims/moments.py:raw_moments_mvn_kan", "mfs/classical_filters_smoothers/quadratures.py:gaussian_expectation"]}
{"id": "C116", "title": "The Ornstein-Uhlenbeck experiment simulates the discretised model", "statement": "The hand-written F and Sigma of the convergence experiment are what discretise_lti_sde returns for its drift and dispersion, the initial variance is stationary for them, and the simulated path (Cholesky factor of the Matern covariance times standard normal draws) is the autoregression x_{k+1} = F x_k + sqrt(Sigma) z_{k+1} started from sigma z_0.", "quantifier": "all ell, sigma, dt > 0, lengths, draws, Cholesky backends", "why_tests_cant": "Two constructions of the same process are compared for every draw and every length.", "anchors": ["dardel/convergence/convergence_pf.py:matern12", "mfs/utils.py:discretise_lti_sde"]}
{"id": "C117", "title": "The experiment's own Kalman filter is the library's", "statement": "The scalar Kalman filter written in the convergence scripts returns the same means, variances and negative log-likelihood as mfs' kf on the corresponding one-by-one matrices.", "quantifier": "all F, Sigma, R, initial values, measurement sequences", "why_tests_cant": "Equality of two recursions over unbounded sequences.", "anchors": ["dardel/convergence/convergence_pf.py:kf", "mfs/classical_filters_smoothers/gfs.py:kf"]}
{"id": "C118", "title": "The reported Kullback-Leibler error is a Kullback-Leibler divergence", "statement": "The error computed from estimated and true mean and variance is the Kullback-Leibler divergence of the two normal laws (estimate first); it is finite, non-negative, and zero exactly if both means and variances agree.", "quantifier": "all means, all positive variances", "why_tests_cant": "The reference is an integral over the real line of a log-density ratio.", "anchors": ["dardel/convergence/convergence_pf.py:errs_kls", "dardel/convergence/convergence_mf.py:errs_kls"]}
{"id": "C119", "title": "The proposal of the particle-filter experiment is the optimal one", "statement": "The sampler draws from the density that proposal_density evaluates; transition density times likelihood equals predictive density times proposal density; hence in the library particle filter every particle weight is the predictive density of the measurement given the ancestor, whatever was sampled.", "quantifier": "all F, Sigma > 0, R > 0, ancestors, measurements, keys, particle numbers, resampling schemes", "why_tests_cant": "Independence of the weights from the draws is a statement about all draws.", "anchors": ["dardel/convergence/convergence_pf.py:proposal_sampler", "dardel/convergence/convergence_pf.py:proposal_density", "dardel/convergence/convergence_pf.py:transition_density", "mfs/classical_filters_smoothers/smc.py:particle_filter"]}
{"id": "C120", "title": "The parameter map of the estimation scripts is a bijection onto positive parameters", "statement": "log(exp(p) + 1) is positive and strictly increasing, reaches every positive number, has the inverse log(exp(p) - 1) used for the initial value, and so minimising over unconstrained parameters is minimising over positive ones.", "quantifier": "all real and all positive parameters, all objectives", "why_tests_cant": "Surjectivity and equivalence of minimisation problems quantify over all reals.", "anchors": ["dardel/parameter_estimation/mf.py:obj_func", "dardel/parameter_estimation/mf.py:init_params"]}
{"id": "C121", "title": "Characteristic-function errors of the Benes experiment", "statement": "The characteristic functions computed for the Gaussian filter and for the particle filter are those of the normal law and of the empirical measure, with modulus at most one. The L1, L2 and sup errors on the grid are metrics on functions on the grid (non-negative, symmetric, zero only for equal values, triangle inequality) and satisfy L1 <= length * sup, L2^2 <= sup * L1, L1^2 <= length * L2^2.", "quantifier": "all grids with at least two increasing points, all complex-valued functions on them, all means, variances, particle sets", "why_tests_cant": "Metric laws quantify over all functions.", "anchors": ["dardel/benes_bernoulli/compute_errs.py:ghf_filtering_cfs", "dardel/benes_bernoulli/pf.py:pf_filtering_cfs"]}
{"id": "C122", "title": "The estimate saved for the Gauss-Hermite filter minimises the Gauss-Hermite objective", "statement": "A user reads the file of the Gauss-Hermite run as the estimate of that filter. It is false: the script passes the objective of the extended Kalman filter to both optimisations, so both files hold the same estimate whatever the optimiser, and with an exact optimiser it need not minimise the Gauss-Hermite objective.", "quantifier": "all optimisers, objectives, initial values", "why_tests_cant": "A plausible-looking number is saved; only a comparison over all objectives shows it is the wrong one.", "anchors": ["dardel/parameter_estimation/ghf_ekf.py:opt_solver"]}
{"id": "C123", "title": "The notebook's Euler-Maruyama moments are those of the library", "statement": "False: the conditional variance lacks the factor dt, so the second moments differ at every point with non-zero dispersion unless dt = 1.", "quantifier": "all drifts, dispersions, dt >= 0 with dt != 1, orders, points", "why_tests_cant": "The result is still a valid normal moment sequence, of another law.", "anchors": ["examples/benes_bernoulli.ipynb:state_cond_raw_moments_euler_maruyama", "mfs/one_dim/moments.py:sde_cond_moments_euler"]}
{"id": "C124", "title": "Multinomial resampling draws independent ancestors", "statement": "For independent uniform draws, the multiset of ancestor indices returned by multinomial has the law of n independent draws from the categorical law given by the weights; the expected number of copies of particle i is n times its weight; and the scheme may be used in the bootstrap filter, whose likelihood estimate is then unbiased.", "quantifier": "all non-negative weight vectors with sum one, all functions of the multiset of indices", "why_tests_cant": "An equality of laws over all draws; the sorted uniforms are built from normalised sums of exponentials, so the claim is an integral identity in every dimension.", "anchors": ["mfs/classical_filters_smoothers/resampling.py:_sorted_uniforms", "mfs/classical_filters_smoothers/resampling.py:multinomial"]}
{"id": "C125", "title": "The one-dimensional filters do not depend on units and origin of the state", "statement": "For x2 = a + b*x with correspondingly transformed conditional moments and measurement density, moment_filter_scms (b > 0) returns the same scaled moments, the means a + b*mean, the scales b*scale and the same nell; moment_filter_rms (b != 0) the moments of a + b*X and moment_filter_cms b**k times the central moments, with the same nell, while the Gram matrices stay positive definite. With the raw and central moments of sde_cond_moments_euler and non-vanishing dispersion no condition on the run is needed.", "quantifier": "all a, b, models, positive measurement densities, initial moments, measurement sequences", "why_tests_cant": "Relates all pairs of runs of two models in different coordinates.", "anchors": ["mfs/one_dim/filtering.py:moment_filter_rms", "mfs/one_dim/filtering.py:moment_filter_cms", "mfs/one_dim/filtering.py:moment_filter_scms", "mfs/one_dim/moments.py:sde_cond_moments_euler"]}
{"id": "C126", "title": "Process noise keeps the one-dimensional filters valid", "statement": "If the conditional laws are positive on squares of polynomials (for instance sde_cond_moments_euler with dt > 0 and non-vanishing dispersion) and the measurement density is positive, then every Gram matrix factorised in a run of any of the three filters is positive definite, the scales are positive, and the three filters agree on every measurement sequence.", "quantifier": "all models of this kind, initial vectors, measurement sequences", "why_tests_cant": "Positive definiteness at every step of every run.", "anchors": ["mfs/one_dim/filtering.py:moment_filter_rms", "mfs/one_dim/filtering.py:moment_filter_cms", "mfs/one_dim/filtering.py:moment_filter_scms", "mfs/one_dim/moments.py:sde_cond_moments_euler"]}
{"id": "C127", "title": "Process noise keeps the multidimensional filters valid", "statement": "A user expects the same in several dimensions. It is false: from a genuine law with identity covariance, with a polynomial drift and unit normal noise, the first prediction of moment_filter_nd_rms has a negative second moment, so the Cholesky factorisation of the update fails. It holds whenever the weights of the rule are non-negative.", "quantifier": "all models with non-degenerate conditional laws", "why_tests_cant": "The failure needs a particular law; a random test is unlikely to hit it, and the positive statement concerns all rules.", "anchors": ["mfs/multi_dims/filtering.py:moment_filter_nd_rms", "mfs/multi_dims/quadratures.py:moment_quadrature_nd"]}
{"id": "C128", "title": "The filters run on the one-dimensional models of the library", "statement": "On benes_bernoulli(N) with any Boolean measurements and on well_poisson(N) with any counts and any parameters, with the initial moments of the model and sde_cond_moments_euler or (variances of tme positive) sde_cond_moments_tme_normal, every Gram matrix met by moment_filter_rms and moment_filter_cms is positive definite, both return the same nell, and each pair of records holds the raw moments and the mean and central moments of one law of positive variance.", "quantifier": "all N >= 2, parameters, measurement sequences of any length", "why_tests_cant": "Validity at every step of every run of a concrete model; no finite set of measurement sequences covers it.", "anchors": ["mfs/one_dim/ss_models.py:benes_bernoulli", "mfs/one_dim/ss_models.py:well_poisson", "mfs/one_dim/filtering.py:moment_filter_rms", "mfs/one_dim/filtering.py:moment_filter_cms", "mfs/one_dim/moments.py:sde_cond_moments_euler", "mfs/one_dim/moments.py:sde_cond_moments_tme_normal"]}
{"id": "C129", "title": "Moments of the Taylor moment expansion are consistent", "statement": "For smooth drift and dispersion, any step and order, the functions returned by sde_cond_moments_tme are the raw, central and scaled moments and the mean of one linear functional of mass one (tme.expectation being the truncated series of the generator); for Brownian motion the moments of order up to 2*tme_order + 1 are those of the exact transition law.", "quantifier": "all smooth coefficients, steps, orders, states, centres and scales", "why_tests_cant": "Relates five functions over all models and orders.", "anchors": ["mfs/one_dim/moments.py:sde_cond_moments_tme"]}
{"id": "C130", "title": "Moments of the Taylor moment expansion keep the filters valid", "statement": "A user expects that moment_filter_rms with sde_cond_moments_tme never factorises an indefinite matrix, as with sde_cond_moments_euler. It is false: for every tme_order M >= 1, every N >= M + 2 and Brownian motion of any step and dispersion, the first prediction from N(0, s), s small, is not the moment vector of any law. For Brownian motion and N <= M + 1 it holds from every Gaussian sum.", "quantifier": "all orders, N, steps, dispersions", "why_tests_cant": "The failure happens for every order, but only for small initial variances; the positive part concerns all runs.", "anchors": ["mfs/one_dim/moments.py:sde_cond_moments_tme", "mfs/one_dim/filtering.py:moment_filter_rms"]}
{"id": "C131", "title": "Results of the Benes-Bernoulli experiment do not depend on the mode", "statement": "The means and characteristic functions that post_processing_mf.py computes from the modes raw and central are equal on every measurement sequence with --normal and N >= 2; without --normal the modes raw, central and scaled agree as long as the predictions stay valid.", "quantifier": "all N, measurement sequences, grids", "why_tests_cant": "Equality of three pipelines over all runs.", "anchors": ["dardel/benes_bernoulli/post_processing_mf.py", "dardel/benes_bernoulli/mf.py", "mfs/one_dim/moments.py:characteristic_fn"]}
{"id": "C132", "title": "The prey-predator script reads the means from the right positions", "statement": "The positions 2 and 1 of a moment vector read in mode raw are those of extract_mean, and on valid runs the means so obtained equal, at every step, the means returned in mode central.", "quantifier": "all moment vectors; all valid runs for every N >= 2", "why_tests_cant": "Depends on the graded order of the multi-indices for every N, and on the equivalence of two filters.", "anchors": ["dardel/prey_predator/mf.py", "mfs/multi_dims/filtering.py:moment_filter_nd_rms", "mfs/multi_dims/filtering.py:moment_filter_nd_cms", "mfs/multi_dims/moments.py:extract_mean"]}
{"id": "C133", "title": "On the whole line the rule and the filters converge to the exact Bayes filter", "statement": "For a law with all exponential moments that is not concentrated on finitely many points, moment_quadrature converges, as the number of moments grows, for every continuous integrand of polynomial growth. With transition laws of the same kind (moments continuous and of polynomial growth in the state) and continuous positive bounded likelihoods, nell of each of the three filters converges to minus the logarithm of the exact marginal likelihood, and all returned moments, means and scales, and expectations computed from them, converge to those of the exact filtering laws.", "quantifier": "all such laws, kernels, likelihoods, measurement sequences, integrands, centres, scales, sort and stable flags", "why_tests_cant": "A limit in the number of moments, on an unbounded state space, for all models.", "anchors": ["mfs/one_dim/quadtures.py:moment_quadrature", "mfs/one_dim/filtering.py:moment_filter_rms", "mfs/one_dim/filtering.py:moment_filter_cms", "mfs/one_dim/filtering.py:moment_filter_scms"]}
{"id": "C134", "title": "The errors of the convergence experiment tend to zero", "statement": "In convergence_mf.py, as N grows, the errors of the mean and of the variance and the Kullback-Leibler error between the moment filters (raw and central) and the Kalman filter of the script tend to zero at every time, and the negative log-likelihoods converge to that of the Kalman filter.", "quantifier": "all F, all positive Sigma, R, var0, all measurement sequences and times", "why_tests_cant": "A limit; the experiment itself only samples N up to 15.", "anchors": ["dardel/convergence/convergence_mf.py", "mfs/one_dim/filtering.py:moment_filter_rms", "mfs/one_dim/filtering.py:moment_filter_cms", "mfs/one_dim/moments.py:raw_moment_of_normal"]}
{"id": "C135", "title": "The filters converge to the exact filter of the Euler-Maruyama chain", "statement": "For a continuous drift of linear growth, a continuous nowhere vanishing dispersion with square of linear growth, and a Gaussian sum as initial law, the raw and central filters with sde_cond_moments_euler converge, as N grows, to the exact Bayes filter of the chain x -> N(x + drift(x) dt, dispersion(x)^2 dt); the same with sde_cond_moments_tme_normal for continuous conditional means and positive variances of linear growth. The Benes-Bernoulli model is an instance.", "quantifier": "all such models, steps, likelihoods, measurement sequences", "why_tests_cant": "A limit over the number of moments for a class of models.", "anchors": ["mfs/one_dim/moments.py:sde_cond_moments_euler", "mfs/one_dim/moments.py:sde_cond_moments_tme_normal", "mfs/utils.py:GaussianSum1D", "mfs/one_dim/ss_models.py:benes_bernoulli"]}
{"id": "C136", "title": "The errors of the Benes-Bernoulli experiment tend to zero", "statement": "With --normal, in the modes raw and central, the errors reported by compute_errs.py for the moment filter with respect to the exact filter of the normal chain (absolute error of the mean; L1, L2 and supremum errors of the characteristic function on any grid) tend to zero as N grows.", "quantifier": "all measurement sequences, grids and times; conditional means and variances of tme continuous, of linear growth, variances positive", "why_tests_cant": "A limit; needs convergence of expectations of functions that are not polynomials.", "anchors": ["dardel/benes_bernoulli/compute_errs.py", "dardel/benes_bernoulli/post_processing_mf.py", "mfs/one_dim/moments.py:characteristic_fn", "mfs/one_dim/moments.py:sde_cond_moments_tme_normal"]}
{"id": "C137", "title": "ND filters are exact on polynomial processes", "statement": "If the conditional moments of the transition up to degree 2N-1 are polynomials in the state of no larger degree and the measurements carry no information, the moments, means and scales returned by each of the three ND filters are those of the exact law at every step.", "quantifier": "all d, N >= 2, polynomial transitions, initial laws, horizons, as long as the Gram matrices stay positive definite", "why_tests_cant": "A statement for every dimension, order and horizon about exactness, not approximation.", "anchors": ["mfs/multi_dims/filtering.py:moment_filter_nd_rms", "mfs/multi_dims/filtering.py:moment_filter_nd_cms", "mfs/multi_dims/filtering.py:moment_filter_nd_scms", "mfs/multi_dims/quadratures.py:moment_quadrature_nd"]}
{"id": "C138", "title": "The likelihoods of the ND filters are a probability on measurement sequences", "statement": "For a discrete measurement with a pmf, exp(-nell) summed over all measurement sequences of a given length is one, for each of the three ND filters, if the predictive likelihoods along the runs are positive; and the predicted moments are the average of the posterior moments (law of total expectation).", "quantifier": "all moments (also those of no law), models, pmfs, lengths", "why_tests_cant": "A sum over all measurement sequences of every length.", "anchors": ["mfs/multi_dims/filtering.py:moment_filter_nd_rms", "mfs/multi_dims/filtering.py:moment_filter_nd_cms", "mfs/multi_dims/filtering.py:moment_filter_nd_scms"]}
{"id": "C139", "title": "One-dimensional marginals of the ND rule are probability laws", "statement": "Although the ND rule can have negative weights, the weights of the nodes grouped by one coordinate are non-negative and sum to one, whatever the moments. Hence a measurement of one coordinate always has a positive predictive likelihood, and the posterior moments of this coordinate are moments of a law (positive semidefinite Hankel matrix).", "quantifier": "all moment vectors, dimensions, coordinates, positive likelihoods of one coordinate, sequences", "why_tests_cant": "Holds for moment vectors of no law, where the signs of single weights are arbitrary.", "anchors": ["mfs/multi_dims/quadratures.py:moment_quadrature_nd", "mfs/multi_dims/filtering.py:moment_filter_nd_rms", "mfs/multi_dims/filtering.py:moment_filter_nd_cms", "mfs/multi_dims/filtering.py:moment_filter_nd_scms"]}
{"id": "C140", "title": "ND nodes stay in the bounding box of the support", "statement": "If the moments are those of a finite measure on a box, every coordinate of every node of the ND rule lies in the corresponding side of the box.", "quantifier": "all d, N, boxes, measures, flags", "why_tests_cant": "All measures on all boxes.", "anchors": ["mfs/multi_dims/quadratures.py:moment_quadrature_nd"]}
{"id": "C141", "title": "The ND filters do not depend on the units and the origin of the state", "statement": "Measure each coordinate in other units, x_j -> a_j + b_j x_j with b_j > 0: moment_filter_nd_scms returns the same scaled moments, the transformed means and scales and the same nell; for a change of origin, moment_filter_nd_cms returns the same central moments, the moved means and the same nell.", "quantifier": "all a, b, models, moments (also those of no law), sequences with non-zero predictive likelihoods", "why_tests_cant": "A relation between two runs for all inputs.", "anchors": ["mfs/multi_dims/filtering.py:moment_filter_nd_scms", "mfs/multi_dims/filtering.py:moment_filter_nd_cms", "mfs/multi_dims/quadratures.py:moment_quadrature_nd"]}
{"id": "C142", "title": "The Kolmogorov method of the brute-force filter converges in the number of integration steps", "statement": "As integration_steps grows, the kolmogorov prediction over dt converges, with an error of order 1 / integration_steps, to the solution at time dt of the linear differential equation given by the operator of C93 on the grid, and all densities returned by brute_force_filter converge to those of the filter with this exact prediction.", "quantifier": "all drifts, dispersions, grids, likelihoods, initial densities, sequences with non-zero normalising constants", "why_tests_cant": "A limit.", "anchors": ["mfs/classical_filters_smoothers/brute_force.py:brute_force_filter"]}
{"id": "C143", "title": "The ND rule converges as the order grows", "statement": "For a probability law on a box that is not concentrated on the zeros of a polynomial, and an integrand that is a sum of products of continuous functions of single coordinates (finitely many, or with summable bounds), the results of moment_quadrature_nd converge to the integral as N grows, in the raw, central and scaled representation. On products of bounded functions of single coordinates the rule is bounded by the product of the bounds for all moments, although its weights can be negative.", "quantifier": "all d, laws, boxes, integrands of this form, orders, flags", "why_tests_cant": "A limit, for all laws and integrands.", "anchors": ["mfs/multi_dims/quadratures.py:moment_quadrature_nd"]}
{"id": "C144", "title": "The Gaussian filters and smoothers do not depend on the coordinates of the state", "statement": "Write the state in other coordinates z = T x + c, and the model accordingly: the filters and smoothers return the transformed means T m + c and covariances T P T^t and the same nell. For kf, ekf, cd_ekf (scalar measurements), rts, eks and cd_eks with T any invertible matrix; for sgp_filter, cd_sgp_filter, sgp_smoother and cd_sgp_smoother with any T that commutes with the Cholesky factor, e.g. lower triangular with positive diagonal, in particular a change of units.", "quantifier": "all T, c, models (linear or not), sigma-point rules, measurement sequences", "why_tests_cant": "A relation between two runs for all models; the tests use linear models, where e.g. the point of linearisation does not matter.", "anchors": ["mfs/classical_filters_smoothers/gfs.py:kf", "mfs/classical_filters_smoothers/gfs.py:ekf", "mfs/classical_filters_smoothers/gfs.py:cd_ekf", "mfs/classical_filters_smoothers/gfs.py:sgp_filter", "mfs/classical_filters_smoothers/gfs.py:cd_sgp_filter", "mfs/classical_filters_smoothers/gfs.py:rts", "mfs/classical_filters_smoothers/gfs.py:eks", "mfs/classical_filters_smoothers/gfs.py:cd_eks", "mfs/classical_filters_smoothers/gfs.py:sgp_smoother", "mfs/classical_filters_smoothers/gfs.py:cd_sgp_smoother"]}
{"id": "C145", "title": "On linear SDEs the continuous-discrete filters follow the exact transition to fourth order", "statement": "For dX = A X dt + B dW one RK4 prediction of cd_ekf agrees with the transition of discretise_lti_sde up to C dt^5 in every entry of mean and covariance; cd_ekf over n uninformative measurements spaced D / n ends with an error of at most C / n^4; the prediction of cd_sgp_filter from a positive definite covariance equals the one of cd_ekf for all small enough dt; cd_sgp_filter over n uninformative measurements also ends with an error of at most C / n^4 in the mean, and from a positive definite covariance in the covariance too.", "quantifier": "all A, B, initial beliefs, second-order sigma-point rules, horizons D, n", "why_tests_cant": "An order of convergence, for all linear models.", "anchors": ["mfs/classical_filters_smoothers/gfs.py:cd_ekf", "mfs/classical_filters_smoothers/gfs.py:cd_sgp_filter", "mfs/classical_filters_smoothers/quadratures.py:rk4_m_cov", "mfs/utils.py:discretise_lti_sde"]}
{"id": "C146", "title": "On linear SDEs the continuous-discrete smoothers are consistent with the RTS smoother, to first order only", "statement": "For dX = A X dt + B dW one backward step of cd_eks and of cd_sgp_smoother differs from the step of rts with the transition of discretise_lti_sde by o(dt) in every entry of mean and covariance. The order is not higher although a fourth-order method is used: for Brownian motion the difference of the means is -dt^2 / 2 to leading order, since the filtering law is held fixed over the interval.", "quantifier": "all A, B, second-order sigma-point rules, positive definite filtering covariances, smoothed beliefs", "why_tests_cant": "An order of convergence, for all linear models.", "anchors": ["mfs/classical_filters_smoothers/gfs.py:cd_eks", "mfs/classical_filters_smoothers/gfs.py:cd_sgp_smoother", "mfs/classical_filters_smoothers/gfs.py:rts", "mfs/classical_filters_smoothers/quadratures.py:rk4_m_cov_backward", "mfs/utils.py:discretise_lti_sde"]}
{"id": "C147", "title": "Stratified resampling is never worse than independent draws; systematic resampling can be", "statement": "The average of any function over the ancestors chosen by stratified has a mean square error of at most Var_w / n about its weighted mean, and for multinomial exactly Var_w / n. For systematic there is no such bound: for every even n there are weights and a 0/1 function with mean square error 1/16.", "quantifier": "all n, normalised weights, functions", "why_tests_cant": "An expectation over the random draws, for all weights and functions.", "anchors": ["mfs/classical_filters_smoothers/resampling.py:stratified", "mfs/classical_filters_smoothers/resampling.py:multinomial", "mfs/classical_filters_smoothers/resampling.py:systematic"]}
{"id": "C148", "title": "The bootstrap filter converges in mean square", "statement": "With idealised keys, particles moved independently, a bounded likelihood and stratified or multinomial resampling, exp(-nell) times the average of a bounded f over the last cloud has a mean square error of at most (2T+1) (G^T F)^2 / n about E[f(x_T) p(y | x)], and the average itself one of at most 4 (2T+1) (G^T F)^2 / (n p(y)^2) about the filtering mean; f = 1 covers the likelihood estimate exp(-nell).", "quantifier": "all numbers of particles, horizons, models with bounded positive likelihood, bounded measurable f, measurement sequences", "why_tests_cant": "An expectation over all random draws, for every number of particles.", "anchors": ["mfs/classical_filters_smoothers/smc.py:bootstrap_filter", "mfs/classical_filters_smoothers/resampling.py:stratified", "mfs/classical_filters_smoothers/resampling.py:multinomial"]}
{"id": "C149", "title": "The particle filter converges to the filtering mean, whatever the proposal", "statement": "For idealised keys, proposals with positive densities, bounded importance weights and unbiased resampling with at most the variance of independent draws, the average of a bounded function over every cloud returned by particle_filter estimates the filtering mean of the model (transition density, likelihood) with a mean square error of at most an explicit constant over the number of particles; the limit does not depend on the proposal.", "quantifier": "all state and measurement spaces, models, proposals, bounded functions, measurement sequences, steps, numbers of particles", "why_tests_cant": "A rate in the number of particles and independence of the proposal are statements about the law of all runs.", "anchors": ["mfs/classical_filters_smoothers/smc.py:particle_filter"]}
{"id": "C150", "title": "Systematic and stratified resampling of ordered particles", "statement": "Whatever the draws, the average over the particles picked by systematic or stratified differs from the weighted average by at most the variation of the values from each particle to the next, over the number of particles. Hence for particles in increasing order the distribution function changes by at most 1/n everywhere.", "quantifier": "all weights, values, draws, numbers of particles", "why_tests_cant": "A bound for all draws and all test functions.", "anchors": ["mfs/classical_filters_smoothers/resampling.py:systematic", "mfs/classical_filters_smoothers/resampling.py:stratified"]}
{"id": "C151", "title": "posterior_cramer_rao bounds the error of every estimator", "statement": "Let J be the limit of the matrices returned by posterior_cramer_rao as the number of independent sample trajectories grows (it exists almost surely), started from the information of the initial law. Then every estimator of the state computed from the measurements up to that time has, in every direction b, a mean square error of at least b^T J^-1 b.", "quantifier": "all dimensions, horizons, twice continuously differentiable log-densities with square integrable scores, measurement spaces, estimators, directions", "why_tests_cant": "Quantifies over all estimators and over the law of all trajectories.", "anchors": ["mfs/utils.py:posterior_cramer_rao"]}
{"id": "C152", "title": "The Chapman methods of the brute-force filter converge to the exact Bayes filter", "statement": "With pred_method 'chapman-euler' or 'chapman-tme-<order>', on every sufficiently fine grid (not necessarily uniform) of every sufficiently long interval, the densities returned by brute_force_filter are uniformly close, at all times and points of the grid, to the filtering densities of the chain that makes integration_steps normal transitions of duration dt / integration_steps between two measurements, and their trapezoidal integrals are close to the posterior expectations. In particular the means and characteristic functions that the Benes-Bernoulli post-processing computes converge, and with one integration step they agree in the limit with those of the moment filters.", "quantifier": "all continuous drifts and dispersions bounded away from zero, bounded continuous positive likelihoods, bounded continuous initial densities, measurement sequences, numbers of integration steps, test functions, grids", "why_tests_cant": "A limit over all grids and intervals, and the exact filter is an infinite-dimensional recursion.", "anchors": ["mfs/classical_filters_smoothers/brute_force.py:brute_force_filter", "mfs/one_dim/moments.py:characteristic_from_pdf", "dardel/benes_bernoulli/post_processing_brute_force.py"]}
{"id": "C153", "title": "On the Benes model the Taylor moment expansion is exact", "statement": "For benes_bernoulli, whose SDE dX = tanh(X) dt + dW has a known transition law, the raw, central and scaled conditional moments of sde_cond_moments_tme are exactly those of the SDE up to the order tme_order, for every step; tme.mean_and_cov gives the exact mean x + tanh(x) dt from order one and the exact variance dt + (1 - tanh(x)^2) dt^2 from order two. Consequently the assumptions about the package under which the experiment converges (C136, C152) hold for every order.", "quantifier": "all states, steps, orders, moments up to the order, centres and scales", "why_tests_cant": "The transition law of an SDE is not available to a test; agreement with a simulation is statistical and has a discretisation bias.", "anchors": ["mfs/one_dim/moments.py:sde_cond_moments_tme", "mfs/one_dim/ss_models.py:benes_bernoulli", "mfs/one_dim/moments.py:sde_cond_moments_tme_normal"]}
{"id": "C154", "title": "With an expansion of sufficient order the moment filters solve the continuous-time Benes filtering problem", "statement": "For benes_bernoulli with sde_cond_moments_tme of an order of at least 2 N - 1, the raw and central moment filters never break down and agree, for every N, every measurement sequence and every step; as N grows, their negative log-likelihoods, moments, means and expectations converge to those of the exact filter of the SDE itself, with no discretisation error left.", "quantifier": "all numbers of moments, measurement sequences, steps", "why_tests_cant": "The limit in N and the exact continuous-time filter are out of reach of tests.", "anchors": ["mfs/one_dim/filtering.py:moment_filter_rms", "mfs/one_dim/filtering.py:moment_filter_cms", "mfs/one_dim/moments.py:sde_cond_moments_tme", "mfs/one_dim/ss_models.py:benes_bernoulli"]}
{"id": "C155", "title": "The quadrature and the one-dimensional filters are continuous in their inputs", "statement": "At valid moment vectors (which form an open set) the value of moment_quadrature on any continuous function is continuous in the moments, the mean and the scale, whatever eigenvectors the routine picks; with sort_nodes each node and each weight is continuous by itself. For conditional laws that are positive on squares with continuous moments (such as Euler-Maruyama with continuous drift and non-vanishing dispersion) and a positive jointly continuous measurement density, the negative log-likelihood and all filtering moments, means and scales of the three filters are jointly continuous in the initial moments, mean and scale and in the measurements.", "quantifier": "all valid moment vectors, continuous integrands, models, measurement sequences, backends", "why_tests_cant": "Continuity at every point; small perturbations on examples cannot show the absence of jumps, and eigenvectors do jump.", "anchors": ["mfs/one_dim/quadtures.py:moment_quadrature", "mfs/one_dim/filtering.py:moment_filter_rms", "mfs/one_dim/filtering.py:moment_filter_cms", "mfs/one_dim/filtering.py:moment_filter_scms"]}
{"id": "C156", "title": "Order of consistency of the Kolmogorov operator", "statement": "On an evenly spaced grid, at points at least two steps away from both ends, the operator of the method 'kolmogorov' differs from the Kolmogorov forward operator -(a p)' + (b^2 p)''/2 of a four times differentiable density by at most (|(b^2)' - a| M3 + b^2 M4) / 6 times the square of the grid step. At the two outermost points of each end it does not converge: the limit misses a quarter (end points) or an eighth (their neighbours) of b^2 p''.", "quantifier": "all drifts, dispersions, densities with the stated smoothness, grids, steps, points", "why_tests_cant": "A limit in the grid step for all densities; the wrong constants at the ends are hidden by densities that vanish there.", "anchors": ["mfs/classical_filters_smoothers/brute_force.py:brute_force_filter"]}
{"id": "C157", "title": "Error bound of the quadrature rule", "statement": "Given the first 2n (scaled, centred) moments of a probability law carried by an interval I (bounded or the whole line, at least n points of support), the nodes of moment_quadrature lie in I and for every integrand with 2n continuous derivatives the rule differs from the expectation by at most sup_I |f^(2n)| / (2n)! times the second moment of any monic polynomial of degree n. On [a, b] this is M ((b-a)/2)^(2n) / (2n)!. characteristic_fn(z) differs from the characteristic function of the law by at most |z|^(2n)/(2n)! times that second moment, for a normal law by at most (z^2 v/2)^n / n!. The constant is attained by the square of a polynomial.", "quantifier": "all laws with 2n moments, numbers of moments, centres, scales, smooth integrands, frequencies, flags", "why_tests_cant": "Tests compare a few integrands with closed forms up to a tolerance; the bound is over all laws and integrands.", "anchors": ["mfs/one_dim/quadtures.py:moment_quadrature", "mfs/one_dim/moments.py:characteristic_fn"]}
{"id": "C158", "title": "Error bound of one filtering step", "statement": "With exact initial moments and a transition that maps polynomials to polynomials without raising the degree, the negative log-likelihood returned by the three one-dimensional filters after one measurement differs from the exact one by at most d0/(Z-d0), and the filtered mean (raw filter: every returned moment of order k) from the exact posterior moment E_k by at most (d_k + |E_k| d0)/(Z-d0), where Z is the exact predictive likelihood of the measurement, d_k = M_k/(2n)! times the second moment of any monic polynomial of degree n under the predictive law, and M_k bounds the derivative of order 2n of x^k p(y|x).", "quantifier": "all initial laws, polynomial transitions, smooth measurement densities, measurements, numbers of moments, modes", "why_tests_cant": "A quantitative statement about distance to the exact posterior, which no test can compute for general models.", "anchors": ["mfs/one_dim/filtering.py:moment_filter_rms", "mfs/one_dim/filtering.py:moment_filter_cms", "mfs/one_dim/filtering.py:moment_filter_scms"]}
{"id": "C159", "title": "Every draw of the bootstrap filter uses a key of its own", "statement": "bootstrap_filter with a GaussianSum1D or GaussianSumND sampler, a normal transition sampler of the form used by the scripts and any of the three index resampling schemes never draws twice from one key. The output depends on the generator only through the draws at 2 + 2T listed keys. FALSE with two measurements for every generator: the sampler draws its normals from split(key)[0], and the first transition uses split(key, T)[0]. FALSE for every T >= 1 when split(key, n)[i] does not depend on n. Every particle of the first filtered cloud is then a deterministic function of an initial particle and its mixture component. TRUE for T != 2 when different derivations give different keys.", "quantifier": "all generators, keys, mixtures, transition means and variances, likelihoods, measurements, numbers of particles, resampling schemes", "why_tests_cant": "Reused randomness gives plausible output; a test sees numbers of the right size.", "anchors": ["mfs/classical_filters_smoothers/smc.py:bootstrap_filter", "mfs/utils.py:GaussianSum1D.sampler", "mfs/classical_filters_smoothers/resampling.py:systematic", "mfs/classical_filters_smoothers/resampling.py:stratified", "mfs/classical_filters_smoothers/resampling.py:multinomial", "mfs/utils.py:GaussianSumND.sampler"]}
{"id": "C160", "title": "The first predictive cloud has the law of the model", "statement": "On x0 ~ N(m0, s0^2), x1 = a x0 + sigma w, each particle propagated by the first step of bootstrap_filter is N(a m0, a^2 s0^2 + sigma^2). FALSE when the key of the first transition is that of the initial normals (C159): it is then N(a m0, (a s0 + sigma)^2), a different law unless a s0 sigma = 0. TRUE when the two draws are independent.", "quantifier": "all linear scalar models, generators, keys, numbers of particles and of measurements", "why_tests_cant": "A statement about a law; a sample test needs the exact reference and would have to look at the first step only.", "anchors": ["mfs/classical_filters_smoothers/smc.py:bootstrap_filter", "mfs/utils.py:GaussianSum1D.sampler"]}
{"id": "C161", "title": "Simulated data and particle filter of the scripts do not share randomness", "statement": "In dardel/prey_predator/pf.py and dardel/benes_bernoulli/pf.py the filter draws from no key the simulation drew from. TRUE for both when different derivations give different keys. FALSE for prey_predator when keys and draws do not depend on how many are asked for: the first initial particle is the true initial state. The Benes script is safe in that case too. simulate of prey_predator depends on the generator only through the draws at four pairwise different keys.", "quantifier": "all generators, keys, model parameters, mixtures, numbers of steps and particles", "why_tests_cant": "The leak is one particle among many, invisible in an error average.", "anchors": ["dardel/prey_predator/pf.py", "dardel/benes_bernoulli/pf.py", "mfs/multi_dims/ss_models.py:prey_predator"]}
{"id": "C162", "title": "Simulated populations of the prey-predator model", "statement": "simulate of prey_predator returns T states and T measurements; each state comes from the previous one by integration_steps Milstein steps of length dt/integration_steps, and every normal draw is used exactly once; each integration step has the mean of the Euler scheme and its covariance plus sigma^4 ddt^2 x_i^2 / 2 on the diagonal; a set preserved by the integrator contains the whole trajectory, so an extinct species stays extinct. Simulated populations stay positive: FALSE, there are draws for which simulate, with the model as it is, returns a negative prey; a step from a positive population is positive for every noise exactly when 1/2 + (growth - sigma^2/2) ddt > 0, and the whole trajectory is positive for small steps when beta = 0.", "quantifier": "all parameters, step sizes, states, generators, keys, numbers of steps", "why_tests_cant": "The violating noise is too rare for a test to draw; the moments are statements about a law.", "anchors": ["mfs/multi_dims/ss_models.py:prey_predator"]}
{"id": "C163", "title": "Samples from a Gaussian sum are independent draws from the mixture", "statement": "If the uniforms drawn with the key given to GaussianSum1D.sampler or GaussianSumND.sampler are independent and uniform on [0, 1), and the normals drawn with the first key of its split are independent standard normals independent of the uniforms, then the n returned particles are independent and each has the law of the mixture.", "quantifier": "all numbers of particles, components with nonnegative weights summing to one, nonnegative variances (positive definite covariances), keys, generators", "why_tests_cant": "Independence and equality in law are statements about all events, which finitely many draws cannot establish.", "anchors": ["mfs/utils.py:GaussianSum1D.sampler", "mfs/utils.py:GaussianSumND.sampler"]}
{"id": "C164", "title": "The divergence counts and averages of the plots", "statement": "rm_divergent keeps exactly the runs without NaN and counts the others; each curve is the average over the kept runs; find_valid splits the runs into counted and kept, the kept being the successful ones below the bound. The printed number of divergences of a filter is the number of runs in which the true filter is fine and the filter has a NaN: FALSE when a simulated trajectory has a NaN but the true filter has none (the printed number may be negative), true otherwise. A lower curve means a better filter on the runs where both work: FALSE, as each filter is averaged over its own runs; true when they fail in the same runs. find_valid drops runs without a usable estimate: FALSE for NaN estimates flagged as success.", "quantifier": "all numbers of runs and times, all arrays with and without NaN, all bounds", "why_tests_cant": "A plot shows one data set; whether the bookkeeping is right depends on the pattern of failures.", "anchors": ["reproduce_paper_plots/plot_benes_bernoulli_errs_and_times.py:rm_divergent", "reproduce_paper_plots/plot_benes_bernoulli_errs_and_times.py:unpack", "reproduce_paper_plots/plot_parameter_estimation.py:find_valid"]}
{"id": "C165", "title": "The multidimensional rule is continuous in the moments", "statement": "At every moment vector with a positive definite Gram matrix, the value of moment_quadrature_nd on a continuous function is jointly continuous in the moments, the mean and the scale; such moment vectors form an open set. No assumption on how eigh picks eigenvectors or their signs, on repeated eigenvalues or on the signs of the weights.", "quantifier": "all orders and dimensions, all valid backends, all continuous functions, all moment vectors, means and scales", "why_tests_cant": "eigh may return quite different eigenvectors for two nearly equal matrices, so nodes and weights may jump between two runs; a test cannot exclude that the value jumps at an unseen point.", "anchors": ["mfs/multi_dims/quadratures.py:moment_quadrature_nd"]}
{"id": "C166", "title": "The multidimensional filters are continuous in initial moments and measurements", "statement": "For conditional moments continuous in the state and a jointly continuous measurement density, the inputs for which all Gram matrices along the run are positive definite and all predictive likelihoods positive (for scaled moments: and all scales positive) form an open set, on which the negative log-likelihood and every filtering moment, mean and scale are continuous in the initial moments, the mean, the scale and the measurements.", "quantifier": "all orders, dimensions and numbers of measurements, all continuous models, all valid backends, both Cholesky options, raw, central and scaled moments", "why_tests_cant": "A gradient-based fit needs the objective to be continuous; a test sees finitely many inputs.", "anchors": ["mfs/multi_dims/filtering.py:moment_filter_nd_rms", "mfs/multi_dims/filtering.py:moment_filter_nd_cms", "mfs/multi_dims/filtering.py:moment_filter_nd_scms"]}
{"id": "C167", "title": "The one-dimensional rule is differentiable in the moments", "statement": "At every valid moment vector (positive definite Hankel matrix), the value of moment_quadrature on a C^r function is C^r in the moments, the mean and the scale jointly, for every r up to infinitely often and analytic; with sort_nodes every single node and weight is an analytic function of them. Its derivative along a curve of moments is the derivative of the normalised moments applied to the coefficients of the polynomial that agrees with the function and its derivative at the nodes.", "quantifier": "all orders r and n, all valid backends, both Cholesky options, sorted or not, all functions, moment vectors, means and scales", "why_tests_cant": "Automatic differentiation goes through Cholesky factors and eigenvectors, whose choice is not unique; tests compare gradients at a few points only and cannot exclude points where the derivative does not exist.", "anchors": ["mfs/one_dim/quadtures.py:moment_quadrature"]}
{"id": "C168", "title": "The negative log-likelihood of the one-dimensional filters is differentiable in the model parameters", "statement": "If the initial moments (mean, scale), the conditional moments and the measurement density at the given measurements are C^r in a parameter (and the state), then at every parameter for which the run is valid, i.e. Gram matrices are positive definite and likelihoods and scales positive, the negative log-likelihood and all filtering moments, means and scales are C^r in the parameter. Runs are valid for positive densities and conditional laws positive on squares, in particular for Euler-Maruyama moments with a dispersion that does not vanish.", "quantifier": "all parameter spaces, all r up to analytic, all orders and numbers of measurements, raw, central and scaled moments, all valid backends", "why_tests_cant": "Parameters are fitted with gradients of this function; a test can compare the gradient with differences at a few parameters but not show that it exists everywhere.", "anchors": ["mfs/one_dim/filtering.py:moment_filter_rms", "mfs/one_dim/filtering.py:moment_filter_cms", "mfs/one_dim/filtering.py:moment_filter_scms", "mfs/one_dim/moments.py:sde_cond_moments_euler"]}
{"id": "C169", "title": "The multidimensional rule is differentiable in the moments", "statement": "At every moment vector with a positive definite Gram matrix, the value of moment_quadrature_nd on a C^r function is C^r in the moments, the mean and the scale jointly, for every finite r and for r infinite. This holds although the eigenvalues of the multiplication matrices may be repeated, where nodes and eigenvectors themselves are not differentiable, and whatever eigenvectors the backend returns there.", "quantifier": "all r, dimensions and orders, all valid backends, both Cholesky options, sorted or not, all functions, moment vectors, means and scales", "why_tests_cant": "The textbook derivative of an eigen-decomposition divides by differences of eigenvalues; tests at generic points cannot tell whether the rule itself has a derivative where eigenvalues coincide.", "anchors": ["mfs/multi_dims/quadratures.py:moment_quadrature_nd"]}
{"id": "C170", "title": "The negative log-likelihood of the multidimensional filters is differentiable in the model parameters", "statement": "If the initial moments (means, scales), the conditional moments and the measurement density at the given measurements are C^r in a parameter (and the state), then at every parameter for which the run is valid, i.e. Gram matrices are positive definite and likelihoods and scales positive, the negative log-likelihood and all filtering moments, means and scales of the multidimensional filters are C^r in the parameter.", "quantifier": "all parameter spaces, all r finite or infinite, all dimensions, orders and numbers of measurements, raw, central and scaled moments, all valid backends", "why_tests_cant": "Parameters are fitted with gradients of this function; a test can compare the gradient with differences at a few parameters but not show that it exists at all of them.", "anchors": ["mfs/multi_dims/filtering.py:moment_filter_nd_rms", "mfs/multi_dims/filtering.py:moment_filter_nd_cms", "mfs/multi_dims/filtering.py:moment_filter_nd_scms"]}
{"id": "C171", "title": "Forward-mode differentiation of the one-dimensional rule gives its derivative", "statement": "Differentiating moment_quadrature with jax.jvp line by line, with JAX's rules for cholesky, triangular_solve and eigh, gives finite tangents of weights and nodes at every valid moment vector; for every C^1 integrand they sum up to the derivative of the value of the rule along the curve of moments, means and scales, whatever eigenvectors eigh returned, and with sort_nodes they are the derivatives of the single weights and nodes.", "quantifier": "all orders, all valid backends, all C^1 curves of valid moments, means and scales, all C^1 integrands; ldl=False", "why_tests_cant": "The rule for eigh divides by differences of eigenvalues and its result depends on the eigenvectors chosen; a test checks the gradient at finitely many moment vectors with one backend.", "anchors": ["mfs/one_dim/quadtures.py:moment_quadrature"]}
{"id": "C172", "title": "Gradients of the one-dimensional filters used for parameter estimation are right", "statement": "Forward mode through moment_filter_rms, moment_filter_cms and moment_filter_scms returns, on every valid run, finite tangents which are the derivatives of the negative log-likelihood and of all filtering moments, means and scales. For the objective of dardel/parameter_estimation/mf.py with --euler, the run is valid at all parameters: the objective is analytic on the whole plane for every order N >= 2 and all measurements, and jax.jvp returns its directional derivative at every parameter in every direction.", "quantifier": "all C^1 models, orders, numbers of measurements and valid backends; for the script all orders N >= 2, all count sequences, all parameters and directions; stable=False", "why_tests_cant": "L-BFGS-B follows these gradients through a thousand filter steps to parameters that no test visits; a gradient that is wrong or NaN somewhere shows only as a bad fit.", "anchors": ["mfs/one_dim/filtering.py:moment_filter_rms", "mfs/one_dim/filtering.py:moment_filter_cms", "mfs/one_dim/filtering.py:moment_filter_scms", "dardel/parameter_estimation/mf.py:obj_func"]}
{"id": "C173", "title": "Forward-mode differentiation of the multidimensional rule gives its derivative", "statement": "Differentiating moment_quadrature_nd with jax.jvp line by line, with JAX's rules for cholesky, triangular_solve and eigh, gives finite tangents of weights and nodes at every valid moment vector, and for every C^1 integrand they sum up to the derivative of the value of the rule.", "quantifier": "all dimensions, orders, valid backends, C^1 curves of valid moments, means and scales, and C^1 integrands; ldl=False", "why_tests_cant": "The rule for eigh divides by differences of eigenvalues. Whether two of them coincide depends on the law, on the order and on the dimension; a test at a generic moment vector sees no coincidence.", "anchors": ["mfs/multi_dims/quadratures.py:moment_quadrature_nd"]}
{"id": "C174", "title": "The filters do not depend on the functions that supply centre and scale of the prediction", "statement": "If the conditional central (scaled) moments handed to the central (scaled) moment filter are those of a transition law about whatever centre (and scale) they are asked for, then replacing the conditional mean function (and the positive conditional variances) by any other leaves all filtering moments, means, scales and the negative log-likelihood unchanged, as long as the predicted laws are not degenerate.", "quantifier": "all transition laws, centre and scale functions, densities, orders, dimensions, numbers of measurements and valid backends", "why_tests_cant": "A wrong mean function handed to a filter changes every intermediate array but no result; tests compare with one mean function only.", "anchors": ["mfs/one_dim/filtering.py:moment_filter_cms", "mfs/one_dim/filtering.py:moment_filter_scms", "mfs/multi_dims/filtering.py:moment_filter_nd_cms", "mfs/multi_dims/filtering.py:moment_filter_nd_scms"]}
{"id": "C175", "title": "With continuous resampling the likelihood of the bootstrap filter is a continuous function of the parameters", "statement": "For a fixed key, the particles and the negative log-likelihood of bootstrap_filter with conti_resampling=True are continuous in the parameters of the transition sampler and of the density, for every sampler and positive density that are continuous. In particular the objective of the particle-filter parameter estimation with --euler --cr is continuous for every generator, key and data. Without --cr it can jump; with --cr it can have kinks, so gradients need not exist; and continuous_resampling with weights held fixed is not continuous in the samples.", "quantifier": "all numbers of particles, measurements, keys, generators, samplers, positive continuous densities; with a positive tolerance of jnp.interp, all parameters at which every normalised weight exceeds it", "why_tests_cant": "Continuity at all parameters and through all exchanges in the order of the particles; a test compares finitely many values.", "anchors": ["mfs/classical_filters_smoothers/smc.py:bootstrap_filter", "mfs/classical_filters_smoothers/resampling.py:continuous_resampling", "dardel/parameter_estimation/pf.py:obj_func"]}
{"id": "C176", "title": "Filters with Taylor-moment-expansion moments are smooth in parameters, and so is the default estimation objective", "statement": "If drift and dispersion are C-infinity (or analytic) in parameter and state, then all conditional moments from sde_cond_moments_tme and sde_cond_moments_tme_normal are so in parameter, state, centre and scale, and the negative log-likelihoods of the three filters with sde_cond_moments_tme are so wherever the run is valid. With sde_cond_moments_tme_normal, positivity of the conditional variances met along the run suffices: the likelihood of the central filter is then a number and smooth near the parameter. The objective of the parameter estimation without --euler is finite and analytic near such parameters, and forward mode through it gives its directional derivatives.", "quantifier": "all drifts, dispersions, steps, expansion orders, moment orders, measurements; all parameters where the run is valid (variances positive)", "why_tests_cant": "Smoothness is a statement about limits at every parameter; tests compare finite differences at some.", "anchors": ["mfs/one_dim/moments.py:sde_cond_moments_tme", "mfs/one_dim/moments.py:sde_cond_moments_tme_normal", "mfs/one_dim/filtering.py:moment_filter_cms", "dardel/parameter_estimation/mf.py:obj_func"]}
{"id": "C177", "title": "Exactly when negative variances of the Taylor moment expansion turn the estimation objective into NaN", "statement": "raw_moment_of_normal is NaN exactly for a negative variance and an order of at least one. For the double-well model and expansion order two the conditional variance is dt + dt^2 (1 - 3 p x^2). The estimation objective without --euler is a number exactly when no conditional variance met along the run is negative. For every order and every non-empty sequence of measurements it is NaN for all large enough first parameters, and for every second parameter it is finite for all small enough first parameters.", "quantifier": "all means, variances and orders; all N >= 2, all sequences of measurements, all parameters", "why_tests_cant": "The set of parameters with NaN is unbounded and depends on the nodes of all rules along the run; tests try finitely many parameters.", "anchors": ["mfs/one_dim/moments.py:raw_moment_of_normal", "mfs/one_dim/moments.py:sde_cond_moments_tme_normal", "dardel/parameter_estimation/mf.py:obj_func"]}
{"id": "C178", "title": "The particle filters converge in probability for every integrable function", "statement": "For every measurable function that is integrable under the filtering law (bounded or not), its average over the particles returned by bootstrap_filter or by particle_filter with any proposal of bounded weights is within 3 eps of its expectation under the filtering law at that step, except with a probability bounded explicitly; the bound can be made as small as one likes by taking many particles. In particular means and variances of the particles converge.", "quantifier": "all models with bounded positive likelihoods (weights), all proposals, stratified and multinomial resampling, all measurements, all steps, all integrable functions, all eps", "why_tests_cant": "Convergence in probability is a statement about all numbers of particles and the law of the random numbers.", "anchors": ["mfs/classical_filters_smoothers/smc.py:bootstrap_filter", "mfs/classical_filters_smoothers/smc.py:particle_filter"]}
{"id": "C179", "title": "The errors that convergence_pf.py reports tend to zero in probability, and it never uses a random key twice", "statement": "With a generator whose draws are independent of each other and of the keys split off, the errors of mean and variance and the Kullback-Leibler error between the particle filter and the Kalman filter of the script tend to zero in probability at every time as the number of particles grows: for any fixed measurements, and for the whole script started from one random key. The keys at which the script draws are pairwise different for any number of measurements, whether or not the children of a key depend on how many are asked for, and the script reads the generator at no other key. Such a generator exists.", "quantifier": "all lengths, lengthscales, magnitudes, steps and noise variances, all numbers of measurements, all times, all eps", "why_tests_cant": "The claim concerns the limit of infinitely many particles and all keys; the experiment runs finitely many.", "anchors": ["dardel/convergence/convergence_pf.py:pf", "dardel/convergence/convergence_pf.py:init_sampler", "dardel/convergence/convergence_pf.py:proposal_sampler", "mfs/classical_filters_smoothers/smc.py:particle_filter"]}
{"id": "C180", "title": "The particle filter of convergence_pf.py collapses with positive probability, so an average over Monte Carlo runs of the Kullback-Leibler errors it saves is infinite for enough runs", "statement": "For any number of particles, any measurements and any time, the variance of the particles returned by the script's particle filter is exactly zero with positive probability, and the Kullback-Leibler error of the script at that time is infinite exactly when it is zero. Hence the script started from a random key saves an infinite error with some probability p > 0, and the sum over independent Monte Carlo runs is finite with probability at most (1 - p)^runs, which tends to zero: more runs do not give a better average.", "quantifier": "all numbers of particles and measurements, all times, all positive parameters, all numbers of runs", "why_tests_cant": "The event is rare for many particles, so a test never sees it; that its probability is positive is a statement about the law of all keys.", "anchors": ["dardel/convergence/convergence_pf.py:pf", "dardel/convergence/convergence_pf_post_processing.py", "mfs/classical_filters_smoothers/smc.py:particle_filter", "mfs/classical_filters_smoothers/resampling.py:_systematic_or_stratified"]}
{"id": "C181", "title": "The particle-filter curves of the convergence plot tend to zero in mean as the number of particles grows", "statement": "The expected errors of mean and variance between the particle filter and the Kalman filter of convergence_pf.py are finite and tend to zero at every time as the number of particles grows: for any fixed measurements, for the script started from one random key, and for the averages over any number of Monte Carlo runs that plot_convergence.py draws as dotted lines. The second moments of the errors are bounded uniformly in the number of particles.", "quantifier": "all positive parameters, all numbers of measurements and runs, all times", "why_tests_cant": "Convergence in mean needs a bound on rare large errors for every number of particles; a simulation sees finitely many of them.", "anchors": ["dardel/convergence/convergence_pf.py:pf", "reproduce_paper_plots/plot_convergence.py", "dardel/convergence/convergence_pf_post_processing.py", "dardel/generate_rng_key.py"]}
{"id": "C182", "title": "Started with the library's own initial sampler, the bootstrap filter converges to the filtering laws of a model with a larger initial variance", "statement": "bootstrap_filter hands the same key to the initial sampler and to the split for the measurements, and GaussianSum1D's sampler splits it again. When the first key of the two splits is the same (always with two measurements, and for every number of measurements when the children of a key do not depend on how many are asked for), on the model x' = a x + sigma w with initial law N(m0, s0^2), the particle averages of every integrable function tend in probability at every time to the filtering mean of the model with initial variance s0^2 + 2 s0 sigma / a. The variance of the particles tends to a number larger than the filtering variance at every time, so it is wrong by a fixed amount with probability tending to one; the mean of the first cloud tends to the Kalman mean only if the measurement is the predicted one.", "quantifier": "all ideal generators, all positive a, s0, sigma, R, all m0, all measurements, all times, all integrable functions", "why_tests_cant": "The claim concerns the limit of infinitely many particles and the law of all random numbers; a test sees a noisy average and cannot tell a biased limit from a slow one.", "anchors": ["mfs/classical_filters_smoothers/smc.py:bootstrap_filter", "mfs/utils.py:GaussianSum1D", "mfs/classical_filters_smoothers/resampling.py:stratified"]}
{"id": "C183", "title": "The bootstrap filter with continuous resampling converges too", "statement": "continuous_resampling changes the average of a function of bounded variation by at most 2 A (1/n + max weight / 2), for all samples, weights and draws. Along the whole run of bootstrap_filter with this resampling, the mean square error of the likelihood estimate and of the final particle averages is at most C / n with C independent of the number of particles n and of the interpolation tolerance. For the linear Gaussian model the limit is the law and the likelihood of the Kalman filter, including the empirical distribution function at every point. For the Euler-discretised double well with Poisson measurements of the parameter-estimation script the objective converges in probability to the exact negative log-likelihood, for all parameters.", "quantifier": "all sample vectors, weights, uniform draws, all numbers of particles, all measurement sequences, all functions of bounded variation, all parameters, all ideal generators", "why_tests_cant": "The resampled particles are new points, interpolated and not conditionally independent, and the bias of every step enters the next one: only an argument over all clouds shows that the errors do not add up to more than C/n.", "anchors": ["mfs/classical_filters_smoothers/resampling.py:continuous_resampling", "mfs/classical_filters_smoothers/smc.py:bootstrap_filter", "dardel/parameter_estimation/pf.py"]}
{"id": "C184", "title": "saddle_point returns a probability density", "statement": "The function returned by saddle_point is a finite, integrable density approximating the one with the given moments. This is false. For every even number of non-negative scaled moments of a symmetric standardised law (1, 0, 1, 0, ...) it equals 1 / (sqrt(2 pi) scale) at every point left of the mean, so it is not integrable. With four normal moments, right of mean + scale^3 / 2 it is a multiple of exp(mean - x) if scale^2 < 2, and NaN if scale^2 > 2. At the mean it has the value of the normal density.", "quantifier": "all moment lists of the stated kind, all means, all positive scales, all points", "why_tests_cant": "Integrability concerns infinitely many points; a test on a short grid around the mean sees plausible values.", "anchors": ["mfs/one_dim/pdf_approximations.py:saddle_point"]}
{"id": "C185", "title": "legendre_poly_expansion is the best polynomial approximation and converges", "statement": "For a square-integrable density f on [a, b], let rms be the first n moments of the standardised variable (2x - a - b) / (b - a). Among all polynomials of degree below n, legendre_poly_expansion(rms, a, b) has the least integrated squared error. As n grows the integrated squared error tends to zero, and so do the errors in the integrals of all square-integrable functions, probabilities of intervals among them. The expansion can be negative: with two moments it is non-negative on [-1, 1] exactly if the mean is at most 1/3 in absolute value.", "quantifier": "all intervals, all square-integrable functions on them, all numbers of moments, all competing polynomials", "why_tests_cant": "Optimality is over all polynomials and convergence is a limit; tests compare a few orders for one density.", "anchors": ["mfs/one_dim/pdf_approximations.py:legendre_poly_expansion"]}
{"id": "C186", "title": "gram_charlier is the best polynomial correction of the normal density and converges", "statement": "Let f be a density with mean m and variance v > 0 such that f^2 / phi is integrable, phi the normal density with the same mean and variance. The function gram_charlier(sms_to_cumulants(...)) of its first s >= 3 scaled central moments minimises the integral of (f - phi p)^2 / phi over all polynomials p of degree below s. As s grows this integral tends to zero, and so does the integral of |f - gram_charlier|. The condition holds for every Gaussian mixture whose component variances are below twice the mixture variance, for example all mixtures with a common component variance. With three cumulants, the third not zero, the function takes negative values.", "quantifier": "all densities of the stated kind, all non-zero scales, all numbers of moments, all competing polynomials", "why_tests_cant": "Optimality is over all polynomials and convergence is a limit; tests compare a few orders for one density.", "anchors": ["mfs/one_dim/pdf_approximations.py:gram_charlier", "mfs/one_dim/moments.py:sms_to_cumulants"]}
{"id": "C187", "title": "inverse_fourier recovers the density", "statement": "Let f be a continuous integrable density whose characteristic function is integrable. On every bounded set of points, inverse_fourier is as close to f as desired if the frequency range [-Z, Z] is long enough, the (possibly non-uniform) grid on it fine enough and the supplied values accurate enough. Hence the densities computed through characteristic_fn from the first N exact moments of a law with all exponential moments converge to its density, first N, then the grid, then the range. The order matters: for any fixed list of moments there is a point at which the result tends to infinity as the range grows.", "quantifier": "all densities of the stated kind, all grids, all bounded sets of points; all lists of moments", "why_tests_cant": "Limits in three parameters and non-uniform grids; a test uses one grid and one law.", "anchors": ["mfs/one_dim/pdf_approximations.py:inverse_fourier", "mfs/one_dim/moments.py:characteristic_fn", "reproduce_paper_plots/plot_benes_bernoulli_estimation.py:127-161"]}
{"id": "C188", "title": "characteristic_from_pdf: convergence, round trip and aliasing", "statement": "For a continuous integrable density, characteristic_from_pdf converges to the characteristic function, uniformly over every bounded set of frequencies, as the spatial range grows, the (possibly non-uniform) grid on it is refined and the supplied values become exact. Feeding its values to inverse_fourier recovers the density on every bounded set if the characteristic function is integrable. The convergence is not uniform over all frequencies: on an equally spaced grid of step h the result is periodic up to a phase, with period 2 pi / h, so that at frequencies beyond any bound the error is almost the whole mass of the supplied values.", "quantifier": "all densities of the stated kind, all grids, all frequencies", "why_tests_cant": "Limits in several parameters; the failure occurs at frequencies no test looks at.", "anchors": ["mfs/one_dim/moments.py:characteristic_from_pdf", "mfs/one_dim/pdf_approximations.py:inverse_fourier", "reproduce_paper_plots/plot_benes_bernoulli_estimation.py:178"]}
{"id": "C189", "title": "The plotted densities of the moment filter converge to those of the exact filter", "statement": "In the Benes-Bernoulli experiment the curves labelled Moment filter PDF, that is inverse_fourier of characteristic_fn of the filter outputs, converge uniformly on bounded sets to the density of the exact filtering law, at every time and for all measurements, in the modes raw and central, as first the number of moments grows, then the frequency grid is refined, then the frequency range grows. With sde_cond_moments_tme_normal the limit is the filter of the chain with the normal transitions of the expansion; with sde_cond_moments_tme at order at least 2 N - 1 it is the filter of the stochastic differential equation itself.", "quantifier": "all measurement sequences, all times, all expansion orders, all grids, both modes", "why_tests_cant": "Limits in three parameters; needs that the exact filtering law has a continuous density with an integrable characteristic function.", "anchors": ["reproduce_paper_plots/plot_benes_bernoulli_estimation.py:127-161", "mfs/one_dim/pdf_approximations.py:inverse_fourier", "mfs/one_dim/moments.py:characteristic_fn", "mfs/one_dim/filtering.py:moment_filter_cms"]}
{"id": "C190", "title": "On the Benes-Bernoulli model the extended Kalman filters ignore the data, the Gauss-Hermite and the moment filters do not", "statement": "The script says that the extended Kalman filter will fail for this model by definition. Precisely: ekf and cd_ekf, started at the initial mean 0 of the model, return mean 0 at every time and the same variances and likelihoods for all measurement sequences of the same length; with the transition of the script the variance is (1+dt)^(2k) (v0 + (1+dt)/(2+dt)) - (1+dt)/(2+dt) and the negative log-likelihood k (1 + log(pi/2)) / 2 after k steps. The Gauss-Hermite filter of the script and the moment filters do respond: the first mean is some c > 0 after a measurement True and -c after False, and exchanging True and False in all measurements changes the sign of all means and leaves variances and likelihoods as they are.", "quantifier": "all measurement sequences, initial variances, steps dt > 0, expansion orders >= 2, orders of Gauss-Hermite quadrature >= 2, N >= 2", "why_tests_cant": "Independence of all data and symmetry over all sequences; a run on one data set shows a flat line but not why.", "anchors": ["dardel/benes_bernoulli/ghf.py:28-50", "dardel/time_profile/ghf.py:30-47", "mfs/classical_filters_smoothers/gfs.py:ekf", "mfs/classical_filters_smoothers/gfs.py:sgp_filter", "mfs/one_dim/ss_models.py:benes_bernoulli", "mfs/one_dim/filtering.py:moment_filter_rms"]}
{"id": "C191", "title": "moment_quadrature of a law is its Gauss rule; the three rules of the figure are Gauss, Legendre and Laguerre rules and converge", "statement": "If the moments passed to moment_quadrature are those of a law not concentrated on finitely many points, the weights are positive with sum one, the nodes distinct and strictly inside every half-line carrying the law, the rule is exact below degree 2n, and the nodes are exactly the zeros of the orthogonal polynomial of degree n. If the law has some exponential moment, the rule converges for every continuous integrand of polynomial growth. The script plot_quadrature_rules.py computes by its formulas the true moments of the Gaussian mixture, of U(a, b) and of the gamma law; the nodes drawn for U(a, b) are the zeros of the Legendre polynomial carried to [a, b] and lie in (a, b); those for the gamma law are theta times the zeros of the generalised Laguerre polynomial and are positive; all three rules converge as N grows.", "quantifier": "all laws with all moments and infinite support, all orders, means, scales, both factorisations; all a < b, k > 0, theta > 0, mixtures with positive variances; N >= 1", "why_tests_cant": "The nodes for N = 11 are irrational numbers and the statement is about every N and its limit.", "anchors": ["reproduce_paper_plots/plot_quadrature_rules.py:20-62", "mfs/one_dim/quadtures.py:moment_quadrature", "mfs/one_dim/moments.py:raw_to_central"]}
{"id": "C192", "title": "The multidimensional rule converges for laws on the whole space, Gaussian sums among them", "statement": "If the moments passed to moment_quadrature_nd are those of a law on R^d with some exponential moment which is not concentrated on the zeros of a polynomial, then, as N grows, the rule converges to the integral for every integrand that is a finite sum of products of continuous functions of the coordinates (arbitrary ones of polynomial growth in two dimensions; in any dimension one or two adjacent ones of polynomial growth, bounded ones between them, polynomials elsewhere) plus a series of products of bounded continuous functions with summable bounds. This holds for the raw, central and scaled central moments, about any mean and with any positive scale. In particular the characteristic function of the rule converges pointwise to that of the law. The moments that GaussianSumND computes, with positive definite covariances, meet the hypotheses.", "quantifier": "all dimensions, all such laws, integrands, means, scales, both factorisations and both orderings of the eigenvalues; all N >= 2 and the limit", "why_tests_cant": "A limit over all orders for a rule whose nodes and weights have no closed form and whose weights may be negative.", "anchors": ["mfs/multi_dims/quadratures.py:moment_quadrature_nd", "mfs/utils.py:GaussianSumND"]}
{"id": "C193", "title": "One step of the multidimensional filters converges to the exact posterior law", "statement": "If the predicted moments computed in a step of moment_filter_nd_rms, moment_filter_nd_cms or moment_filter_nd_scms are those of a law with some exponential moment, not concentrated on the zeros of a polynomial, and the likelihood is positive and a finite sum of products of continuous functions of the coordinates of which at most two, in adjacent coordinates, are not polynomials, then, as N grows, the updated moments, means and scales converge to those of the Bayes posterior, and the increment of the negative log-likelihood to minus the logarithm of the evidence. The hypothesis on the prediction holds in the first step whenever the conditional moments of the transition are polynomials of the state of degree at most the order; that on the likelihood holds for the prey-predator model.", "quantifier": "all dimensions, laws, likelihoods of this form, measurements; predicted means and positive scales that may depend on N; the limit N to infinity", "why_tests_cant": "The posterior moments are integrals without closed form and the claim is a limit over all orders.", "anchors": ["mfs/multi_dims/filtering.py:moment_filter_nd_rms", "mfs/multi_dims/filtering.py:moment_filter_nd_cms", "mfs/multi_dims/filtering.py:moment_filter_nd_scms", "mfs/multi_dims/ss_models.py:prey_predator"]}
{"id": "C194", "title": "The tracking notebook: its model, its simulation and the first step of its filter", "statement": "In examples/2d_bearing_only.ipynb, discretise_lti_sde returns F = [[1, dt], [0, 1]] and Q = [[dt^3/3, dt^2/2], [dt^2/2, dt]] for every dt, and Q is positive definite for dt > 0. The measurement is the argument of the point, which equals the arctan(X2 / X1) of the text exactly in the right half plane and differs from it by pi in the left one. simulate draws from the normal transition with F and Q and from the normal law about the angle with variance 0.1, whose density is measurement_cond_pdf. state_cond_central_moments and state_cond_mean are the moments of the transition about any point. For every law of the state with some exponential moment, not concentrated on the zeros of a polynomial, and every order, the prediction of the filter returns the moments of the exact predicted law, and the Gram matrix of these is positive definite. The first step of moment_filter is Bayes' formula for the rule of the exact predicted law, the sum of the two propagated normal laws.", "quantifier": "all dt, states, draws, measurements, laws, orders N and tables, both factorisations", "why_tests_cant": "The notebook shows one trajectory; exactness of the prediction holds for all laws and orders, and the equality of the angles on half planes.", "anchors": ["examples/2d_bearing_only.ipynb", "mfs/utils.py:discretise_lti_sde", "mfs/multi_dims/moments.py:raw_moments_mvn_kan", "mfs/multi_dims/filtering.py:moment_filter_nd_cms"]}
{"id": "C195", "title": "The Monte Carlo loops that repeat a simulation sample from the conditional law", "statement": "The loop `while np.any(np.isnan(xs))` of the prey-predator scripts ends if and only if some simulation along the chain key, split(key)[0], ... is free of NaNs, and returns the first. In every run the moment filter, the particle filter, the Gauss-Hermite and the extended Kalman filter get the same data, and the saved errors of a filter are the distances of its means from the simulated states and contain a NaN exactly if its means do, so that the counts of divergences in the plots are right. If the simulations of the chains are independent, all loops end almost surely and the accepted data of the runs are independent with the law of the simulation conditioned on the absence of NaNs. time_profile/mf.py saves for run k the time for its own data if the moment filter returns no NaN for them, else the time for the next data of a reserve for which it returns none; no data of the reserve are used twice. With independent data the script ends almost surely and the times are independent, distributed as the time for data conditioned on the success of the filter; so they may be for other data than those of the other filters, and are for the same when the moment filter does not fail. With keys that never coincide all attempts of all runs draw at different keys; with keys that do not depend on how many are asked for, the next attempt of a prey-predator run chooses the component of its initial state with the key of the normals of the rejected one.", "quantifier": "all generators, simulators, filters, key files, numbers of runs, laws of the data with a positive probability of success", "why_tests_cant": "Termination with probability one, independence and the conditional law are statements about infinitely many attempts.", "anchors": ["dardel/prey_predator/mf.py", "dardel/prey_predator/pf.py", "dardel/prey_predator/ghf_ekf.py", "dardel/time_profile/mf.py", "dardel/generate_rng_key.py"]}
{"id": "C196", "title": "The statistics of the prey-predator figure and their limits", "statement": "From the saved errors of the runs, plot_prey_predator_errs.py counts the runs with a NaN, plots at every tenth time the average over the other runs of the summed absolute errors, prints as mean the average of this curve over time, and as standard deviation the root of the variance of the curve over time plus the time average of the variance over the runs; so the printed deviation is not that of a run average. If all runs have a NaN, everything is NaN. With independent simulations, as the number of runs grows, almost surely the fraction of divergences of the moment filter converges to the conditional probability of a NaN, the curve to the expected error given that neither the simulation nor the filter has a NaN, and the printed numbers to the mean and deviation of the error at a uniformly chosen time under this law. If two filters fail in the same runs, the one with the smaller errors has the lower curve; in general not: a filter that is better in every run where the other works can have the higher curve.", "quantifier": "all errors, numbers of runs and times, simulators, filters and generators; laws of the data with square integrable errors", "why_tests_cant": "The limits concern infinitely many runs; the decomposition of the deviation holds for all arrays of errors.", "anchors": ["reproduce_paper_plots/plot_prey_predator_errs.py", "dardel/prey_predator/mf.py"]}
{"id": "C197", "title": "The bands in the figure of errors and times", "statement": "In plot_benes_bernoulli_errs_and_times.py the plotted values of the moment filter (mean of means over time) and of the other filters (mean of all entries) are the same function of the errors. np.quantile as used there: at least floor(q(n-1))+1 of the numbers are at most the quantile and at least n-ceil(q(n-1)) at least it, it does not decrease with the level, and the levels zero and one give the extremes; so a band of the quantiles 0.025 and 0.975 contains at least floor(0.975(n-1))+1-ceil(0.025(n-1)) of its numbers, 950 of 1000. The band of the times, mean plus and minus two standard deviations, contains its curve and more than three quarters of the times, always. Not true: that the bands of the errors mean the same for all filters (for the moment filter they are quantiles of run averages, for the others quantiles of all single errors; for the same errors one can be a point and the other the whole range), that the curve of the moment filter lies in its band, that the band of the times contains 95 percent of them, or that its lower end is positive, as the logarithmic axis needs.", "quantifier": "all arrays of errors and times", "why_tests_cant": "The bounds on the counts hold for all arrays; the figures show one.", "anchors": ["reproduce_paper_plots/plot_benes_bernoulli_errs_and_times.py"]}
{"id": "C198", "title": "On decoupled models the multidimensional filters run the one-dimensional filters", "statement": "When the coordinates of the state are independent at the start, move independently and enter the likelihood as a product, a run of the multidimensional filter of raw, central or scaled central moments, with the tables that the library builds and any order and dimension, succeeds and returns exactly the products of the moments, the means and the scales of the one-dimensional filters run on the coordinates, and its negative log-likelihood is the sum of theirs. With process noise in every coordinate this needs no condition beyond the initial moments. In consequence the multidimensional filters converge as the order grows: the negative log-likelihood to minus the logarithm of the exact marginal likelihood of the vector-valued model, every mixed moment and every mean and scale after every measurement to that of the exact posterior.", "quantifier": "all dimensions, orders, product models, initial moments and measurement sequences", "why_tests_cant": "The equality is over whole runs at every dimension and order, and the limit is never reached by a computation.", "anchors": ["mfs/multi_dims/filtering.py:moment_filter_nd_rms", "mfs/multi_dims/filtering.py:moment_filter_nd_cms", "mfs/multi_dims/filtering.py:moment_filter_nd_scms", "mfs/multi_dims/quadratures.py:moment_quadrature_nd"]}
{"id": "C199", "title": "The rules of the two-dimensional figure", "statement": "In the figure of two-dimensional rules, for every order and dimension, the weights drawn are those of the rule divided by their largest absolute value, which is never zero; for the Gaussian sum and the polygon every node gets exactly one mark, of a size between zero and the marker size, and at least one is round. The rule of the Gaussian sum and that of the uniform law on any bounded region with interior points reproduce all moments of order below 2N, whichever way round the vertices of the region are listed, and the nodes of the latter lie in every box around the region. For the uniform law on a box the total weight at a point is the product of the weights of the Gauss-Legendre rules of the sides, so it is never negative, and it is positive exactly at the grid of the zeros of the Legendre polynomials, inside the box. There every node is drawn, and twice exactly if its weight is not zero but below the tolerance.", "quantifier": "all orders and dimensions, all Gaussian sums with positive definite covariances, boxes and bounded regions", "why_tests_cant": "The exactness is for every law and order, and which nodes carry no weight in exact arithmetic cannot be read off a floating-point run.", "anchors": ["reproduce_paper_plots/plot_quadrature_rules_2d.py", "mfs/multi_dims/quadratures.py:moment_quadrature_nd", "mfs/multi_dims/moments.py:moments_nd_uniform", "mfs/utils.py:GaussianSumND"]}
{"id": "C200", "title": "The initial information of the Cramer-Rao script", "statement": "The matrix j0 of the prey-predator Cramer-Rao script, minus the mean Hessian of the log-density of the initial Gaussian sum, converges almost surely to the information matrix of that law as the number of samples grows; the limit is positive definite and the bound from it never exceeds the covariance of the law. For a single Gaussian j0 is its inverse covariance whatever the samples, and for the initial law of the model it is positive definite for every set of samples, while for a general Gaussian sum it can be negative definite for finitely many samples. Minus the Hessian of the transition log-density in the new state is the inverse of the conditional covariance. The Hessian of the measurement log-likelihood has one entry, whose mean over the measurement is never positive, though a single measurement can contribute negative information.", "quantifier": "all dimensions, Gaussian sums with positive definite covariances, sample sizes, samples, states", "why_tests_cant": "The limit is never reached by a computation, and positivity for all samples cannot be tested.", "anchors": ["dardel/prey_predator/cramer_rao.py", "mfs/utils.py:GaussianSumND.logpdf", "mfs/multi_dims/ss_models.py:prey_predator"]}
{"id": "C201", "title": "nd_cartesian_prod on arrays with two or three axes", "statement": "nd_cartesian_prod(x) returns the documented array: for x of shape (d, n) shape (n ** d, d) with every vector (x[0, i_0], ..., x[d-1, i_{d-1}]) once, and for x of shape (d, n, k) shape (n ** d, k, d) with every tuple of the sub-arrays x[a, i_a, :]. Other numbers of axes raise. (The part about three axes is false: the last axis is combined instead of the second, so the shape is (n ** d, n, d) and columns are combined; moment_quadrature_nd, which passes eigenvectors as columns, is right.)", "quantifier": "all d, n, k, arrays x, rules for indices out of range", "why_tests_cant": "All dimensions and shapes; the only caller passes square matrices, for which the shape does not reveal the exchanged axes.", "anchors": ["mfs/multi_dims/quadratures.py:nd_cartesian_prod", "mfs/multi_dims/quadratures.py:nd_cartesian_prod_indices"]}
{"id": "C202", "title": "After the job scripts have run, the plot scripts find the files they load", "statement": "Starting from a folder with only the random keys, after all jobs of dardel/run_all.sh have run in any order (and run_benes_bernoulli_compute_errs.sh after them), every file loaded by the scripts of reproduce_paper_plots has been written, for any numbers of parallel and sequential runs chosen by the user; every run 0, ..., P*S-1 is made once and writes its own file. (False in three places: plot_convergence.py loads pf.npz, which no script writes; plot_prey_predator_errs.py loads results for N = 7, which no job of run_all.sh computes, and with the replacement that its comment proposes those for N = 5 are missing; the post-processing of the Benes-Bernoulli particle filter and the plot of the estimates have 1000 runs fixed in them, so smaller numbers of runs fail.)", "quantifier": "all numbers of parallel and sequential runs, all orders of the jobs", "why_tests_cant": "Tests do not run the Slurm jobs, and the names of the files are compared only when a plot is made after hours of computation; the numbers of runs and the order are free.", "anchors": ["dardel/run_all.sh", "dardel/run_convergence_pf.sh", "dardel/run_benes_bernoulli_ghf_pf.sh", "dardel/run_prey_predator_mf.sh", "dardel/convergence/convergence_pf_post_processing.py", "dardel/benes_bernoulli/post_processing_pf.py", "reproduce_paper_plots/plot_convergence.py", "reproduce_paper_plots/plot_prey_predator_errs.py", "reproduce_paper_plots/plot_parameter_estimation.py", "reproduce_paper_plots/plot_benes_bernoulli_errs_and_times.py"]}
{"id": "C203", "title": "The weights of moment_quadrature bracket the distribution function of every law with the given moments", "statement": "Let a law have the moments given to moment_quadrature (raw, central or scaled) and at least as many points in its support as the rule has nodes. At every node the sum of the weights of the nodes to the left is at most the probability of lying to the left of the node, and the sum including the node is at least the probability of not exceeding it; hence the cumulative weights differ from the distribution function nowhere by more than the largest weight, the open interval between two nodes has at least the probability of the weights inside, the closed one at most that of the weights inside and at the ends, and two laws with the same moments differ at a node by at most its weight. The bounds are attained by a law with the same moments.", "quantifier": "all laws with enough moments and support points, all numbers of moments, all forms of moments, all nodes and thresholds", "why_tests_cant": "Laws are infinite-dimensional; a test compares the rule with one law, while the claim bounds all laws with the same moments at once.", "anchors": ["mfs/one_dim/quadtures.py:moment_quadrature"]}
{"id": "C204", "title": "lanczos divides by zero exactly when the Krylov vectors are dependent; otherwise the Ritz values stay inside the spectrum", "statement": "For a symmetric matrix and a unit start vector, m iterations of lanczos divide by zero if and only if v0, a v0, ..., a^(m-1) v0 are linearly dependent. So more iterations than rows always fail, n iterations succeed if and only if no eigenvector is orthogonal to v0, and for a matrix with a repeated eigenvalue they fail whatever v0 (the docstring allows an arbitrary unit vector and calls the factorisation precise for m = n). Without a breakdown the Ritz vectors of lanczos_ritz are orthogonal in both inner products, the Ritz values are their Rayleigh quotients and lie between any bounds of the spectrum of a, and their squared lengths are the weights of a quadrature rule that gives v0^T a^k v0 for all k < 2 m.", "quantifier": "all sizes, symmetric matrices, start vectors, numbers of iterations, bounds", "why_tests_cant": "Breakdown happens on a set of measure zero, which random tests never hit, while the matrices of practice (identity, repeated eigenvalues) lie in it.", "anchors": ["mfs/utils.py:lanczos", "mfs/utils.py:lanczos_ritz"]}
{"id": "C205", "title": "With more and more moments the cumulative weights of moment_quadrature converge uniformly to the distribution function", "statement": "For a law without atoms and with an exponential moment, and for any centres and scales, the sums of the weights of the nodes up to x converge to the distribution function uniformly in x as the number of moments grows, and all weights converge to zero uniformly; in particular for every normal law. So probabilities of half lines and intervals can be read off the rule.", "quantifier": "all laws without atoms and with an exponential moment, all centres and scales, uniformly in the threshold", "why_tests_cant": "A limit statement, uniform over a continuum of thresholds, for an infinite-dimensional class of laws.", "anchors": ["mfs/one_dim/quadtures.py:moment_quadrature"]}
{"id": "C206", "title": "The simulated trajectories of the Benes model converge in law to the solution of the equation as the number of integration steps grows", "statement": "For every initial law and every number of observations, the law of the whole trajectory returned by simulate_trajectory converges weakly, as integration_steps grows, to the law of the solution of dX = tanh(X) dt + dW at the observed times; the error of the mean of a function with four bounded derivatives is at most a constant over integration_steps, uniformly in the initial value. The same holds for simulate_sde with any conditional mean and variance right to first order in the step. For one integration step from a nonzero state the law is not exact, although mean and variance are.", "quantifier": "all initial laws, horizons, time intervals, TME orders from one, bounded continuous functionals of the path, initial values", "why_tests_cant": "A limit of laws on path space over a continuum of initial values and functionals; simulation shows one sample at one number of steps.", "anchors": ["mfs/utils.py:simulate_sde", "mfs/one_dim/ss_models.py:benes_bernoulli"]}
{"id": "C207", "title": "On linear equations simulate_sde is exact for every number of integration steps", "statement": "For dX = A X dt + B dW and the transition moments of discretise_lti_sde, the whole trajectory returned by simulate_sde has exactly the law of the Markov chain with transition N(F x, Q), (F, Q) = discretise_lti_sde(A, B, dt), whatever integration_steps; so two numbers of steps give the same law. The transitions over consecutive times compose, and the same holds for the trajectory drawn from a random key of an ideal generator.", "quantifier": "all dimensions, matrices A and B, time intervals, numbers of integration steps with positive definite step covariance, horizons, initial states, valid Cholesky routines, ideal generators", "why_tests_cant": "Equality of laws on path space for every number of steps; sampling can only bound the discrepancy of finitely many statistics at finitely many settings.", "anchors": ["mfs/utils.py:simulate_sde", "mfs/utils.py:discretise_lti_sde"]}
{"id": "C208", "title": "The negative log-likelihood of the moment filters is a proper score of the data", "statement": "For discrete measurements whose probabilities are positive and sum to one, whatever law the data have: the expected negative log-likelihood of a moment filter is at least the entropy of that law, with equality only if the filter's likelihood is that law; and the probability that the filter's likelihood exceeds the true one by a factor exp(c) is at most exp(-c). Hence, if the data have the law of the filter at one parameter, no other parameter has a smaller expected objective. For the Benes-Bernoulli experiment the expected negative log-likelihood tends to the entropy of the exact law of the data as the number of moments grows. The multidimensional filters have the same property as long as the predictive probabilities that occur are positive.", "quantifier": "all laws of data, horizons, numbers of moments, initial moments and model moments, valid or not, valid backends, measurement models with positive probabilities", "why_tests_cant": "An inequality over all laws on measurement sequences and all model moments; a test compares two numbers for one data set.", "anchors": ["mfs/one_dim/filtering.py:moment_filter_rms", "mfs/one_dim/filtering.py:moment_filter_cms", "mfs/one_dim/filtering.py:moment_filter_scms", "mfs/multi_dims/filtering.py:moment_filter_nd_rms"]}
{"id": "C209", "title": "The negative log-likelihood of the Kalman filter is a proper score for data with a density", "statement": "For scalar measurements the exponential of minus the last negative log-likelihood that kf returns, as a function of the whole measurement sequence, is continuous and integrates to one. Whatever density the data have, the expected negative log-likelihood is at least their entropy, with equality only if the filter's likelihood is that density; and the probability that the filter's likelihood exceeds the true density by a factor exp(c) is at most exp(-c). Hence, if the data come from one linear Gaussian model, the expected difference of the negative log-likelihoods at any other model (of whatever state dimension) and at the true one exists and is nonnegative.", "quantifier": "all densities of data, horizons, state dimensions, matrices F and H, positive definite Sigma, Xi and v0, initial means, backends", "why_tests_cant": "An inequality over all densities on measurement sequences of any length; a test evaluates the likelihood at one sequence.", "anchors": ["mfs/classical_filters_smoothers/gfs.py:kf"]}
{"id": "C210", "title": "The likelihood of the extended Kalman filter integrates to one and is a proper score", "statement": "For scalar measurements and continuous model functions with continuous Jacobians, the exponential of minus the last negative log-likelihood that ekf returns is a continuous probability density of the whole measurement sequence, although the filter is an approximation. Hence the expected negative log-likelihood is at least the entropy of the data whatever density they have, with equality only if the filter's likelihood is that density. In particular, on data from a linear Gaussian model, ekf with any nonlinear model has on average no smaller negative log-likelihood than kf with the true one, and is better by c with probability at most exp(-c).", "quantifier": "all densities of data, horizons, state dimensions, continuous transition and measurement functions, positive semidefinite transition covariances, positive measurement variances, backends", "why_tests_cant": "An integral over all measurement sequences of any length and an inequality over all densities; a test evaluates the filter at one sequence.", "anchors": ["mfs/classical_filters_smoothers/gfs.py:ekf", "mfs/classical_filters_smoothers/gfs.py:kf"]}
{"id": "C211", "title": "The likelihoods of the moment filters are probability densities of measurement sequences", "statement": "For measurements with a positive continuous density (with respect to any sigma-finite measure) and conditional laws of the state with continuous moments, the exponential of minus the negative log-likelihood of each one-dimensional moment filter, started from valid moments, is a continuous function of the measurement sequence that integrates to one. Hence the expected negative log-likelihood is at least the entropy of the data whatever density they have, with equality only if the filter's likelihood is that density; on data with the law of the filter at one model no other model, with whatever number of moments, does better on average; and on data from a linear Gaussian model the moment filter of any model does not do better on average than the Kalman filter with the true one.", "quantifier": "all horizons, numbers of moments, valid initial moments, positive jointly continuous measurement densities, conditional laws positive on squares with continuous moments, densities of data, valid backends, with and without LDL", "why_tests_cant": "An integral over all measurement sequences of any length and inequalities over all models; a test evaluates the filter at one sequence.", "anchors": ["mfs/one_dim/filtering.py:moment_filter_rms", "mfs/one_dim/filtering.py:moment_filter_cms", "mfs/one_dim/filtering.py:moment_filter_scms", "mfs/classical_filters_smoothers/gfs.py:kf"]}
{"id": "C212", "title": "The covariances of the sigma-point filter and smoother stay positive definite for nonlinear models", "statement": "If the sigma-point rule integrates quadratics exactly with nonnegative weights and the transition, measurement and initial covariances are positive definite, then every covariance returned by sgp_filter is positive definite, with either way of computing the innovation covariance, and sgp_smoother maps positive definite filtering covariances to positive definite smoothing covariances. So no Cholesky factorisation on the way is of an invalid matrix. The cubature and Gauss-Hermite rules of the package meet the conditions.", "quantifier": "all nonlinear dynamics and measurement functions, all dimensions of state and measurement, measurement sequences of any length, second-order rules with nonnegative weights, both values of const_measurement_cov, valid backends", "why_tests_cant": "Positive definiteness along executions of any length for all nonlinear models; a test runs one model on one sequence.", "anchors": ["mfs/classical_filters_smoothers/gfs.py:sgp_filter", "mfs/classical_filters_smoothers/gfs.py:sgp_smoother", "mfs/classical_filters_smoothers/gfs.py:_sgp_update", "mfs/classical_filters_smoothers/gfs.py:_sgp_prediction"]}
{"id": "C213", "title": "The likelihood of the sigma-point filter is a probability density of measurement sequences", "statement": "For continuous model functions, positive definite covariances and a sigma-point rule that integrates quadratics exactly with nonnegative weights, the last negative log-likelihood that sgp_filter returns is a continuous function of the measurements, the exponential of its negative integrates to one over all measurement sequences, and it is a proper score: its expectation is at least the entropy of the data whatever density they have, with equality only if the filter's likelihood is that density. This holds for measurements of every dimension. On scalar data from a linear Gaussian model the filter for any model does not do better on average than the Kalman filter with the true one.", "quantifier": "all horizons, dimensions of state and measurement, continuous nonlinear models with positive definite covariances, second-order rules with nonnegative weights, both values of const_measurement_cov, densities of data, valid backends", "why_tests_cant": "An integral over all measurement sequences of any length; a test evaluates the filter at one sequence.", "anchors": ["mfs/classical_filters_smoothers/gfs.py:sgp_filter", "mfs/classical_filters_smoothers/gfs.py:_sgp_update", "mfs/classical_filters_smoothers/gfs.py:_log_mvn_pdf"]}
{"id": "C214", "title": "Smoothing after nonlinear Gaussian filtering never increases a covariance", "statement": "For positive definite transition, measurement and initial covariances and nonempty data, running ekf and then eks (scalar measurements), or sgp_filter and then sgp_smoother (measurements of every dimension, rules that integrate quadratics exactly with nonnegative weights), succeeds and returns one smoothing covariance per step, which is positive definite and does not exceed the filtering covariance of that step; and no filtering covariance of ekf exceeds the covariance predicted from the step before.", "quantifier": "all nonlinear models with positive definite covariances, dimensions of the state, measurement sequences of any length, second-order rules with nonnegative weights, valid backends", "why_tests_cant": "Matrix inequalities along executions of any length for all nonlinear models; a test runs one model on one sequence.", "anchors": ["mfs/classical_filters_smoothers/gfs.py:ekf", "mfs/classical_filters_smoothers/gfs.py:eks", "mfs/classical_filters_smoothers/gfs.py:sgp_filter", "mfs/classical_filters_smoothers/gfs.py:sgp_smoother", "mfs/classical_filters_smoothers/gfs.py:_gaussian_smoother_shared"]}
{"id": "C215", "title": "The sigma-point filters depend on the rule only through its integrals", "statement": "Two sigma-point rules with the same integrals of all functions give the same results of sgp_filter, sgp_smoother, cd_sgp_filter and cd_sgp_smoother, whatever the model, the data and the Cholesky routine. In particular the order of the sigma points does not matter, nor does the order in which np.roots lists the roots for the Gauss-Hermite rule. If the measurement covariance is constant and the weights sum to one, the option for constant measurement covariances changes nothing.", "quantifier": "all rules, models, dimensions, measurement sequences, lists of filtering results, permutations of points and roots, Cholesky routines", "why_tests_cant": "Equality of whole runs for all pairs of equivalent rules and all models; a test compares two rules on one model.", "anchors": ["mfs/classical_filters_smoothers/gfs.py:sgp_filter", "mfs/classical_filters_smoothers/gfs.py:sgp_smoother", "mfs/classical_filters_smoothers/gfs.py:cd_sgp_filter", "mfs/classical_filters_smoothers/gfs.py:cd_sgp_smoother", "mfs/classical_filters_smoothers/quadratures.py:SigmaPoints.gauss_hermite"]}
{"id": "C216", "title": "The Gaussian filters and smoothers are causal and resumable", "statement": "kf, ekf, cd_ekf, sgp_filter and cd_sgp_filter can be stopped after any measurement and restarted from the last filtering mean and covariance: the records are those of one run, the negative log-likelihoods continuing from the last one; so earlier records do not depend on later measurements. rts, eks, cd_eks, sgp_smoother and cd_sgp_smoother can be run on the last part of the filtering results first: the results there do not depend on the earlier part, and the earlier part is smoothed correctly with the first smoothing belief of the last part put in place of its filtering belief.", "quantifier": "every model (also vector measurements), every split of every measurement sequence and list of filtering results, whatever the decomposition routines return", "why_tests_cant": "All splits of all sequences for all models.", "anchors": ["mfs/classical_filters_smoothers/gfs.py:kf", "mfs/classical_filters_smoothers/gfs.py:ekf", "mfs/classical_filters_smoothers/gfs.py:cd_ekf", "mfs/classical_filters_smoothers/gfs.py:sgp_filter", "mfs/classical_filters_smoothers/gfs.py:cd_sgp_filter", "mfs/classical_filters_smoothers/gfs.py:rts", "mfs/classical_filters_smoothers/gfs.py:eks", "mfs/classical_filters_smoothers/gfs.py:cd_eks", "mfs/classical_filters_smoothers/gfs.py:sgp_smoother", "mfs/classical_filters_smoothers/gfs.py:cd_sgp_smoother"]}
{"id": "C217", "title": "The Gaussian filters do not depend on the units of the measurements", "statement": "Expressing the measurements in other units or from another origin, with the measurement model changed accordingly, leaves every filtering mean and covariance of kf, ekf and sgp_filter unchanged, and increases the negative log-likelihood by the logarithm of the unit change at every measurement. For kf and ekf: scalar measurements, y -> a y + b with a nonzero (b = 0 for kf). For sgp_filter: measurements of any dimension, y_i -> d_i y_i + b_i with d_i positive. Moreover the means and covariances of cd_ekf (scalar measurements) are unchanged for every model, and those of sgp_filter under every invertible linear recombination of the components of the measurement.", "quantifier": "every model with positive semidefinite state noise and positive definite measurement noise (positive definite state noise for sgp_filter, with a rule with nonnegative weights and correct first two moments), every unit change, every measurement sequence, both settings of const_measurement_cov", "why_tests_cant": "All unit changes for all models and all sequences.", "anchors": ["mfs/classical_filters_smoothers/gfs.py:kf", "mfs/classical_filters_smoothers/gfs.py:ekf", "mfs/classical_filters_smoothers/gfs.py:sgp_filter", "mfs/classical_filters_smoothers/gfs.py:_linear_update", "mfs/classical_filters_smoothers/gfs.py:_sgp_update"]}
{"id": "C218", "title": "With several measurements the Kalman filter does not depend on their units", "statement": "Expressing all measurements of kf in other units (y, H, Xi replaced by a y, a H, a^2 Xi with a positive) leaves every filtering mean and covariance unchanged and increases the negative log-likelihood by n log a per measurement, where n is the number of components of a measurement.", "quantifier": "every linear model with n >= 2 measurements of n states, positive definite measurement noise, every a > 0", "why_tests_cant": "All models and all units.", "anchors": ["mfs/classical_filters_smoothers/gfs.py:kf", "mfs/classical_filters_smoothers/gfs.py:_linear_update"]}
