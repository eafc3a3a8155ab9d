# Design of the formal model of `mfs`

`mfs` is a Python/JAX library for Gauss-quadrature moment filtering. The model and the proofs live in `lean/Verif`
(Lean 4.33.0 with Mathlib). `properties.jsonl` states the properties, `MANIFEST.json` maps each property to its theorems and
status, `AXIOMS.txt` lists the axioms of every theorem, `seeded/LOG.jsonl` records the mutation tests.

## Layout

| directory | content |
|---|---|
| `Verif/Model/*` | functional models of the Python functions, one definition per function, each with the file and lines it models |
| `Verif/Spec/*` | small specification definitions that do not use the model (multi-index order, Gaussian density, hidden Markov sums, …) |
| `Verif/Lemmas/*` | helper lemmas |
| `Verif/Props/*` | the property theorems (`Cnn_...`), each followed by an `example` that meets its hypotheses |
| `tools/*` | sources of `properties.jsonl`, `MANIFEST.json` and `AXIOMS.txt` |
| `seeded/*` | mutation harness, mutation lists and log |

## Trusted base

* The Lean kernel, and Mathlib's *definitions* (its theorems are checked).
* Axioms: every theorem in `MANIFEST.json` depends on at most `propext`, `Classical.choice`, `Quot.sound`
  (`AXIOMS.txt`, produced by `tools/axioms.py` from `#print axioms`). There is no `sorry`, no own axiom, no `native_decide`,
  no `bv_decide`.
* The reading of the Python code: the model is written by hand from the text of `/repo`; nothing was executed. The
  decisions below say where the model departs from the text.

## Modelling decisions (shared)

* **Numbers.** `float64` arrays are exact real (complex) numbers. Rounding, overflow, NaN and infinities are *not*
  modelled. Division by zero and square roots of negative numbers are Lean's total versions (`x / 0 = 0`, `√(-x) = 0`), which
  differ from NumPy (`inf`/`nan`); theorems that could meet these cases carry a hypothesis excluding them, or are stated so that
  the value does not matter. Integer index code is over `ℕ`/`ℤ` without wrap-around.
* **Arrays** are `List`s, functions on `Fin n`, or Mathlib matrices. JAX out-of-range reads are clamped (`jget`), NumPy's
  negative indices are modelled (`npGet`) where they can occur.
* **Numerical linear algebra** is a record `Backend` of two functions: `chol` and `eigh` (`Model/Backend`). Its contract
  `Backend.Valid` says: on symmetric input `eigh` returns an orthogonal matrix and eigenvalues that diagonalise it; on positive
  definite input `chol` returns the Cholesky factor. Nothing is assumed otherwise. `theBackend_valid` (Lemmas/Backend) shows
  that a valid backend exists, so no theorem is vacuous for lack of one. `triangular_solve` is modelled as the solution of the
  triangular system, including which triangle of the matrix is read and on which side the unknown is (this matters for C68, C69).
* **`searchsorted`, `interp`, `argsort`, `np.roots`** are parameters with a contract (`SearchSorted`; distinct real roots) or
  defined by their documented formula (`interp`); each contract is shown to be satisfiable.
* **`jax.grad`, `jacfwd`** are the mathematical derivatives, except in C171 and later properties on forward mode, where JAX's rules are written out; **`expm`** is Mathlib's matrix exponential.
* **The package `tme`** is not part of `/repo`; its routines are parameters, with the assumptions written in each theorem;
  `Model/Tme` (C129, C130, C153, C154) has the definitions of `tme.expectation` and `tme.mean_and_cov` given in its documentation.
* **`jax.lax.scan`** is structural recursion over the inputs (`Model/Scan`). `scan` traces its body once even on empty input, so
  an exception in the body is raised for every input; the models that can raise (`Gaussian`, `BruteForce`) do so.
  **`vmap`/`einsum`** are `map`/finite sums.
* **Exceptions** are values (`Except`, `Option`) where a property speaks about them.
* **Randomness.** Draws are arbitrary inputs, restricted to the documented range. Where a property is about expectations
  (C90), the draws are integrated over their law.
* **`jit`, device placement, dtype promotion** are ignored.

## What is modelled

| source | model | not modelled |
|---|---|---|
| `multi_dims/multi_indices.py` | `Model/MultiIndex` (all functions) | caching decorators |
| `multi_dims/quadratures.py` | `Model/QuadND` (all), `Model/NdArray` (`nd_cartesian_prod` with shapes) | |
| `multi_dims/moments.py` | `Model/MomentsND`, `Model/Extract` (all), `Model/NdArray` (leading axes of the extraction helpers) | |
| `multi_dims/filtering.py` | `Model/FilterND` (all) | |
| `multi_dims/ss_models.py` | `Model/SsModels` (all), `Model/Prng` (`simulate`) | |
| `one_dim/quadtures.py` | `Model/Quad1` (all) | |
| `one_dim/filtering.py` | `Model/Filter1` (all) | |
| `one_dim/moments.py` | `Model/Moments1`, `Model/Bell` (all) | |
| `one_dim/pdf_approximations.py` | `Model/Pdf` (all but one) | `edgeworth` (raises `NotImplementedError`) |
| `one_dim/ss_models.py` | `Model/SsModels`, `Model/SsInit` | |
| `utils.py` | `Model/Utils`, `Model/Bell`, `Model/Ldl`, `Model/Pcrlb`, `Model/Moments1`, `Model/MomentsND`, `Model/GaussianSum`, `Model/Prng` (keys of the samplers and of `simulate_sde`) | |
| `classical_filters_smoothers/gfs.py` | `Model/Gaussian` (all) | |
| `classical_filters_smoothers/quadratures.py` | `Model/SigmaPoints`, `Model/Gaussian` (`rk4_m_cov*`) | `unscented` (raises `NotImplementedError`) |
| `classical_filters_smoothers/resampling.py` | `Model/Resampling` (all) | |
| `classical_filters_smoothers/smc.py` | `Model/Smc` (all), `Model/Prng` (keys of `bootstrap_filter`), `Model/ConvergencePf` (keys of `particle_filter`) | |
| `classical_filters_smoothers/brute_force.py` | `Model/BruteForce` (all) | |
| `dardel/`, `examples/` | `Model/Experiments`, `Model/JobFiles` (names of the files written and read by the job scripts), `Model/CramerRao` (`dardel/prey_predator/cramer_rao.py`), `Model/RetryLoops` (Monte Carlo loops of `dardel/prey_predator` and `dardel/time_profile`), `Model/Tracking` (`examples/2d_bearing_only.ipynb`) (see *Experiment scripts*) | contents of files, optimisers, plotting |
| `reproduce_paper_plots/` | `Model/PlotStats`, `Model/PreyStats`, `Model/PlotBands`, `Model/RuleFigure2`, `Model/ConvergencePf` (`pfCurves`): the statistics that are plotted | drawing |
| `tests/` | | tests of the library |

### Experiment scripts

The scripts in `dardel/` and the notebooks in `examples/` mostly call the library. `Model/Experiments` models the formulas that they
contain themselves: the discretised Ornstein–Uhlenbeck model, its simulation, Kalman filter, Kullback–Leibler error and
proposal (`dardel/convergence`), the parameter map and the two optimisations (`dardel/parameter_estimation`), the characteristic
functions and errors (`dardel/benes_bernoulli`), the Gauss–Hermite filter (`Model/BenesGhf`), and the Euler moments of `examples/benes_bernoulli.ipynb`. The numeric constants are
parameters, the optimiser is a parameter. `Model/RuleFigure` has the moments of `reproduce_paper_plots/plot_quadrature_rules.py`. `Model/ConvergenceMf` is the loop of `dardel/convergence/convergence_mf.py`. `dardel/prey_predator`, `dardel/time_profile` only call library functions (the prey–predator
model itself is `Model/SsModels`). `julia/` and `matlab/` contain only a README.

## Per property: what is modelled and how it is proved

**Multi-indices** (`Props/MultiIndex`; exact integer model)
* C01, C02: the successor step is the graded-lex successor (nothing strictly between), hence iteration lists the whole order
  interval, strictly increasing. C03: stars-and-bars induction for `Nat.card` of the specification set.
* C04: the index formula counts predecessors. C05: index matrices via C04 and closure of the table under addition.
* C06: iteration prefix. C07: C04 applied to a vector `m` mapped over the table; with leading axes (`Model/NdArray`, `Props/NdArray`) the assignments of the loops are followed one by one.

**1-D quadrature** (`Props/Quad1`, `Props/Quad1More`)
* C08–C13, C15–C17: algebra of `K = R⁻¹ H R⁻ᵀ`; `Σ w f(x) = f(K)₀₀` for every `f`, which does not depend on the
  eigendecomposition; the shift structure of `G⁻¹H` gives the moments. C15: `vᵀ(K - a)v` is an expectation. C16: uniqueness of
  the rule with given moments. C14: the Golub–Welsch tridiagonal matrix equals `K` of one order less, entry by entry.
  C18: Taylor's formula for polynomials. C98: positivity of weights by interpolation polynomials, remainder by the node polynomial.

**ND quadrature** (`Props/QuadND`, `Props/QuadNDEquiv`, `Props/QuadNDMore`)
* C19: list product. C20: false for `d ≥ 2`; counterexample family, the case `d = 1`, and which value every entry is (`Props/LegacyProduct`).
* C21, C22, C24: transfer-matrix form `e₀ᵀ f₁(K₁) ⋯ f_d(K_d) e₀` of the rule, exactness on words of length `< 2N`.
* C23: specialises to `d = 1`. C25, C85: product functions determine a finite rule, so equality on them gives equality for
  every integrand; C85 by orthogonal equivalence of the multiplication matrices of affinely related moments.
* C101: with as many atoms as basis functions, all `K_j` are simultaneously diagonalised by `R⁻¹ Φ diag √p`.

**Filters** (`Props/Filter1`, `Props/Filter1Equiv`, `Props/FilterLik`, `Props/Hmm`, `Props/FilterND*`)
* C26, C29–C32, C35, C87: one-step lemmas and induction over the measurements. C28, C86: `scan` over an append.
* C27, C36: the three filters keep representations of the same functional (by C11, C85). C37: by C23. C38: table lookup.
* C33: false; the exact relation (`s² =` predictive variance − variance of the conditional means), a counterexample and
  the case of equality. C34: the guard.
* C97: on an `n`-state chain the rule of each step *is* the exact filtering law (C16), so the forward recursion and then the sum
  over paths follow. C99, C100: sums and integrals over measurements through the finite rule.
* C110 (`Props/HmmND`): the same for the multidimensional filters, from C101 and C85; general position makes every coordinate
  non-constant, so posterior scales are positive.
* C108, C109 (`Props/Converge`): on a bounded interval the rules have positive weights and nodes inside, so Weierstrass
  approximation gives convergence; the update step is exact (C16: the posterior has as many atoms as the rule), the prediction
  step is exact on polynomials; induction over the measurements. The reference is `Spec.markovE`, nested integrals over the kernel.
* C111 (`Props/PolyProcess`): prediction integrates a polynomial of degree below `2n`, where the rule is exact.
* C112 (`Props/GaussQuad`): both rules reproduce the same `2n` moments; uniqueness of the rule (C98).
* C113 (`Props/NegWeights`): false; a four-point law for which the two Hankel matrices do not commute. Closed forms of the rule
  through polynomials of the Hankel matrices. The true cases are kept as `_partial`.
* C114, C115 (`Props/NDProduct`, `Props/GaussQuadND`): for product moments the Hankel matrix of a coordinate acts on that coordinate
  alone (up to the top degree, which the rule does not see), so products of functions integrate to products; a rule is determined by
  products. C115 adds C112 for each coordinate.
* C116, C117 (`Props/Experiments`): the explicit Cholesky factor of the Matérn covariance on an equidistant grid; induction over the
  measurements for the two Kalman filters.
* C118, C119, C120 (`Props/ExperimentErrors`): Mathlib's `klDiv` of two normal laws in closed form; completion of the square for the
  proposal, through the model of `particle_filter`; elementary analysis.
* C121 (`Props/ExperimentCf`): Mathlib's `charFun`; Cauchy–Schwarz for the trapezoidal sum.
* `Props/Sharp` strengthens the properties that fail in general by necessary and sufficient conditions (`C33_predicted_scale_iff`,
  `C43_scaled_iff`, `C51_legendre_iff`, `C68_kf_vector_iff`, `C68_kf_vector_generic`, `C69_log_mvn_iff`, `C77_systematic_zero`,
  `C78_zero_weight_iff`, `C82_classification`; also `C123_notebook_euler_iff`).
* C125 (`Props/Units`, `Props/NoBreak`): the rule of transformed moments is the transformed rule (C11); a map of states commutes with
  each step. The validity hypothesis (`GramsStay`) is discharged by C126 for the Euler–Maruyama model.
* C126 (`Props/NoBreak`): a convex combination of functionals positive on squares is positive on squares, so predictions are valid
  whatever rule is used; posteriors are finitely many distinct atoms with positive masses.
* C127 (`Props/NoBreakND`): false; the negative weight of C113 and a polynomial drift that is large at that node. Convex combinations
  of Gram matrices for the part that holds.
* C128 (`Props/Models1`): C126 for the initial law and constants of `benes_bernoulli` and `well_poisson` (`Model/SsInit`); a Gaussian
  sum with positive variances is positive on squares, and so is a normal law.
* C129 (`Model/Tme`, `Props/Tme`): `tme.expectation` as the truncated series of the generator; iterates of the generator are linear on smooth
  functions; the heat semigroup on polynomials terminates.
* C130 (`Props/Tme`): false; the square of `X^(M+1) - e X^(M-1)` has a negative predicted expectation for `N(0, s)` as `s → 0`, because the
  expansion of order `M` of `E[X^(2M+2)]` lacks its last term. Partial: Brownian motion with `N ≤ M + 1`.
* C131 (`Props/PostProcessing`): C27, C128 and C129 for the script; a characteristic function is an integral over the rule (C11).
* C132 (`Props/PreyPredator`): evaluation of `extract_mean` for two components; C07 and C36.
* C133 (`Lemmas/MomentMethod`, `Lemmas/ConvergeU`, `Props/ConvergeLine`): the method of moments (a law with all exponential moments is
  determined by its moments; convergence of characteristic functions by Taylor expansion, Lévy's theorem from Mathlib, truncation for
  integrands of polynomial growth); then the induction of C109. The reference is `Spec.markovE`.
* C134 (`Model/ConvergenceMf`, `Lemmas/ScalarKalman`, `Props/OuConverge`): C133 for linear normal transitions; the script's Kalman filter
  computes the nested integrals exactly (convolution of normal laws by characteristic functions, completion of the square).
* C135 (`Lemmas/NormalKernel`, `Props/NormalModels`): normal kernels with means and variances of linear growth satisfy C133 (the moment
  generating function is explicit). A cubic drift (`well_poisson`) does not satisfy the hypothesis and is not covered.
* C136 (`Props/CfConverge`): real and imaginary parts of a characteristic function are bounded continuous integrands in C135.
* C137 (`Props/PolyProcessND`): the ND rule integrates polynomials of degree `2N - 1` exactly (C21), so a run determines the moments
  of the exact law; the three filters are related by C85.
* C138 (`Props/FilterLikND`): the recursion of C99 with `HasSum`; positivity of the predictive likelihoods along the runs is assumed.
* C139, C140 (`Props/MarginalsND`): summed over the other coordinates the ND weights are squares of entries of one eigenbasis (the
  other factors multiply to the identity), so marginals are laws; the nodes are eigenvalues of a compressed multiplication operator.
* C141 (`Props/UnitsND`): the rule with transformed mean and scale has the transformed nodes and the same weights; induction over the run.
* C142 (`Props/KolmogorovConv`): error recursion of Euler's method for a linear equation on a finite grid; no assumption on the grid.
* C143 (`Props/ConvergeND`): the rule is `e₁ᵀ f₁(K₁) ⋯ f_d(K_d) e₁` with `K_j` symmetric, so that it is bounded on products; Weierstrass in each factor and the exactness of C21. Integrands that are not sums of products with summable bounds are not covered.
* C144 (`Props/GaussianCoord`): equivariance of the Jacobian (chain rule with an invertible map, no differentiability needed), of RK4, of the updates and of the smoothing steps, then induction along the scans. Vector measurements of the EKF family are excluded (see C68).
* C145 (`Props/CdLinear`, `Props/CdSigma`): the moment equations of a linear SDE are an affine field on (mean, covariance); RK4 on it is the Taylor polynomial of degree four (C75), the exact flow is `discretise_lti_sde` (C54), Taylor remainder and a stability bound give the local and global order. For the sigma-point filter the Cholesky factor exists only for positive definite stages, hence 'for small dt'. Over a whole run (`Props/CdSigma`) the exact covariances form a compact set of positive definite matrices, and the stages of all steps stay in a neighbourhood of it on a fine grid; there the run is the one of `cd_ekf`, and the finitely many coarse grids enlarge the constant.
* C146 (`Props/CdSmoother`): derivatives at dt = 0 of both backward steps (RK4 of the affine backward field; the RTS gain with the derivative of the matrix inverse) coincide. Observation on the code: `rk4_m_cov_backward` freezes the filtering mean and covariance over the interval, so the fourth-order scheme gives a first-order smoother (`C146_first_order_only`).
* C147 (`Props/ResamplingVar`): the draws are integrated over `[0,1)^n`; variance of a sum of independent terms, and for `multinomial` the law of C124. `systematic`: weights 1/(4m), 3/(4m), … and the indicator of the even particles.
* C148 (`Props/SmcConverge`): `exp(-nell) ×` average is a product/average functional `runR` of the cloud and the keys; its conditional mean and variance given the cloud are followed by induction on the measurements (the number 2T+1: one term per move, one per resampling, one for the initial cloud). Keys idealised as in C107, with the particles of a cloud moved independently. `C148_schemes` shows that `stratified` and `multinomial` meet the conditions. `C148_every_step` (`Props/SmcProposal`) is the same for each returned cloud: the first t clouds are those of a run on the first t measurements and keys.
* C149 (`Props/SmcProposal`): `particle_filter` on particles is the weighted scheme of C148 on pairs (ancestor, particle), with a kernel that may depend on the measurement and the importance weight as potential; the potential times the proposal density is the likelihood times the transition density, so the limit is that of the model. Assumed: transition, proposal and likelihood densities are positive, the weights bounded.
* C150 (`Props/ResamplingOrd`): the number of picked indices at most `j` is the number of points, one in each cell `[k, k + 1)`, at most `n S_{j+1}`, hence within one of it; summation by parts turns this into the bound by the variation. No randomness is involved.
* C151 (`Lemmas/VanTrees`, `Lemmas/Information`, `Props/VanTrees`): the joint density of states and measurements is `exp` of the sum of the log-densities given to the code; along a direction of the states, integration by parts gives both forms of the information and the covariance of the score with the error, and Cauchy-Schwarz the van Trees inequality. The recursion of the code eliminates the earlier states from the quadratic form of the information about all of them (`info_min`). Convergence of the Monte Carlo means is the strong law of large numbers, and inversion is continuous. The bound for the output at an earlier time is the same theorem for a shorter horizon. Non-vacuity: a Gaussian random walk observed in noise, where the bound is 2/3.
* C152 (`Lemmas/GridConv`, `Lemmas/KernelTrunc`, `Lemmas/ChapmanRun`, `Lemmas/ChapmanLim`, `Props/ChapmanConv`): on a fixed interval the trapezoidal recursion converges uniformly to the recursion with integrals over the interval, along the filter `fine a b` of grids with mesh tending to zero; as the interval grows, that recursion increases to the one over the line, uniformly and in mass (`Close`, preserved by transitions and by multiplication with likelihoods). Normalisation commutes with the predictions. The recursion over the line is the density of the exact filter `posterior` used in C135 and C136. Second moments are preserved by transitions of linear growth, which gives the means of the experiment. Non-vacuity: fine grids exist, the Beneš model with `chapman-euler` and ten sub-steps, and first-order `tme` means and variances. The method `kolmogorov` (an explicit scheme, C79, C142) is not covered.
* C153, C154 (`Model/Tme`, `Spec/Benes`, `Lemmas/DriftHeat`, `Lemmas/BenesLaw`, `Props/BenesTme`): `benesDens` is the known transition density; it is positive, integrates to one, satisfies the Fokker–Planck equation and starts at the conditioning state (that these determine the law of the SDE is textbook knowledge and not formalised). It is a mixture of `N(x + t, t)` and `N(x - t, t)` with weights `e^x` and `e^-x` over `2 cosh x`, and the generator acts on such mixtures of polynomials as the generators with drifts `1` and `-1`, whose truncated exponential series is exact on polynomials of degree at most the order (Stein recursion on both sides). C154 feeds this law into C126 and C133.
* C155 (`Lemmas/CholCont`, `Lemmas/RuleCont`, `Props/Continuity`): the Cholesky factor and the functions of a symmetric matrix are continuous, by compactness along ultrafilters and uniqueness of the limit; the spectral decomposition itself is not assumed continuous. Sorted eigenvalues and squared components are continuous because the nodes are distinct. A run is continuous because each step is, the validity of the limit run coming from C126. Non-vacuity: Beneš drift with a normal measurement.
* C156 (`Lemmas/TaylorBound`, `Props/KolmogorovCons`): Taylor formulas with explicit remainders for the repeated `jnp.gradient`. In the interior it is a central difference with step `2 dx`; at the ends repeated one-sided differences give `p''/2` and `3 p''/4` instead of `p''`. Non-vacuity: `exp(-x²)`.
* C157 (`Lemmas/GaussError`, `Props/RuleError`): iterated Rolle gives the remainder of Lagrange interpolation. The rule is compared with the interpolant at its nodes and at `n` more points that tend to the nodes. The node polynomial has the least second moment among the monic polynomials because the rule is exact below degree `2 n`. For the characteristic function, `cos(z x - θ)` with `θ` the argument of the error. Non-vacuity: the standard normal law with four moments and the cosine.
* C158 (`Props/FilterError`): the prediction is exact, C157 is applied to `x^k p(y|x)` and the error of a ratio and of a logarithm is bounded. Non-vacuity: the uniform law on `[0, 1]` with two moments and the likelihood `exp`.
* C159 (`Model/Prng`, `Props/Keys`): false as stated. A generator is an arbitrary `split`, `uniform` and `normal`. The positive part is a congruence (two generators that agree at the listed keys give the same output) and the distinctness of the listed keys in a free key tree. The negative part computes the first cloud. Assumptions on JAX, taken from its documented behaviour and not checked here because JAX is not installed: the formulas of `choice` and `bernoulli`, and that the partitionable threefry generator is prefix-stable while the older one is not. The scripts import `jax.config`, which recent releases removed, so as they stand they run on releases whose default generator is the older one; there only the case of two measurements applies. Not modelled: relations between the bits of a draw from `key` and of `split(key)`. Non-vacuity: a free and a prefix-stable generator.
* C160 (`Props/KeyLaw`): false as stated. The likelihood is constant and nothing is resampled, so the first output is the predictive cloud. Affine images and independent sums of normal variables. Non-vacuity: one normal variable drawn twice, and two independent ones.
* C161 (`Props/KeyScripts`): false as stated. The retry loop of `prey_predator/pf.py` only changes the key both parts start from, so the model starts from the accepted key. Non-vacuity: the generators of C159.
* C162 (`Props/Milstein`): positivity is false as stated. A step is the state times `(1 + sigma w)²/2 + 1/2 + (growth - sigma²/2) ddt`. The witness is a generator whose draws keep the state at `(1, 1)` for 98 steps, then a large noise for the predator and then `-1/sigma` for the prey. Such draws are far outside what a normal generator returns; the point is that nothing in the code excludes negative populations. The moments come from those of the standard normal law up to order four. Non-vacuity: the constants of the model.
* C163 (`Props/KeySampler`): `jax.random.choice` picks component `k` exactly when `u` lies in `[1 - S(k+1), 1 - S k)` with `S` the partial sums of the weights, an interval as long as the weight; then C102 and C103. That the key and its split key give independent draws is the hypothesis, on the generator. Non-vacuity: two components in one and two dimensions with a generator of independent draws.
* C164 (`Model/PlotStats`, `Props/PlotStats`): NaN is `none`; infinities are not modelled. The printed number of divergences is computed exactly for all arrays. The case of the refutation arises because `bernoulli` of a NaN probability is `False`, so a NaN trajectory gives ordinary measurements; that this happens in the experiment is not claimed. Non-vacuity: three runs with one failure of the simulation and one of the filter.
* C165 (`Lemmas/RuleContND`, `Props/ContinuityND`): along an ultrafilter the eigen-decompositions converge to some decomposition of the limit matrices; all decompositions of the same matrices give the same integrals. No bound on the rate is claimed, and single nodes or weights are not claimed to be continuous (they need not be).
* C166 (`Props/ContinuityND`): the condition on the run is needed because the multidimensional weights may be negative, so a run may break down (C139 and the theorems around it). Non-vacuity: `run_rms`, `run_cms`, `run_scms` give runs of any length meeting the condition.
* C167 (`Lemmas/RuleSmooth`, `Props/Smooth`): the moments of a discrete measure are a polynomial map of its weights and nodes, whose derivative is injective at distinct nodes and non-zero weights; sorted weights and nodes are continuous in the moments (C155), so they are the local inverse of that map. The derivative is that of the exact rule, not what jax's automatic differentiation of `eigh` and `cholesky` computes; that is C171.
* C168 (`Props/Smooth`): the three filters with parameters in an arbitrary normed space; measurements may depend on the parameter too. `C168_runs_valid` discharges the validity condition for positive conditional laws, `C168_euler` is the instance for Euler-Maruyama moments.
* C169 (`Lemmas/SpectralSmooth`, `Lemmas/RuleSmoothND`, `Props/SmoothND`): functions of a symmetric matrix, with values in a Banach space and with parameters, are C^r in the matrix; proved by induction on r from the divided-difference formula for the difference of two such functions, so that no eigenvector is ever differentiated. The rule is such a function of one multiplication matrix after the other, and the Cholesky factor is smooth entry by entry. As in C167, the derivative is that of the exact rule, not what automatic differentiation of `eigh` computes (which is undefined at repeated eigenvalues).
* C170 (`Props/SmoothND`): the three multidimensional filters with parameters in an arbitrary normed space. The weights of the multidimensional rule can be negative, so validity of the run stays a hypothesis; runs meeting it are in `Props/ContinuityND`.
* C171 (`Model/Jvp`, `Lemmas/SpectralJvp`, `Lemmas/RuleJvp`, `Lemmas/RuleJvpND`, `Props/Jvp`): the tangents that `jax.jvp` computes for `moment_quadrature`, line by line, with JAX's rules for `cholesky`, `triangular_solve` and `eigh` written out. These rules are part of JAX, not of /repo: that JAX uses them is part of the trusted base. A tangent that divides by zero is `none`; the theorem says it never is on valid moments. Reverse mode is the transposed computation and is not modelled on its own; `ldl=True` is not modelled. The proof identifies the sum with the Daleckii-Krein derivative of a function of the multiplication matrix, which does not depend on the eigenvectors.
* C172 (`Model/FilterJvp`, `Lemmas/FilterJvp`, `Props/FilterJvp`): the tangents through the scans of the three one-dimensional filters, and the objective `obj_func` of the estimation script with `--euler`. The tangents of the functions handed to the filters (conditional moments, density) are taken to be their exact derivatives. `stable=False` only, which is what the script uses. With TME instead of Euler-Maruyama the theorem for central moments applies, but validity of the run is a hypothesis.
* C173 (`Lemmas/RuleJvpND2`, `Props/JvpND`, model in `Model/Jvp`): false, kept partial. The tangents of the multidimensional rule are finite exactly when each coordinate takes as many distinct values at the nodes as the basis has members (`C173_nd_jvp_iff`); then they are right (`C173_nd_rule_jvp_partial`). For N = 3, d = 2 and every product of symmetric laws, a pair of standard normal variables among them, two eigenvalues coincide and every tangent divides by zero, although the rule is differentiable there (`C173_nd_jvp_refuted`). `Props/JvpND2` shows that this is not special to small orders: whenever the first coordinate is independent of the others, it happens for every order in three or more dimensions (`C173_nd_jvp_refuted_three`), and for every N ≥ 3 in two dimensions if the first law is symmetric (`C173_nd_jvp_refuted_two`). In floating point this shows as NaN or as huge meaningless gradients. `ldl=False`.
* C174 (`Props/CentreFree`): for a transition law given as a family of linear functionals on polynomials, the central and scaled filters, in one and several dimensions, return the same result for all functions in place of the conditional mean and variance. Each step goes back to the raw rule of the predicted mixture by C11 and C85; positive definiteness of its Gram matrix along the run is assumed.
* C175 (`Lemmas/ContiResampling`, `Props/ContiResampling`, `Props/ContiScript`, model in `Model/Smc`, `Model/ParamPf`): the interpolation is rewritten as a sum over order statistics and clipped ramps without case distinctions. Order statistics are 1-Lipschitz, and weights that are a function of the sample stay attached to it when samples change places, so each step is continuous. The tolerance of `jnp.interp` stays a parameter. `C175_script_stratified_refuted` and `C175_script_not_differentiable` give two particles and two measurements for which the objective of `dardel/parameter_estimation/pf.py` jumps without `--cr` and has a kink with it; `C175_fixed_weights_refuted` shows that weights held fixed destroy continuity.
* C176 (`Lemmas/TmeSmooth`, `Lemmas/TmeNan`, `Props/TmeSmooth`, model in `Model/Tme`, `Model/TmeNan`): the derivative in the state of a jointly smooth function is jointly smooth, so the iterates of the generator are. `C168` and `C172` then apply. The moments of a normal law are polynomials in mean and variance. That the run stays valid where the variances at the nodes are positive follows from C126 after changing the transition away from the nodes; positivity along the run is an open condition because the nodes are continuous.
* C177 (`Props/TmeNan`, model in `Model/TmeNan`): NaN is `none`. `floatPow` is the power of floats, NaN for negative base and non-integer exponent; sums with a NaN are NaN. A NaN among the conditional moments at the nodes makes all that follow NaN.
* C178 (`Props/SmcProbability`): the function is cut off at `R`. C148 and C149 bound the mean square error of the cut-off part; the unnormalised estimate of the rest is unbiased, so Markov's inequality bounds it, and the normalising estimate is bounded below with high probability.
* C179 (`Model/ConvergencePf`, `Spec/IdealGen`, `Lemmas/IdealGen`, `Props/ConvergencePf`): the script is modelled from its key to its errors. An ideal generator is one whose normals are independent standard normal numbers, independent of the keys split off, which are again independent random keys; infinite trees of draws give one. C178 with the Kalman law gives convergence for given measurements; the filter is measurable in measurements and key together, so dominated convergence gives the rest. The trailing axis of length one is dropped.
* C180 (`Model/ConvergencePf`, `Props/PfCollapse`): before time `t` the weights are close to equal on an open set of particle clouds, and then stratified uniforms in the middle of their strata keep every particle; at time `t` on an open set one weight exceeds `1 - 1/(2n)`, and uniforms below one half select that particle only. Gaussian laws charge open sets, so both happen with positive probability. The Kullback–Leibler error is `EReal` valued with `log 0 = -∞`. Runs of the experiment use the keys of `dardel/generate_rng_key.py`, which are independent for an ideal generator.
* C181 (`Model/ConvergencePf`, `Props/PfMean`): the weights of the optimal proposal decrease with the distance of `F x` to the measurement, so by Chebyshev's sum inequality weighting does not increase the average fourth power of that distance. Stratified resampling keeps averages in mean. Hence the expected average fourth power of the particles is bounded for all numbers of particles by a polynomial in the data, and convergence in probability (C179) becomes convergence in mean.
* C182 (`Model/Prng`, `Props/KeyReuseLimit`): the first predictive cloud is `a m0 + (a s0 + σ) z` with one vector `z` of draws. The run is that of a filter whose first transition draws from `N(a m0, (a s0 + σ)²)` whatever the ancestors, so the convergence theorem behind C178 applies with another kernel at the first step. Its limit is the Kalman filter with initial variance `s0² + 2 s0 σ / a`, and filtering variances increase strictly with the initial variance. This sharpens C159 and C160 (disagreement 26): the error does not vanish with more particles.
* C183 (`Model/Smc`, `Model/Resampling`, `Lemmas/ContiAccuracy`, `Lemmas/ContiMeasurable`, `Props/ContiConverge`, `Props/ContiConvergeCases`): the interpolated distribution function differs from the weighted one by at most half the largest weight, and the stratified uniforms differ from the uniform law by one stratum, so the resampled average of a monotone function moves by `1/n + max w / 2`. The largest weight is at most `sup g / (n · mean g)`; multiplied by the mean likelihood this is `O(1/n)` surely, so the bias does not need independence. Measurability of the resampled particles is proved by cutting the space along the orderings of the samples. The double well uses that a cubic mean has three monotone pieces and that the Poisson probability is unimodal in its rate.
* C184 (`Model/Pdf`, `Props/SaddleDensity`): false. Left of the mean the first guess is negative and all coefficients are non-negative, so the nearest one is the leading zero and `s = 0`: the value is constant. The second derivative of the cumulant-generating function is computed from the moment polynomial, which gives the other half-line for four moments. Kept: the value at the mean.
* C185 (`Model/Pdf`, `Lemmas/PolyDense`, `Props/LegendreConverge`): the expansion is a polynomial matching the moments (C51), hence the orthogonal projection. Polynomials are dense in the square-integrable functions of any measure with exponential moments: a function orthogonal to all powers is orthogonal to all characters (dominated power series), so its positive and negative parts have equal characteristic functions.
* C186 (`Model/Pdf`, `Lemmas/PolyDense`, `Props/GramCharlierConverge`): the function is the normal density times a polynomial and matches the moments (C49), hence again the orthogonal projection, now of `f / phi` under the normal law. The same density lemma gives the limit; Cauchy–Schwarz gives the convergence in mean.
* C187 (`Model/Pdf`, `Props/InverseFourier`, `Props/InverseFourierRule`): the trapezoidal rule on a sorted list of frequencies is compared with the integral interval by interval; the tail is that of an integrable function; Mathlib's inversion theorem gives the limit. The characteristic functions of the rules converge by C133. For fixed nodes the integral of `cos(z d)` is bounded unless `d = 0`.
* C188 (`Model/Moments1`, `Model/Pdf`, `Props/PdfRoundTrip`): the estimate of the trapezoidal rule of C187 applied to the density; the round trip is its composition with C187. Aliasing is a computation with the grid `a + k h`; that the true function vanishes at infinity is the Riemann-Lebesgue lemma.
* C189 (`Model/Pdf`, `Model/Moments1`, `Model/Filter1`, `Lemmas/OscBound`, `Props/PlotDensity`): the exact filtering law has the density of the recursion of C152, generalised to any bounded continuous transition density. Its characteristic function is at most `E / (1 + z^2)`: two integrations by parts in the last transition and update, for one starting point at a time, with the variance bounded from below and the likelihood and two of its derivatives bounded. C187 and the convergence of the outputs (C136, C154) give the rest.
* C190 (`Model/BenesGhf`, `Model/Classical`, `Props/BenesEkf`, `Props/BenesReflect`, `Props/BenesMfSign`): the measurement mean `1 / (1 + exp(-x^3 / 5))` has derivative zero at the initial mean 0 and the drift vanishes there, so by induction on the measurements the gain of `ekf` and `cd_ekf` is zero. For the Gauss–Hermite filter the points are shown to be symmetric with positive weights, and prediction and update commute with the reflection; the first innovation covariance is 1/4 and the cross-covariance positive, because `x (logistic x - 1/2) > 0`. For the moment filters the reflection is the case `a = 0, b = -1` of C125, and the predicted rule has mean zero and positive second moment.
* C191 (`Model/RuleFigure`, `Lemmas/WeakMoments`, `Lemmas/GammaLaw`, `Props/GaussRuleLaw`, `Props/RuleFigure`): exactness applied to `(x - a) q²`, with `q` vanishing at all nodes but one, puts the nodes inside the support; applied to `P q` it shows that they are zeros of the orthogonal polynomial `P`, and there are no others by counting. Convergence needs only `E exp(c |X|) < ∞` for one `c > 0` (the gamma law has no more): the characteristic function is continued along the line in steps shorter than `c`. Laguerre orthogonality is the vanishing of the `n`-th difference of a polynomial of lower degree; Legendre orthogonality is Rodrigues' formula.
* C192 (`Lemmas/PolyDenseSome`, `Lemmas/StrongConvND`, `Lemmas/StrongLimND`, `Lemmas/ProdLimND`, `Props/ConvergeNDWhole`, `Props/ConvergeNDGauss`): the orthonormalised multiplication matrices act on the vectors of polynomials as multiplication, below degree `N`; their spectral measures converge because polynomials are dense in the weighted spaces; products are handled by approximating vectors from both ends, which is why factors strictly between the first and the last non-polynomial one must be bounded. A Gaussian sum has a positive density, so that no polynomial vanishes almost everywhere.
* C193 (`Props/ConvergeNDStep`, `Props/ConvergeNDFirst`): C192 applied to monomials times the likelihood, and a binomial expansion about the updated means and scales, which depend on `N`.
* C194 (`Model/Tracking`, `Props/LinearPred`, `Props/Tracking`): the conditional moments of a linear Gaussian transition are polynomials in the state of degree at most that of the index, which the rule integrates exactly; the predicted law is the convolution of the image with the noise, and the polynomial argument shows that it is not concentrated on the zeros of a polynomial either. `arctan2` is compared with Mathlib's `Complex.arg`.
* C195 (`Model/RetryLoops`, `Lemmas/Rejection`, `Props/RetryLoops`): the loops are partial functions (`partial_fixpoint`), `none` meaning that they do not end. The first accepted draw and the draws after it: their joint law satisfies a fixed-point equation in the first draw, which determines it. Runs are iterated steps of a machine whose output is independent of its next state.
* C196 (`Model/PreyStats`, `Lemmas/Slln`, `Props/PreyStats`): arrays are lists of rows with missing values; sums over kept runs are sums over index sets; the accepted data of infinitely many runs are independent (as in C195), so that the strong law applies to the numerators and the denominators.
* C197 (`Model/PlotBands`, `Props/PlotBands`): order statistics of a sorted permutation; Chebyshev's inequality for a list; the refutations are arrays with two to six entries and one with 41.
* C198 (`Props/Decoupled`, `Props/DecoupledConverge`): the rule of independent coordinates (C114) factors the predicted and the posterior moments, by induction over the measurements; Gram matrices from C126; convergence from C133 in each coordinate and Fubini's theorem for the exact posterior.
* C199 (`Model/RuleFigure2`, `Props/RuleFigure2`): marks by filtering lists; weights sum to one by C22; exactness by C21, C66 and C85 with Gram matrices from C143; nodes in a box by C140; the total weight at a point of the box rule factors by the rule of independent coordinates (C198) into the Gauss–Legendre weights of C191.
* C200 (`Model/CramerRao`, `Props/CramerRaoScript`): derivatives of the mixture density give the Hessian through the probabilities of the components given the point; integrals against these probabilities are integrals over the components, which gives the expectation; strong law of large numbers; Cauchy–Schwarz for the comparison with the covariance; for the prey–predator law the inequality `u exp(-u/4) < 1 + 4 exp(-u/4)`.
* C201 (`Model/NdArray`, `Props/NdArray`): arrays with shapes; `transpose`, gather and `diagonal` are modelled one by one, and the indices are a bijection with the tuples (C19).
* C202 (`Model/JobFiles`, `Lemmas/JobFiles`, `Props/JobFiles`): the shell scripts and the Python scripts they call are programs on a store of file names; a Python script stops at the first file that is missing, the shell script goes on, `rm` removes by prefix. Names are lists of characters with decimal numbers (injective), so that `pf.npz` and `pf_10000.npz` differ and `rm pf_10000_mc_*` does not touch `pf_100000.npz` for a reason. Jobs run in any order but not interleaved; array shapes are not modelled (with more than 1000 runs in the Benes–Bernoulli scripts the files exist, but `compute_errs.py` subtracts arrays of different lengths).
* C203 (`Lemmas/StepPoly`, `Props/RuleCdf`): `momentQuadrature` as in C157. Polynomials `U nodes(B) = 1 - V nodes(A)` with value one on `A` and zero on `B` are built by the recursion of Neville and Aitken, which keeps the signs of `U` to the right of `A` and of `V` to the left of `B`; with every node but one doubled they lie above or below the step function, have degree `2 n - 2`, and the rule integrates them exactly.
* C204 (`Lemmas/LanczosBreak`, `Props/LanczosBreak`): `lanczos` and `lanczosRitz` as in C57 and C58. The Lanczos vectors lie in the spans of the Krylov vectors, and if the residual vanishes the span of the vectors found is invariant, so dimensions decide; for `m = n` the eigenbasis and the Vandermonde determinant. In the model a division by zero gives zero, so the statements are about the denominators returned; in floating point the entry is `0 / 0`.
* C205 (`Lemmas/Polya`, `Props/RuleCdfLimit`): `momentQuadrature` as in C191, whose convergence of integrals of continuous functions is turned into convergence of distribution functions; monotone functions that converge pointwise to a continuous distribution function converge uniformly. The hypotheses are met by every normal law (`C205_normal`).
* C206 (`Model/Trajectory`, `Spec/PathKernel`, `Lemmas/SmoothBounded`, `Lemmas/BenesSemigroup`, `Lemmas/WeakPaths`, `Lemmas/WeakPathLaw`, `Props/SimulateBenes`): `simulate_trajectory` as a call of the `simulateSde` of C60, with the normal increments as independent standard normal variables. The reference law is the Markov chain of the exact transition kernel of C153, whose Chapman–Kolmogorov equation is proved. Weak error of one step by Taylor expansion, accumulated over the steps; trigonometric products determine convergence of laws on path space. `C206_keys` (`Props/SimulateKeys`) is the version with the keys, for an ideal generator. Not covered: rounding.
* C207 (`Lemmas/PathLaw`, `Props/SimulateLinear`): `simulateSde` of C60 with the moments of `discretiseLtiSde` of C54. The law of the states driven by independent draws is computed step by step; the sum of independent normal vectors by characteristic functions; the semigroup equations of C54 then give the transition over `dt`. `C207_keys` replaces the increments by the draws of an ideal generator from a random key, with the row-major index of the `T × integration_steps × d` array. Not covered: a singular step covariance (the Cholesky routine has no contract there), `diagonal_cov=True` (C60), rounding.
* C208 (`Spec/ProperScore`, `Props/ProperScore`): the filters of C26 and C35. `ProperScore` is stated for any law of the data: Gibbs' inequality with its case of equality, and Markov's inequality for the likelihood ratio. It follows from the normalisation of the likelihoods (C99, C138); the limit uses the convergence of the filters (C133, C154). `C208_benes` also proves that the exact likelihoods of the continuous-time model sum to one. Measurements with a density are the subject of C211. Not covered: the optimiser of the estimation scripts.
* C209 (`Spec/ProperScore`, `Props/KalmanScore`): `kf` of C67 with one-dimensional measurements. `DensityScore` is the analogue of `ProperScore` for densities: the negative part of the expectation is bounded by one, so the inequality needs no integrability; only the case of equality does. The likelihood is the product of the predictive densities (C105), each of which integrates to one. Not covered: vector measurements (C68).
* C210 (`Props/EkfScore`): `ekf` with one-dimensional measurements. Its covariances stay positive semidefinite, so every step has a normal predictive density that is continuous in the belief and the measurement; the product along the measurements integrates to one by Tonelli, last measurement first. Continuity of the model functions and of their Jacobians is assumed, for measurability. Not covered: `cd_ekf` (its Runge–Kutta covariances are not shown to stay positive semidefinite for nonlinear drifts), the sigma-point filters.
* C211 (`Props/MomentScore`): the filters of C26. Positive measurement densities keep the moments valid (C126), so the likelihood is continuous in the measurements (C155), hence measurable, and the predictive densities, which are averages of the measurement density over the nodes, integrate to one step by step. The scaled-moment filter needs at least four moments, as in C126. Not covered: the multidimensional filters, whose weights may be negative (C113).
* C212 (`Props/SgpPosDef`): the posterior covariance as a quadratic form is the weighted variance of a combination of sigma points and propagated points plus a noise term, which is nonnegative and vanishes only at zero. The same argument covers the smoother gain. Not covered: rules with negative weights, `cd_sgp_filter` (a Runge–Kutta step need not keep definiteness), degenerate transition noise.
* C213 (`Props/SgpScore`): on the open set of positive definite covariances (kept by C212) prediction and update are continuous, because the Cholesky factor is, and each predictive density integrates to one. In more than one measurement dimension `_log_mvn_pdf` is a normalised Gaussian density with the wrong covariance (C69), so the likelihood is still normalised, but it is not the Gaussian density with the innovation covariance. Not covered: rules with negative weights, `cd_sgp_filter`.
* C214 (`Props/EkfPosDef`): each filtering covariance is at most the covariance predicted from the step before, so backwards by induction each smoothing covariance is at most the filtering one; definiteness is the Joseph form for `eks` and C212 for the sigma points. Not covered: `ekf` with measurements of higher dimension, whose update is wrong (C68), the continuous-discrete filters.
* C215 (`Props/SgpRule`): every use of the rule in prediction, update and moment equations is an integral, except `evals_Xi[0]` under `const_measurement_cov`, which is treated apart. Exact arithmetic: in floating point the order of summation shows in the last digits.
* C216 (`Props/GaussianResume`): the counterpart of C28 for the Gaussian filters, from the scan, with the negative log-likelihood as an accumulator; the smoothers are reverse scans. No assumption on the model or the backend.
* C217 (`Props/MeasUnits`): the gain is divided by the unit and the innovation multiplied by it; for `sgp_filter` the Cholesky factor of the rescaled innovation covariance is the rescaled factor by uniqueness, which needs the contract of `cholesky`. Positive definiteness of the predicted covariances is from C212. For `cd_ekf` (`Props/MeasUnitsVector`) only the means and covariances, but without any condition on the model. `kf` with vector measurements is C218. `C217_sgp_mix` (`Props/MeasMix`): invertible linear combinations of the measurements in `sgp_filter`, means and covariances only (the likelihood is wrong for correlated components, C69).
* C218 (`Props/MeasUnitsVector`): false. From the gain computed in C68 (`linearGain_vector`): it is the same in all units. `C218_kf_vector_units_wrong` is for every model with `H ≠ 0`, not one counterexample; `C218_kf_vector_units_partial` says what does hold and what the reported mean and covariance become.
* C122, C123 (`Props/ExperimentCf`): false; refuted, with the true cases kept as `_partial`.

**Moments** (`Props/Moments1`, `Props/MomentsND`, `Props/Cumulants`)
* C39, C42, C47: integrals against Mathlib's `gaussianReal`. C40, C41: binomial inversion. C43: false; value and exact condition.
* C44, C45, C53: formal power series (exponential and logarithm), Bell polynomials. C46, C88: finite sums of unit complex numbers.
* C63, C95: the generating function; Kan's formula by polarisation of powers of linear forms; C64: interval integrals;
  C65, C66 from them; C96: linearity.
* C102, C103 (`Props/GaussianSum`): densities of Mathlib's `gaussianReal` and `multivariateGaussian` (`Lemmas/GaussDensity`);
  the samplers as push-forwards of a categorical law and a standard normal law.

**PDF approximations** (`Props/GramCharlier`, `Props/Pdf`)
* C48, C49: `Polynomial.hermite`, orthogonality, generating series. C50: Legendre orthogonality. C51, C52: false;
  counterexamples, exact values and the cases that hold. C89: symmetry of trapezoidal sums.

**Utilities** (`Props/Utils`, `Props/Lti`, `Props/Ldl`, `Props/Lanczos`, `Props/Pcrlb`)
* C54: calculus of the matrix exponential (Van Loan block). C55, C56: column induction. C57, C58: three-term recurrence with the
  re-orthogonalisation used in the code. C59: Woodbury identity; Hessians of quadratic log densities. C60–C62: direct.

**Classical filters** (`Props/Kalman`, `Props/GaussianEquiv`, `Props/SigmaPoints`)
* C67, C70: completing the square, Schur complements. C68, C69: false for `dy > 1`; counterexamples and what the code computes.
* C71: sums over sigma points of quadratics. C72–C74: moments of the rules; C74 uses Lagrange interpolation at roots of Hermite
  polynomials, whose existence is proved. C75, C84: algebra of the Runge–Kutta step.
* C105, C106 (`Props/KalmanExact`): the specification is the joint density of states and measurements (`Spec/LinGauss`), written
  without filter quantities; hidden paths are integrated out by Tonelli, one state at a time, with the Chapman–Kolmogorov identity of
  normal densities and the Bayes identity of `Lemmas/Kalman`.

**Particle and grid methods** (`Props/Resampling`, `Props/Smc`, `Props/BruteForce`, `Props/SsModels`)
* C76–C79, C90: order arguments on cumulative sums; integrals over the draws. C77, C78: false for a draw equal to `0`.
* C80, C91: induction over the scan. C81, C92, C93: trapezoidal sums and finite differences. C82: false for strings containing
  `chapman`. C83, C94, C104: real analysis.
* C107 (`Props/SmcUnbiased`): `Spec/Markov` defines the likelihood of a measurement sequence by integrating a transition kernel;
  induction on the sequence, integrating out one key at a time. Keys are idealised. The hypotheses say that the initial cloud and
  the keys from `split` are independent, and that a key's transition draw is independent of the key derived from it for the
  resampler. In the code these are the outputs of a pseudo-random generator, and `bootstrap_filter` passes one and the same
  key to `init_sampler` and to `split`; independence is therefore an assumption, not a fact about the code.
* C124 (`Props/Multinomial`, `Lemmas/OrderStat`): normalised partial sums of `n + 1` exponentials integrate symmetric functions as
  `n` independent uniforms do (induction on `n`, then summing over the orderings). The draws are uniform on `[0, 1)`. A draw `0`
  gives `log 0`, which is `-inf` in the code and `0` in Lean; this has measure zero and does not enter the integrals.

Not expressible here, hence no property: floating-point accuracy and stability claims, almost sure statements
about the pseudo-random generator (C90, C107, C124, C147, C148 integrate over ideal draws), run time, `jit` behaviour, and the content of plots.

## Disagreements between code and documentation found while modelling

Each line names the code and, where there is one, the theorem that proves it.

1. `one_dim/moments.py:205,243`: scaled central transition moments divide by `prod(scale**arange(2N))` instead of `scale**n`
   (`C43_scaled_wrong`, `C43_scaled_value`).
2. `gfs.py:50`: `triangular_solve(chol, x-mu)` uses the defaults `left_side=False, lower=False`, which read only the upper
   triangle of a lower-triangular factor, i.e. its diagonal (`C69_log_mvn_wrong`, `C69_log_mvn_value`).
3. `gfs.py:78`: the same call computes the Kalman gain for `dy > 1`: shape error unless `dx = dy`, wrong value otherwise
   (`C68_kf_vector_wrong`, `C68_kf_vector_shape`).
4. `multi_dims/quadratures.py:113`: `meshgrid(...).reshape(-1, d)` is not the Cartesian product (`C20_legacy_product_wrong`).
5. `pdf_approximations.py:186`: the saddle-point polynomial's *coefficients* are passed where its roots are expected
   (`C52_saddle_wrong`). The polynomial itself is right (`C52_polynomial_roots`), and with its roots the method would be (`C52_repaired`).
   For symmetric moments the returned function is constant on a half-line and not integrable (C184).
6. `pdf_approximations.py:127-132`: no change of variable of the moments for `(a, b) ≠ (-1, 1)` (`C51_legendre_wrong`).
7. `resampling.py:49`: `searchsorted` (left) with a draw `u = 0` (possible for `jax.random.uniform`) selects particle 0 even if
   its weight is 0 (`C78_zero_weight_refuted`), and breaks the floor/ceil counts (`C77_systematic_refuted`).
   `multinomial` with a zero draw takes `log 0`.
8. `utils.py:538`: zero pivots are not repaired (`d < 0` rather than `d <= 0`), so the factor may be singular
   (`C56_ldl_chol` states exactly when).
9. `one_dim/filtering.py:224`, `multi_dims/filtering.py:189`: the predicted scale omits the variance of the conditional means
   (`C33_predicted_scale_wrong`, `C33_predicted_scale_relation`). The filters remain correct (C27, C36) because the scale is only a
   change of variable.
10. `brute_force.py:69-78,126-131`: strings containing `chapman` that are not documented end in `NameError` or `ValueError`, and some
    (`my-chapman-tme-2`) are accepted (`C82_unknown_method_refuted`).
11. `one_dim/moments.py:31-38`: `central_moment_of_normal(v, 0)` relies on `factorial2(-1) = 1`, which newer SciPy versions do
    not give (part of `C39_normal_moments`).
12. `one_dim/moments.py:297-304`: the first cumulant ignores `s_1` (`C44_first_cumulant_ignores_s1`).
13. `utils.py:190-249`: `simulate_sde` with a singular covariance and `diagonal_cov=False` takes a Cholesky factor that does not exist.
14. `classical_filters_smoothers/quadratures.py:111-134`: `_gen_hermite_poly_coeff(0)` returns two polynomials; coefficients are
    fixed-width integers and overflow for large orders.
15. `dardel/parameter_estimation/ghf_ekf.py:92`: the run labelled GHF optimises `obj_func_ekf` (`C122_ghf_estimate_wrong`). With
    `--euler`, the discretisation uses the global `dt` instead of its argument.
16. `dardel/convergence/convergence_mf.py`: local one-argument wrappers shadow the imported filters that they call (`TypeError`).
17. `utils.py`: `np.math.factorial` no longer exists in recent NumPy.
18. `moment_quadrature_nd` can return negative weights for a genuine law, and `moment_filter_nd_rms` then negative predictive
    likelihoods (`nell` becomes `nan`) and negative posterior second moments (C113).
    Process noise does not help: a prediction with a negative second moment from a valid law (`C127_nd_noise_refuted`).
19. `examples/benes_bernoulli.ipynb` (cell 6): the Euler–Maruyama conditional variance lacks the factor `dt`
    (`C123_notebook_euler_wrong`).
20. `reproduce_paper_plots/plot_convergence.py` loads `pf.npz`, while the post-processing writes `pf_{nparticles}.npz`;
    `plot_benes_bernoulli_estimation.py` swaps the labels of real and imaginary parts. The particle-filter scripts use the key that
    generated the measurements again for the filter.
21. `sde_cond_moments_tme` does not return the moments of a law once `N ≥ tme_order + 2`, and the filters can then factorise an indefinite
    matrix (`C130_tme_valid_refuted`); `plot_benes_bernoulli_estimation.py` offers this with `N = 15` and order 3.
22. Forward-mode gradients of `moment_quadrature_nd` divide by zero wherever a coordinate takes the same value at two nodes, which happens for
    a pair of independent standard normal variables and `N ≥ 3`, and for independent coordinates in three or more dimensions (`C173_nd_jvp_refuted`,
    `C173_nd_jvp_refuted_two`, `C173_nd_jvp_refuted_three`); the rule itself is differentiable there.
23. The docstring of `bootstrap_filter` says that `conti_resampling` is for giving the correct gradients. It makes the likelihood continuous
    in the parameters (C175) but not differentiable everywhere (`C175_script_not_differentiable`); without it the objective that the script
    hands to L-BFGS-B is not even continuous (`C175_script_stratified_refuted`).
24. `sde_cond_moments_tme_normal` does not guard against a negative expanded variance. For the double-well model with the order two of `dardel/parameter_estimation/mf.py`
    all moments from order one on are NaN at states with `3 p x² > 1 + 1 / dt`, and the objective is NaN for all large first parameters (C177), while it is finite everywhere
    with `--euler` (C172).
25. `convergence_pf.py` saves Kullback–Leibler errors, and the post-processing packs them over Monte Carlo runs. The particles coincide with positive
    probability, so for every number of particles the error is infinite with positive probability and has an infinite mean: an average over the runs
    means nothing (C180). The plots load these errors but draw only the errors of means and variances.
26. `smc.py:80-81`: `bootstrap_filter` uses the key it is given for the initial sampler and again for the split over the measurements, and the samplers
    of `utils.py` split that key themselves. When the two splits share their first key, the initial draws and the first transition noise are the
    same numbers (C159, C160), and the filter converges to the wrong laws as the number of particles grows (C182).
27. The text of `examples/2d_bearing_only.ipynb` gives the measurement as `arctan(X2 / X1)`, the code uses `arctan2`. They differ by π in the left half plane (C194).
28. `dardel/time_profile/mf.py` repeats a run with other data when the moment filter returns a NaN; `ghf.py` and `pf.py` do not. The times in the figure are then for different data, those of the moment filter only for data on which it works (C195). In `dardel/prey_predator/` a repeated simulation may reuse a key of the rejected one (C195).
29. `plot_prey_predator_errs.py` averages each filter over the runs in which that filter has no NaN. The order of two curves can be the opposite of the order of the errors in every run in which both filters work (C196). The printed standard deviation includes the variation of the averages over time.
30. In `plot_benes_bernoulli_errs_and_times.py` the band of the moment filter is between quantiles of run averages, the bands of the other filters are between quantiles of all single errors; the widths are not comparable. A band need not contain its curve, and the lower end of the band of the times can be negative on the logarithmic axis (C197).
31. In `plot_quadrature_rules_2d.py` the uniform panel draws a node whose normalised weight is not zero but below `1e-8` twice, as a round mark or cross and as a triangle (C199); in exact arithmetic the extra nodes carry total weight zero at each point.
32. `dardel/prey_predator/cramer_rao.py`: `j0` from finitely many samples need not be positive semidefinite for a general Gaussian sum (it is for the initial law of the model), and single measurements can contribute negative information (C200). `m_and_cov` ignores its second argument.
33. `nd_cartesian_prod` is documented as `(d, n, ...) -> (n ** d, ..., d)`. With three axes it combines the last axis, not the second: the result has shape `(n ** d, n, d)` and holds columns. Its only caller passes square matrices of eigenvectors in columns and is right (C201).
34. `plot_convergence.py:65` loads `pf.npz`, which no script writes (`convergence_pf_post_processing.py:26` writes `pf_10000.npz` and `pf_100000.npz`). `plot_prey_predator_errs.py` loads results for `N = 7`, which `run_all.sh` does not compute; with the replacement named in its comment the results for `N = 5` are missing. `run_benes_bernoulli_ghf_pf.sh:49,63` calls the post-processing without `--maxmc`, so other numbers of runs than 1000, which the README invites, do not work (C202).
35. The docstring of `lanczos` (`mfs/utils.py:351-370`) allows an arbitrary unit vector, for example `[1, 0, 0, ...]`, and calls the factorisation precise for `m = n`; for the identity matrix, and for every matrix with a repeated eigenvalue, it divides by zero whatever the vector (C204).
36. With `n ≥ 2` measurements of `n` states the result of `kf` depends on the units of the measurements, and in large enough units the reported covariance is not positive semidefinite (C218; a consequence of the triangular solve of C68).
