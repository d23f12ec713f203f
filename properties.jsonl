{"id": "C01", "title": "Incremental conditioning equals batch conditioning", "statement": "Conditioning a Gaussian process on observation batches one after another through condition_on_observations yields exactly the same posterior mean function and posterior covariance function as conditioning the prior once on the stacked vector of all observations with the joint Gram matrix and block-diagonal noise covariance.", "quantifier": "every prior mean and covariance function, every finite sequence of observation batches of every size (point evaluations or other linear functionals, with or without noise), every evaluation point, whenever the joint Gram matrix is positive definite", "why_tests_cant": "Tests condition two or three times on one kernel; the recursion nests block matrices to arbitrary depth and the claim is about every history length and every batch size.", "anchors": ["src/linpde_gp/randprocs/_gaussian_process/_conditional.py:ConditionalGaussianProcess.from_observations", "src/linpde_gp/randprocs/_gaussian_process/_conditional.py:ConditionalGaussianProcess.condition_on_observations", "src/linpde_gp/linops/_block.py:BlockMatrix2x2.schur_update"]}
{"id": "C02", "title": "Posterior does not depend on the order of observations", "statement": "Permuting the sequence in which observation batches are passed to condition_on_observations leaves the posterior mean and covariance functions unchanged.", "quantifier": "every prior, every list of batches and every permutation of it", "why_tests_cant": "There are n! orders for n batches and infinitely many data sets; a test samples one or two swaps.", "anchors": ["src/linpde_gp/randprocs/_gaussian_process/_conditional.py:ConditionalGaussianProcess.condition_on_observations"]}
{"id": "C03", "title": "Noise-free observations are reproduced exactly", "statement": "If a batch was observed without noise, then applying its measurement functional to the posterior returns exactly the observed values as mean and a zero covariance, and it stays so after any later conditioning.", "quantifier": "every prior, every history containing a noise-free batch at any position, every batch size", "why_tests_cant": "It must hold for each member of each history, including batches observed before or after noisy ones.", "anchors": ["src/linpde_gp/randprocs/_gaussian_process/_conditional.py:ConditionalGaussianProcess", "src/linpde_gp/randprocs/_gaussian_process/_conditional.py:LinearFunctional.__call__(ConditionalGaussianProcess)"]}
{"id": "C04", "title": "Conditioning never increases uncertainty", "statement": "The posterior covariance evaluated on any finite set of points is positive semidefinite, bounded above by the prior covariance in the Loewner order, and each further conditioning step can only lower it; every posterior variance lies between zero and the prior variance.", "quantifier": "every positive semidefinite prior kernel, every history, every finite set of evaluation points", "why_tests_cant": "The order statement quantifies over all quadratic forms and all histories.", "anchors": ["src/linpde_gp/randprocs/_gaussian_process/_conditional.py:ConditionalGaussianProcess.CovarianceFunction"]}
{"id": "C05", "title": "Linear functionals and operators commute with conditioning", "statement": "Applying a linear functional or linear function operator to a conditioned process gives the same mean and covariance as applying it to the posterior mean and to both arguments of the posterior covariance function; further conditioning after applying an operator stays consistent.", "quantifier": "every linear functional / operator, every prior and every history", "why_tests_cant": "Quantifies over all linear maps, not over the few differential operators that tests instantiate.", "anchors": ["src/linpde_gp/randprocs/_gaussian_process/_conditional.py:LinearFunctional.__call__(ConditionalGaussianProcess)", "src/linpde_gp/randprocs/_gaussian_process/_conditional.py:LinearFunctionOperator.__call__(ConditionalGaussianProcess)"]}
{"id": "C06", "title": "Cached representer weights agree with recomputation", "statement": "The representer weights carried through incremental updates always equal the weights that the process would compute lazily from its stored observations, functionals, noise models and Gram matrix.", "quantifier": "every history of conditioning steps", "why_tests_cant": "A state invariant over histories of unbounded length.", "anchors": ["src/linpde_gp/randprocs/_gaussian_process/_conditional.py:ConditionalGaussianProcess.representer_weights", "src/linpde_gp/linops/_block.py:BlockMatrix2x2.schur_update"]}
{"id": "C07", "title": "Observation arguments are validated completely", "statement": "condition_on_observations accepts exactly the documented argument combinations: X with no operator, an operator together with X, a functional without X; the noise model must be a Normal or Constant of the functional's output shape and Y must have the functional's output shape; every other combination raises the documented exception and nothing is computed from mismatched shapes.", "quantifier": "every combination of L, X, b and Y (kinds and shapes of every dimension)", "why_tests_cant": "The decision table is over unbounded shapes; tests check a few rejections.", "anchors": ["src/linpde_gp/randprocs/_gaussian_process/_conditional.py:ConditionalGaussianProcess._preprocess_observations"]}
{"id": "C08", "title": "NumPy and JAX evaluation of the posterior covariance agree, also for vector-valued processes", "statement": "Evaluating the posterior covariance function through the NumPy path, the JAX path or the linear-operator path returns the same numbers: prior covariance minus cross-covariance times inverse Gram times cross-covariance, for scalar and for vector-valued processes.", "quantifier": "every posterior, every pair of evaluation points, every number of outputs and observations", "why_tests_cant": "The paths agree in special cases (one observation or one output), which is what small tests exercise.", "anchors": ["src/linpde_gp/randprocs/_gaussian_process/_conditional.py:ConditionalGaussianProcess.CovarianceFunction._evaluate", "src/linpde_gp/randprocs/_gaussian_process/_conditional.py:ConditionalGaussianProcess.CovarianceFunction._evaluate_jax", "src/linpde_gp/randprocs/_gaussian_process/_conditional.py:ConditionalGaussianProcess.CovarianceFunction._evaluate_linop"]}
{"id": "C09", "title": "Conditioning a Normal random variable is Bayes' rule", "statement": "condition_normal_on_observations returns the mean and covariance of the Gaussian posterior: the information-form identities (prior precision plus A' noise-precision A) hold, and the mean minimises the corresponding quadratic loss.", "quantifier": "every prior mean/covariance, every observation matrix and vector, every noise model with invertible predictive covariance", "why_tests_cant": "A matrix identity for all dimensions and all real inputs.", "anchors": ["src/linpde_gp/randvars/_normal.py:condition_normal_on_observations"]}
{"id": "C10", "title": "Block operators act as the assembled dense matrix", "statement": "A BlockMatrix built from any rectangular grid of compatible blocks multiplies vectors and matrices, transposes and densifies exactly like the dense matrix obtained by gluing the blocks together; incompatible block shapes are rejected.", "quantifier": "every grid size, every list of block heights and widths, every vector", "why_tests_cant": "Grid and block sizes are unbounded.", "anchors": ["src/linpde_gp/linops/_block.py:BlockMatrix"]}
{"id": "C11", "title": "Block 2x2 solve returns the solution in every structural branch", "statement": "BlockMatrix2x2.solve(b) returns the x with M x = b whichever of the block-diagonal, symmetric, lower-triangular, upper-triangular or general branches is taken, and regardless of the block_triangular_solves setting.", "quantifier": "every block size, all real blocks satisfying the branch's structural promise, every right-hand side", "why_tests_cant": "Quantifies over all matrices and over all five code paths and both settings.", "anchors": ["src/linpde_gp/linops/_block.py:BlockMatrix2x2._solve"]}
{"id": "C12", "title": "Schur update extends a solution", "statement": "schur_update(A_inv_u, v) equals M^{-1} applied to the stacked vector (u, v) in block-diagonal, symmetric and general mode.", "quantifier": "every block size, all blocks with invertible A and invertible Schur complement, all u and v", "why_tests_cant": "Matrix identity over all dimensions.", "anchors": ["src/linpde_gp/linops/_block.py:BlockMatrix2x2.schur_update", "src/linpde_gp/linops/_block.py:BlockMatrix2x2.schur"]}
{"id": "C13", "title": "Block Cholesky is a Cholesky factor", "statement": "For a symmetric positive definite block matrix, cholesky(lower=True) returns a block lower triangular L with L L' = M and cholesky(lower=False) an upper triangular U with U' U = M; recursively for nested blocks.", "quantifier": "every SPD block matrix of every size, given Cholesky factors of the diagonal block and of the Schur complement", "why_tests_cant": "Matrix identity for all dimensions and nesting depths.", "anchors": ["src/linpde_gp/linops/_block.py:BlockMatrix2x2._cholesky"]}
{"id": "C14", "title": "Block determinant and trace", "statement": "det and trace of a BlockMatrix2x2 equal the determinant and trace of the dense matrix in every structural branch.", "quantifier": "every block size and all entries", "why_tests_cant": "Matrix identity for all dimensions.", "anchors": ["src/linpde_gp/linops/_block.py:BlockMatrix2x2._det", "src/linpde_gp/linops/_block.py:BlockMatrix2x2._trace"]}
{"id": "C15", "title": "Concatenated operators stack their parts", "statement": "A ConcatenatedLinearOperator along rows or columns acts as the vertically or horizontally stacked dense matrices, its transpose is the concatenation of the transposes along the other axis, and invalid axes or mismatched shapes are rejected.", "quantifier": "every number of operators, all sizes, every vector and every axis value", "why_tests_cant": "Unbounded list of operators.", "anchors": ["src/linpde_gp/linops/_concatenated.py:ConcatenatedLinearOperator"]}
{"id": "C16", "title": "Polynomial arithmetic is ring arithmetic", "statement": "Adding, subtracting, negating, scaling and multiplying polynomials (with polynomials, constants and monomials) yields the polynomial of the corresponding ring operation, for float and exact rational polynomials of any (different) lengths.", "quantifier": "all coefficient tuples of every length", "why_tests_cant": "Coefficient tuples have unbounded length; zip_longest padding and convolution bounds are easy to get wrong at boundary lengths.", "anchors": ["src/linpde_gp/functions/_polynomial.py:Polynomial", "src/linpde_gp/functions/_polynomial.py:RationalPolynomial"]}
{"id": "C17", "title": "Polynomial calculus", "statement": "differentiate returns the derivative, integrate an antiderivative vanishing at 0, differentiate undoes integrate, and both are valid pointwise as real derivatives.", "quantifier": "all coefficient tuples, all evaluation points", "why_tests_cant": "Infinite family of polynomials.", "anchors": ["src/linpde_gp/functions/_polynomial.py:Polynomial.differentiate", "src/linpde_gp/functions/_polynomial.py:Polynomial.integrate"]}
{"id": "C18", "title": "Polynomial division", "statement": "divmod(p, d) returns (q, r) with p = q d + r and r of lower degree than d whenever d's leading coefficient is nonzero; floor division by a monomial succeeds exactly if the monomial divides p and then returns the exact quotient, otherwise it raises.", "quantifier": "all dividends and divisors", "why_tests_cant": "Euclidean division is a loop over unbounded degrees.", "anchors": ["src/linpde_gp/functions/_polynomial.py:RationalPolynomial.__divmod__", "src/linpde_gp/functions/_polynomial.py:Polynomial.__floordiv__", "src/linpde_gp/functions/_polynomial.py:RationalPolynomial.__floordiv__"]}
{"id": "C19", "title": "Polynomial evaluation is exact", "statement": "Evaluating a polynomial by the Horner loop gives sum c_i x^i.", "quantifier": "all coefficient tuples and points", "why_tests_cant": "Loop over unbounded degree.", "anchors": ["src/linpde_gp/functions/_polynomial.py:Polynomial._evaluate"]}
{"id": "C20", "title": "Piecewise functions evaluate the right piece", "statement": "A piecewise function evaluates at every point of its domain to the piece whose interval contains the point (first interval closed, later ones left-open) and to zero outside; piecewise linear functions built from points interpolate all the points and are affine in between; the constant variant agrees with the general one.", "quantifier": "every strictly increasing breakpoint list, every list of pieces, every point including breakpoints and both ends", "why_tests_cant": "Breakpoint lists are unbounded and the interesting points have measure zero.", "anchors": ["src/linpde_gp/functions/_piecewise.py:Piecewise._evaluate", "src/linpde_gp/functions/_piecewise.py:PiecewiseLinear.from_points", "src/linpde_gp/functions/_piecewise.py:PiecewiseConstant._evaluate"]}
{"id": "C21", "title": "Integral of a piecewise function", "statement": "The Lebesgue integral functional over [a, b] applied to a piecewise polynomial equals the integral of that function over [a, b].", "quantifier": "every breakpoint list, pieces and interval [a,b] inside the domain", "why_tests_cant": "The answer depends on how a and b fall relative to unboundedly many breakpoints.", "anchors": ["src/linpde_gp/functions/_linfunctls.py"]}
{"id": "C22", "title": "Wendland kernels have the advertised shape", "statement": "The Wendland covariance function of smoothness k in dimension d is the k-fold integral transform of (1-r)^l with l = floor(d/2)+k+1, normalised to 1 at 0, nonnegative and nonincreasing on [0,1], zero outside, with 2k continuous derivatives vanishing at r = 1, symmetric and bounded by 1.", "quantifier": "every d and k, every pair of points", "why_tests_cant": "Family indexed by two unbounded naturals.", "anchors": ["src/linpde_gp/randprocs/covfuncs/_wendland.py"]}
{"id": "C23", "title": "Matérn derivative polynomials", "statement": "half_integer_matern_derivative_polynomial(p, n) is the polynomial P with P(r) exp(-r) equal to the n-th derivative of the half-integer Matérn profile of order p, and the divisions by r and r^2 used for derivative kernels are exact precisely for the smoothness orders for which those kernels exist.", "quantifier": "every half-integer order p and derivative order n", "why_tests_cant": "Unbounded p and n.", "anchors": ["src/linpde_gp/randprocs/covfuncs/linfuncops/diffops/_matern.py:half_integer_matern_derivative_polynomial"]}
{"id": "C24", "title": "Matérn derivative kernels are the true derivatives", "statement": "Directional derivatives and weighted Laplacians applied to either or both arguments of a half-integer Matérn covariance function evaluate to the mathematical derivatives of the kernel, with the right sign for the argument position, also on the diagonal.", "quantifier": "every half-integer order that is smooth enough, every dimension, lengthscale(s), direction(s), weights and every pair of points", "why_tests_cant": "Real-analysis statement about all points including the non-generic diagonal.", "anchors": ["src/linpde_gp/randprocs/covfuncs/linfuncops/diffops/_matern.py", "src/linpde_gp/randprocs/covfuncs/linfuncops/diffops/_registry.py"]}
{"id": "C25", "title": "Evaluating a derivative kernel has no side effects", "statement": "Evaluating a differentiated Matérn covariance function any number of times returns the same value each time and does not change the value of the underlying Matérn kernel.", "quantifier": "every sequence of evaluations, every direction and lengthscales (scalar and per-dimension)", "why_tests_cant": "A statement about histories; a test evaluates once.", "anchors": ["src/linpde_gp/randprocs/covfuncs/linfuncops/diffops/_matern.py:HalfIntegerMatern_Identity_DirectionalDerivative._scaled_direction", "src/linpde_gp/randprocs/covfuncs/linfuncops/diffops/_matern.py:HalfIntegerMatern_DirectionalDerivative_DirectionalDerivative"]}
{"id": "C26", "title": "Integrals of Matérn kernels in closed form", "statement": "The closed-form covariance of an integral of a half-integer Matérn process with a point value, and of two such integrals, equal the single and double integral of the kernel.", "quantifier": "every order p, lengthscale, every interval and every point inside or outside of it", "why_tests_cant": "Identity between integrals for all real parameters.", "anchors": ["src/linpde_gp/randprocs/crosscov/linfunctls/integrals/_matern_lebesgue.py", "src/linpde_gp/randprocs/crosscov/linfunctls/integrals/_radial_lebesgue.py"]}
{"id": "C27", "title": "Squared-exponential derivative kernels are the true derivatives", "statement": "Directional derivatives and weighted Laplacians applied to either or both arguments of the squared-exponential covariance function evaluate to the mathematical derivatives of the kernel; applying the two operators in either order gives the same kernel.", "quantifier": "every dimension, lengthscales, directions, weights, and pairs of points", "why_tests_cant": "Real-analysis statement about all inputs.", "anchors": ["src/linpde_gp/randprocs/covfuncs/linfuncops/diffops/_expquad.py", "src/linpde_gp/randprocs/covfuncs/linfuncops/diffops/_registry.py"]}
{"id": "C28", "title": "Tensor-product kernels factorise", "statement": "A tensor-product covariance function evaluates to the product of its factors over dimensions, its linear operator on a tensor-product grid is the Kronecker product and equals the dense kernel matrix in the grid's point order, and applying a differential operator to it equals the sum over terms of products of differentiated factors.", "quantifier": "every number of factors, every grid, every coefficient list", "why_tests_cant": "Unbounded number of dimensions and grid sizes.", "anchors": ["src/linpde_gp/randprocs/covfuncs/_tensor_product.py", "src/linpde_gp/randprocs/covfuncs/linfuncops/diffops/_tensor_product.py"]}
{"id": "C29", "title": "Operator application is linear in the kernel", "statement": "Applying a linear function operator or functional to a scaled, summed, stacked, independent-multi-output or zero covariance function, in either argument, equals the scaled, summed, stacked ... result of applying it to the parts.", "quantifier": "every expression tree of kernels, every operator and argument position", "why_tests_cant": "Expression trees are unbounded.", "anchors": ["src/linpde_gp/randprocs/covfuncs/linfuncops/_registry.py", "src/linpde_gp/randprocs/covfuncs/linfunctls/_registry.py"]}
{"id": "C30", "title": "Galerkin kernel decorrelates projection and remainder", "statement": "The Galerkin covariance function of a kernel k and a projection P is the covariance of the projected part plus that of the remainder, P k P* + (I-P) k (I-P)*, with no cross terms; it is symmetric and positive semidefinite when k is, the projection of the process has the same covariance as under k, and projection and remainder are uncorrelated.", "quantifier": "every kernel and every projection given by a basis and its coordinate functional", "why_tests_cant": "Quantifies over all kernels and projections.", "anchors": ["src/linpde_gp/randprocs/covfuncs/_galerkin.py:GalerkinCovarianceFunction"]}
{"id": "C31", "title": "Coefficient arithmetic denotes operator arithmetic", "statement": "Adding, negating, subtracting and scaling partial-derivative coefficient tables yields the table of the corresponding operator, i.e. applying the resulting differential operator equals the sum / negative / difference / multiple of applying the operands; merging tables never loses or duplicates entries.", "quantifier": "all coefficient tables over all codomain indices and multi-indices, all functions they are applied to", "why_tests_cant": "Tables are unbounded finite maps.", "anchors": ["src/linpde_gp/linfuncops/diffops/_coefficients.py:PartialDerivativeCoefficients"]}
{"id": "C32", "title": "Named differential operators have the right symbol", "statement": "Laplacian, WeightedLaplacian, SpatialLaplacian, TimeDerivative, HeatOperator, DirectionalDerivative and PartialDerivative denote exactly sum_i d_i^2, sum_i w_i d_i^2, the spatial part, d_t, d_t - alpha*Laplace_x, sum_i v_i d_i and d^alpha, for every domain dimension; invalid domain shapes are rejected.", "quantifier": "every dimension, weights, directions, diffusivity and multi-index", "why_tests_cant": "Dimension is unbounded.", "anchors": ["src/linpde_gp/linfuncops/diffops/_laplacian.py", "src/linpde_gp/linfuncops/diffops/_heat.py", "src/linpde_gp/linfuncops/diffops/_partial_derivative.py", "src/linpde_gp/linfuncops/diffops/_directional_derivative.py"]}
{"id": "C33", "title": "Partial derivatives factorise", "statement": "Factorising a partial derivative into first-order or per-dimension factors and composing the factors gives back the same operator; the composed order equals the sum of factor orders.", "quantifier": "every multi-index in every dimension", "why_tests_cant": "Unbounded multi-indices.", "anchors": ["src/linpde_gp/linfuncops/diffops/_partial_derivative.py:PartialDerivative"]}
{"id": "C34", "title": "Multi-index equality is a proper equality", "statement": "Equality of multi-indices is an equivalence relation consistent with hashing, so that coefficient tables keyed by multi-indices are well defined.", "quantifier": "all pairs and triples of multi-indices of all shapes", "why_tests_cant": "Broadcasting makes the comparison succeed across shapes only for special values.", "anchors": ["src/linpde_gp/linfuncops/diffops/_coefficients.py:MultiIndex.__eq__", "src/linpde_gp/linfuncops/diffops/_coefficients.py:MultiIndex.__hash__"]}
{"id": "C35", "title": "Operator expressions denote the operator algebra", "statement": "Scaled, summed and composed linear function operators (built with *, +, -, @ in any nesting) apply to functions as the corresponding linear combination or composition, and shape-incompatible expressions are rejected.", "quantifier": "all expression trees over all base operators, all functions", "why_tests_cant": "Unbounded expression trees; the constructor rewrites (flattening, distribution, scalar folding) must preserve meaning for each.", "anchors": ["src/linpde_gp/linfuncops/_arithmetic.py", "src/linpde_gp/linfuncops/_linfuncop.py"]}
{"id": "C36", "title": "Functional expressions denote the functional algebra", "statement": "Scaled, summed and composed linear functionals (with linear operators after and function operators before) evaluate to the corresponding combination, and composing step by step in any association gives the same functional.", "quantifier": "all expression trees, all functions", "why_tests_cant": "Unbounded expression trees.", "anchors": ["src/linpde_gp/linfunctls/_arithmetic.py", "src/linpde_gp/linfunctls/_linfunctl.py"]}
{"id": "C37", "title": "Applying an operator to any function expression terminates with the linear result", "statement": "Applying an operator or functional to scaled and summed functions returns (after finitely many steps) the scaled and summed results.", "quantifier": "all function expressions", "why_tests_cant": "Non-termination on a constructor is a property of the dispatch recursion, not of sample values.", "anchors": ["src/linpde_gp/linfuncops/_linfuncop.py:LinearFunctionOperator.__call__", "src/linpde_gp/linfunctls/_linfunctl.py:LinearFunctional.__call__"]}
{"id": "C38", "title": "Function arithmetic is pointwise", "statement": "Sums, differences and scalar multiples of functions (with the special cases for zero, constant, affine and nested sums) evaluate pointwise to the sum, difference or multiple.", "quantifier": "all function expression trees, all points", "why_tests_cant": "Unbounded expression trees with rewriting constructors.", "anchors": ["src/linpde_gp/functions/_jax_arithmetic.py", "src/linpde_gp/functions/_constant.py", "src/linpde_gp/functions/_affine.py"]}
{"id": "C39", "title": "Intervals and boxes describe the right point sets", "statement": "Membership, volume, boundary, equality, indexing and uniform grids of intervals and boxes agree with the set they denote: the boundary consists of the faces, a uniform grid has the requested size, lies inside, includes both ends and is equispaced; equality holds only for equal sets; out-of-range indexing raises.", "quantifier": "all bounds, dimensions, points and grid sizes", "why_tests_cant": "Continuous parameters and unbounded dimensions.", "anchors": ["src/linpde_gp/domains/_box.py", "src/linpde_gp/domains/_interval.py"]}
{"id": "C40", "title": "Cartesian products of domains", "statement": "A Cartesian product contains exactly the concatenations of members of its factors, its volume is the product of volumes, its boundary the union of faces, its shape the sum of the factor shapes, and two products are equal only if they denote the same set.", "quantifier": "all lists of factor domains, all points", "why_tests_cant": "Unbounded number of factors.", "anchors": ["src/linpde_gp/domains/_cartesian_product.py"]}
{"id": "C41", "title": "Finite element basis", "statement": "The univariate linear interpolation basis satisfies phi_i(x_j) = delta_ij, values in [0,1], partition of unity on the interior of the grid, support inside support_bounds, and eval_elem(i, x) equals the i-th component of the basis evaluation.", "quantifier": "every strictly increasing grid of at least three nodes, with and without zero boundary, every point", "why_tests_cant": "Unbounded grids, continuous points.", "anchors": ["src/linpde_gp/functions/bases/_fem.py:UnivariateLinearInterpolationBasis"]}
{"id": "C42", "title": "L2 projection onto the finite element basis", "statement": "The normaliser used by the L2 projection is the inverse of the true mass matrix of the basis (integrals of products of basis functions), so that projecting a function in the span returns its coefficients.", "quantifier": "every grid, both boundary settings", "why_tests_cant": "Identity of integrals for all grids.", "anchors": ["src/linpde_gp/linfunctls/projections/l2/_fem.py"]}
{"id": "C43", "title": "Weak Laplacian on the finite element basis", "statement": "The weak form of the Laplacian applied to the finite element basis is the true stiffness matrix of the basis on every grid.", "quantifier": "every grid (uniform or not), both boundary settings", "why_tests_cant": "Uniform grids hide index errors.", "anchors": ["src/linpde_gp/linfunctls/weak_forms/_laplacian.py"]}
{"id": "C44", "title": "Analytic Poisson solutions solve the boundary value problem", "statement": "The solution functions returned for one-dimensional Poisson problems (constant or polynomial or piecewise right-hand side, Dirichlet or initial value conditions) satisfy -alpha u'' = f in the domain and the boundary or initial conditions.", "quantifier": "all coefficients, boundary values, intervals and right-hand sides", "why_tests_cant": "Differential identities for all real parameters and points.", "anchors": ["src/linpde_gp/problems/pde/_poisson.py"]}
{"id": "C45", "title": "Analytic heat solution solves the initial boundary value problem", "statement": "The solution attached to a heat equation problem satisfies the heat equation with the problem's right-hand side, the zero boundary conditions and the initial condition.", "quantifier": "all diffusivities, intervals, initial times, sine coefficients of every length, all points", "why_tests_cant": "PDE identity for an unbounded number of modes.", "anchors": ["src/linpde_gp/problems/pde/_heat.py"]}
{"id": "C46", "title": "Boundary value problems are validated", "statement": "Constructing linear PDEs, Dirichlet conditions, boundary and initial-boundary value problems accepts exactly the shape- and domain-compatible inputs and otherwise raises; the derived boundary observations enumerate every boundary point with its value.", "quantifier": "all shapes, domains and lists of boundary conditions", "why_tests_cant": "Unbounded shapes and lists.", "anchors": ["src/linpde_gp/problems/pde/_bvp.py", "src/linpde_gp/problems/pde/_linear_pde.py", "src/linpde_gp/problems/pde/_heat.py"]}
{"id": "C47", "title": "Covariance reshaping round-trips and arithmetic is consistent", "statement": "A covariance between two shaped random variables has consistent array, matrix and linear-operator views (C-order flattening), mismatched sizes are rejected, and sum, difference, negation and scaling commute with the change of view.", "quantifier": "all shapes on both sides, all entries", "why_tests_cant": "Shapes have unbounded rank.", "anchors": ["src/linpde_gp/randvars/_covariance.py"]}
{"id": "C48", "title": "Cross-covariance views agree", "statement": "The linear-operator view and the array view of a process-vector cross-covariance (plain, scaled, summed, operator-transformed, stacked, point-evaluated) contain the same numbers in the documented axis order, in both argument orders.", "quantifier": "all kernels (also non-symmetric ones), all batch/output/vector shapes, all points", "why_tests_cant": "Symmetric kernels and scalar outputs, as used in tests, hide argument swaps and axis permutations.", "anchors": ["src/linpde_gp/randprocs/crosscov/_pv_crosscov.py", "src/linpde_gp/randprocs/crosscov/_arithmetic.py", "src/linpde_gp/randprocs/crosscov/_stack.py", "src/linpde_gp/randprocs/crosscov/linfunctls/_dirac.py", "src/linpde_gp/randprocs/crosscov/linfunctls/_evaluation.py"]}
{"id": "C49", "title": "Parametric Gaussian processes are pushforwards of their weights", "statement": "A parametric Gaussian process has mean phi(x)' mu and covariance phi(x0)' Sigma phi(x1), consistent with its operator view and positive semidefinite, and projecting onto its own basis returns the weights' covariance.", "quantifier": "all bases, weight distributions and point sets", "why_tests_cant": "Quantifies over all bases and point sets.", "anchors": ["src/linpde_gp/randprocs/_gaussian_process/_parametric.py", "src/linpde_gp/randprocs/covfuncs/_parametric.py", "src/linpde_gp/randprocs/crosscov/_parametric.py"]}
{"id": "C50", "title": "Sine series", "statement": "A truncated sine series vanishes at both ends of its interval and evaluates to its defining sum, and its second derivative scales each mode by the negative squared frequency.", "quantifier": "all coefficient vectors, intervals and points", "why_tests_cant": "Unbounded number of modes.", "anchors": ["src/linpde_gp/functions/_fourier.py"]}
{"id": "C51", "title": "Closed-form L2 projection of the Matérn-3/2 kernel", "statement": "The closed-form cross-covariance between a Matérn-3/2 process and its finite element L2 projection equals the defining integrals of kernel times basis function.", "quantifier": "all grids, lengthscales, points and both boundary settings", "why_tests_cant": "Identity of integrals for all real parameters, with case splits on the position of x.", "anchors": ["src/linpde_gp/randprocs/crosscov/linfunctls/projections.py:Matern32_L2Projection_UnivariateLinearInterpolationBasis"]}
{"id": "C52", "title": "Functionals of posteriors have consistent shapes", "statement": "Applying a linear functional with any output shape to a conditioned process gives a random variable whose mean and covariance have matching sizes and whose mean is the prior mean plus the correction, for every output shape.", "quantifier": "all output shapes of functionals, all posteriors", "why_tests_cant": "Output shapes are unbounded; broadcasting hides or reveals the mismatch depending on the shape.", "anchors": ["src/linpde_gp/randprocs/_gaussian_process/_conditional.py"]}
{"id": "C53", "title": "Constructible differential operators can be applied", "statement": "Every differential operator that can be constructed can be expanded into partial derivatives and applied, including operators whose coefficients vanish (which denote the zero operator).", "quantifier": "all weights, directions, diffusivities, including zero", "why_tests_cant": "Degenerate coefficient patterns are never sampled.", "anchors": ["src/linpde_gp/linfuncops/diffops/_lindiffop.py:LinearDifferentialOperator._to_sum_no_jax", "src/linpde_gp/linfuncops/diffops/_laplacian.py:WeightedLaplacian"]}
{"id": "C54", "title": "Scaling differential operators is total and associative", "statement": "Multiplying a differential operator by scalars repeatedly, negating and subtracting scaled operators always returns the operator with the product scalar.", "quantifier": "all scalars, all nestings of scalings", "why_tests_cant": "Nesting depth is unbounded; the failure only appears on the second scaling.", "anchors": ["src/linpde_gp/linfuncops/diffops/_arithmetic.py:ScaledLinearDifferentialOperator.__rmul__"]}
{"id": "C55", "title": "Arithmetic on piecewise functions is pointwise", "statement": "A number times a piecewise function, and a piecewise linear function plus a polynomial or a constant, evaluate at every point to the corresponding multiple or sum of the values.", "quantifier": "every strictly increasing breakpoint list, all pieces, every number, polynomial and constant, every point inside or outside the domain", "why_tests_cant": "The wrong points are the single left end point and the outside of the domain.", "anchors": ["src/linpde_gp/functions/_piecewise.py:Piecewise.__rmul__", "src/linpde_gp/functions/_piecewise.py:PiecewiseLinear.__add__"]}
{"id": "C56", "title": "Kernels and cross-covariances of incompatible shapes are refused", "statement": "Sums, stacks, independent multi-output kernels, sums of cross-covariances, stacks of cross-covariances and matrices in front of cross-covariances can be built exactly from parts whose shapes and orientations agree, and a linear operator or functional returns a result only for a covariance function that has its input shape and input codomain in the chosen argument.", "quantifier": "all lists of parts, all kernel, operator and functional expressions, both arguments", "why_tests_cant": "The expressions nest without bound, and a missing check only shows for one combination of class and shape.", "anchors": ["src/linpde_gp/randprocs/covfuncs/_utils.py:validate_covfunc_transformation", "src/linpde_gp/randprocs/covfuncs/_stack.py", "src/linpde_gp/randprocs/covfuncs/_independent_multi_output.py", "src/linpde_gp/randprocs/crosscov/_arithmetic.py", "src/linpde_gp/randprocs/crosscov/_stack.py"]}
{"id": "C57", "title": "Closed-form kernels are covariance functions", "statement": "The Matérn kernels of half-integer order, the squared-exponential kernel, and tensor products of them are symmetric and positive semidefinite in every input dimension, and so is the covariance function obtained from one of them by applying the same differential operator to both arguments whenever the process is smooth enough for it; the requirement on the smoothness is checked.", "quantifier": "all orders, lengthscales, dimensions, differential operators, numbers of points, points and weights", "why_tests_cant": "Positive semidefiniteness quantifies over every finite set of points; sampled Gram matrices only show failures that happen at the sample.", "anchors": ["src/linpde_gp/randprocs/covfuncs/_expquad.py", "src/linpde_gp/randprocs/covfuncs/_tensor_product.py", "src/linpde_gp/randprocs/covfuncs/linfuncops/diffops/_matern.py", "src/linpde_gp/randprocs/covfuncs/linfuncops/diffops/_expquad.py"]}
{"id": "C58", "title": "Linear operators act on cross-covariances", "statement": "Applying a linear function operator to the cross-covariance between a process and a random vector returns the cross-covariance between the image of the process under the operator and the same vector: the operator acts on the cross-covariance as a function of the point and output entry of the process, the random vector's shape and the orientation are kept, and operators without a rule for the class raise an exception.", "quantifier": "all cross-covariance expressions, all operator expressions, all points and entries", "why_tests_cant": "Cross-covariance and operator expressions nest without bound, and a wrong argument number or a lost coefficient only shows for one combination of classes.", "anchors": ["src/linpde_gp/randprocs/crosscov/linfuncops.py", "src/linpde_gp/linfuncops/_identity.py", "src/linpde_gp/linfuncops/_arithmetic.py", "src/linpde_gp/linfuncops/diffops/_lindiffop.py"]}
{"id": "C59", "title": "Evaluating functions on batches of points", "statement": "Evaluating an affine, constant, lambda, stacked, scaled or sum function at an array of points returns, for every point of the batch and every output entry, the value of the mathematical function, in an array of shape batch + output; the NumPy and the JAX variant return the same; arguments and constructor arguments of other shapes raise an exception; evaluating at the points of a point-evaluation functional and selecting an output of a stack give the corresponding values.", "quantifier": "all function expressions, batch shapes, points, entries and axes", "why_tests_cant": "Expressions nest without bound and batches have any number of axes; broadcasting errors only show for particular coincidences of lengths.", "anchors": ["src/linpde_gp/functions/_jax.py", "src/linpde_gp/functions/_jax_arithmetic.py", "src/linpde_gp/functions/_affine.py", "src/linpde_gp/functions/_stack.py", "src/linpde_gp/functions/_constant.py", "src/linpde_gp/linfunctls/_dirac.py", "src/linpde_gp/linfunctls/_evaluation.py", "src/linpde_gp/functions/linfuncops/_registry.py"]}
{"id": "C60", "title": "The Lebesgue integral functional returns integrals", "statement": "Applying the Lebesgue integral functional over an interval or a box to a function returns, for every output entry, the integral of that entry over the domain; sums and multiples of functions are integrated term by term; functions of another output shape are refused.", "quantifier": "all intervals and boxes, all function expressions", "why_tests_cant": "The dispatch recurses over function expressions of any depth and termination cannot be observed by running a sample; integrals are limits.", "anchors": ["src/linpde_gp/linfunctls/_integrals.py", "src/linpde_gp/linfunctls/_linfunctl.py"]}
{"id": "C61", "title": "Deterministic processes behave as their function", "statement": "Applying a linear operator or functional to a deterministic process gives the deterministic process (constant random variable) of the operator (functional) applied to its function, and raises exactly when that raises; asrandproc turns functions into such processes and leaves processes unchanged.", "quantifier": "all operator and functional expressions, all functions", "why_tests_cant": "The dispatch recurses over expressions of any depth and takes another path for processes than for functions.", "anchors": ["src/linpde_gp/randprocs/_deterministic_process.py", "src/linpde_gp/randprocs/_utils.py", "src/linpde_gp/linfuncops/_arithmetic.py", "src/linpde_gp/linfunctls/_arithmetic.py"]}
{"id": "C62", "title": "Differential operators applied to functions differentiate them", "statement": "Applying a differential operator to a function returns the function Σ c ∂^m f_k given by its coefficients, for sums, multiples and constants too; the result can be evaluated at points and on batches and differentiated again; functions of other shapes are refused.", "quantifier": "all coefficient tables, dimensions, domain shapes, function expressions, recursion limits", "why_tests_cant": "The value depends on which of several rules and fallbacks handles the function, recursively; derivatives are limits.", "anchors": ["src/linpde_gp/linfuncops/diffops/_lindiffop.py", "src/linpde_gp/linfuncops/diffops/_functions.py", "src/linpde_gp/linfuncops/diffops/_partial_derivative.py", "src/linpde_gp/linfuncops/diffops/_laplacian.py", "src/linpde_gp/linfuncops/diffops/_directional_derivative.py", "src/linpde_gp/linfuncops/diffops/_heat.py", "src/linpde_gp/linfuncops/_linfuncop.py"]}
{"id": "C63", "title": "The truncated Gaussian mixture is the density of the conditioned mixture", "statement": "On its domain, the truncated Gaussian mixture is the density of the equally weighted mixture of the normal laws each conditioned on the domain; it is zero elsewhere; parameters that do not fit are refused.", "quantifier": "all intervals, all numbers of components, all means and standard deviations, all sets", "why_tests_cant": "Normalisation is an integral over a continuum for a continuum of parameters.", "anchors": ["src/linpde_gp/functions/_truncated_gmm.py"]}
{"id": "C64", "title": "Wendland kernels are covariance functions", "statement": "The Wendland kernel constructed for dimension d and smoothness k is symmetric and positive semidefinite on R^d for all lengthscales, and its radial function is positive semidefinite in every dimension up to 2⌊d/2⌋+1.", "quantifier": "all dimensions, smoothness parameters, lengthscales, numbers of points, points and weights", "why_tests_cant": "Positive semidefiniteness quantifies over all finite sets of points; an exponent too small by one only shows for special configurations.", "anchors": ["src/linpde_gp/randprocs/covfuncs/_wendland.py"]}
{"id": "C65", "title": "Conditioning on point evaluations at distinct points always succeeds", "statement": "Matérn, squared-exponential and Wendland kernels and their tensor products are strictly positive definite, so the joint Gram matrix of exact point evaluations is positive definite exactly if no point is observed twice; conditioning on such evaluations, batch by batch, with any noise, succeeds, and exact observations are interpolated with zero variance. With nondegenerate noise conditioning on any functionals succeeds.", "quantifier": "all dimensions, orders, nonzero lengthscales, numbers and positions of distinct points, noise covariances, batch sequences", "why_tests_cant": "Strict positive definiteness quantifies over all finite point sets and all weight vectors.", "anchors": ["src/linpde_gp/randprocs/_gaussian_process/_conditional.py", "src/linpde_gp/randprocs/covfuncs/_wendland.py", "src/linpde_gp/randprocs/covfuncs/_matern.py", "src/linpde_gp/randprocs/covfuncs/_expquad.py", "src/linpde_gp/randprocs/covfuncs/_tensor_product.py"]}
{"id": "C66", "title": "Collocation with linearly independent differential operators always succeeds", "statement": "Squared-exponential processes in any dimension and products of Matérn processes (up to the order p of each factor) have derivatives whose covariances are the derivatives of the kernel; all these derivatives at all points are linearly independent. So the joint Gram matrix of exact observations of differential operators is positive definite exactly if the operators observed at each point are linearly independent; conditioning on such observations then succeeds, the posterior mean is differentiable and solves the collocation equations, and no uncertainty about them is left. The covariances of the operators are the values of the kernels in closed form that the code computes.", "quantifier": "all dimensions, orders, nonzero lengthscales, operators with constant coefficients, numbers and positions of points, noise covariances, batch sequences", "why_tests_cant": "Quantifies over all finite sets of operators and points; derivatives are limits.", "anchors": ["src/linpde_gp/randprocs/_gaussian_process/_conditional.py", "src/linpde_gp/randprocs/covfuncs/linfuncops/diffops/_expquad.py", "src/linpde_gp/randprocs/covfuncs/linfuncops/diffops/_matern.py", "src/linpde_gp/linfuncops/diffops/_lindiffop.py"]}
{"id": "C67", "title": "Tensor-product Matérn kernels and the heat equation", "statement": "Applying differential operators given by coefficient tables to the two arguments of a tensor product of Matérn kernels succeeds in either order, whenever each factor is differentiable often enough and no coordinate is differentiated more than twice, and the kernel obtained evaluates to the covariance of the operators of the process; also when the intermediate sum of tensor products has been expanded. In particular the four kernels computed for the two summands of the heat operator add up to the covariance of the heat operator. Conditioning on initial and boundary values and on the heat equation at finitely many points succeeds, and the posterior mean takes the values and solves the equation at the points.", "quantifier": "all dimensions, smoothness parameters, nonzero scales, coefficient tables, diffusivities, numbers and positions of points", "why_tests_cant": "Quantifies over all operators, kernels and finite sets of points; derivatives are limits.", "anchors": ["src/linpde_gp/randprocs/covfuncs/linfuncops/diffops/_tensor_product.py", "src/linpde_gp/randprocs/covfuncs/linfuncops/diffops/_matern.py", "src/linpde_gp/randprocs/covfuncs/linfuncops/_registry.py", "src/linpde_gp/linfuncops/diffops/_heat.py", "src/linpde_gp/randprocs/_gaussian_process/_conditional.py"]}
{"id": "C68", "title": "Kernel values do not depend on the evaluating library or on the storage type of the points", "statement": "The NumPy and the JAX evaluation of Matérn, squared-exponential and Wendland kernels and of their closed-form derivatives return the same values, with and without a second argument, the entries of the KeOps tensors are these values, and the values are the same for points stored as integers and as floats.", "quantifier": "all kernels of these classes, parameters, dimensions, points and numbers of points", "why_tests_cant": "Quantifies over all kernels, real points and storage types; the tests only compare float points.", "anchors": ["src/linpde_gp/randprocs/covfuncs/_matern.py", "src/linpde_gp/randprocs/covfuncs/_expquad.py", "src/linpde_gp/randprocs/covfuncs/_wendland.py", "src/linpde_gp/randprocs/covfuncs/_jax.py", "src/linpde_gp/randprocs/covfuncs/linfuncops/diffops/_matern.py", "src/linpde_gp/randprocs/covfuncs/linfuncops/diffops/_expquad.py", "src/linpde_gp/functions/_polynomial.py"]}
{"id": "C69", "title": "Solving a boundary value problem satisfies it at all chosen points", "statement": "Building a Poisson problem (interval or box) or a one-dimensional heat problem, taking the observations of the tests and notebooks (uniform grids on the domain, its boundary and the initial domain) and conditioning on them succeeds for every data, grid sizes and inset off the corners; the posterior mean takes the initial and boundary values at the grid points, solves the equation at the grid points of the domain, and these observations have zero posterior variance. The order of the observations is irrelevant, and without inset the Gram matrix is singular.", "quantifier": "all intervals, boxes of all dimensions, right-hand sides, initial and boundary functions, coefficients, grid sizes, insets and positive definite kernels that are smooth enough", "why_tests_cant": "Quantifies over all problems, data, kernels and grid sizes, and states exact equality of functions with derivatives.", "anchors": ["src/linpde_gp/problems/pde/_heat.py", "src/linpde_gp/problems/pde/_poisson.py", "src/linpde_gp/problems/pde/_bvp.py", "tests/linpde_gp/problems/test_heat.py", "src/linpde_gp/domains/_box.py", "src/linpde_gp/randprocs/_gaussian_process/_conditional.py"]}
{"id": "C70", "title": "Conditioning on a finite element system reproduces the finite element method", "statement": "The Galerkin linear system assembled from a one-dimensional Poisson problem has the entries of the weak form. Conditioning the projected prior on boundary values and on that system succeeds, its posterior mean is the unique finite element solution everywhere, agrees with the exact solution at the nodes, and the coefficients carry no uncertainty. With the unprojected prior the system is satisfied by the projection of the posterior mean. Noise with a mean is the same as shifted data with centred noise.", "quantifier": "all intervals, right-hand sides, diffusion coefficients, boundary values, numbers of elements, prior means and covariance functions that distinguish evaluations and integrals", "why_tests_cant": "Quantifies over all data, numbers of elements and kernels and states exact equality of functions on the real line; the notebooks only plot one case.", "anchors": ["experiments/0002_poisson_dirichlet_fem.ipynb", "experiments/0002_poisson_dirichlet_gp_fem.ipynb", "src/linpde_gp/linfunctls/weak_forms/_laplacian.py", "src/linpde_gp/functions/bases/_fem.py", "src/linpde_gp/linfunctls/projections", "src/linpde_gp/randprocs/covfuncs/_galerkin.py", "src/linpde_gp/randprocs/_gaussian_process/_conditional.py"]}
{"id": "C71", "title": "Uncertain right-hand sides are joint inference over solution and right-hand side", "statement": "Conditioning a process on an equation whose right-hand side carries the covariance of another, already conditioned process gives the same posterior as conditioning the joint process of independent outputs on all data and selecting the output. The roles can be exchanged: the posterior of the right-hand side conditioned on the applied operator is the other output of the same joint posterior, and the two posterior means satisfy the equation at the common points. Passing a conditioned process as a prior is conditioning on the concatenated history. If the two processes are correlated the equivalence fails.", "quantifier": "all independent families of priors, linear functionals, measurements, noise covariances, histories and kernels with strictly positive definite jets", "why_tests_cant": "Equates two unbounded families of conditioning histories on infinite-dimensional processes, for all data and kernels; the notebooks run one case and compare plots.", "anchors": ["experiments/0003_poisson_1d_inverse_rhs.ipynb", "experiments/0000_cpu_stationary_1d.ipynb", "src/linpde_gp/randprocs/_gaussian_process/_conditional.py", "src/linpde_gp/randprocs/covfuncs/_independent_multi_output.py", "src/linpde_gp/linfuncops/_select_output.py", "src/linpde_gp/functions/_stack.py"]}
{"id": "C72", "title": "The CPU heat problem is well posed: normalised heat sources, power balance, boundary fluxes", "statement": "For every chip geometry with the cores inside of the die, the heat distributions of cpu.py are defined, integrate to one, are constant on the cores and vanish away from them. The right-hand sides and boundary fluxes of the one- and two-dimensional problems satisfy the power balance. The solution attached to bvp_1D solves the differential equation and both flux boundary conditions. The boundary conditions posed in the two-dimensional notebook admit a solution of the differential equation (violated: the west boundary uses the outer normal direction).", "quantifier": "all geometries, numbers of cores, conductivities, powers and relative heights with non-zero sum; all candidate solutions", "why_tests_cant": "Integrals and differential equations over a continuum of parameters; non-existence of a solution of a boundary value problem quantifies over all functions.", "anchors": ["experiments/cpu.py", "experiments/0001_cpu_stationary_2d.ipynb", "src/linpde_gp/functions/_piecewise.py", "src/linpde_gp/problems/pde/_poisson.py", "src/linpde_gp/linfuncops/diffops/_directional_derivative.py", "src/linpde_gp/domains/_box.py"]}
{"id": "C73", "title": "The CPU notebooks: conditioning on PDE, boundary fluxes and sensor readings succeeds and the posterior satisfies them", "statement": "For every chip, grid size, jet process with strict kernel and sensor readings, the sequences of condition_on_observations calls of the two CPU notebooks succeed. The posterior mean satisfies the heat equation at every grid point and the boundary conditions at every boundary point, and the posterior leaves these quantities without uncertainty. A measurement Y = L f + b with a constant b is one of L f = Y - b. In the notebook with unknown heat sources the joint posterior satisfies the equations linking temperature and sources and the power balance. The posterior mean of the two-dimensional notebook has the flux of the physical problem through every side (violated on the west side).", "quantifier": "all geometries, grid sizes, kernels with strict jets, sensor readings, noise variances, Cholesky routines that are correct on positive definite matrices", "why_tests_cant": "Positive definiteness of the mixed Gram matrices for every grid and kernel, and derivatives of the posterior mean at every observed point; the failure on the west side is a statement about the derivative of the posterior mean for every choice of parameters.", "anchors": ["experiments/0000_cpu_stationary_1d.ipynb", "experiments/0001_cpu_stationary_2d.ipynb", "experiments/cpu.py", "src/linpde_gp/randprocs/_gaussian_process/_conditional.py", "src/linpde_gp/linfuncops/diffops/_directional_derivative.py"]}
{"id": "C74", "title": "The posterior variance bounds the worst-case error of the posterior mean", "statement": "For every prior, observations with positive definite Gram matrix and functional L, if the data are those of a function f at distance B from the prior mean in the metric of the prior (plus noise), then the error of the posterior mean satisfies |L f - L mean|^2 <= B * posterior variance of L. The bound is attained. The posterior mean is the function closest to the prior mean among those that explain the data. A functional has posterior variance zero iff it is a combination of the exact observations. The posterior variance is at most the variance of the difference to any single observation, so on compact sets the error tends to zero uniformly as the observations become dense.", "quantifier": "all priors, lists of observation batches, noise, functionals, target functions, correct Cholesky routines", "why_tests_cant": "A bound over all functions of a given norm and its sharpness, for every list of observations; limits of the density of the observations.", "anchors": ["src/linpde_gp/randprocs/_gaussian_process/_conditional.py", "src/linpde_gp/randprocs/_gaussian_process/_lintransforms.py"]}
{"id": "C75", "title": "Collocation with the Poisson and heat scripts converges to the solution", "statement": "Let f solve the boundary value problem (Poisson equation on an interval or on a box of any dimension, heat equation on an interval with zero boundary values) and have finite distance to the prior mean. For every tolerance there are a grid size and a bound on the inset such that for all finer grids and smaller insets the script runs through and its posterior mean differs from f, and its residual in the equation from zero, by at most the tolerance on the whole closed domain, not only at the collocation points.", "quantifier": "all domains, coefficients, right-hand sides, boundary and initial values, kernels with strict continuous jets (Matérn products, squared exponentials), prior means, solutions f, tolerances, grid sizes, insets, correct Cholesky routines", "why_tests_cant": "A limit over grid sizes and a supremum over all points of the domain; needs the maximum principle for the differential equation.", "anchors": ["src/linpde_gp/problems/pde/_poisson.py", "src/linpde_gp/problems/pde/_heat.py", "src/linpde_gp/randprocs/_gaussian_process/_conditional.py", "experiments/0000_poisson_dirichlet_1d.ipynb", "experiments/0001_poisson_dirichlet_2d.ipynb", "src/linpde_gp/domains/_box.py"]}
{"id": "C76", "title": "Operator, JAX and KeOps views hold the values of the covariance function", "statement": "For covariance functions built by scaling, summing, stacking and independent outputs, k.linop(x0, x1) exists and has, at every row (output, point) and column (output, point), the value that k returns for this pair, also with x1 missing and for point arrays with any batch shape; it is the transpose of k.linop(x1, x0) for symmetric k. The KeOps tensors of tensor products and of differential operators applied to them hold the NumPy values. The JAX view of a cross-covariance equals its NumPy view or refuses.", "quantifier": "all trees of covariance functions, batch shapes, points, numbers of tensor factors, coefficient lists, cross-covariances", "why_tests_cant": "Induction over arbitrarily nested covariance functions with arbitrary shapes; index arithmetic of blocks and points for all sizes.", "anchors": ["src/linpde_gp/randprocs/covfuncs/_stack.py", "src/linpde_gp/randprocs/covfuncs/_independent_multi_output.py", "src/linpde_gp/randprocs/covfuncs/_zero.py", "src/linpde_gp/randprocs/covfuncs/_tensor_product.py", "src/linpde_gp/randprocs/covfuncs/linfuncops/diffops/_tensor_product.py", "src/linpde_gp/randprocs/crosscov/_stack.py"]}
{"id": "C77", "title": "The solvers converge to every smooth solution, with and without noise, and smooth solutions lie in the uncertainty region", "statement": "For priors whose covariance function is a tensor product of Matern kernels with enough derivatives, with any length scales and any smooth prior mean, and for every smooth solution u of a Poisson problem on a box or of a heat problem on an interval, the posterior mean of the scripts tends to u uniformly as the grids are refined; for the Poisson problem on an interval a smooth solution exists for every smooth right-hand side and all boundary values; for the heat problem with a truncated sine series as initial values, u is the problem's own attribute solution. This also holds if the boundary values are observed with independent noise of a fixed variance, as in test_heat.py. There is a constant, independent of the grids and of the noise, such that the squared error is at most that constant times the posterior variance (assert_within_uncertainty_region).", "quantifier": "all smoothness parameters, length scales, smooth prior means, domains, smooth solutions, series coefficients, noise variances, grids beyond a threshold, points of the domain", "why_tests_cant": "The test compares one problem on one grid at finitely many points with a tolerance; convergence is a limit statement, and that the solution has finite norm for the prior needs an integral representation.", "anchors": ["tests/linpde_gp/problems/test_heat.py", "src/linpde_gp/problems/pde/_heat.py", "src/linpde_gp/problems/pde/_poisson.py", "src/linpde_gp/randprocs/_gaussian_process/_conditional.py", "src/linpde_gp/randprocs/covfuncs/_matern.py", "src/linpde_gp/randprocs/covfuncs/_tensor_product.py"]}
{"id": "C78", "title": "Convergence rates of the solvers", "statement": "The error of the posterior mean is bounded in terms of the number of collocation points by constants that depend on the covariance function, the domain and the operator, not on the right-hand side, the solution or the grids. On an interval, with q more derivatives than the Poisson equation needs, a grid with n >= q+2 points and inset delta gives an error of at most C sqrt(B) rho^(q+1/2) with rho = delta + (r-l)/(n-1), where B is the squared distance of the solution to the prior mean, and a residual of at most |alpha| times that; in particular rho^(k-3/2) for Matern kernels with k derivatives and every smooth right-hand side, and every power of rho for the squared exponential. On boxes of any dimension, with at least N points per direction and inset eps, error and residual are at most C sqrt(B) sqrt(eps + 1/(N-1)). For the heat equation with noise of variance v on n_bc boundary values they are at most C sqrt(B) sqrt(delta + 1/(N-1) + k/(n_bc-1) + v/k) for every k < n_bc.", "quantifier": "all kernels with enough Lipschitz derivatives, domains, operators, right-hand sides, solutions of finite distance (all smooth solutions for Matern kernels), noise variances, grids and insets", "why_tests_cant": "A test measures the error on a few grids; a rate is a bound for all grids with one constant.", "anchors": ["tests/linpde_gp/problems/test_heat.py", "src/linpde_gp/problems/pde/_heat.py", "src/linpde_gp/problems/pde/_poisson.py", "src/linpde_gp/domains/_box.py", "src/linpde_gp/domains/_interval.py", "src/linpde_gp/randprocs/_gaussian_process/_conditional.py", "src/linpde_gp/randprocs/covfuncs/_matern.py"]}
{"id": "C79", "title": "Posterior mean and covariance at arrays of points, in NumPy and under JAX", "statement": "The cross-covariance with all observations has, at an array of points of any batch shape, one last axis running over the observations of all conditioning steps in order, and contains their covariances with the process; its operator view is the corresponding matrix. The posterior mean is, entry by entry, prior mean plus covariances times representer weights; the posterior covariance is prior covariance minus covariances times the solution of the Gram system. The JAX views return the same and can be used inside JAX transformations, so that differential operators without a closed form can be applied to the posterior mean.", "quantifier": "all sequences of observations, all cross-covariance expressions, shapes, batch shapes including empty ones, points, prior means", "why_tests_cant": "Sequences of observations and shapes are unbounded; that the JAX views fail holds for every posterior and every input and is not visible from the NumPy views.", "anchors": ["src/linpde_gp/randprocs/_gaussian_process/_conditional.py", "src/linpde_gp/randprocs/crosscov/_pv_crosscov.py", "src/linpde_gp/randprocs/crosscov/linfunctls/_dirac.py", "src/linpde_gp/randprocs/crosscov/linfunctls/_evaluation.py", "src/linpde_gp/linfuncops/diffops/_lindiffop.py", "src/linpde_gp/functions/_jax.py"]}
{"id": "C80", "title": "Plots show the mean, the credible interval of the stated level, the samples and the Taylor polynomials", "statement": "The line of a plotted process runs through its mean at the plotting positions and lies in the shaded band; between the ends of the band the normal distribution of the process has exactly the stated probability; every sample is drawn whole, one line each; a deterministic process is drawn as its mean. A piecewise linear function is drawn as the polygon through its points. A slice through a process on the plane can be taken along both axes and coloured, and the vertical limits enclose what is drawn. Local Taylor polynomials are drawn around their points with the marker at the point and a band of the stated probability. A normal density is drawn around its peak. Every frame of an animation is kept.", "quantifier": "all processes, functions, plotting positions, levels, numbers of samples, grids, colours", "why_tests_cant": "The probability of the band is a statement about the normal distribution function for all levels, means and standard deviations; processes and positions are arbitrary. Plots are inspected by eye.", "anchors": ["src/linpde_gp/utils/plotting.py", "src/linpde_gp/functions/_piecewise.py", "src/linpde_gp/randprocs/_deterministic_process.py", "experiments/0001_cpu_stationary_2d.ipynb"]}
{"id": "C81", "title": "Both views of a function agree, and the operator of an equation applied to the attached solution gives its right-hand side", "statement": "The NumPy and the JAX view of monomials, polynomials, sine series, piecewise functions and solutions attached to problems return the same number at every point. Differential operators applied to them return the derivative of the function: for smooth functions everywhere, for piecewise functions that of the piece at the point, zero outside. The operator of the Poisson (heat) equation applied to the solution attached to a problem returns the right-hand side of the problem at every point.", "quantifier": "all polynomials, series, breakpoints, pieces, operators built from partial, directional derivatives, Laplacians, scaling and sums, right-hand sides, boundary and initial values, points", "why_tests_cant": "The claim relates automatic differentiation of arbitrary programs to derivatives of the functions they compute, for every operator, function and point, including breakpoints, where tests sample nothing.", "anchors": ["src/linpde_gp/functions/_jax.py", "src/linpde_gp/functions/_polynomial.py", "src/linpde_gp/functions/_piecewise.py", "src/linpde_gp/functions/_fourier.py", "src/linpde_gp/problems/pde/_poisson.py", "src/linpde_gp/problems/pde/_heat.py", "src/linpde_gp/linfuncops/diffops/_lindiffop.py", "src/linpde_gp/linfuncops/diffops/_laplacian.py", "src/linpde_gp/linfuncops/diffops/_partial_derivative.py"]}
{"id": "C82", "title": "Posteriors transform with units, values, symmetries and equivalent measurements", "statement": "Conditioning in other units and with another origin (c f + h, c nonzero) multiplies the posterior mean by c, adds h and multiplies the posterior covariance by c squared. The mean depends affinely on the observed values, the covariance not at all. A bijection of the points that leaves the prior unchanged moves posterior along with the measurements, and leaves it unchanged if it permutes the measurements. Noisy measurements of linear combinations of functionals give the same posterior as one generalised least squares measurement of them; in particular n repetitions with variance v equal one measurement of the average with variance v/n.", "quantifier": "all priors, histories of measurements of any length and sizes with positive definite joint Gram matrix, factors, functions, directions, symmetries, combination matrices with trivial kernel, positive definite noise", "why_tests_cant": "The statements relate pairs of runs over all histories, orders and real-valued data; a test compares a few pairs up to rounding and cannot separate a symmetric bug from a tolerance.", "anchors": ["src/linpde_gp/randprocs/_gaussian_process/_conditional.py"]}
{"id": "C83", "title": "Posteriors are robust: bounds under errors of values, weights, noise and jitter", "statement": "If every measurement carries noise of variance at least tau in every direction, then errors delta of the observed values move the posterior mean of any functional by at most sqrt((prior variance - posterior variance) |delta|^2 / tau) and do not move the covariance; representer weights that solve the Gram system up to a residual rho change it by at most the same bound with rho; and mean and variance deviate from those of the prior by bounds that vanish as tau grows. Adding positive semidefinite noise never decreases a posterior variance. A jitter of size at most tau added to the noise changes posterior variance by at most C tau and squared mean by at most (prior variance) C tau, with C independent of the jitter, also for exact measurements.", "quantifier": "all priors, histories of measurements of any length and sizes with positive definite joint Gram matrix, errors, weights, added noise matrices, functionals", "why_tests_cant": "The bounds compare infinitely many pairs of runs, with constants independent of the perturbation; tests try a few perturbations.", "anchors": ["src/linpde_gp/randprocs/_gaussian_process/_conditional.py"]}
{"id": "C84", "title": "Rounding errors of polynomials, covariance functions and posteriors", "statement": "In every floating point format with correctly rounded operations (relative error at most u, no overflow or underflow) and an exponential of relative error at most v: the evaluated polynomial is the exact value of a polynomial whose coefficients are perturbed by at most (1+u)^(2n)-1 relatively; the squared exponential covariance has an absolute error bounded uniformly over all points and the half-integer Matern covariance as well, both for every order in which the squared distances are summed; computed kernels are exactly symmetric and exactly one on the diagonal; tensor products multiply relative errors; Gram matrices with noise larger than n times the error are positive definite; posterior means and covariances computed from approximate weights differ from the exact ones by the rounding of the sum plus the residual of the solve divided by the noise. The computed posterior variance can nevertheless be negative in every binary format (violation).", "quantifier": "all formats, polynomials, points, dimensions, orders p, lengthscales, summation orders, numbers of points and measurements, computed weights and cross-covariances", "why_tests_cant": "Error bounds hold for the worst of all inputs and summation orders; a test sees the error of single inputs on one machine and one BLAS.", "anchors": ["src/linpde_gp/functions/_polynomial.py", "src/linpde_gp/randprocs/covfuncs/_expquad.py", "src/linpde_gp/randprocs/covfuncs/_matern.py", "src/linpde_gp/randprocs/covfuncs/_tensor_product.py", "src/linpde_gp/randprocs/_gaussian_process/_conditional.py"]}
{"id": "C85", "title": "Printed forms identify polynomials, multi-indices and operators", "statement": "Two rational polynomials are printed alike exactly if they are the same function; two polynomials with floating point coefficients exactly if their coefficient tuples agree; two non-empty multi-indices (and partial derivatives) exactly if their shapes and entries agree; two operators that are printed alike are the same linear operator if no sum stands inside a multiple or a composition. Violations: multi-indices without entries of different shapes; sums are printed without parentheses, so that 2 * (A + B) is printed like 2 * A + B and (A + B) @ C like A + B @ C.", "quantifier": "all coefficient tuples of any length, all multi-indices of any shape, all operator expressions of any depth, all printed forms of floats and atoms that are unambiguous", "why_tests_cant": "Injectivity relates all pairs of objects; tests of printed forms compare a few strings with expected ones.", "anchors": ["src/linpde_gp/functions/_polynomial.py", "src/linpde_gp/linfuncops/_arithmetic.py", "src/linpde_gp/linfuncops/diffops/_arithmetic.py", "src/linpde_gp/linfuncops/diffops/_coefficients.py", "src/linpde_gp/linfuncops/diffops/_partial_derivative.py"]}
{"id": "C86", "title": "Repeated conditioning adds rounding errors but does not amplify them", "statement": "Let schur_update be carried out in floating point with arbitrary (inexact) solvers for its two linear systems. The residual of the returned weights is at most the residual of the weights passed in plus the errors of this step: the residuals of the two solves, and the rounding errors of the two products and of the subtractions. Hence after any number of conditioning steps the residual of the representer weights is at most the sum of the errors of the steps, and with observation noise of variance at least tau the posterior mean is off by at most the error of its evaluation plus sqrt((prior variance - posterior variance) / tau) times this sum. Without rounding and with exact solves all bounds are zero and the weights are the exact ones.", "quantifier": "all formats of the standard model, all solvers, all orders of summation, all priors, functionals and noises, histories of any length with batches of any size", "why_tests_cant": "Tests compare with tolerances for short histories; whether errors accumulate additively is a statement about all histories and all solvers.", "anchors": ["src/linpde_gp/linops/_block.py", "src/linpde_gp/randprocs/_gaussian_process/_conditional.py"]}
{"id": "C87", "title": "Backward errors of block factorisations and block solves", "statement": "Let the block Cholesky factorisation, L_A_inv_B, the Schur complement and the block solves be carried out in floating point, with dense factorisations and dense solves that may return anything. For every operator that is valid for its construction branch, at any nesting: the factorisation succeeds with a lower triangular operator L, and every entry of L L^T - A is bounded by the errors of the dense factorisations, the residuals of the triangular solves and the roundings of the Schur complements; solve succeeds and every entry of its residual is bounded by the residuals of the dense solves and the roundings of the right-hand sides, in the symmetric branch through the errors of the factor; the posterior mean with lazily computed representer weights is off by the error of its evaluation plus the square root of (prior variance - posterior variance) / tau times the squared residuals, which consist of the solve, the errors of the computed Gram operator and of the right-hand side. Without rounding and with an exact library, factor, solution and weights are those of the exact programs, for all operators including refused ones.", "quantifier": "all formats of the standard model, all results of the dense library, all orders of summation, all operators and nestings, both settings of block_triangular_solves and of transposed flags, all histories", "why_tests_cant": "Tests compare solutions with tolerances for a few well-conditioned matrices; bounds for all nestings and all library errors need induction over the operators.", "anchors": ["src/linpde_gp/linops/_block.py", "src/linpde_gp/randprocs/_gaussian_process/_conditional.py"]}
{"id": "C88", "title": "The arrays returned by a posterior are the conditional expectations and covariances", "statement": "Condition a process, batch by batch, on observations given as functionals with their cross-covariance objects. If the joint Gram matrix is positive definite, conditioning the whole object succeeds; its mean function called with an array of points of any batch shape returns the array of conditional expectations given all observations, for every output shape, and its covariance function called with two arrays whose batch shapes broadcast returns the conditional covariances: the flat order in which the cross-covariance object lists the observations is the order of the block Gram operator and of the representer weights. condition_on_observations(Y, X) without noise, anywhere in the history, makes the mean at X equal to the array Y, also for vector-valued processes (whose output axes are moved to the front and back); with a strictly positive definite kernel and pairwise distinct points this holds without any further hypothesis, and the variance at X is zero.", "quantifier": "all histories of batches with any functionals, noises and numbers of observations, all priors, batch shapes and output shapes", "why_tests_cant": "Tests evaluate a few posteriors at a few points; that the orders of the three representations of the observations agree for every history and shape needs an invariant over the history.", "anchors": ["src/linpde_gp/randprocs/_gaussian_process/_conditional.py", "src/linpde_gp/linops/_block.py", "src/linpde_gp/linfunctls/_evaluation.py"]}
{"id": "C89", "title": "Squared-exponential derivative kernels do not depend on the route", "statement": "The tensor product of univariate squared-exponential kernels is the multivariate one with the same lengthscales, and applying directional derivatives and weighted Laplacians to one or both of its arguments factor by factor, from the coefficients of the operators, gives at every pair of points and at coinciding points exactly the values of the closed-form derivative classes of the multivariate kernel; the factor-by-factor route accepts both orders of the two arguments.", "quantifier": "all dimensions, lengthscales, directions and weights that are not identically zero, all pairs of points", "why_tests_cant": "Tests compare the closed forms with automatic differentiation at a few points for a few lengthscales.", "anchors": ["src/linpde_gp/randprocs/covfuncs/linfuncops/diffops/_expquad.py", "src/linpde_gp/randprocs/covfuncs/linfuncops/diffops/_tensor_product.py", "src/linpde_gp/randprocs/covfuncs/linfuncops/diffops/_registry.py", "src/linpde_gp/linfuncops/diffops/_coefficients.py"]}
{"id": "C90", "title": "Rounding errors of derivative kernels", "statement": "In floating-point arithmetic every closed-form derivative kernel (squared-exponential and half-integer Matérn; directional derivatives and weighted Laplacians of one or both arguments) differs from its exact value by at most an explicit multiple, of the order of the unit roundoff, of the sum of the magnitudes of its terms; the computed values are exactly symmetric under exchange of the arguments together with the roles of the operators; Gram matrices of noisy observations of an operator are positive definite as soon as the noise exceeds an explicit multiple of that error; in one dimension the first derivative of the squared exponential has a small relative error and the right sign.", "quantifier": "all float formats of the standard model, dimensions, orders of summation, lengthscales, directions, weights, pairs of points and numbers of observations", "why_tests_cant": "Tests compare double-precision values at a few points with a tolerance; they neither bound the error nor cover other orders of summation.", "anchors": ["src/linpde_gp/randprocs/covfuncs/linfuncops/diffops/_expquad.py", "src/linpde_gp/randprocs/covfuncs/linfuncops/diffops/_matern.py"]}
{"id": "C91", "title": "Whole histories of observations in floating point", "statement": "If kernels, cross-covariances, prior means, right-hand sides, Gram blocks and weight updates are all computed in floating point, a history of any length with noise above an explicit multiple of the rounding errors succeeds, its computed Gram matrix is positive definite, and the posterior mean evaluated from its state differs from the posterior mean of the exact history by an explicit bound (errors of the evaluation, of the cross-covariances, and the posterior standard deviation over the noise level times the sum of solver residuals, Gram errors and right-hand side errors); for squared-exponential and one-dimensional Matérn processes observed through operators with closed-form kernels, the kernel errors are those of C90. In exact arithmetic the two histories agree.", "quantifier": "all float formats of the standard model, solvers, orders of summation, numbers and sizes of batches, operators, points, observations and noise models", "why_tests_cant": "Tests run single histories in double precision and compare with a tolerance, which is neither derived nor valid for other sizes, solvers or orders of summation.", "anchors": ["src/linpde_gp/randprocs/_gaussian_process/_conditional.py", "src/linpde_gp/linops/_block.py", "src/linpde_gp/randprocs/covfuncs/linfuncops/diffops/_expquad.py", "src/linpde_gp/randprocs/covfuncs/linfuncops/diffops/_matern.py"]}
{"id": "C92", "title": "Posterior covariances of whole histories in floating point", "statement": "After a history of any length on floats (C91), evaluating the posterior covariance function solves with the computed block Gram operator without raising, and the value differs from the posterior covariance of the exact history by an explicit bound (errors of the evaluation, of the prior covariance and of the cross-covariances, and the square root of the variance reduction over the noise level times the residual of the block solve, the Gram errors and the errors of the right-hand side). Computed variances can be negative or above the prior variance only by that bound. For squared-exponential and one-dimensional Matérn processes observed through operators with closed-form kernels the kernel errors are those of C90. In exact arithmetic the computed covariances are those of the exact history.", "quantifier": "all float formats of the standard model, solvers, dense factorisation libraries, orders of summation, numbers and sizes of batches, operators, pairs of points, observations and noise models", "why_tests_cant": "Tests evaluate single posteriors; whether a variance turns negative by rounding, and by how much, depends on sizes, solver and order of summation.", "anchors": ["src/linpde_gp/randprocs/_gaussian_process/_conditional.py", "src/linpde_gp/linops/_block.py", "src/linpde_gp/randprocs/covfuncs/linfuncops/diffops/_expquad.py", "src/linpde_gp/randprocs/covfuncs/linfuncops/diffops/_matern.py"]}
{"id": "C93", "title": "Tensor products and the heat operator in floating point", "statement": "The loops that evaluate a transformed tensor product (coefficient tables of two operators, dictionaries of differentiated factors) on floats return without raising a value that differs from the exact one by an explicit bound in the errors of the factors, the numbers of dimensions and terms. For products of Matérn kernels and sums of differential operators (values, derivatives, the heat operator), added in any order, the computed covariances differ from those of the operators of the process by an explicit bound, with equality in exact arithmetic. Any history of noisy observations of such operators whose noise exceeds the Gram errors can be processed: all factorisations succeed, and computed posterior means and covariances differ from the exact ones by explicit bounds.", "quantifier": "all float formats of the standard model, dimensions, smoothnesses, scales, coefficient tables, orders of summation, solvers, numbers and sizes of batches, points, observations and noise models", "why_tests_cant": "Tests evaluate the heat example at one resolution in double precision; the growth of errors with dimensions, terms and batches, and whether a factorisation can fail, are not observed.", "anchors": ["src/linpde_gp/randprocs/covfuncs/linfuncops/diffops/_tensor_product.py", "src/linpde_gp/randprocs/covfuncs/linfuncops/diffops/_matern.py", "src/linpde_gp/randprocs/_gaussian_process/_conditional.py", "src/linpde_gp/linfuncops/diffops/_heat.py", "src/linpde_gp/linfuncops/_arithmetic.py"]}
{"id": "C94", "title": "Closed-form solutions in floating point", "statement": "The solutions attached to problems (truncated sine series, the heat equation with a sine series as initial values, the Poisson equation with constant right-hand side), evaluated on floats with any order of summation, differ from the exact ones by explicit bounds in the numbers of terms and roundings. The boundary values are met exactly at both ends of the interval at all times, and at the initial time the solution of the heat equation is the series of initial values exactly.", "quantifier": "all float formats of the standard model with a sine and an exponential of bounded relative error, intervals, coefficients, diffusivities, orders of summation, times from the initial time on and points", "why_tests_cant": "Tests compare with tolerances at a few points; the dependence of the error on the frequencies, and whether boundary values are exact, are not observed.", "anchors": ["src/linpde_gp/functions/_fourier.py", "src/linpde_gp/problems/pde/_heat.py", "src/linpde_gp/problems/pde/_poisson.py"]}
{"id": "C95", "title": "Finite element basis in floating point", "statement": "On strictly increasing grids of floats, with every operation rounded (sentinels, normalisation factors, hat functions, mass matrix, moments of constants, weak Laplacian), the basis functions take the value one at their own node and zero at all others and vanish outside their supports exactly; every value, moment and matrix entry has a relative error of a fixed number of roundings, whatever the grid; expansions and the partition of unity inherit these bounds; `eval_elem` returns the same floats as the evaluation of the basis; the computed mass matrix is symmetric and invertible.", "quantifier": "all float formats of the standard model with u <= 1/8, grids of every size whose outer cells are not shorter than two relative units of their outer points, boundary conditions, indices, points and coefficients", "why_tests_cant": "Tests use uniform grids with a few nodes and compare with tolerances; ill-conditioned grids, the loss of exact nodal values and the invertibility of the rounded mass matrix for all sizes are out of reach.", "anchors": ["src/linpde_gp/functions/bases/_fem.py", "src/linpde_gp/linfunctls/projections/l2/_fem.py", "src/linpde_gp/linfunctls/weak_forms/_laplacian.py"]}
{"id": "C96", "title": "Wendland kernels in floating point", "statement": "With every operation rounded (coefficients converted from fractions, scale factors, distances, Horner's method), the Wendland covariance functions differ from the exact ones by at most a bound that depends on the degree, the dimension and the absolute coefficients only, also for points where the computed and the exact distance lie on different sides of the boundary of the support; they are exactly symmetric, exactly one at coinciding points and exactly zero for points whose scaled distance exceeds one by more than the rounding of the distance; they are non-negative.", "quantifier": "all float formats of the standard model, dimensions, smoothness parameters, lengthscales, orders of summation and pairs of points", "why_tests_cant": "Tests compare values on a few random points with tolerances; the cancellation next to the boundary of the support occurs for distances within some units in the last place of one, and the bounds concern all degrees.", "anchors": ["src/linpde_gp/randprocs/covfuncs/_wendland.py", "src/linpde_gp/functions/_polynomial.py", "src/linpde_gp/randprocs/covfuncs/_jax.py"]}
{"id": "C97", "title": "Linear interpolation in floating point", "statement": "With every operation rounded, `PiecewiseLinear.from_points` raises for the same arguments as with exact arithmetic; the computed interpolant is exactly zero outside the grid, differs from the exact one by at most seven roundings relative to the value at the left end plus the slope times the distances of the left end and of the argument from zero, is exact on cells with equal values, and takes the given values at the points; piecewise constant functions are computed without error.", "quantifier": "all float formats of the standard model with u <= 1/2, strictly increasing grids of every size, values and arguments", "why_tests_cant": "Tests interpolate a few points near zero and compare with tolerances; the loss of the values for grids far from zero depends on the offset at zero and needs grids whose coordinates are large compared with their spacing.", "anchors": ["src/linpde_gp/functions/_piecewise.py", "src/linpde_gp/functions/_polynomial.py"]}
{"id": "C98", "title": "Integrals of Matérn kernels in floating point", "statement": "With every operation rounded, the first and second radial antiderivative of a half-integer Matérn kernel, the covariance of a value and an integral and the covariance of two integrals differ from the exact ones by at most an explicit number of roundings (growing linearly in the order) and the amplification of the error of the argument by the exponential function, relative to bounds of the terms that are added (the limit of the first antiderivative, the asymptote of the second); exchanging two intervals changes their covariance by at most twice the bound; exchanging the ends of an interval changes the sign exactly, integrals over a point and the antiderivative at zero are exactly zero, and covariances of a value with an integral over an interval of positive length are positive.", "quantifier": "all float formats of the standard model with u <= 1/2, all orders, lengthscales, intervals and points", "why_tests_cant": "Tests compare with numerical quadrature at a few points with tolerances; they cannot separate the cancellation with the constant of integration for short intervals from the error of the quadrature, nor cover all orders.", "anchors": ["src/linpde_gp/randprocs/crosscov/linfunctls/integrals/_matern_lebesgue.py", "src/linpde_gp/randprocs/crosscov/linfunctls/integrals/_radial_lebesgue.py"]}
{"id": "C99", "title": "Integrals of polynomials and piecewise functions in floating point", "statement": "With every operation rounded, the integral of a polynomial over an interval differs from the exact one by at most 2 n + 4 roundings (n the degree) relative to the sum of the sizes of the terms of the antiderivative at both ends; the integral of a piecewise function raises for the same arguments as with exact arithmetic, otherwise it differs by at most one further rounding per piece, and for intervals that end at a breakpoint it is close to the integral of the function; integrals of polynomials that are positive inside the interval are positive.", "quantifier": "all float formats of the standard model, polynomials of every degree, piecewise functions with any number of pieces, all intervals", "why_tests_cant": "Tests integrate a few polynomials near zero; the cancellation between the values of the antiderivative depends on the distance from zero and shows only for intervals far away.", "anchors": ["src/linpde_gp/functions/_linfunctls.py", "src/linpde_gp/functions/_polynomial.py", "src/linpde_gp/linfunctls/_integrals.py"]}
{"id": "C100", "title": "Volumes of domains and integrals of constants in floating point", "statement": "With every operation rounded, `volume` of intervals, points, boxes and nested Cartesian products raises for the same domains as with exact arithmetic; otherwise it equals the Lebesgue measure up to a relative error of one rounding per interval and per product (2 d - 1 for a box of dimension d), is never negative, and is positive exactly for domains of positive measure; integrals of constants have one more rounding.", "quantifier": "all float formats of the standard model, all domains of any dimension and nesting, all constants", "why_tests_cant": "Tests compare the volumes of two or three boxes; a relative bound for all dimensions and nestings and the absence of wrong zeros need an induction over the domain.", "anchors": ["src/linpde_gp/domains/_interval.py", "src/linpde_gp/domains/_cartesian_product.py", "src/linpde_gp/domains/_box.py", "src/linpde_gp/domains/_point.py", "src/linpde_gp/linfunctls/_integrals.py"]}
