# Formal model of linpde-gp in Lean 4

## What this is

`lean/Verif` contains a hand-written Lean 4 model of the Python library in `/repo` (linpde-gp) and kernel-checked proofs
of the properties listed in `properties.jsonl`. The code is never run; each model definition cites the file and lines it
mirrors. `MANIFEST.json` maps properties to theorems. `seeded/` records wrong programs tried against the theorems.

## Trusted base

* The Lean 4.33.0 kernel and the Mathlib library shipped with it.
* Axioms: every theorem depends on at most `propext`, `Classical.choice`, `Quot.sound` (checked with `#print axioms` over
  all theorems named in the manifest; there are no axioms, `sorry` or compiled evaluation in `lean/Verif`).
* The reading of the Python source by hand (no extraction, nothing executed).
* Floating point is modelled by exact real or rational arithmetic, except in `Rounding/` (C84), where every operation of the
  evaluated function is rounded: there a format is any rounding with a relative error bound, so overflow, underflow and NaN are
  not modelled; the solve of the Gram system enters through the residual of its result. The dtype
  of an array matters in two places and is modelled there: polynomials and piecewise functions at arrays of integers
  (`Poly/IntEval`, `PW.evaluateInt`).
* External libraries are not part of /repo (the `probnum` submodule directory is empty) and are modelled by their
  documented contract, listed next.

### Contracts of external libraries

* numpy: broadcasting, C-order `reshape`, `moveaxis`/`transpose`, `concatenate`, `split`, in-place `*=` on arrays, `piecewise`
  and `full_like` allocating with the dtype of their argument, `reduce` of an empty list raising `TypeError`; `stack` raising
  `ValueError` for arrays of different shapes and `AxisError` for an axis out of range.
* scipy: `stats.norm.cdf` is the integral of the standard normal density; `integrate.quad`/`dblquad` return the exact integral, `nquad` passes one argument per dimension; `sparse.diags` places the k-th diagonal entry by entry;
  `linalg.cho_solve` solves with the given factor; `linalg.cholesky` returns a factor of every positive definite matrix
  (hypothesis `CholOK`; `Block/CholExists.lean` proves that such a factorisation exists).
* jax: exact arithmetic on immutable arrays; `jit` does not change values; `grad` is not modelled; `jvp` and
  `hessian` differentiate and trace their function, tracers are refused by `np.asarray`, and `jnp.diag` takes at most two axes;
  `jnp.vectorize` with a
  signature maps a function over the leading axes and refuses other numbers of axes.
* probnum
  * `LinearOperator`: `@`, `.T`, `.solve`, `.inv`, `.cholesky`, `.det`, `.trace`, `todense` of a *leaf* operator are those of the
    dense matrix it denotes; `0 + linop` is `linop`; `linop(a, axis)` multiplies along an axis.
  * `Function.__call__` and `CovarianceFunction.__call__` check the input shape, broadcast batches and assert the shape of
    the result; `CovarianceFunction.linop(x0, x1)` has the output axes before the batch axes, both in C order
    (`linfunctls/_evaluation.py:11-14`).
  * arithmetic of `Constant` random variables is arithmetic of their values; random processes have none, so multiplying one
    raises `TypeError`
  * `SumFunction`/`SumCovarianceFunction` flatten nested sums, require equal shapes (`ValueError`) and at least one summand
    (`IndexError`).
  * `Normal(mean, cov)` requires a covariance of the size of a mean with at least one axis (`ValueError`).
  * `Matern.half_integer_coefficients(p)` returns c_k = p!/(2p)! * (2p-k)!/((p-k)! k!) * 2^k; `ExpQuad` is
    exp(-1/2 sum ((x-y)/l)^2); `Matern` of half-integer order is P(r) exp(-r) with r = sqrt(2 nu) * |(x-y)/l|.

### Choices made in the models

* Batches: kernels, functions and basis functions are evaluated entry by entry over a batch; models of a single pair of
  points are used where the code broadcasts (`Matern`, `ExpQuad`, `Wendland`, `Fem`, `Galerkin`). The layout of batches is
  modelled in `Tensor`, `XCov`, `Param`, `Covar`, `GP/Validate`, `GP/FunctlShape`.
* `GP`: a functional is given by its scalar components; Gram matrices are real matrices; the histories considered have a
  positive definite joint Gram matrix.
* `CovAlg`, `XCov`, `Op`: base operators and functionals are linear maps on all functions (a differential operator is one of
  them, extended linearly). The values of closed forms are assumed right there and proved right in `Matern`, `ExpQuad`,
  `Fem`. `argnum` outside {0, 1} and the `TypeError` time of the generic JAX fallback are not represented (the latter is
  reported at the call). In `XCov` the numbers inside a point are not represented, only the shape of a point; stacks with a
  vector of shape `()` and object arrays are not represented; tensor-product and Galerkin kernels are treated in
  `Tensor` and `Galerkin`.
* `Tensor`: a factor is a covariance function on the real line given by its values; `PDCorrect` states what is required of
  the derivative of a factor, and is what `Matern` and `ExpQuad` prove.
* `Galerkin`: covariance functions of one real variable with scalar values and the finite element L2 projection; object
  identity is equality of identifiers; an exception raised inside an integrand is not represented (`kernel_total` shows
  there is none).
* `Pde`: a final time `T = inf` is not represented; differential operators enter constructors through their shapes.
* `DiffFn`: entries of functions are smooth; a function is marked by where it can be evaluated (everywhere, at single points
  outside transformations, nowhere); the recursion limit is an argument.
* `Gmm`: means and standard deviations have at most one axis; a scalar is a list of one number; non-finite values are an error.
* `Func`: a lambda function is given by its values at points and by the shape it returns.  The recursion limit of the
  interpreter is an argument of `Leb.call`.
* `Domain`: dtypes are not modelled; sets of points are sets of coordinate lists.

## What is modelled

| Python | Lean |
| --- | --- |
| `domains/` | `Domain` |
| `functions/_polynomial.py` | `Poly` |
| `functions/_truncated_gmm.py` | `Gmm` |
| `functions/_piecewise.py`, `_linfunctls.py` | `Piecewise` |
| `functions/_jax.py`, `_jax_arithmetic.py`, `_constant.py` | `Op`, `Func` |
| `linfuncops/diffops/_lindiffop.py`, `_functions.py`, `_partial_derivative.py`, `_directional_derivative.py`, `_laplacian.py`, `_heat.py` (calls on functions) | `DiffFn` |
| `randprocs/_deterministic_process.py`, `randprocs/_utils.py` | `DetProc` |
| `functions/_affine.py`, `_stack.py`, `functions/linfuncops/_registry.py`, `linfunctls/_dirac.py`, `_evaluation.py`, `_integrals.py` | `Func` |
| `functions/_fourier.py`, `problems/pde/` | `Pde` |
| `functions/bases/_fem.py`, `linfunctls/projections/l2/_fem.py`, `linfunctls/weak_forms/_laplacian.py` | `Fem` |
| `linfuncops/`, `linfunctls/` (expression arithmetic and dispatch) | `Op`, `CovAlg`, `XCov` |
| `linfuncops/diffops/` | `Coeff`, `Op` |
| `linops/_block.py`, `_concatenated.py` | `Block`, `Grid` |
| `randvars/_covariance.py`, `_normal.py` | `Covar`, `Normal` |
| `randprocs/_gaussian_process/_conditional.py`, `_lintransforms.py` | `GP` |
| `randprocs/_gaussian_process/_parametric.py`, `covfuncs/_parametric.py` | `Param` |
| `covfuncs/_jax.py`, `_jax_arithmetic.py`, `_stack.py`, `_independent_multi_output.py`, `_zero.py`, `_utils.py`, `covfuncs/linfuncops/_registry.py` | `CovAlg` |
| `covfuncs/_matern.py`, `linfuncops/diffops/_matern.py`, `_registry.py`, `crosscov/linfunctls/integrals/` | `Matern` |
| `covfuncs/_expquad.py`, `linfuncops/diffops/_expquad.py` | `ExpQuad` |
| `covfuncs/_wendland.py` | `Wendland` |
| `_evaluate_jax` and `_keops_lazy_tensor` of the three families above, `covfuncs/_jax.py:104-147` | `Backend` |
| `covfuncs/_tensor_product.py`, `linfuncops/diffops/_tensor_product.py` | `Tensor` |
| `covfuncs/_galerkin.py`, `covfuncs/linfunctls/_registry.py:198-258` | `Galerkin` |
| `covfuncs/linfunctls/_registry.py`, `covfuncs/linfuncops/_abstract.py`, `crosscov/` | `XCov` |
| `tests/linpde_gp/problems/test_heat.py`, `experiments/0002_poisson_dirichlet*.ipynb`, `experiments/0003_poisson_1d_inverse_rhs.ipynb` (steps as functions of the problem) | `Solve` |
| `utils/plotting.py` | `Plot` |
| `functions/_jax.py`, JAX views of `functions/` and of the attached solutions, operators applied to them | `JaxFn` |
| `experiments/cpu.py`, boundary observations of `experiments/0001_cpu_stationary_2d.ipynb` | `Cpu` |
| `__repr__` in `functions/_polynomial.py`, `linfuncops/` | `Printed` |
| floating point evaluation of polynomials, kernels, posteriors, `schur_update`, `_cholesky`, `_solve` | `Rounding` |
| positive semidefiniteness of the closed-form kernels (no code of its own) | `PosDef` |

## What is not modelled

Plotting parameters other than positions, colours, labels and markers, random sampling,
JAX autodiff (`grad`, `jit`) beyond its contract, the KeOps tensors of probnum's own kernels, the `repr` of domains and stacked cross-covariances, type annotations.

## How statements are organised

* `Verif/<Area>/Model.lean` (and files named after what they model): definitions mirroring the code, each with its citation.
* `Verif/<Area>/Lemmas.lean`: helper lemmas.
* `Verif/<Area>/Props.lean`, `…Props.lean`, `Violations.lean`, `Refuse.lean`: property theorems with their non-vacuity
  examples. Specifications are stated with Mathlib notions (`Polynomial`, `Matrix`, `HasDerivAt`, `∫`, `Matrix.PosDef`, …)
  rather than with the model's helpers.
* Where the code violates a property, the violation is proved with a concrete witness (`…_violated`) and the part that does
  hold is proved, as `…_partial` or with the condition in the statement.

## Violations found

| Property | Code | What happens |
| --- | --- | --- |
| C08 | `_conditional.py:223-243` | NumPy covariance of vector-valued posteriors broadcasts the update along the wrong axis; the JAX variant indexes the wrong operand (raises, or returns wrong values when the batch has the size of the data) |
| C19, C20 | `_polynomial.py`, `_piecewise.py` | integer arguments: accumulator with integer dtype, constants truncated or `TypeError`; `PiecewiseConstant` is 0 at its first breakpoint |
| C21 | `functions/_linfunctls.py` | integral of a piecewise function wrong unless the upper limit is a breakpoint |
| C23 | `diffops/_matern.py` | Matérn-3/2 Laplacian in several dimensions: constructor raises `ValueError` in the division by r² |
| C24, C57 | `diffops/_registry.py` | weighted Laplacians of kernels that are not smooth enough are returned; for Matérn-3/2 in both arguments the result has a negative variance |
| C25 | `diffops/_matern.py:54-62` | evaluating a directional derivative multiplies the shared lengthscale array in place |
| C27 | `diffops/_registry.py:352` | Laplacian in argument 0 and then in argument 1 of a squared-exponential kernel raises `AttributeError` |
| C28 | `_tensor_product.py` | Kronecker factors wrong for `xy` grids, multi-output factors, grids of another dimension |
| C29, C56 | `covfuncs/` registries | negative `SelectOutput` indices, differential operators on independent multi-output kernels, order-0 derivatives without validation, lost shapes in the JAX fallback |
| C30 | `covfuncs/linfunctls/_registry.py:241-258`, `_galerkin.py` | no Galerkin kernel of a zero kernel or of the Galerkin kernel of another projection; projection shortcut wrong for unnormalised projections |
| C34 | `_coefficients.py:56-59` | multi-indices of different shapes compare by broadcasting |
| C35-C37 | `linfuncops/_arithmetic.py`, `linfunctls/_linfunctl.py:67-69` | applying to a scaled function recurses forever; functionals of `Zero` lose the output shape |
| C39, C40 | `domains/` | equality by broadcasting, `KeyError` returned instead of raised, membership in products missing, surplus factors ignored |
| C43 | `weak_forms/_laplacian.py:37-50` | stiffness matrix wrong on non-uniform grids |
| C44, C45, C46 | `problems/pde/` | piecewise Poisson solution ignores its domain; heat solution ignores the right-hand side; missing validations, pairs of bounds raise `AttributeError` |
| C48 | `crosscov/` | layouts of linear-operator views with several outputs, swapped arguments, stacked JAX views |
| C49 | `_parametric.py` | output shapes of scalar-weight processes; unchecked first shape |
| C52 | `_conditional.py:453-467` | functionals whose output has two axes longer than one raise `ValueError`; empty outputs with a last axis of length one change shape |
| C53, C54 | `linfuncops/diffops/` | operators with only zero coefficients cannot be applied; scaling a differential operator twice raises `TypeError` |
| C58 | `crosscov/linfuncops.py:59, 79`, `linfuncops/_identity.py:20-22` | operators on cross-covariances of functionals in argument 0 raise `TypeError`; `Identity` returns `None` for cross-covariances; zero cross-covariances of any shape are accepted; differential operators return a function (not a cross-covariance) for quadrature, matrix, parametric and stacked ones |
| C59 | `_affine.py:43-53`, `_stack.py:34-44`, `_jax.py`, `linfunctls/` | affine functions with a vector `A` and stacks along axes counted from the front cannot be evaluated on batches; the JAX variant accepts arguments of other shapes; point evaluations do not check the function's output shape |
| C60 | `_linfunctl.py:63-65`, `_integrals.py:52-57` | integrating a scaled function recurses forever; functions cannot be integrated numerically over boxes of two or more dimensions; output shapes are not compared |
| C63 | `functions/_truncated_gmm.py:31-45` | not zero outside the domain (the integral over the line exceeds one); parameters of different lengths are accepted and fail in every evaluation; non-finite for degenerate intervals |
| C62 | `diffops/_functions.py`, `_lindiffop.py:103-140`, `_laplacian.py:57-69`, `_linfuncop.py:80-82`, `_select_output.py` | terms of order zero are lost on constants and raise `TypeError` on other functions; derivatives by operators given by tables cannot be evaluated on batches; operators on several outputs cannot be applied; derivatives of scaled functions recurse forever; Laplacians on domains with two or more axes cannot be evaluated; shapes of `Zero` unchecked |
| C61 | `linfuncops/_arithmetic.py:36-38`, `diffops/_arithmetic.py:34-36` | scaled operators raise `TypeError` for deterministic processes |
| C68 | `diffops/_matern.py`, `diffops/_expquad.py`, `_wendland.py`, `_polynomial.py` | points stored as integers: NumPy raises `UFuncTypeError` for Matérn derivatives and Wendland variances; `full_like(x0, …)` truncates variances of derivatives to integers (zero for large lengthscales) |
| C72 | `experiments/0001_cpu_stationary_2d.ipynb` cell 28 | the west boundary observation differentiates in the direction `(-1, 0)` like the east one, so that the observed boundary value problem has no solution (divergence theorem); with `(1, 0)` the power balance holds. Also `cpu.py:231-250`: the solution and problem for Dirichlet conditions use `pde_1D`, the balanced `pde_1D_dbc` is never used |
| C73 | `experiments/0001_cpu_stationary_2d.ipynb` cell 28 | because of the direction `(-1, 0)` the posterior mean has, at every observed point of the west side, the negative of the derivative that the heat flux out of the chip requires |
| C76 | `crosscov/_stack.py` | The JAX view of a stacked cross-covariance returns zeros instead of the stacked values (`LinPDE.XCov.stack_jax_violated`). |
| C79 | `_conditional.py:155-168, 199-204, 233-243` | `Mean._evaluate_jax` and `CovarianceFunction._evaluate_jax` are compiled by `jax.jit`, and the cross-covariance calls the NumPy views of its parts (`kLa(x)` instead of `kLa.jax(x)`): the JAX views of every posterior mean and covariance raise `TypeError` at every input, and so does every derivative of a posterior mean made by a JAX fallback (`LinPDE.PostView.mean_jax_violated`, `cov_jax_violated`, `mean_derivative_violated`). |
| C79 | `crosscov/linfunctls/_dirac.py:134, 264`, `_evaluation.py:136, 291` | The JAX view of a point evaluation calls the NumPy kernel and cannot be traced (`LinPDE.PostView.jaxV_point_violated`). |
| C79 | `_conditional.py:144-152` | At an empty array of points `reshape(..., -1)` raises `ValueError` (`LinPDE.PostView.pred_empty_violated`). |
| C80 | `plotting.py:103-110` | With `vertical=True` the mean is still drawn horizontally, outside the band (`LinPDE.Plot.plot1d_vertical_violated`). |
| C80 | `plotting.py:122-131` | For `cred_int=1` both ends of the band are NaN where the standard deviation is zero (`LinPDE.Plot.plot1d_level_one_violated`). |
| C80 | `plotting.py:334-354` | The rest of a slice is drawn without `axis=slice_axis`: a slice along the second axis with `slice_color` raises `AxisError` (`LinPDE.Plot.plot2d_slice_color_violated`, `slice_color_violated`). |
| C80 | `plotting.py:370-381` | A segment of a sample that crosses the mean is drawn neither above nor below it (`LinPDE.Plot.lineChunks_crossing_violated`). |
| C80 | `plotting.py:503, 532` | `plot_local_taylor_processes` does not make the number of points odd: with an even number the marker is not at the point (`LinPDE.Plot.taylor_marker_violated`); in `plot_local_curvature` a grid of one point is the left end (`curvature_marker_violated`). |
| C80 | `plotting.py:655-662` | Without a replacement field in the file name every frame overwrites the one before (`LinPDE.Plot.writer_literal_violated`). |
| C81 | `_heat.py:97-145` | The solution attached to a heat problem is no `JaxFunction`, its method is misnamed `_jax_evaluate`: the operator of the equation applied to it returns a function that raises `TypeError` everywhere (`LinPDE.JaxFn.heat_violated`; the same for every function without a JAX view, `plain_violated`). |
| C81 | `_piecewise.py:66-77` | A piece without a JAX view makes the JAX view raise `AttributeError` at every point (`LinPDE.JaxFn.plain_piece_violated`). |
| C81 | `_piecewise.py:66-77` | At a kink the slope of the left piece is returned as the derivative (`LinPDE.JaxFn.kink_violated`). |
| C81 | `_polynomial.py:70-77` | At integers the JAX view truncates the leading coefficient, NumPy raises `TypeError` (`LinPDE.JaxFn.integer_violated`, `polyJaxInt_eq`). |
| C84 | `_conditional.py:223-231` | The variance is a difference of rounded numbers that is not clipped: in every binary format with at least three digits it can be negative although all inputs are the correctly rounded exact ones (`LinPDE.Rounding.variance_violated`). |
| C85 | `linfuncops/_arithmetic.py:56-57, 108-109, 138-139` | Sums inside multiples and compositions are printed without parentheses: `2 * (A + B)` like `2 * A + B` (`LinPDE.Printed.operator_violated`). |
| C85 | `_coefficients.py:61-62` | Multi-indices without entries are printed alike for different shapes (`LinPDE.Printed.multiindex_violated`). |
| C94 | `_fourier.py` | A computed sine series does not vanish at the right end of its interval: the argument of the sine is a float, π is irrational (`sine_right_violated`; bounded by `sine_right_partial`). |
| C95 | `bases/_fem.py` | A computed basis function need not be one at its own node: distance times computed reciprocal can be the number before one (`fem_delta_violated`, all binary formats with at least six digits; bounded by `fem_delta_partial`). |
| C96 | `covfuncs/_wendland.py` | A computed Wendland covariance can be negative next to the boundary of the support, where the exact one is positive: Horner's method cancels there (`wendland_nonneg_violated`, d = 2, k = 1, all binary formats with at least six digits; bounded by `wendland_nonneg_partial`). |
| C97 | `_piecewise.py` | A computed interpolant need not take the given values: the pieces are stored as offset at zero and slope, and for grids far from zero the offset loses the values (`interp_nodes_violated`: zero instead of one, all binary formats with at least three digits; bounded by `interp_nodes_partial`). |
| C98 | `_matern_lebesgue.py` | The computed covariance of a value and an integral over a short interval can be zero although the exact one is positive: the exponential is rounded to one and cancels with the constant of integration (`integral_pos_violated`, all binary formats, `ν = 1/2`; `integral_pos_partial` gives a sufficient condition). |
| C99 | `_linfunctls.py` | The computed integral of a polynomial that is positive inside the interval can be zero: far from zero the values of the antiderivative cancel (`poly_integral_pos_violated`: `x - M` on `[M, M + 1]`, all binary formats with at least four digits; `poly_integral_pos_partial` gives a sufficient condition). |
| C55 | `_piecewise.py` | sums vanish outside the domain; scaling changes the value at the first breakpoint |

## Plan per property

* **C01 Incremental conditioning equals batch conditioning** — GP: state = (prior, functionals, Gram matrix, weights) over a growing index type; conditioning is a fold over the list of batches; invariant `gram = joint Gram`, `weights = gram⁻¹ (y - Lm - b)` by induction; posterior compared with one-shot spec.
* **C02 Posterior does not depend on the order of observations** — GP: batch spec is invariant under reindexing; combine with C01.
* **C03 Noise-free observations are reproduced exactly** — GP: from C01, algebra of the Gram matrix restricted to a noise-free block.
* **C04 Conditioning never increases uncertainty** — GP: Schur complement positivity from Mathlib's `Matrix.PosSemidef` applied to the joint covariance.
* **C05 Linear functionals and operators commute with conditioning** — GP: functionals are linear maps on functions; linearity of the finite sum of representer terms.
* **C06 Cached representer weights agree with recomputation** — GP: invariant of C01 compared with the lazy formula.
* **C07 Observation arguments are validated completely** — GP: decision function over argument kinds and shapes returning `Except`; characterised exactly.
* **C08 NumPy and JAX evaluation of the posterior covariance agree, also for vector-valued processes** — GP: models of the three evaluation paths with explicit index conventions; NumPy/linop agree for scalar outputs; counterexamples for JAX and vector outputs.
* **C09 Conditioning a Normal random variable is Bayes' rule** — Normal: Woodbury identities over `Matrix` and minimisation of the quadratic loss.
* **C10 Block operators act as the assembled dense matrix** — Block: grid of blocks with lists of heights/widths; dense semantics by offset arithmetic.
* **C11 Block 2x2 solve returns the solution in every structural branch** — Block: each branch modelled with its own formula; `M * x = b` via `fromBlocks`.
* **C12 Schur update extends a solution** — Block: same.
* **C13 Block Cholesky is a Cholesky factor** — Block: `fromBlocks` algebra.
* **C14 Block determinant and trace** — Block: Mathlib `det_fromBlocks`.
* **C15 Concatenated operators stack their parts** — Block: lists of matrices.
* **C16 Polynomial arithmetic is ring arithmetic** — Poly: coefficient lists over ℚ (and any field); spec = Mathlib `Polynomial`.
* **C17 Polynomial calculus** — Poly: `Polynomial.derivative`, `HasDerivAt`.
* **C18 Polynomial division** — Poly: loop invariant of divmod.
* **C19 Polynomial evaluation is exact** — Poly: fold induction.
* **C20 Piecewise functions evaluate the right piece** — Piecewise: lists of breakpoints; spec by interval membership.
* **C21 Integral of a piecewise function** — Piecewise: model of the summation loop; spec `intervalIntegral`; violated in general, partial when the end is a breakpoint.
* **C22 Wendland kernels have the advertised shape** — Wendland: recursion on k, polynomials; positivity, monotonicity, divisibility by (1-X)^(l+k).
* **C23 Matérn derivative polynomials** — Matern: polynomials over ℚ, recursion in n; closed form relations between orders p and p-1.
* **C24 Matérn derivative kernels are the true derivatives** — Matern: `HasDerivAt` along directions for K_p(v) = κ_p(‖v‖).
* **C25 Evaluating a derivative kernel has no side effects** — Matern: heap model with the aliased scale-factor array; violation for array lengthscales, partial for scalars.
* **C26 Integrals of Matérn kernels in closed form** — Matern: fundamental theorem of calculus.
* **C27 Squared-exponential derivative kernels are the true derivatives** — ExpQuad: `HasDerivAt` along directions in Fin n → ℝ.
* **C28 Tensor-product kernels factorise** — Tensor: products over lists/`Fin n`, Kronecker over grid indices.
* **C29 Operator application is linear in the kernel** — Covfunc algebra: expression trees with denotation.
* **C30 Galerkin kernel decorrelates projection and remainder** — Galerkin: kernels as inner products of feature maps (reproducing kernel Hilbert space), projections as Bochner integrals; soundness of evaluation and projection by induction over nested kernels.
* **C31 Coefficient arithmetic denotes operator arithmetic** — Coefficients: association maps keyed by codomain index and multi-index; denotation into linear maps.
* **C32 Named differential operators have the right symbol** — Diffops: coefficient tables of named operators compared with Σ of partial derivatives.
* **C33 Partial derivatives factorise** — Diffops: composition of iterated partial derivatives.
* **C34 Multi-index equality is a proper equality** — Diffops: broadcasting equality modelled; violation, partial for equal shapes.
* **C35 Operator expressions denote the operator algebra** — Linfuncop expressions: rewriting constructors, denotational semantics as `→ₗ`.
* **C36 Functional expressions denote the functional algebra** — Linfunctl expressions: same.
* **C37 Applying an operator to any function expression terminates with the linear result** — Dispatch recursion with fuel; non-termination proved for the scaled case; partial otherwise.
* **C38 Function arithmetic is pointwise** — Function expressions: smart constructors preserve pointwise meaning.
* **C39 Intervals and boxes describe the right point sets** — Domains: sets in `Fin n → ℝ`/lists; several violations (returning KeyError, broadcasting equality).
* **C40 Cartesian products of domains** — Domains: lists of factors; zip truncation violation.
* **C41 Finite element basis** — FEM: hat functions over grids as lists/functions with sentinels.
* **C42 L2 projection onto the finite element basis** — FEM: integrals of products of hat functions.
* **C43 Weak Laplacian on the finite element basis** — FEM: stiffness integrals; violation on non-uniform grids, partial on uniform grids.
* **C44 Analytic Poisson solutions solve the boundary value problem** — PDE: `HasDerivAt` twice; boundary values.
* **C45 Analytic heat solution solves the initial boundary value problem** — PDE: derivatives of finite sine sums; violation for nonzero rhs.
* **C46 Boundary value problems are validated** — PDE: validation functions returning `Except`.
* **C47 Covariance reshaping round-trips and arithmetic is consistent** — Covariance: C-order flattening as equivalence on multi-indices.
* **C48 Cross-covariance views agree** — Crosscov: index-level models of array layout; violations for swapped arguments and operator transforms.
* **C49 Parametric Gaussian processes are pushforwards of their weights** — Parametric GP: bilinear forms.
* **C50 Sine series** — PDE: sums of sines.
* **C51 Closed-form L2 projection of the Matérn-3/2 kernel** — FEM/Matern: FTC with case split.
* **C52 Functionals of posteriors have consistent shapes** — GP: model of the addition of a flat correction to a shaped mean; exact set of shapes that work.
* **C53 Constructible differential operators can be applied** — Coeff: which tables can be turned into sums; witness with zero weights.
* **C54 Scaling differential operators is total and associative** — Op: dispatch of `__rmul__`.
* **C55 Arithmetic on piecewise functions is pointwise** — Piecewise: merged breakpoints, loop over pieces.
* **C56 Kernels and cross-covariances of incompatible shapes are refused** — CovAlg/XCov: acceptance conditions of constructors; induction over operator and functional expressions.
* **C57 Closed-form kernels are covariance functions** — PosDef: closure properties of positive semidefinite functions (Schur product, limits, integrals), Schoenberg's argument for exp(-|v|), induction over the order for Matérn, second differences for derivatives.
* **C58 Linear operators act on cross-covariances** — XCov: dispatch of each operator class on each cross-covariance class; induction over both expressions, reusing the result for covariance functions.
* **C59 Evaluating functions on batches of points** — Func: arrays as shapes with entry functions; evaluation of expressions by mutual recursion, compared with a denotation at single points by induction; counterexamples for axes counted from the front.
* **C60 The Lebesgue integral functional returns integrals** — Func: dispatch with the recursion limit as fuel; set integrals over the domain's point set; non-termination for scaled functions for every limit.
* **C61 Deterministic processes behave as their function** — DetProc: a second dispatch over the operators of `Op`, compared with the one for functions by mutual induction.
* **C62 Differential operators applied to functions differentiate them** — DiffFn: the dispatch with its fallbacks and the recursion limit as fuel; soundness by induction on the limit against Mathlib's Fréchet derivative; totality for the named operators; exact failures for the others.
* **C63 The truncated Gaussian mixture is the density of the conditioned mixture** — Gmm: normalising constants by substitution in the integral; comparison with Mathlib's `gaussianReal` and conditional measures.
* **C64 Wendland kernels are covariance functions** — PosDef: volumes of intersections of balls are covariance functions (Euclid's hats); Askey's truncated powers are mixtures of them, by repeated differentiation in the squared distance; integrating out two coordinates is one step of the integral transform, and keeps positive semidefiniteness by averaging over Gaussian points.
* **C65 Conditioning at distinct points succeeds** — PosDef/Strict, GP/Interpolate: a null vector of a Gram matrix represents the zero function (Cauchy–Schwarz); Gaussians by independence of characters, exponentials of the distance as exponentials of mixtures of centred Gaussians, Matérn kernels as mixtures of those, Wendland kernels from their compact support; tensor products by grouping. The hypothesis `(jG l).PosDef` of C01–C06 is discharged for these priors.
* **C66 Collocation succeeds** — PosDef/Jet1, Jet1Strict, GP/Jet, JetProps, JetKernels: priors whose functionals are finite combinations of derivatives at points (`JetKernel.prior`; functions with a jet up to the orders in a lower set `I`), shown to satisfy the contract `Prior.Regular` of C01–C06. A null vector of the Gram matrix of derivatives annihilates every kernel translate; independence of polynomials times exponentials (one-dimensional Gaussian and Matérn), products by grouping.
* **C67 Tensor products and the heat equation** — GP/JetTensor: joins the loops of the tensor-product kernels (C28) with the closed forms of the one-dimensional Matérn kernels (C26) and the derivative priors (C66). The dispatch on a factor is the parameter `pd`; the hypothesis `FollowsMatern` says it follows `_registry.py` on Matérn factors (satisfied by exact differentiation). Sums of kernels evaluate to sums (probnum contract); both the nested and the expanded form of the intermediate sum are covered.
* **C68 Libraries and storage types** — Backend: the three evaluation paths of every closed-form class written out separately, with storage types of the points. Float points: all agree with the values used in C24, C27 and C22. Violated for integers: NumPy's in-place scaling and polynomial evaluation raise, `full_like(x0, …)` truncates variances in NumPy and JAX. Contract: probnum's `_euclidean_distances` scales in place and returns `zeros_like(x0)` for a missing second argument, as `_jax.py:104-147`; KeOps arithmetic is entrywise.
* **C69 Problems solved end to end** — Solve: the steps of the heat test (`tests/`) and of the Poisson notebooks as functions of the problem objects of C46 (grids of C39, collocation of C63, process of C01): `solve_spec` for any list of value and equation observations at distinct points, `solvable_iff` (exact observations are solvable exactly when no value and no equation is observed twice at a point), then heat on an interval, Poisson on an interval (both orders of conditioning) and on boxes of every dimension (sides of a box meet only at their ends). Contract: probnum's `as_shape` broadcasts a single size to all axes. The singular corners are necessary conditions of the claim (an inset is what the notebooks use), not violations.
* **C70 Finite element notebooks** — Solve/Fem*: bases, weak form, projection of the right-hand side, boundary observations and conditioning steps of the two FEM notebooks as functions of the problem (bases of C41, projections of C42, weak form of C43, Galerkin covariance function of C30, processes on locally bounded functions from GP/Projection). The Gram matrix is positive definite because the rows of the system and the evaluations are independent functionals (`rows_span`, `gram_posDef`); the posterior mean is identified by uniqueness of the Galerkin equations; nodal exactness is the Green identity for hat functions, with a right-hand side that may jump. `run_recentre` treats noise with a nonzero mean (random right-hand sides) for every history; Solve/FemRandom: measured boundary values and a measured right-hand side projected as noise of the weak form, related to the joint process of C71.
* **C71 Uncertain right-hand sides** — GP/Joint, JointLemmas: the process of independent outputs as one process on pairs of an output index and a point, with `SelectOutput` as a functional transformation. GP/JointProps: a posterior as a prior (`posterior_of_posterior`, Schur complements of the block Gram matrix), noise in an equation against an explicit second output (`uncertain_rhs`); GP/MessageProps, TwoViews: both directions between the outputs; GP/JointStrict: nondegenerate families make every independent collocation solvable, and a correlated prior where the equivalence fails. Solve/InverseProps: the steps of the inverse-problem notebook, whose two posteriors belong to one joint posterior when the equation is used at the same points for both (the notebook itself uses the measurement points for one and the PDE points for the other).
* **C72 CPU script** — Cpu/Model: constants of `experiments/cpu.py` as a structure, heat distributions built from `from_points`, `LebesgueIntegral` and scalar multiples, right-hand sides, sinks, the one-dimensional solutions, the boundary observations of the two-dimensional notebook as (part, direction, value). Piecewise/Interp: interpolants in terms of their points (multiples, shifts, integrals, continuity). Cpu/HeatProps, PowerProps: normalisation, power balance, the solution of `bvp_1D` meets both flux conditions; the divergence theorem excludes a solution of the posed two-dimensional problem. Not modelled: plotting, the sampled sensor data.
* **C73 CPU notebooks** — Solve/Operators: a call `condition_on_observations(Y, X=X, L=L, b=b)` as (coefficients of the operator, points, values, mean and variance of the noise). GP/ExactRows: measurements whose noise is constant. Solve/OperatorsProps: multiples of linearly independent operators, none of them observed twice at a point, have a positive definite Gram matrix. Cpu/Notebook, Notebook2DProps, Notebook1DProps: the observations of the notebooks (grids with inset, right-hand sides, boundary parts in order, sensors) and what the posterior satisfies. Not modelled: plots, sampling the sensor noise (the readings are arbitrary). GP/Reindex, GP/JointRows, Cpu/Joint, Cpu/JointProps: the joint process of temperature, source and boundary flux; its measurements are linearly independent because their parts in `u` are and the stationarity functional does not vanish on constant fluxes.
* **C74 Worst-case error** — GP/Optimal: distance to the prior mean as the smallest `B` with `(L f − L m)² ≤ B cov(L, L)` for all functionals (the squared norm of the reproducing kernel Hilbert space, without building the space), data of a function, bounded noise. The posterior is compared with all functions within that distance.
* **C75 Convergence** — Solve/MaxPrinciple: maximum principles for functions that are only known to be twice differentiable along lines. Solve/Converge: continuity of the derivatives of the kernels, density of the grids, closeness of residuals from C74. Solve/ConvergeProps: the scripts of C69 run on the data of a solution `f`. The boundary values of the heat problem may be noisy. The theorems give no rates (see C78). Problems without solution at finite distance are not covered; smooth solutions are at finite distance for Matérn kernels (C77).
* **C76 Views of covariance functions** — XCov/KLinop: `linop` of every class of covariance functions, with ProbNum's rules for scaled covariance functions and sums, `BlockDiagonalMatrix` and the flattening of batch axes as contracts. Tensor/Keops: lazy tensors as matrices of entries; the lazy tensor of a one-dimensional factor is an outside contract (proved for the concrete kernels in C68). JAX views of cross-covariances: scaled sums of closed forms agree, integrals and matrix operators refuse, stacks return zeros (violation).
* **C77 Smooth solutions** — Solve/Potential: functions `∫ k(x, y) g(y) dy` have finite distance to the prior mean. Solve/Green, Solve/GreenProd: the Matérn profile is a Green's function of a power of `1 - D²`, so every smooth function with compact support is such an integral, in any dimension. GP/Averaging: consistency for measurements with independent noise. Solve/SmoothProps: a smooth solution agrees near the domain with such a function (bump function), so C75 applies; in particular for the sine series of test_heat.py with its noise. Not covered: solutions with finitely many derivatives, squared-exponential kernels, and the factor 2 of the test (the constant depends on the solution).
* **C78 Rates** — Solve/Rates: the derivatives of the kernels are Lipschitz on bounded sets (`LipK`), so the variance of the difference of an observed quantity at two points is at most proportional to their distance; iterated Rolle for grids with many points. Solve/RatesProps: the rates, by the dual bound of C74 and the maximum principles of C75. Not covered: rates beyond the exponent 1/2 on boxes of dimension two and more and for the heat equation, where the higher derivatives are not used.
* **C79 Posterior views** — PostView: `PriorPredictiveCrossCovariance`, `Mean` and `CovarianceFunction` of a conditional process on arrays of any batch shape, with the checks of the calling wrappers; an argument is an array or a tracer, `np.asarray` refuses tracers, `jax.jit` passes one (outside contracts). `BlockMatrix` in one row is taken as matrices side by side (see Block). The covariance is modelled for scalar processes, with broadcasting of the batch shapes; the summands of the posterior mean have equal shapes (broadcasting of unequal ones is not represented).
* **C80 Plots** — Plot: all functions of `utils/plotting.py`; axes are the list of what has been drawn. Colours of the cycle, labels and markers are kept; transparency, widths, stacking order and other keyword arguments are not. `scipy.stats.norm.ppf` is defined as the quantile function of Mathlib's standard normal distribution; the probability of the band is proved from its symmetry and continuity. The standard deviation of a process is given as a function; samples are arbitrary values. File names of an animation keep the frame number as a number (its decimal notation is not modelled).
* **C81 JAX views and operators on functions** — JaxFn: what JAX records of a function is a program over `+ * ** sin cos exp` and selections; `jax.jvp` is the program transformation by the rules of calculus (selections differentiate the selected branch), proved to give derivatives of all orders at every point around which the selections are constant. Contracts: `jnp.piecewise`, `jnp.full_like`, dtype promotion, `TypeError` of `np.asarray` on tracers. The diagonal of `jax.hessian` is taken as the second derivative along each axis.
* **C82 Transformed problems** — GP/Transform, Compress, TransformProps: relations between pairs of runs of the model of `_conditional.py`, by reindexing the stacked measurements; least squares by the identity `Aᵀ(AKAᵀ+N)⁻¹ = (K+S⁻¹)⁻¹S⁻¹AᵀN⁻¹`, `S = AᵀN⁻¹A`.
* **C83 Robustness** — GP/Robust, RobustProps: pairs of runs of the model of `_conditional.py` whose data, weights or noise differ; Cauchy–Schwarz in the inverse Gram matrix and `G ≥ τ`, `0 ≤ D ≤ τ`. Exact arithmetic: rounding enters only as the perturbation.
* **C84 Rounding** — Rounding: the standard model `fl(a ∘ b) = (a ∘ b)(1 + δ)` over an abstract format, with binary formats of every precision as instances; the evaluation of polynomials is the one of `Poly.eval` at numbers with rounded operations; sums of arrays are trees (the order used by NumPy, XLA or BLAS is not specified). Errors are counted by factors between `(1-u)^k` and `(1+u)^k`. Derivatives of kernels: C90. Not modelled: rounding of integrals, inside LAPACK (block factorisations: C87).
* **C85 Printed forms** — Printed: strings are lists of characters; `str` of integers and fractions is modelled, the printed forms of floats and of operators without `__repr__` are parameters with the contract `Names`. Reading: split at spaces, `+`, `@`, `*`.
* **C86 Updates in floating point** — Rounding.UpdateModel, Rounding.Update: `schur_update` with rounded products and differences; the solves with the Schur complement and with `A` are arbitrary functions (`Solver`) that enter through their residuals, so that factorisation errors need no model. The entries of the Gram blocks are the exact ones (their errors are the subject of C83 and C84). Bounds are in the sum norm of residuals.
* **C87 Factorisations in floating point** — Rounding.FactorModel, Rounding.Factor: `_cholesky`, `L_A_inv_B`, `schur` and `_solve` with rounded products and differences; dense factorisations and solves (LAPACK) are arbitrary functions (`Lib`) and enter through their residuals. Right-hand sides are vectors; `L_A_inv_B` is solved column by column, so a library that solves all columns at once is covered if it treats columns independently.
* **C88 Posterior arrays end to end** — PostView.LinkModel, PostView.Link: the numerical state of `GP.Model` and the array views of `PostView.Model` belong to one object updated by the same calls; `Fit` ties each cross-covariance object to the functionals of its batch and is proved for `condition_on_observations(Y, X)`. For other functionals it is C76/C77 (the object evaluates to the functional applied to the kernel). Empty arrays of points raise (C79).
* **C89 Two routes to squared-exponential derivatives** — ExpQuad.TensorRoute: `ExpQuad.Model` (C27) against `Tensor.Model` (C28) with factors `ExpQuad.eval` in one dimension and the coefficient objects of `Coeff.Model`; both are the derivative of the same function, and derivatives are unique. Hypothesis `PDCorrect` on the univariate derivatives of smooth factors as in C28. Operators without terms are excluded: the tensor route raises for them (C28).
* **C90 Rounding of derivative kernels** — Rounding.Close, Rounding.DerivModel, Rounding.Deriv, Rounding.DerivGram: the `_evaluate` methods of all derivative classes of `ExpQuad.Model` (C27) and `Matern.Model` (C26) with a rounding after every operation; each `sum` has its own order of summation (`T`), stored scale factors are within `a` roundings of the exact ones. Values with cancellation have no relative error, so bounds are relative to the sum of the magnitudes of the terms (`ekMag`, `mkMag`). Assumes that XLA does not rearrange the arithmetic operations other than sums; no overflow or underflow, as in C84.
* **C91 Whole histories in floating point** — Rounding.SolveModel, Rounding.Solve, Rounding.SolveKernels: `from_observations`, `condition_on_observations` and `Mean._evaluate` on floats only; measurements are addresses (operator and point), `FlKer` gives the computed covariances, cross-covariances and means. The run is compared in lockstep with the exact history of C01. Solvers are arbitrary (their residuals enter the bound, C87 bounds them for the block solves); the Schur complement in the residual of a step is that of the computed Gram matrix. `err` is a specification field. Noise is always present, as in the theorems' hypothesis on its smallest variance.
* **C92 Posterior covariances in floating point** — Rounding.SolveCovModel, Rounding.SolveCov, Rounding.SolveCovKernels: `CovarianceFunction._evaluate` on the state of C91, with the block solve of C87 (`solveFl`) for the computed Gram operator; `kk` are the computed values of the prior covariance. One pair of points at a time: the broadcasting of coefficients over batches is C79.
* **C93 Tensor products and the heat operator in floating point** — Rounding.TensorModel, Rounding.TensorFl, Rounding.TensorHistory: the loops of `_compute_res` with rounded operations (`evaluateFl`), Matérn factors of C90, sums of operators as sums over pairs of summands in any order (`opsFl`), histories as in C91 and C92. A measurement carries its position in the history, because the two triangles of the computed Gram matrix differ by rounding and factorisations read the lower one. The smoothness of the factors bounds the orders of the operators, and at most two derivatives per coordinate are taken (the closed forms registered in `_matern.py`).
* **C94 Closed-form solutions in floating point** — Rounding.SeriesModel, Rounding.Series: `TruncatedSineSeries._evaluate`, `_decay_rates` and `_evaluate` of the heat solution, coefficients and `_evaluate` of the Poisson solution with rounded operations. `np.sin` is a function with relative error at most `v` (external contract, as for `np.exp`); `np.pi` is π rounded; the integers of `np.arange` are exact.
* **C95 Finite element basis in floating point** — Rounding.FemModel, Rounding.Fem: `UnivariateLinearInterpolationBasis` (`__init__`, `_evaluate`, `eval_elem`), the mass matrix and the moments of constants of its L2 projection and the coefficients of the weak Laplacian with rounded operations; `np.maximum`, `np.where` and comparisons are exact. Compared with the exact model of C41–C43. The inverse of the mass matrix itself (LAPACK) is not modelled: its existence is proved. The hypothesis `Spaced` excludes sentinels that are rounded to the outer grid point (in IEEE arithmetic this happens for an outer cell of half a unit in the last place, half-way cases going to even), for which the code divides by zero. The weak Laplacian is compared with the exact one on the grid with the computed sentinels.
* **C96 Wendland kernels in floating point** — Rounding.WendlandModel, Rounding.Wendland: `_scale_factors`, `_evaluate` of `WendlandCovarianceFunction` and `WendlandFunction` with rounded operations; the coefficients are computed with `Fraction` and rounded once; comparison and `np.where` are exact. Compared with the exact model of the Wendland functions (`Wendland/Model.lean`). The distances of `probnum` (`_euclidean_distances`) are assumed to perform the operations of the JAX version in the repository, with a correctly rounded square root. Lengthscales are meant to be non-zero (division by zero gives infinities in NumPy, which the formats do not have).
* **C97 Linear interpolation in floating point** — Rounding.PiecewiseModel, Rounding.Piecewise: `PiecewiseLinear.from_points` and the evaluation of piecewise functions with rounded operations; comparisons are exact; `numpy.piecewise` as in the exact model (C20), with which the results are compared. Coordinates so close that their difference is rounded to zero do not occur in the standard model (no underflow). Integrals of piecewise functions are C99.
* **C98 Integrals of Matérn kernels in floating point** — Rounding.IntegralModel, Rounding.Integral: both radial antiderivatives, the covariance of a value and an integral and the covariance of two integrals with rounded operations. The polynomials are exact (`Fraction`), their coefficients are rounded once; the square root is correctly rounded; the integer `2p + 1` is converted without error. Compared with the exact model (`Matern.Integral`). The JAX evaluations of the same formulas have the same operations and are not modelled separately.
* **C99 Integrals of polynomials and piecewise functions in floating point** — Rounding.PwIntModel, Rounding.PwInt: `Polynomial.integrate`, the difference of the antiderivative at both ends, constants times volume, and the sum over the pieces with rounded operations; comparisons are exact. `scipy.integrate.quad` for other pieces is taken to be exact, as in the exact model (C21). Python's `sum` starts with the integer 0; the model rounds `0 + v` as well, which changes nothing for floats in idempotent formats.
* **C100 Volumes of domains and integrals of constants in floating point** — Rounding.VolumeModel, Rounding.Volume: `volume` of all domain classes and the integral of a constant with rounded operations. That positive volumes do not become zero holds in the standard model (no underflow); products below the smallest positive double are outside it.
