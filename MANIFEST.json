{
 "claims": [
  {
   "property": "C01",
   "status": "proved",
   "theorems": [
    "LinPDE.GP.run_posterior",
    "LinPDE.GP.incremental_eq_batch",
    "LinPDE.GP.posterior_optimal"
   ],
   "note": "For every history with positive definite joint Gram matrix; exact real arithmetic."
  },
  {
   "property": "C02",
   "status": "proved",
   "theorems": [
    "LinPDE.GP.run_perm"
   ],
   "note": ""
  },
  {
   "property": "C03",
   "status": "proved",
   "theorems": [
    "LinPDE.GP.exact_reproduced",
    "LinPDE.GP.exact_reproduced_later"
   ],
   "note": ""
  },
  {
   "property": "C04",
   "status": "proved",
   "theorems": [
    "LinPDE.GP.postCov_loewner",
    "LinPDE.GP.postCov_antitone",
    "LinPDE.GP.postVar_bounds",
    "LinPDE.GP.posterior_var_antitone"
   ],
   "note": "Noise covariances positive semidefinite."
  },
  {
   "property": "C05",
   "status": "proved",
   "theorems": [
    "LinPDE.GP.functl_posterior",
    "LinPDE.GP.functl_ev",
    "LinPDE.GP.map_posterior",
    "LinPDE.GP.condition_map",
    "LinPDE.GP.fromObservations_map",
    "LinPDE.GP.toCore_condition"
   ],
   "note": "Functionals are given by their scalar components; shapes of the returned mean are treated in C52."
  },
  {
   "property": "C06",
   "status": "proved",
   "theorems": [
    "LinPDE.GP.weights_eq_lazy"
   ],
   "note": ""
  },
  {
   "property": "C07",
   "status": "proved",
   "theorems": [
    "LinPDE.GP.Validate.preprocess_ok_iff",
    "LinPDE.GP.Validate.preprocess_pairing",
    "LinPDE.GP.Validate.buildL_errors",
    "LinPDE.GP.Validate.noise_errors",
    "LinPDE.GP.Validate.y_errors",
    "LinPDE.GP.Validate.noise_layout_differs"
   ],
   "note": "For observed function values of vector-valued processes the accepted layout of Y has the batch axes first (error message in the code); that is what is proved. asrandvar is external."
  },
  {
   "property": "C08",
   "status": "partial",
   "theorems": [
    "LinPDE.GP.covLinop_spec",
    "LinPDE.GP.numpy_eq_linop_scalar",
    "LinPDE.GP.covNumpyVec_value",
    "LinPDE.GP.covNumpyVec_partial",
    "LinPDE.GP.covNumpyVec_violated",
    "LinPDE.GP.covJaxPoint_violated",
    "LinPDE.GP.covJaxBatch_error",
    "LinPDE.GP.covJaxBatch_violated"
   ],
   "note": "The property does not hold of the code: NumPy path wrong for vector outputs, JAX path fails or is wrong. Proved: the negation with witnesses, and agreement for scalar processes / linear-operator path."
  },
  {
   "property": "C09",
   "status": "proved",
   "theorems": [
    "LinPDE.Normal.condition_eq",
    "LinPDE.Normal.condition_vector_no_noise",
    "LinPDE.Normal.information_form",
    "LinPDE.Normal.bayes_rule",
    "LinPDE.Normal.mean_minimises",
    "LinPDE.Normal.noise_free",
    "LinPDE.Normal.condition_comm",
    "LinPDE.Normal.exists_chol"
   ],
   "note": "A transform vector without noise is refused by the code (condition_vector_no_noise)."
  },
  {
   "property": "C10",
   "status": "proved",
   "theorems": [
    "LinPDE.Grid.mk'_ok_iff",
    "LinPDE.Grid.mk'_error_iff",
    "LinPDE.Grid.todense_spec",
    "LinPDE.Grid.matmul_spec",
    "LinPDE.Grid.matmul_error",
    "LinPDE.Grid.transpose_spec"
   ],
   "note": ""
  },
  {
   "property": "C100",
   "status": "proved",
   "theorems": [
    "LinPDE.Rounding.VolFl.volume_error",
    "LinPDE.Rounding.VolFl.box_ops",
    "LinPDE.Rounding.VolFl.volume_measure_close",
    "LinPDE.Rounding.VolFl.const_integral_close"
   ],
   "note": "For all formats of the standard model (no underflow), all domains and all constants."
  },
  {
   "property": "C11",
   "status": "proved",
   "theorems": [
    "LinPDE.Block.solve_spec",
    "LinPDE.Block.solve_eq_inv",
    "LinPDE.Block.mk2x2_toMat",
    "LinPDE.Block.mk2x2_error_iff",
    "LinPDE.Block.mk2x2_flags",
    "LinPDE.Block.mk2x2_valid"
   ],
   "note": ""
  },
  {
   "property": "C12",
   "status": "proved",
   "theorems": [
    "LinPDE.Block.schurUpdate_spd",
    "LinPDE.Block.schurUpdate_blockDiag",
    "LinPDE.Block.schurUpdate_general"
   ],
   "note": ""
  },
  {
   "property": "C13",
   "status": "proved",
   "theorems": [
    "LinPDE.Block.matmul_spec",
    "LinPDE.Block.cholesky_spec",
    "LinPDE.Block.choleskyUpper_spec",
    "LinPDE.Block.choleskyUpper_spec_plain",
    "LinPDE.Block.choleskyUpper_nested_error",
    "LinPDE.Block.cholesky_blockDiag_refused",
    "LinPDE.Block.exists_env",
    "LinPDE.Block.exists_spd_extension"
   ],
   "note": "Lower factor for all nested operators; upper factor of nested operators depends on whether probnum keeps flags under transposition (both settings modelled); block-diagonal operators are refused by the code (cholesky_blockDiag_refused)."
  },
  {
   "property": "C14",
   "status": "proved",
   "theorems": [
    "LinPDE.Block.trace_spec",
    "LinPDE.Block.det_spec"
   ],
   "note": ""
  },
  {
   "property": "C15",
   "status": "proved",
   "theorems": [
    "LinPDE.Grid.Cat.mk'_ok_iff",
    "LinPDE.Grid.Cat.mk'_error",
    "LinPDE.Grid.Cat.todense_vertical",
    "LinPDE.Grid.Cat.todense_horizontal",
    "LinPDE.Grid.Cat.matmul_spec",
    "LinPDE.Grid.Cat.transpose_spec"
   ],
   "note": ""
  },
  {
   "property": "C16",
   "status": "proved",
   "theorems": [
    "LinPDE.Polys.toPoly_add",
    "LinPDE.Polys.toPoly_sub",
    "LinPDE.Polys.toPoly_neg",
    "LinPDE.Polys.toPoly_smul",
    "LinPDE.Polys.toPoly_addConst",
    "LinPDE.Polys.toPoly_mulMonomial",
    "LinPDE.Polys.toPoly_mul",
    "LinPDE.Polys.eval_arith",
    "LinPDE.Polys.degree_mul",
    "LinPDE.Polys.mkMonomial_ok_iff",
    "LinPDE.Polys.mkMonomial_error_iff",
    "LinPDE.Polys.mul_in_range"
   ],
   "note": ""
  },
  {
   "property": "C17",
   "status": "proved",
   "theorems": [
    "LinPDE.Polys.toPoly_differentiate",
    "LinPDE.Polys.toPoly_integrate",
    "LinPDE.Polys.hasDerivAt_eval",
    "LinPDE.Polys.hasDerivAt_integrate",
    "LinPDE.Polys.differentiate_integrate"
   ],
   "note": ""
  },
  {
   "property": "C18",
   "status": "proved",
   "theorems": [
    "LinPDE.Polys.floordivMonomial_ok_iff",
    "LinPDE.Polys.floordivMonomial_spec",
    "LinPDE.Polys.divmod_spec",
    "LinPDE.Polys.divmod_zero_lead",
    "LinPDE.Polys.divStep_length"
   ],
   "note": ""
  },
  {
   "property": "C19",
   "status": "partial",
   "theorems": [
    "LinPDE.Polys.eval_eq_sum",
    "LinPDE.Polys.eval_eq_toPoly_eval",
    "LinPDE.Polys.evalInt_violated",
    "LinPDE.Polys.evalInt_const_violated",
    "LinPDE.Polys.evalInt_const_partial"
   ],
   "note": "Proved for floating-point arguments; at integer arguments the accumulator has an integer dtype, so polynomials of positive degree raise and constants are truncated (evalInt_violated, evalInt_const_violated)."
  },
  {
   "property": "C20",
   "status": "partial",
   "theorems": [
    "LinPDE.Piecewise.piecewise_eval",
    "LinPDE.Piecewise.piecewise_eval_outside",
    "LinPDE.Piecewise.piecewise_cover",
    "LinPDE.Piecewise.constant_eval_partial",
    "LinPDE.Piecewise.constant_eval_violated",
    "LinPDE.Piecewise.evaluateInt_linear_violated",
    "LinPDE.Piecewise.evaluateInt_constant_violated",
    "LinPDE.Piecewise.fromPoints_affine",
    "LinPDE.Piecewise.fromPoints_interpolates",
    "LinPDE.Piecewise.fromPoints_error_iff"
   ],
   "note": "Evaluation, partition and interpolation hold for every increasing breakpoint list at floating-point arguments. Violated for PiecewiseConstant at the first breakpoint (0 instead of the first value) and at integer arguments (numpy.piecewise and Polynomial._evaluate allocate with the dtype of x: constants are truncated, polynomials raise TypeError)."
  },
  {
   "property": "C21",
   "status": "partial",
   "theorems": [
    "LinPDE.Piecewise.integral_partial",
    "LinPDE.Piecewise.integral_computed",
    "LinPDE.Piecewise.integral_left_of_domain",
    "LinPDE.Piecewise.integral_inside_piece_zero",
    "LinPDE.Piecewise.integral_violated",
    "LinPDE.Piecewise.integral_beyond_breakpoint_violated",
    "LinPDE.Piecewise.integrable_of_poly"
   ],
   "note": "Right whenever the upper limit is a breakpoint; violated otherwise. integral_computed says what the code returns for every interval starting inside the domain."
  },
  {
   "property": "C22",
   "status": "proved",
   "theorems": [
    "LinPDE.Wendland.wendland_constructs",
    "LinPDE.Wendland.wendland_transform",
    "LinPDE.Wendland.wendland_shape",
    "LinPDE.Wendland.wendland_smooth",
    "LinPDE.Wendland.wendland_abs_smooth",
    "LinPDE.Wendland.wendland_cov",
    "LinPDE.Wendland.wendland_norm_smooth",
    "LinPDE.Wendland.wendland_cov_smooth"
   ],
   "note": "For all dimensions d and smoothness k: construction succeeds with degree floor(d/2)+3k+1, the polynomial is the k-fold integral transform of the cut-off power (normalised), compact support, C^{2k} as a function of r, |r| and of both arguments in d dimensions."
  },
  {
   "property": "C23",
   "status": "partial",
   "theorems": [
    "LinPDE.Matern.derivPoly_spec",
    "LinPDE.Matern.profile_contDiff_iff",
    "LinPDE.Matern.mkIdDD_ok_iff",
    "LinPDE.Matern.mkDDWL_ok_iff",
    "LinPDE.Matern.mkDDDD_ok_iff_partial",
    "LinPDE.Matern.mkDDDD_violated"
   ],
   "note": "derivative polynomials and the divisions by r proved for all p, n; violated for the division by r^2: with p = 1 in several dimensions the kernel exists but the constructor raises ValueError (negation proved)"
  },
  {
   "property": "C24",
   "status": "proved",
   "theorems": [
    "LinPDE.Matern.matern_derivative",
    "LinPDE.Matern.matern_directional",
    "LinPDE.Matern.matern_evalNone",
    "LinPDE.Matern.matern_commute",
    "LinPDE.Matern.matern_wl_violated",
    "LinPDE.Matern.matern_wl_wl_violated"
   ],
   "note": "all chains of closed-form derivative kernels, all points including the diagonal, for total order at most 2p, and at distinct points always. For Laplacians of kernels that are not smooth enough (p = 0, and p = 1 in both arguments) the code returns a kernel although no derivative exists (proved); cases leaving the closed forms for automatic differentiation are not modelled"
  },
  {
   "property": "C25",
   "status": "partial",
   "theorems": [
    "LinPDE.Matern.evaluations_repeatable_partial",
    "LinPDE.Matern.first_evaluation_partial",
    "LinPDE.Matern.derivative_side_effects_violated"
   ],
   "note": "violated for array lengthscales (in-place product with the shared scale factors, concrete witness); proved for scalar lengthscales and for all other derivative kernels over every history"
  },
  {
   "property": "C26",
   "status": "proved",
   "theorems": [
    "LinPDE.Matern.maternIntegral_spec",
    "LinPDE.Matern.maternIntegral2_spec",
    "LinPDE.Matern.maternAntiderivatives_spec",
    "LinPDE.Matern.profile_is_kernel",
    "LinPDE.Matern.maternIntegral2_symm"
   ],
   "note": ""
  },
  {
   "property": "C27",
   "status": "partial",
   "theorems": [
    "LinPDE.ExpQuad.expquad_derivative",
    "LinPDE.ExpQuad.expquad_evalNone",
    "LinPDE.ExpQuad.expquad_accepted",
    "LinPDE.ExpQuad.expquad_commute_partial",
    "LinPDE.ExpQuad.expquad_wl_order_violated"
   ],
   "note": "All closed forms are the mathematical derivatives, for every dimension, lengthscales and pair of points. The order independence fails for two weighted Laplacians: Laplacian in argument 0 and then in argument 1 raises AttributeError (_registry.py:352), proved as expquad_wl_order_violated; all other pairs commute."
  },
  {
   "property": "C28",
   "status": "partial",
   "theorems": [
    "LinPDE.Tensor.mkTP_ok_iff",
    "LinPDE.Tensor.mkTP_empty_violated",
    "LinPDE.Tensor.evaluate_eq_prod",
    "LinPDE.Tensor.evaluate_none",
    "LinPDE.Tensor.call_spec",
    "LinPDE.Tensor.linop_grid_entries",
    "LinPDE.Tensor.linop_grid_none",
    "LinPDE.Tensor.linop_grid_eq_dense_partial",
    "LinPDE.Tensor.grid_points_planar",
    "LinPDE.Tensor.linop_xy_violated",
    "LinPDE.Tensor.linop_multi_output_violated",
    "LinPDE.Tensor.linop_grid_dim_violated",
    "LinPDE.Tensor.linop_grid_too_many",
    "LinPDE.Tensor.tpll_evaluate",
    "LinPDE.Tensor.tpll_sumEvaluate",
    "LinPDE.Tensor.tpll_linop_grid_partial",
    "LinPDE.Tensor.tpll_linop_second_ignored",
    "LinPDE.Tensor.tpll_linop_cross_violated",
    "LinPDE.Tensor.applyTP_snd",
    "LinPDE.Tensor.applyTP_fst",
    "LinPDE.Tensor.apply_both",
    "LinPDE.Tensor.apply_same_argument_violated",
    "LinPDE.Tensor.applyTP_refuses",
    "LinPDE.Tensor.applyTP_no_terms_violated"
   ],
   "note": "Pointwise evaluation and the effect of differential operators are proved for every number of factors; the Kronecker matrix on a tensor grid equals the dense Gram matrix under ij indexing, one factor per grid dimension and scalar factors. Witnesses show it fails for xy indexing, multi-output factors, a grid whose dimension differs from the number of factors, and cross-covariances of transformed kernels on two grids; a second operator in the same argument and an operator without terms fail too."
  },
  {
   "property": "C29",
   "status": "partial",
   "theorems": [
    "LinPDE.CovAlg.apply_correct",
    "LinPDE.CovAlg.reduce_correct",
    "LinPDE.CovAlg.acc_correct",
    "LinPDE.CovAlg.seq_correct",
    "LinPDE.CovAlg.apply_total",
    "LinPDE.CovAlg.reduce_total",
    "LinPDE.CovAlg.acc_total",
    "LinPDE.CovAlg.seq_total",
    "LinPDE.CovAlg.select_negative",
    "LinPDE.CovAlg.select_negative_violated",
    "LinPDE.CovAlg.diff_imo",
    "LinPDE.CovAlg.diff_imo_violated",
    "LinPDE.CovAlg.diff_generic_violated",
    "LinPDE.CovAlg.fallback_shape_violated",
    "LinPDE.CovAlg.stack_jax",
    "LinPDE.CovAlg.stack_jax_violated",
    "LinPDE.CovAlg.jax_eq",
    "LinPDE.CovAlg.jaxAll_eq",
    "LinPDE.CovAlg.order_zero_unvalidated",
    "LinPDE.CovAlg.order_zero_violated",
    "LinPDE.XCov.bfn_correct",
    "LinPDE.XCov.bfnAll_correct",
    "LinPDE.XCov.functional_correct",
    "LinPDE.XCov.functionals_correct",
    "LinPDE.XCov.bfn_total",
    "LinPDE.XCov.bfnAll_total",
    "LinPDE.XCov.functional_total",
    "LinPDE.XCov.functionals_total",
    "LinPDE.XCov.functional_array",
    "LinPDE.XCov.functional_array_partial",
    "LinPDE.XCov.quad_violated"
   ],
   "note": "Operators and functionals, in either argument, on every expression of kernels: whenever the call returns, the result is the operator (functional) applied in that argument, and the call returns for kernels and operators without the recorded defects. Witnesses: negative SelectOutput indices, differential operators on independent multi-output kernels, differential operators without a JAX fallback of their own, shapes lost in the JAX fallback, the JAX view of stacks, order 0 derivatives without validation, quadrature in argument 0. Base operators are linear maps; closed forms are proved right elsewhere."
  },
  {
   "property": "C30",
   "status": "partial",
   "theorems": [
    "LinPDE.Galerkin.l2_projection",
    "LinPDE.Galerkin.kernel_total",
    "LinPDE.Galerkin.galerkin_value",
    "LinPDE.Galerkin.galerkin_psd",
    "LinPDE.Galerkin.galerkin_projection",
    "LinPDE.Galerkin.galerkin_uncorrelated",
    "LinPDE.Galerkin.projection_values",
    "LinPDE.Galerkin.projection_sections",
    "LinPDE.Galerkin.galerkin_idempotent",
    "LinPDE.Galerkin.galerkin_parametric_term",
    "LinPDE.Galerkin.galerkin_constructs_iff",
    "LinPDE.Galerkin.galerkin_construction_violated",
    "LinPDE.Galerkin.galerkin_unnormalized_violated",
    "LinPDE.Galerkin.two_projections"
   ],
   "note": "Value, symmetry, positive semidefiniteness, unchanged projection and uncorrelatedness of projection and remainder for every normalised L2 projection on a finite element basis in one dimension and every kernel built from continuous covariance functions and Matérn-3/2 kernels by scaling, sums and nested Galerkin kernels. Not every kernel has a Galerkin kernel (the zero kernel and Galerkin kernels of other projections raise), and for unnormalised projections the shortcut projection is wrong; both are proved as violations. Other projections and input dimensions are not modelled."
  },
  {
   "property": "C31",
   "status": "proved",
   "theorems": [
    "LinPDE.Coeff.mk'_isOk_iff",
    "LinPDE.Coeff.add_isOk_iff",
    "LinPDE.Coeff.add_apply",
    "LinPDE.Coeff.add_wf",
    "LinPDE.Coeff.add_keys",
    "LinPDE.Coeff.keys_nodup",
    "LinPDE.Coeff.numEntries_eq",
    "LinPDE.Coeff.add_numEntries",
    "LinPDE.Coeff.add_coef",
    "LinPDE.Coeff.smul_spec",
    "LinPDE.Coeff.smul_apply",
    "LinPDE.Coeff.neg_apply",
    "LinPDE.Coeff.sub_spec",
    "LinPDE.Coeff.hasMixed_iff"
   ],
   "note": "for every table, every real vector space and every assignment of derivatives"
  },
  {
   "property": "C32",
   "status": "proved",
   "theorems": [
    "LinPDE.Coeff.weightedLaplacian_spec",
    "LinPDE.Coeff.laplacian_spec",
    "LinPDE.Coeff.spatialLaplacian_spec",
    "LinPDE.Coeff.spatialLaplacian_error",
    "LinPDE.Coeff.directionalDerivative_spec",
    "LinPDE.Coeff.directionalDerivative_fderiv",
    "LinPDE.Coeff.partialDerivative_spec",
    "LinPDE.Coeff.timeDerivative_spec",
    "LinPDE.Coeff.timeDerivative_scalar_spec",
    "LinPDE.Coeff.time_heat_error",
    "LinPDE.Coeff.heatOperator_spec",
    "LinPDE.Coeff.toSum_spec"
   ],
   "note": "on all smooth functions on R^d, all shapes. Operators with only zero coefficients have the right (empty) table but cannot be applied: see C53"
  },
  {
   "property": "C33",
   "status": "proved",
   "theorems": [
    "LinPDE.Coeff.factorizeFirstOrder_spec",
    "LinPDE.Coeff.factorizeFirstOrder_orders",
    "LinPDE.Coeff.factorizeDimwise_spec",
    "LinPDE.Coeff.factorizeDimwise_orders",
    "LinPDE.Coeff.forward_eq_composite",
    "LinPDE.Coeff.factorize_error_iff"
   ],
   "note": "orders >= 1; order 0 raises IndexError (factorize_error_iff)"
  },
  {
   "property": "C34",
   "status": "partial",
   "theorems": [
    "LinPDE.Coeff.eq_not_transitive_violated",
    "LinPDE.Coeff.eq_hash_violated",
    "LinPDE.Coeff.eq_same_shape_partial",
    "LinPDE.Coeff.eq_same_shape_hash_partial",
    "LinPDE.Coeff.mi_mk'_spec"
   ],
   "note": "violated across shapes (broadcasting comparison): negation proved; holds for equal shapes, the only case inside a table"
  },
  {
   "property": "C35",
   "status": "partial",
   "theorems": [
    "LinPDE.Ops.operator_build_iff",
    "LinPDE.Ops.operator_expressions",
    "LinPDE.Ops.operator_shapes",
    "LinPDE.Ops.operator_application_total"
   ],
   "note": "every result returned is the prescribed one (all expressions, all functions); acceptance characterised exactly. Missing: totality fails when a scaled operator is applied before another one (see C37) or a differential operator is scaled twice (C54), excluded by Runs and Rescales"
  },
  {
   "property": "C36",
   "status": "partial",
   "theorems": [
    "LinPDE.Ops.functional_build_iff",
    "LinPDE.Ops.functional_expressions",
    "LinPDE.Ops.functional_shapes",
    "LinPDE.Ops.functional_application_total",
    "LinPDE.Ops.functional_association"
   ],
   "note": "every value returned is the prescribed one, associations agree. Missing: totality with scaled operators inside (C37); vector functionals of Zero return a scalar zero"
  },
  {
   "property": "C37",
   "status": "partial",
   "theorems": [
    "LinPDE.Ops.call_scaled_violated",
    "LinPDE.Ops.fcall_scaled_violated",
    "LinPDE.Ops.compose_scaled_violated",
    "LinPDE.Ops.fcall_zero_shape_violated",
    "LinPDE.Ops.call_sum_partial",
    "LinPDE.Ops.fcall_sum_partial"
   ],
   "note": "violated: scaled functions never terminate (negation proved for every recursion limit); holds for functions without scaled parts"
  },
  {
   "property": "C38",
   "status": "proved",
   "theorems": [
    "LinPDE.Ops.function_arithmetic",
    "LinPDE.Ops.function_add_rejects",
    "LinPDE.Ops.constant_add_broadcasts"
   ],
   "note": "polynomial special cases are C16-C19; constants of different shapes broadcast instead of being rejected (constant_add_broadcasts)"
  },
  {
   "property": "C39",
   "status": "partial",
   "theorems": [
    "LinPDE.Domains.mkInterval_spec",
    "LinPDE.Domains.mkBox_spec",
    "LinPDE.Domains.asdomain_spec",
    "LinPDE.Domains.contains_spec",
    "LinPDE.Domains.size_spec",
    "LinPDE.Domains.box_factors",
    "LinPDE.Domains.den_nonempty",
    "LinPDE.Domains.volume_measure",
    "LinPDE.Domains.volume_empty",
    "LinPDE.Domains.boundary_frontier",
    "LinPDE.Domains.eq_refl",
    "LinPDE.Domains.eq_sound_partial",
    "LinPDE.Domains.eq_violated",
    "LinPDE.Domains.eq_spec",
    "LinPDE.Domains.intervalGet_spec",
    "LinPDE.Domains.intervalGet_violated",
    "LinPDE.Domains.getItem_spec",
    "LinPDE.Domains.getSlice_spec",
    "LinPDE.Domains.intervalGrid_spec",
    "LinPDE.Domains.intervalGrid_mem",
    "LinPDE.Domains.gridPoints_spec",
    "LinPDE.Domains.boxGrid_spec",
    "LinPDE.Domains.boxGrid_corners"
   ],
   "note": "The code violates the property for equality of boxes/points of different dimension and for out-of-range indexing of intervals (negations proved); everything else is proved."
  },
  {
   "property": "C40",
   "status": "partial",
   "theorems": [
    "LinPDE.Domains.prod_den",
    "LinPDE.Domains.prod_contains_violated",
    "LinPDE.Domains.prod_size",
    "LinPDE.Domains.prod_volume",
    "LinPDE.Domains.volume_measure",
    "LinPDE.Domains.volume_empty",
    "LinPDE.Domains.prod_boundary",
    "LinPDE.Domains.boundary_frontier",
    "LinPDE.Domains.eq_refl",
    "LinPDE.Domains.eq_sound_partial",
    "LinPDE.Domains.eq_violated",
    "LinPDE.Domains.asBox_spec",
    "LinPDE.Domains.prodGrid_spec",
    "LinPDE.Domains.prodGrid_collapsed_violated",
    "LinPDE.Domains.getItem_spec",
    "LinPDE.Domains.getSlice_spec"
   ],
   "note": "The code violates the property: membership is not implemented, equality ignores surplus factors, the empty product has no volume, products with collapsed boxes have no grid (negations proved)."
  },
  {
   "property": "C41",
   "status": "proved",
   "theorems": [
    "LinPDE.Fem.basis_constructs",
    "LinPDE.Fem.basis_delta",
    "LinPDE.Fem.basis_range",
    "LinPDE.Fem.basis_interpolates",
    "LinPDE.Fem.basis_partition_of_unity",
    "LinPDE.Fem.basis_eval_elem",
    "LinPDE.Fem.basis_support"
   ],
   "note": "All strictly increasing grids of at least three points, both boundary settings, all real points, python (negative) indices."
  },
  {
   "property": "C42",
   "status": "proved",
   "theorems": [
    "LinPDE.Fem.mass_matrix",
    "LinPDE.Fem.normalizer_inverse",
    "LinPDE.Fem.project_function",
    "LinPDE.Fem.project_span",
    "LinPDE.Fem.project_orthogonal",
    "LinPDE.Fem.project_constant",
    "LinPDE.Fem.project_crosscov",
    "LinPDE.Fem.project_cov"
   ],
   "note": "scipy quad/dblquad are exact integrals. The matrix of the code equals the integrals of products, is invertible, projecting reproduces the span, the residual is orthogonal; constants and covariance functions likewise."
  },
  {
   "property": "C43",
   "status": "partial",
   "theorems": [
    "LinPDE.Fem.stiffness_eq",
    "LinPDE.Fem.weak_laplacian_entries",
    "LinPDE.Fem.weak_laplacian_partial",
    "LinPDE.Fem.weak_laplacian_iff_uniform",
    "LinPDE.Fem.weak_laplacian_violated",
    "LinPDE.Fem.weak_laplacian_dispatch"
   ],
   "note": "Violated on non-uniform grids: _laplacian.py:37-50 indexes the sentinel grid one cell too far to the left; proved to be the stiffness matrix exactly on uniform grids."
  },
  {
   "property": "C44",
   "status": "partial",
   "theorems": [
    "LinPDE.Pde.constSol_solves",
    "LinPDE.Pde.dirichlet_unique",
    "LinPDE.Pde.ivpPoly_solves",
    "LinPDE.Pde.ivpPiecewise_solves_partial",
    "LinPDE.Pde.ivpPiecewise_domain_ignored",
    "LinPDE.Pde.ivpPiecewise_initial_violated",
    "LinPDE.Pde.poissonProblem_const"
   ],
   "note": "Constant, polynomial and piecewise polynomial right-hand sides, all real data. The piecewise solution is C1 across breakpoints. Violated: the piecewise solution ignores its domain argument, so that the initial values hold at the first breakpoint of the right-hand side and not at the left end of the domain (witness proved)."
  },
  {
   "property": "C45",
   "status": "partial",
   "theorems": [
    "LinPDE.Pde.heatEval_solves",
    "LinPDE.Pde.heatProblem_sine_partial",
    "LinPDE.Pde.heatProblem_zero_partial",
    "LinPDE.Pde.heatProblem_attached_partial",
    "LinPDE.Pde.heatProblem_rhs_violated"
   ],
   "note": "Holds for every number of modes with zero right-hand side. Violated for other right-hand sides: the attached solution ignores them (proved for every non-zero constant)."
  },
  {
   "property": "C46",
   "status": "partial",
   "theorems": [
    "LinPDE.Pde.mkPDE_ok_iff",
    "LinPDE.Pde.mkPDE_error",
    "LinPDE.Pde.mkBC_ok_iff",
    "LinPDE.Pde.mkDirichlet_ok_iff_partial",
    "LinPDE.Pde.mkDirichlet_error",
    "LinPDE.Pde.mkDirichlet_pair_violated",
    "LinPDE.Pde.boundaryObservations_ok_iff",
    "LinPDE.Pde.mkBVP_ok_iff",
    "LinPDE.Pde.mkBVP_error",
    "LinPDE.Pde.mkBVP_codomain_violated",
    "LinPDE.Pde.mkIBVP_ok_iff",
    "LinPDE.Pde.ibvp_times",
    "LinPDE.Pde.mkIBVP_prefix_violated",
    "LinPDE.Pde.poissonProblem_const",
    "LinPDE.Pde.poissonProblem_interval_fn",
    "LinPDE.Pde.poissonProblem_fn",
    "LinPDE.Pde.poissonProblem_zip_violated",
    "LinPDE.Pde.poisson_scalar_values",
    "LinPDE.Pde.poisson_scalar_problem",
    "LinPDE.Pde.heatProblem_initial_error",
    "LinPDE.Pde.heatProblem_initial_violated",
    "LinPDE.Pde.heatProblem_pair_violated"
   ],
   "note": "The exact acceptance conditions are proved. Violations proved: pairs of bounds raise AttributeError, the codomain of boundary values is not checked, domains of different dimension compare equal for initial conditions, too few boundary values are silently accepted, vector-valued initial values are accepted by the scalar heat problem."
  },
  {
   "property": "C47",
   "status": "proved",
   "theorems": [
    "LinPDE.Covar.mkArray_ok_iff",
    "LinPDE.Covar.mkArray_error_iff",
    "LinPDE.Covar.mkLinop_ok_iff",
    "LinPDE.Covar.mkLinop_error_iff",
    "LinPDE.Covar.views_agree",
    "LinPDE.Covar.flatten_spec",
    "LinPDE.Covar.bilinear_flatten",
    "LinPDE.Covar.represents_exists",
    "LinPDE.Covar.fromScalar_represents",
    "LinPDE.Covar.smul_represents",
    "LinPDE.Covar.add_represents",
    "LinPDE.Covar.sub_represents",
    "LinPDE.Covar.add_mismatch"
   ],
   "note": ""
  },
  {
   "property": "C48",
   "status": "partial",
   "theorems": [
    "LinPDE.XCov.call_holds_partial",
    "LinPDE.XCov.callAll_holds_partial",
    "LinPDE.XCov.point_linop_partial",
    "LinPDE.XCov.linopPriv_holds_partial",
    "LinPDE.XCov.linopPrivAll_holds_partial",
    "LinPDE.XCov.linop_holds_partial",
    "LinPDE.XCov.views_agree_partial",
    "LinPDE.XCov.point0_swapped",
    "LinPDE.XCov.views_disagree_violated",
    "LinPDE.XCov.dirac_linop_violated",
    "LinPDE.XCov.linop_forward_violated",
    "LinPDE.XCov.stack_jax_violated",
    "LinPDE.XCov.param_violated",
    "LinPDE.XCov.quad_violated",
    "LinPDE.XCov.call_refuses"
   ],
   "note": "Both views of every cross-covariance expression contain the covariances in the documented order when kernels with a functional in argument 0 are unchanged by exchanging their points, Dirac functionals have scalar values or one point, and matrices stand on the vector's side. Without these conditions the statement is false; witnesses are given for each."
  },
  {
   "property": "C49",
   "status": "partial",
   "theorems": [
    "LinPDE.Param.param_mean",
    "LinPDE.Param.param_mean_scalar",
    "LinPDE.Param.param_mean_given",
    "LinPDE.Param.param_cov",
    "LinPDE.Param.param_cov_scalar",
    "LinPDE.Param.param_cov_same_batch",
    "LinPDE.Param.param_pushforward",
    "LinPDE.Param.param_gram_psd",
    "LinPDE.Param.param_cov_symm",
    "LinPDE.Param.param_cov_refuses",
    "LinPDE.Param.param_shapes_violated",
    "LinPDE.Param.pcov_mk_isOk_iff",
    "LinPDE.Param.pcov_eval",
    "LinPDE.Param.pcov_eq_param",
    "LinPDE.Param.pcov_shape0_violated",
    "LinPDE.Galerkin.param_projection",
    "LinPDE.Galerkin.galerkin_parametric_term"
   ],
   "note": "Mean, covariance, pushforward, positive semidefiniteness and projection onto the own basis are proved; the operator view of the parametric cross-covariance is in C48. Violated: the shape of some outputs and the unchecked first shape of the covariance."
  },
  {
   "property": "C50",
   "status": "proved",
   "theorems": [
    "LinPDE.Pde.mkSine_ok_iff",
    "LinPDE.Pde.sine_value",
    "LinPDE.Pde.sine_ends",
    "LinPDE.Pde.sine_second_derivative"
   ],
   "note": "All coefficient vectors, all intervals of positive length, all points."
  },
  {
   "property": "C51",
   "status": "proved",
   "theorems": [
    "LinPDE.Fem.matern32_projection",
    "LinPDE.Fem.matern32_projection_integral"
   ],
   "note": "Closed form equals the integrals for all grids, both boundary settings, all positive lengthscales and all points."
  },
  {
   "property": "C52",
   "status": "partial",
   "theorems": [
    "LinPDE.GP.functl_prior",
    "LinPDE.GP.functl_shape_partial",
    "LinPDE.GP.functl_shape_empty_partial",
    "LinPDE.GP.functl_shape_violated",
    "LinPDE.GP.functl_shape_empty_violated"
   ],
   "note": "Shapes (), and those with at most one axis longer than one, the last, are handled and give the posterior mean and covariance of the functional; all other non-empty output shapes raise ValueError, proved with a witness. Empty outputs: kept if the last axis is the empty one, ValueError if it is longer than one, another shape if it has length one (violation)."
  },
  {
   "property": "C53",
   "status": "partial",
   "theorems": [
    "LinPDE.Coeff.zero_weights_not_applicable",
    "LinPDE.Coeff.heat_zero_alpha_not_applicable",
    "LinPDE.Coeff.toSum_spec"
   ],
   "note": "violated: all-zero weights; holds whenever every row of the table is non-empty (toSum_spec)"
  },
  {
   "property": "C54",
   "status": "partial",
   "theorems": [
    "LinPDE.Ops.scale_diffop_twice_violated",
    "LinPDE.Ops.scale_folds_partial",
    "LinPDE.Ops.scale_diffop_once_partial"
   ],
   "note": "violated: a second scaling of a differential operator raises TypeError; holds for other operators and for one scaling"
  },
  {
   "property": "C55",
   "status": "partial",
   "theorems": [
    "LinPDE.Piecewise.smul_eval",
    "LinPDE.Piecewise.add_eval_partial",
    "LinPDE.Piecewise.add_eval_violated",
    "LinPDE.Piecewise.smul_constant_violated"
   ],
   "note": "Scaling is pointwise for general and linear functions and sums are pointwise on the domain; sums are wrong (zero) outside of the domain, and scaling a piecewise constant changes its value at the first breakpoint."
  },
  {
   "property": "C56",
   "status": "partial",
   "theorems": [
    "LinPDE.CovAlg.mkPnSum_isOk_iff",
    "LinPDE.CovAlg.mkStack_ok_iff",
    "LinPDE.CovAlg.mkImo_ok_iff",
    "LinPDE.CovAlg.mkImo_error",
    "LinPDE.CovAlg.apply_refuses",
    "LinPDE.CovAlg.seq_refuses",
    "LinPDE.CovAlg.order_zero_unvalidated",
    "LinPDE.CovAlg.order_zero_violated",
    "LinPDE.XCov.pvAdd_ok_iff",
    "LinPDE.XCov.mkLinopPV_ok_iff",
    "LinPDE.XCov.mkStackPV_ok_iff",
    "LinPDE.XCov.bfn_refuses",
    "LinPDE.XCov.functional_refuses",
    "LinPDE.XCov.Bases.identityOp_ok_iff",
    "LinPDE.XCov.Bases.bothOps_spec",
    "LinPDE.XCov.Bases.functlPV_ok_iff"
   ],
   "note": "Exact acceptance conditions of the constructors; functionals and operators return nothing for kernels of other shapes. The exception, proved as a violation, is the partial derivative of order 0, which returns any kernel unchanged."
  },
  {
   "property": "C57",
   "status": "partial",
   "theorems": [
    "LinPDE.PosDef.matern_psd",
    "LinPDE.PosDef.matern_directional_psd",
    "LinPDE.PosDef.matern_derivative_psd",
    "LinPDE.PosDef.matern_wl_psd_violated",
    "LinPDE.PosDef.expquad_psd",
    "LinPDE.PosDef.expquad_directional_psd",
    "LinPDE.PosDef.expquad_derivative_psd",
    "LinPDE.PosDef.tensor_psd"
   ],
   "note": "Positive semidefiniteness of the kernels, of all directional and partial derivatives in both arguments and of weighted Laplacians in both arguments up to the smoothness of the kernel. The smoothness is not checked for the weighted Laplacian: for Matérn-3/2 the code returns a function with a negative variance (violation). Wendland kernels are C64."
  },
  {
   "property": "C58",
   "status": "partial",
   "theorems": [
    "LinPDE.XCov.operator_correct",
    "LinPDE.XCov.operators_correct",
    "LinPDE.XCov.opSeq_correct",
    "LinPDE.XCov.operator_total",
    "LinPDE.XCov.operators_total",
    "LinPDE.XCov.opSeq_total",
    "LinPDE.XCov.select_stack",
    "LinPDE.XCov.operator_reverse_violated",
    "LinPDE.XCov.operator_identity_violated",
    "LinPDE.XCov.operator_sum_identity_violated",
    "LinPDE.XCov.operator_unvalidated",
    "LinPDE.XCov.operator_notImplemented",
    "LinPDE.XCov.operator_fallback_violated"
   ],
   "note": "Every returned result is right (operator_correct), and applications to scaled, summed, zero and point-evaluation cross-covariances succeed (operator_total). Violated for functionals in argument 0 (TypeError for every operator), for Identity (returns None, also inside sums) and by missing validation of zero cross-covariances; quadrature, matrix, parametric and (except for SelectOutput) stacked cross-covariances have no rule (differential operators return a function for them)."
  },
  {
   "property": "C59",
   "status": "partial",
   "theorems": [
    "LinPDE.Func.call_correct",
    "LinPDE.Func.mk_wf",
    "LinPDE.Func.mk_accepts",
    "LinPDE.Func.mkSum_den",
    "LinPDE.Func.mkStack_den",
    "LinPDE.Func.call_shapes",
    "LinPDE.Func.call_same",
    "LinPDE.Func.jax_eq_numpy",
    "LinPDE.Func.call_point",
    "LinPDE.Func.affine_vector_batch",
    "LinPDE.Func.stack_front_isOk",
    "LinPDE.Func.stack_batch_violated",
    "LinPDE.Func.jax_shapes_violated",
    "LinPDE.Func.mkPointF_isOk",
    "LinPDE.Func.point_eval",
    "LinPDE.Func.point_codomain_violated",
    "LinPDE.Func.select_stack_correct",
    "LinPDE.Func.select_stack_isOk"
   ],
   "note": "Proved for all expressions the constructors return, at single points without restriction and on batches for functions without vector affine maps and front-counted stack axes (call_correct). Violated: those two on batches, JAX calls with other shapes, point evaluation with an undeclared codomain."
  },
  {
   "property": "C60",
   "status": "partial",
   "theorems": [
    "LinPDE.Func.lebesgue_partial",
    "LinPDE.Func.lebesgue_scaled_violated",
    "LinPDE.Func.lebesgue_sum_scaled_violated",
    "LinPDE.Func.lebesgue_box_violated",
    "LinPDE.Func.lebesgue_box1_partial",
    "LinPDE.Func.quad_integrand",
    "LinPDE.Func.lebesgue_codomain_violated",
    "LinPDE.Func.mkLeb_accepts",
    "LinPDE.Func.mkLeb_fields",
    "LinPDE.Func.lebesgue_const",
    "LinPDE.Func.lebesgue_empty_box",
    "LinPDE.Func.mkLeb_refuses",
    "LinPDE.Func.lebesgue_vector_refused"
   ],
   "note": "Proved for constants on all domains, scalar functions on intervals and sums of these. Violated for scaled functions (infinite recursion for every recursion limit), non-constant functions on boxes of at least two dimensions (TypeError), and the codomain check."
  },
  {
   "property": "C61",
   "status": "partial",
   "theorems": [
    "LinPDE.DetProc.functional_of_process",
    "LinPDE.DetProc.operator_of_process_partial",
    "LinPDE.DetProc.operator_of_process_sound",
    "LinPDE.DetProc.operator_of_process_scaled_violated",
    "LinPDE.DetProc.double_of_process_violated",
    "LinPDE.DetProc.functional_of_process_total",
    "LinPDE.DetProc.operator_then_eval",
    "LinPDE.DetProc.asrandproc_spec"
   ],
   "note": "Proved for all functionals, for operators that are neither scaled nor composed of scaled factors, and soundness for all. Violated: scaled operators, and compositions with a scaled factor, never return for a process."
  },
  {
   "property": "C62",
   "status": "partial",
   "theorems": [
    "LinPDE.DiffFn.call_sound_partial",
    "LinPDE.DiffFn.named_total",
    "LinPDE.DiffFn.partialDerivative_total",
    "LinPDE.DiffFn.directionalDerivative_total",
    "LinPDE.DiffFn.weightedLaplacian_total",
    "LinPDE.DiffFn.heat_total",
    "LinPDE.DiffFn.repeated_total",
    "LinPDE.DiffFn.order_zero_constant_violated",
    "LinPDE.DiffFn.general_constant_violated",
    "LinPDE.DiffFn.reaction_constant_violated",
    "LinPDE.DiffFn.zero_order_violated",
    "LinPDE.DiffFn.general_single_violated",
    "LinPDE.DiffFn.multi_output_violated",
    "LinPDE.DiffFn.scaled_function_violated",
    "LinPDE.DiffFn.double_function_violated",
    "LinPDE.DiffFn.zero_shapes_violated",
    "LinPDE.DiffFn.laplacian_axes_violated",
    "LinPDE.DiffFn.partial_shapes_refused",
    "LinPDE.DiffFn.weighted_shapes_refused"
   ],
   "note": "Sound whenever a call returns, except for terms of order zero on constants; total for partial and directional derivatives, (weighted) Laplacians on scalar and vector domains and the heat operator. Violated: terms of order zero, batches for operators given by tables, several outputs, scaled functions, Laplacians on array domains."
  },
  {
   "property": "C63",
   "status": "partial",
   "theorems": [
    "LinPDE.Gmm.eval_spec",
    "LinPDE.Gmm.density_spec",
    "LinPDE.Gmm.density_mass",
    "LinPDE.Gmm.mk'_isOk",
    "LinPDE.Gmm.mk'_error",
    "LinPDE.Gmm.components_spec",
    "LinPDE.Gmm.truncation_violated",
    "LinPDE.Gmm.lengths_violated"
   ],
   "note": "For every non-degenerate interval and non-zero standard deviations (of either sign) the function is positive and its integrals over parts of the domain are the means of the conditional probabilities; failures are characterised exactly. Violated: it is not zero outside the domain, and the constructor does not check the lengths of the parameters."
  },
  {
   "property": "C64",
   "status": "proved",
   "theorems": [
    "LinPDE.PosDef.wendland_psd",
    "LinPDE.PosDef.wendland_radial_psd"
   ],
   "note": "Every dimension, smoothness, lengthscales, all finite sets of points."
  },
  {
   "property": "C65",
   "status": "proved",
   "theorems": [
    "LinPDE.PosDef.matern_spd_iff",
    "LinPDE.PosDef.expquad_spd",
    "LinPDE.PosDef.wendland_spd",
    "LinPDE.PosDef.tensor_spd",
    "LinPDE.GP.gram_posDef_iff",
    "LinPDE.GP.interpolation",
    "LinPDE.GP.closed_form_interpolation",
    "LinPDE.GP.noisy_succeeds"
   ],
   "note": "Strict positive definiteness of Matérn (iff no scale factor vanishes), squared-exponential, Wendland and tensor-product kernels; conditioning on evaluations at pairwise distinct points succeeds and interpolates; nondegenerate noise suffices for arbitrary functionals."
  },
  {
   "property": "C66",
   "status": "proved",
   "theorems": [
    "LinPDE.GP.jet_regular",
    "LinPDE.GP.collocation_gram_iff",
    "LinPDE.GP.collocation",
    "LinPDE.GP.collocation_distinct",
    "LinPDE.GP.expquad_jet",
    "LinPDE.GP.expquad_strict",
    "LinPDE.GP.expquad_closed_form",
    "LinPDE.GP.matern_jet",
    "LinPDE.GP.matern_strict",
    "LinPDE.GP.matern_closed_form",
    "LinPDE.GP.pde_collocation"
   ],
   "note": "Derivative functionals as a prior of the GP model; Gram matrix of exact operator observations positive definite iff operators at each point independent; the posterior mean satisfies the observed equations (in terms of HasDerivAt). Closed forms: squared-exponential in any dimension, Matérn in one dimension; strictness also for products of Matérn kernels."
  },
  {
   "property": "C67",
   "status": "proved",
   "theorems": [
    "LinPDE.GP.tensor_closed_form",
    "LinPDE.GP.tensor_expanded_form",
    "LinPDE.GP.heat_closed_form",
    "LinPDE.GP.heat_collocation"
   ],
   "note": "Any number of factors and any coefficient tables; heat equation with time and at least one space dimension."
  },
  {
   "property": "C68",
   "status": "partial",
   "theorems": [
    "LinPDE.Backend.matern_numpy_jax_partial",
    "LinPDE.Backend.matern_jax_smoothness",
    "LinPDE.Backend.expquad_numpy_jax_partial",
    "LinPDE.Backend.wendland_numpy_jax_partial",
    "LinPDE.Backend.matern_keops_partial",
    "LinPDE.Backend.matern_keops_none_partial",
    "LinPDE.Backend.wendland_keops_partial",
    "LinPDE.Backend.jax_integers_partial",
    "LinPDE.Backend.matern_integers_violated",
    "LinPDE.Backend.matern_mixed_partial",
    "LinPDE.Backend.matern_scalar_integers_partial",
    "LinPDE.Backend.expquad_integers_partial",
    "LinPDE.Backend.none_truncated",
    "LinPDE.Backend.expquad_variance_violated",
    "LinPDE.Backend.matern_laplacian_none_violated",
    "LinPDE.Backend.wendland_none_violated"
   ],
   "note": "Proved for points stored as floats (all classes, NumPy, JAX, KeOps). Violated for points stored as integers: NumPy refuses Matérn derivatives of odd order, Laplacians and Wendland variances, and both libraries truncate the variances of differentiated processes."
  },
  {
   "property": "C69",
   "status": "proved",
   "theorems": [
    "LinPDE.Solve.heat_solved",
    "LinPDE.Solve.heat_solved_sine",
    "LinPDE.Solve.heat_corner_singular",
    "LinPDE.Solve.poisson1_solved",
    "LinPDE.Solve.poisson_solved",
    "LinPDE.Solve.poisson_corner_singular",
    "LinPDE.Solve.solvable_iff"
   ],
   "note": "Heat equation on an interval; Poisson equation on intervals and on boxes of every dimension; every strictly positive definite kernel with the needed derivatives (Matérn tensor products, squared exponential)."
  },
  {
   "property": "C70",
   "status": "proved",
   "theorems": [
    "LinPDE.Solve.fem_system",
    "LinPDE.Solve.weak_form_outcomes",
    "LinPDE.Solve.fem_solved",
    "LinPDE.Solve.fem_nodal_exact",
    "LinPDE.Solve.fem_notebook",
    "LinPDE.Solve.gp_fem_solved",
    "LinPDE.Solve.gp_fem_random_rhs",
    "LinPDE.GP.run_recentre"
   ],
   "note": "Both finite element notebooks: linear system, conditioning with projected and unprojected priors, identification of the posterior mean with the finite element solution, nodal exactness, piecewise polynomial right-hand sides end to end; noise means as shifts of the data."
  },
  {
   "property": "C71",
   "status": "proved",
   "theorems": [
    "LinPDE.GP.posterior_of_posterior",
    "LinPDE.GP.uncertain_rhs",
    "LinPDE.GP.uncertain_rhs_correlated",
    "LinPDE.GP.select_own",
    "LinPDE.GP.message_passing",
    "LinPDE.GP.two_views",
    "LinPDE.GP.two_views_equation",
    "LinPDE.GP.nondegenerate_gram_iff",
    "LinPDE.GP.indep_nondegenerate_iff",
    "LinPDE.GP.joint_conditioning",
    "LinPDE.GP.meas_posDef_iff",
    "LinPDE.GP.random_rhs_means",
    "LinPDE.Solve.inverse_rhs",
    "LinPDE.Solve.inverse_rhs_equation"
   ],
   "note": "Independent outputs of any finite index set; every history; both directions; strictness of independence shown by a correlated counterexample; the inverse-problem notebook with strictly positive definite jet kernels."
  },
  {
   "property": "C72",
   "status": "partial",
   "theorems": [
    "LinPDE.Cpu.coffeeLake_ok",
    "LinPDE.Cpu.heat_dist_x",
    "LinPDE.Cpu.heat_dist_y",
    "LinPDE.Cpu.power_balance_1d",
    "LinPDE.Cpu.rhs_dbc_balanced",
    "LinPDE.Cpu.solution_1d",
    "LinPDE.Cpu.solution_dbc_flux",
    "LinPDE.Cpu.power_balance_2d",
    "LinPDE.Cpu.neumann_west",
    "LinPDE.Cpu.neumann_2d_violated"
   ],
   "note": "Proved for every geometry with the cores inside of the die and non-zero sum of the relative heights (the script's constants satisfy this). Violated: the boundary conditions of the two-dimensional notebook are incompatible with the right-hand side, because the west boundary uses the outer normal direction."
  },
  {
   "property": "C73",
   "status": "partial",
   "theorems": [
    "LinPDE.GP.deterministic_reproduced",
    "LinPDE.Solve.operators_solved",
    "LinPDE.Cpu.notebook_2d",
    "LinPDE.Cpu.notebook_2d_west_violated",
    "LinPDE.Cpu.notebook_1d",
    "LinPDE.Cpu.notebook_1d_dbc",
    "LinPDE.Cpu.notebook_1d_joint",
    "LinPDE.Cpu.stat_alone"
   ],
   "note": "Proved for both notebooks, including the joint process with unknown sources; the flux on the west side of the two-dimensional notebook has the wrong sign (violation proved)."
  },
  {
   "property": "C74",
   "status": "proved",
   "theorems": [
    "LinPDE.GP.worst_case_error",
    "LinPDE.GP.mean_minimal",
    "LinPDE.GP.worst_case_sharp",
    "LinPDE.GP.determined_iff",
    "LinPDE.GP.nearest_measurement",
    "LinPDE.GP.consistent"
   ],
   "note": "Proved for every regular prior and list of batches."
  },
  {
   "property": "C75",
   "status": "proved",
   "theorems": [
    "LinPDE.Solve.poisson1_converges",
    "LinPDE.Solve.poisson_converges",
    "LinPDE.Solve.heat_converges",
    "LinPDE.Solve.heat_region",
    "LinPDE.Solve.matern_cont",
    "LinPDE.Solve.expquad_cont"
   ],
   "note": "Proved for the scripts on intervals and boxes; heat equation in one space dimension. The thresholds depend only on prior, problem, solution and tolerance; no rates."
  },
  {
   "property": "C76",
   "status": "partial",
   "theorems": [
    "LinPDE.XCov.linop_eq_array",
    "LinPDE.XCov.linop_eq_dense",
    "LinPDE.XCov.linop_transpose",
    "LinPDE.Tensor.tp_keops",
    "LinPDE.Tensor.tpll_keops",
    "LinPDE.XCov.pv_jax_partial",
    "LinPDE.XCov.pv_jax_refuses",
    "LinPDE.XCov.stack_jax_violated"
   ],
   "note": "Operator views and KeOps tensors: proved for all trees, shapes and points. JAX views of cross-covariances: proved except for stacks, which return zeros (violation proved)."
  },
  {
   "property": "C77",
   "status": "proved",
   "theorems": [
    "LinPDE.Solve.smooth_within",
    "LinPDE.Solve.poisson_smooth",
    "LinPDE.Solve.poisson1_smooth",
    "LinPDE.Solve.heat_smooth",
    "LinPDE.Solve.heat_series",
    "LinPDE.GP.nearest_average",
    "LinPDE.GP.consistent_noise"
   ],
   "note": "Proved for products of Matern kernels with half-integer smoothness, smooth solutions and smooth prior means; the constant of the uncertainty region depends on the solution."
  },
  {
   "property": "C78",
   "status": "proved",
   "theorems": [
    "LinPDE.Solve.poisson1_rate",
    "LinPDE.Solve.poisson1_smooth_rate",
    "LinPDE.Solve.poisson_rate",
    "LinPDE.Solve.poisson_smooth_rate",
    "LinPDE.Solve.heat_rate",
    "LinPDE.Solve.heat_smooth_rate"
   ],
   "note": "The rates for one dimension use all derivatives of the kernel; on boxes and for the heat equation the exponent is 1/2."
  },
  {
   "property": "C79",
   "status": "partial",
   "theorems": [
    "LinPDE.PostView.pred_array_partial",
    "LinPDE.PostView.reshapeLast_raises",
    "LinPDE.PostView.append_array_partial",
    "LinPDE.PostView.pred_empty_violated",
    "LinPDE.PostView.pred_linop_partial",
    "LinPDE.PostView.jaxV_array",
    "LinPDE.PostView.jaxV_traced_partial",
    "LinPDE.PostView.jaxV_point_violated",
    "LinPDE.PostView.pred_jax_array",
    "LinPDE.PostView.pred_jax_violated",
    "LinPDE.PostView.mean_array_partial",
    "LinPDE.PostView.mean_jax_violated",
    "LinPDE.PostView.mean_derivative_violated",
    "LinPDE.PostView.cov_array_partial",
    "LinPDE.PostView.cov_refused",
    "LinPDE.PostView.cov_none",
    "LinPDE.PostView.cov_jax_violated"
   ],
   "note": "NumPy and operator views proved for all sequences of observations and batch shapes (non-empty for the array view). Violated: at empty arrays the array view raises; the JAX views of every posterior mean and covariance raise at every input because compiled code calls NumPy views; point evaluations cannot be traced. Missing: covariance of vector-valued processes (violated, C08)."
  },
  {
   "property": "C80",
   "status": "partial",
   "theorems": [
    "LinPDE.Plot.plot_dispatch",
    "LinPDE.Plot.curvature_axes",
    "LinPDE.Plot.plot1d_error_iff",
    "LinPDE.Plot.plot1d_mean",
    "LinPDE.Plot.plot1d_det",
    "LinPDE.Plot.plot1d_band",
    "LinPDE.Plot.plot1d_mean_in_band_partial",
    "LinPDE.Plot.plot1d_vertical_violated",
    "LinPDE.Plot.plot1d_level_one_violated",
    "LinPDE.Plot.plot1d_level_one",
    "LinPDE.Plot.plot1d_samples",
    "LinPDE.Plot.plot_fromPoints",
    "LinPDE.Plot.lineChunks_points",
    "LinPDE.Plot.lineChunks_segments_partial",
    "LinPDE.Plot.lineChunks_crossing_violated",
    "LinPDE.Plot.plot2d_slice_partial",
    "LinPDE.Plot.slice_color_violated",
    "LinPDE.Plot.plot2d_slice_color_violated",
    "LinPDE.Plot.plot2d_surface",
    "LinPDE.Plot.curvature_partial",
    "LinPDE.Plot.curvature_marker_violated",
    "LinPDE.Plot.taylor_spec",
    "LinPDE.Plot.taylor_marker_partial",
    "LinPDE.Plot.taylor_marker_violated",
    "LinPDE.Plot.plotGaussianPdf_spec",
    "LinPDE.Plot.writer_frames_partial",
    "LinPDE.Plot.writer_literal_violated"
   ],
   "note": "Mean line, band probability, samples, interpolants, slices, Taylor polynomials, densities and frames proved for all inputs; violated by vertical plots, level one at zero variance, coloured slices along the second axis, segments crossing the mean, even grids of Taylor processes, one-point curvature grids, file names without a field."
  },
  {
   "property": "C81",
   "status": "partial",
   "theorems": [
    "LinPDE.JaxFn.views_agree",
    "LinPDE.JaxFn.plain_piece_violated",
    "LinPDE.JaxFn.operator_correct",
    "LinPDE.JaxFn.operator_shapes",
    "LinPDE.JaxFn.operator_line",
    "LinPDE.JaxFn.plain_violated",
    "LinPDE.JaxFn.operator_piecewise",
    "LinPDE.JaxFn.poisson_constSol",
    "LinPDE.JaxFn.poisson_ivpPoly",
    "LinPDE.JaxFn.poisson_ivpPiecewise",
    "LinPDE.JaxFn.kink_violated",
    "LinPDE.JaxFn.heat_violated",
    "LinPDE.JaxFn.heat_partial",
    "LinPDE.JaxFn.polyJaxInt_eq",
    "LinPDE.JaxFn.integer_violated",
    "LinPDE.JaxFn.constant_integer"
   ],
   "note": "Views agree at floats; operators give derivatives of the function at every point around which the selections are constant; operator of the Poisson equation on attached solutions gives the right-hand side everywhere. Fails for the heat equation (attached solution has no JAX view), pieces without JAX view, kinks, and integers; witnesses given."
  },
  {
   "property": "C82",
   "status": "proved",
   "theorems": [
    "LinPDE.GP.affine_units",
    "LinPDE.GP.values_affine",
    "LinPDE.GP.symmetry_equivariant",
    "LinPDE.GP.symmetry_invariant",
    "LinPDE.GP.least_squares",
    "LinPDE.GP.repeated_average"
   ],
   "note": "All histories with positive definite joint Gram matrix; for the least squares statements the other measurements have positive semidefinite noise."
  },
  {
   "property": "C83",
   "status": "proved",
   "theorems": [
    "LinPDE.GP.values_robust",
    "LinPDE.GP.weights_robust",
    "LinPDE.GP.vague",
    "LinPDE.GP.noise_monotone",
    "LinPDE.GP.jitter"
   ],
   "note": "Bounds for one functional at a time, all histories with positive definite joint Gram matrix; jitter needs positive semidefinite noise."
  },
  {
   "property": "C84",
   "status": "partial",
   "theorems": [
    "LinPDE.Rounding.poly_backward",
    "LinPDE.Rounding.poly_forward",
    "LinPDE.Rounding.rat_forward",
    "LinPDE.Rounding.poly_relative",
    "LinPDE.Rounding.sum_forward",
    "LinPDE.Rounding.expQuad_error",
    "LinPDE.Rounding.matern_error",
    "LinPDE.Rounding.matern_uniform",
    "LinPDE.Rounding.kernels_symmetric",
    "LinPDE.Rounding.product_error",
    "LinPDE.Rounding.posterior_mean_error",
    "LinPDE.Rounding.posterior_cov_error",
    "LinPDE.Rounding.gram_posDef",
    "LinPDE.Rounding.expQuad_gram",
    "LinPDE.Rounding.matern_gram",
    "LinPDE.Rounding.variance_violated"
   ],
   "note": "Bounds are proved; nonnegativity of the computed variance is false (variance_violated). Overflow and underflow are outside the model; for factorisations see C86 and C87."
  },
  {
   "property": "C85",
   "status": "partial",
   "theorems": [
    "LinPDE.Printed.rational_faithful",
    "LinPDE.Printed.polynomial_faithful",
    "LinPDE.Printed.multiindex_partial",
    "LinPDE.Printed.multiindex_violated",
    "LinPDE.Printed.operator_partial",
    "LinPDE.Printed.operator_violated"
   ],
   "note": "Proved for polynomials, non-empty multi-indices and operators whose sums are outermost; violated for sums inside multiples and compositions (no parentheses) and for empty multi-indices."
  },
  {
   "property": "C86",
   "status": "proved",
   "theorems": [
    "LinPDE.Rounding.update_residual",
    "LinPDE.Rounding.run_residual",
    "LinPDE.Rounding.run_mean",
    "LinPDE.Rounding.run_exact"
   ],
   "note": "Solvers are arbitrary and enter through their residuals; the entries of the Gram blocks are exact (errors of the entries: C83, C84)."
  },
  {
   "property": "C87",
   "status": "proved",
   "theorems": [
    "LinPDE.Rounding.ns_residual",
    "LinPDE.Rounding.chol_backward",
    "LinPDE.Rounding.solve_residual",
    "LinPDE.Rounding.solve_exact",
    "LinPDE.Rounding.lazy_mean",
    "LinPDE.Rounding.lazy_exact"
   ],
   "note": "Dense factorisations and solves are arbitrary and enter through their errors; overflow and underflow are outside the model."
  },
  {
   "property": "C88",
   "status": "proved",
   "theorems": [
    "LinPDE.PostView.run_agree",
    "LinPDE.PostView.posterior_mean",
    "LinPDE.PostView.posterior_cov",
    "LinPDE.PostView.posterior_observed",
    "LinPDE.PostView.evalObs_fit",
    "LinPDE.PostView.reproduces_array",
    "LinPDE.PostView.interpolates_array"
   ],
   "note": "The covariance function is stated for scalar processes, as in C79."
  },
  {
   "property": "C89",
   "status": "proved",
   "theorems": [
    "LinPDE.ExpQuad.product_eval",
    "LinPDE.ExpQuad.product_one",
    "LinPDE.ExpQuad.product_both"
   ],
   "note": "Hypothesis PDCorrect: univariate derivatives of smooth factors are correct, as in the tensor-product claims."
  },
  {
   "property": "C90",
   "status": "proved",
   "theorems": [
    "LinPDE.Rounding.expquad_deriv_error",
    "LinPDE.Rounding.matern_deriv_error",
    "LinPDE.Rounding.expquad_deriv_swap",
    "LinPDE.Rounding.matern_deriv_swap",
    "LinPDE.Rounding.expquad_operator_gram",
    "LinPDE.Rounding.matern_operator_gram",
    "LinPDE.Rounding.expquad_first_relative"
   ],
   "note": "Standard model of floating-point arithmetic without overflow and underflow; arbitrary orders of summation in every sum; bounds relative to the sums of magnitudes of terms. expquad_deriv_swap is stated for the classes whose implementation is symmetric; the Matérn statement exchanges the orders of the two inner sums. matern_operator_gram requires smoothness at least the order of the operator."
  },
  {
   "property": "C91",
   "status": "proved",
   "theorems": [
    "LinPDE.Rounding.history_mean",
    "LinPDE.Rounding.history_exact",
    "LinPDE.Rounding.expquad_history",
    "LinPDE.Rounding.matern_history"
   ],
   "note": "Solvers are arbitrary; their residuals are part of the bound."
  },
  {
   "property": "C92",
   "status": "proved",
   "theorems": [
    "LinPDE.Rounding.history_cov",
    "LinPDE.Rounding.history_variance",
    "LinPDE.Rounding.history_cov_exact",
    "LinPDE.Rounding.expquad_cov",
    "LinPDE.Rounding.matern_cov"
   ],
   "note": "Any history, format, solver, library and order of summation. Double-precision and exact-arithmetic examples in Rounding.SolveCovExamples."
  },
  {
   "property": "C93",
   "status": "proved",
   "theorems": [
    "LinPDE.Rounding.tpll_error",
    "LinPDE.Rounding.tensor_evaluate",
    "LinPDE.Rounding.operators_error",
    "LinPDE.Rounding.operators_exact",
    "LinPDE.Rounding.operators_single",
    "LinPDE.Rounding.tensor_history",
    "LinPDE.Rounding.tensor_cov",
    "LinPDE.Rounding.heat_functional",
    "LinPDE.Rounding.heat_error"
   ],
   "note": "Tensor products of Matérn kernels with closed-form factors (at most two derivatives per coordinate); arbitrary factors with given errors in tpll_error. Gram matrices are read in the lower triangle, as by the factorisations."
  },
  {
   "property": "C94",
   "status": "partial",
   "theorems": [
    "LinPDE.Rounding.sine_error",
    "LinPDE.Rounding.sine_left",
    "LinPDE.Rounding.sine_right_partial",
    "LinPDE.Rounding.sine_right_violated",
    "LinPDE.Rounding.mode_ne_zero",
    "LinPDE.Rounding.heatSol_error",
    "LinPDE.Rounding.heatSol_left",
    "LinPDE.Rounding.heatSol_initial",
    "LinPDE.Rounding.bin_idem",
    "LinPDE.Rounding.const_error",
    "LinPDE.Rounding.const_ends"
   ],
   "note": "Violated: a computed sine series never vanishes at the right end of its interval (the argument of the sine is a float, π is irrational); sine_right_partial bounds the value. All other parts are proved."
  },
  {
   "property": "C95",
   "status": "partial",
   "theorems": [
    "LinPDE.Rounding.FemFl.fem_values",
    "LinPDE.Rounding.FemFl.fem_delta_partial",
    "LinPDE.Rounding.FemFl.fem_delta_violated",
    "LinPDE.Rounding.FemFl.fem_expansion",
    "LinPDE.Rounding.FemFl.fem_eval_elem",
    "LinPDE.Rounding.FemFl.fem_mass",
    "LinPDE.Rounding.FemFl.fem_moments",
    "LinPDE.Rounding.FemFl.fem_laplacian"
   ],
   "note": "Violated: a computed basis function need not be one at its own node (fem_delta_violated); fem_delta_partial bounds the deviation by five roundings and shows that the others vanish exactly. All other parts are proved."
  },
  {
   "property": "C96",
   "status": "partial",
   "theorems": [
    "LinPDE.Rounding.wendlandFun_error",
    "LinPDE.Rounding.wendland_error",
    "LinPDE.Rounding.wendland_exact",
    "LinPDE.Rounding.wendland_nonneg_partial",
    "LinPDE.Rounding.wendland_nonneg_violated"
   ],
   "note": "Violated: the computed covariance can be negative next to the boundary of the support (wendland_nonneg_violated, all binary formats with at least six digits); wendland_nonneg_partial bounds how far it is below zero or above one. The error bound, exact symmetry, exact unit variance and exact zeros outside the support are proved in full."
  },
  {
   "property": "C97",
   "status": "partial",
   "theorems": [
    "LinPDE.Rounding.PwFl.interp_raises",
    "LinPDE.Rounding.PwFl.interp_error",
    "LinPDE.Rounding.PwFl.interp_nodes_partial",
    "LinPDE.Rounding.PwFl.interp_nodes_violated",
    "LinPDE.Rounding.PwFl.interp_exact",
    "LinPDE.Rounding.PwFl.constant_exact"
   ],
   "note": "Violated: the computed interpolant need not take the given values at the points (interp_nodes_violated, all binary formats with at least three digits); interp_nodes_partial bounds the deviation. The error bound, the exceptions, the zeros outside the grid and the exact cases are proved in full."
  },
  {
   "property": "C98",
   "status": "partial",
   "theorems": [
    "LinPDE.Rounding.IntFl.antiderivative_error",
    "LinPDE.Rounding.IntFl.antiderivative2_error",
    "LinPDE.Rounding.IntFl.integral_error",
    "LinPDE.Rounding.IntFl.integral2_error",
    "LinPDE.Rounding.IntFl.integrals_close",
    "LinPDE.Rounding.IntFl.integral2_symm_error",
    "LinPDE.Rounding.IntFl.integral_exact",
    "LinPDE.Rounding.IntFl.integral_pos_partial",
    "LinPDE.Rounding.IntFl.integral_pos_violated"
   ],
   "note": "Error bounds and exact identities for all formats, orders, intervals and points are proved. Positivity is violated by the code for short intervals (integral_pos_violated); proved where the exact integral exceeds the error bound."
  },
  {
   "property": "C99",
   "status": "partial",
   "theorems": [
    "LinPDE.Rounding.PwFl.poly_integral_error",
    "LinPDE.Rounding.PwFl.pw_integral_error",
    "LinPDE.Rounding.PwFl.pw_integral_close",
    "LinPDE.Rounding.PwFl.poly_integral_pos_partial",
    "LinPDE.Rounding.PwFl.poly_integral_pos_violated"
   ],
   "note": "Error bounds and equality of exceptions are proved for all formats, functions and intervals. Positivity is violated by the code far from zero (poly_integral_pos_violated); proved where the exact integral exceeds the error bound. Closeness to the integral of the function holds for intervals ending at a breakpoint; other intervals are wrong already in exact arithmetic (C21)."
  }
 ]
}