{
 "claims": [
  {
   "property": "C01",
   "status": "proved",
   "theorems": [
    "Ceres.Problem.problem_refines_spec",
    "Ceres.Problem.problem_no_ub"
   ],
   "note": "Refinement of the container model to a map of blocks, for every history with safety checks on."
  },
  {
   "property": "C02",
   "status": "proved",
   "theorems": [
    "Ceres.Problem.removeParameterBlock_exact",
    "Ceres.Problem.fastRemoval_irrelevant"
   ],
   "note": ""
  },
  {
   "property": "C03",
   "status": "proved",
   "theorems": [
    "Ceres.Problem.addParameterBlock_accepts_iff",
    "Ceres.Problem.parameterBlocks_disjoint"
   ],
   "note": ""
  },
  {
   "property": "C04",
   "status": "proved",
   "theorems": [
    "Ceres.Problem.owned_objects_deleted_once"
   ],
   "note": ""
  },
  {
   "property": "C05",
   "status": "proved",
   "theorems": [
    "Ceres.Program.removeFixedBlocks_preserves",
    "Ceres.Program.removeFixedBlocks_error"
   ],
   "note": "Costs in an arbitrary commutative monoid (rounding not modelled)."
  },
  {
   "property": "C06",
   "status": "proved",
   "theorems": [
    "Ceres.Program.setOffsets_spec",
    "Ceres.Program.slices_disjoint",
    "Ceres.Program.pack_spec",
    "Ceres.Program.unpack_spec",
    "Ceres.Program.copyToUser_spec",
    "Ceres.Program.stateVector_roundtrip",
    "Ceres.Program.solution_writeback",
    "Ceres.Program.setStatePtrsToUser_failure_leaves_dangling"
   ],
   "note": "Flat memory model; last theorem is a finding about the failure path."
  },
  {
   "property": "C07",
   "status": "proved",
   "theorems": [
    "Ceres.Program.program_plus_spec",
    "Ceres.Program.plus_block_spec",
    "Ceres.Program.plus_block_ub"
   ],
   "note": "All schedules of the parallel loop; values in any linear order with addition."
  },
  {
   "property": "C08",
   "status": "proved",
   "theorems": [
    "Ceres.Program.isFeasible_iff",
    "Ceres.Program.isBoundsConstrained_iff",
    "Ceres.Program.upperBounds_last_set",
    "Ceres.Program.lowerBounds_last_set",
    "Ceres.Program.feasible_nonEmpty",
    "Ceres.Program.isFeasible_ignores_variable_values"
   ],
   "note": ""
  },
  {
   "property": "C09",
   "status": "proved",
   "theorems": [
    "Ceres.Evaluator.evaluate_fails_iff",
    "Ceres.Evaluator.evaluate_correct",
    "Ceres.Evaluator.evaluate_crs",
    "Ceres.Evaluator.evaluate_bsm",
    "Ceres.Evaluator.serializable",
    "Ceres.Evaluator.abort_iff",
    "Ceres.Evaluator.progress",
    "Ceres.Evaluator.step_weight",
    "Ceres.Evaluator.exists_final",
    "Ceres.Evaluator.dynamic_no_race",
    "Ceres.Evaluator.dynamic_threads"
   ],
   "note": "Transition system over all thread counts, assignments and interleavings of single memory operations. Exact arithmetic (sums up to rounding); the finiteness check of the accumulated cost is not modelled. For the dynamic sparse writer: every interleaving of its accesses to the growing rows (dynamic_threads), with the cost and gradient as for the others."
  },
  {
   "property": "C10",
   "status": "proved",
   "theorems": [
    "Ceres.Evaluator.createJacobian_isSome",
    "Ceres.Evaluator.stores_cover",
    "Ceres.Evaluator.crs_row",
    "Ceres.Evaluator.crs_columns",
    "Ceres.Evaluator.crs_entry",
    "Ceres.Evaluator.layout_position",
    "Ceres.Evaluator.layout_partition",
    "Ceres.Evaluator.layout_tiles",
    "Ceres.Evaluator.layout_ordered",
    "Ceres.Evaluator.block_stores_cover",
    "Ceres.Evaluator.bsm_entry",
    "Ceres.Evaluator.scratch_tiles",
    "Ceres.Evaluator.dense_entry",
    "Ceres.Evaluator.dynamic_entry",
    "Ceres.Evaluator.dynamic_in_range",
    "Ceres.Evaluator.dynamic_threads"
   ],
   "note": "Compressed row, block sparse, dense and dynamic writers. Integer overflow is the subject of C97."
  },
  {
   "property": "C11",
   "status": "proved",
   "theorems": [
    "Ceres.TrustRegion.minimize_returns_best",
    "Ceres.TrustRegion.finalCost_partial",
    "Ceres.TrustRegion.finalCost_can_be_too_low",
    "Ceres.TrustRegion.minimize_accepted_below_initial"
   ],
   "note": "All runs of the minimizer model, any objective, strategy, callbacks and inner iterations. final_cost equality is conditional (finalCost_partial); the unconditional claim is refuted by finalCost_can_be_too_low."
  },
  {
   "property": "C12",
   "status": "proved",
   "theorems": [
    "Ceres.TrustRegion.minimize_terminates_justified",
    "Ceres.TrustRegion.minimize_never_aborts",
    "Ceres.TrustRegion.failed_plus_reports_convergence"
   ],
   "note": "Fuel max_num_iterations+1 suffices. failed_plus_reports_convergence records that a failed Plus can end in CONVERGENCE through the parameter tolerance test."
  },
  {
   "property": "C13",
   "status": "proved",
   "theorems": [
    "Ceres.TrustRegion.evaluator_bookkeeping",
    "Ceres.TrustRegion.evaluator_reset",
    "Ceres.TrustRegion.accepted_below_initial",
    "Ceres.TrustRegion.monotonic_mode",
    "Ceres.TrustRegion.minimize_accepted_below_initial",
    "Ceres.TrustRegion.minimize_monotone",
    "Ceres.TrustRegion.negative_model_change_accepts_increase",
    "Ceres.TrustRegion.inner_increase_accepted"
   ],
   "note": "Evaluator in isolation for every accepted history, and within every run; the hypothesis that inner iterations do not raise the cost is needed (inner_increase_accepted)."
  },
  {
   "property": "C14",
   "status": "proved",
   "theorems": [
    "Ceres.Strategy.lm_radius_limits",
    "Ceres.Strategy.lm_accepted_radius",
    "Ceres.Strategy.lm_rejections_radius",
    "Ceres.Strategy.lm_minimum_reached",
    "Ceres.Strategy.lm_run_radius",
    "Ceres.Strategy.lm_diagonal_current",
    "Ceres.Strategy.lm_minimize_returns",
    "Ceres.Strategy.lm_zero_min_diagonal_aborts"
   ],
   "note": "Sequences of calls on the strategy alone, and every run of the minimizer. Finding: min_lm_diagonal = 0 passes validation but aborts."
  },
  {
   "property": "C15",
   "status": "proved",
   "theorems": [
    "Ceres.Strategy.dogleg_step_spec",
    "Ceres.Strategy.dogleg_run_step",
    "Ceres.Strategy.dogleg_run_radius",
    "Ceres.Strategy.dogleg_radius_updates",
    "Ceres.Strategy.gnLoop_terminates",
    "Ceres.Strategy.dogleg_minimize_returns",
    "Ceres.Strategy.dogleg_exceeds_max",
    "Ceres.Strategy.dogleg_mu_stuck"
   ],
   "note": "Exact real arithmetic. Findings: the maximum radius is not enforced; mu at 1 is a dead end."
  },
  {
   "property": "C16",
   "status": "proved",
   "theorems": [
    "Ceres.LineSearch.armijo_result",
    "Ceres.LineSearch.armijo_success",
    "Ceres.LineSearch.armijo_no_increase",
    "Ceres.LineSearch.armijo_finds",
    "Ceres.LineSearch.minimizeInterpolating_inside"
   ],
   "note": "Any objective (including invalid and non-finite values), any ordered field. MinimizeInterpolatingPolynomial enters through StaysInside, which minimizeInterpolating_inside proves of the model of the code."
  },
  {
   "property": "C17",
   "status": "partial",
   "theorems": [
    "Ceres.LineSearch.wolfe_success",
    "Ceres.LineSearch.wolfe_bounded",
    "Ceres.LineSearch.wolfe_best_partial",
    "Ceres.LineSearch.wolfe_forgets_best",
    "Ceres.LineSearch.wolfe_can_abort",
    "Ceres.LineSearch.wolfe_can_violate_decrease"
   ],
   "note": "Full: on success the point satisfies strong Wolfe, or is the best point with sufficient decrease. False of the code: wolfe_forgets_best (iteration limit at an invalid point drops the best one), wolfe_can_violate_decrease (NaN slope in zoom), wolfe_can_abort (infinite slope). Proved: the cost never exceeds the starting cost; with finite slopes, sufficient decrease and curvature or a stated reason, no abort; best point unless the iteration limit is reached at an invalid point; iteration bounds without hypotheses."
  },
  {
   "property": "C18",
   "status": "proved",
   "theorems": [
    "Ceres.LineSearch.evalPoly_eq",
    "Ceres.LineSearch.differentiate_eq",
    "Ceres.LineSearch.hasDerivAt_evalPoly",
    "Ceres.LineSearch.linearRoots_complete",
    "Ceres.LineSearch.quadraticRoots_complete",
    "Ceres.LineSearch.companion_vecMul",
    "Ceres.LineSearch.balance_rescaled",
    "Ceres.LineSearch.findRoots_complete",
    "Ceres.LineSearch.minimizePoly_inside",
    "Ceres.LineSearch.minimizePoly_min",
    "Ceres.LineSearch.interpolate_spec",
    "Ceres.LineSearch.interpolate_unique",
    "Ceres.LineSearch.minimizeInterpolating_inside",
    "Ceres.LineSearch.minimizeInterpolating_min"
   ],
   "note": "Exact reals. The LU solve and the eigenvalue routine of Eigen are parameters with contracts (a solver of the linear system if it has a solution; a list containing all real eigenvalues); exists_numerics shows that the contracts can be met. The balancing loop is run for an arbitrary number of sweeps."
  },
  {
   "property": "C19",
   "status": "proved",
   "theorems": [
    "Ceres.LineSearch.minimize_ok",
    "Ceres.LineSearch.minimize_monotone",
    "Ceres.LineSearch.minimize_no_worse",
    "Ceres.LineSearch.armijo_searchOk",
    "Ceres.LineSearch.wolfe_searchOk"
   ],
   "note": "All four direction types, Armijo and Wolfe searches, arbitrary callbacks and clock; exact reals. Assumes that the cost does not depend on whether the gradient is requested and that gradients are finite."
  },
  {
   "property": "C20",
   "status": "proved",
   "theorems": [
    "Ceres.Parallel.parallelFor_covers",
    "Ceres.Parallel.parallelFor_permutation",
    "Ceres.Parallel.parallelFor_exclusive_ids",
    "Ceres.Parallel.parallelFor_quiescent",
    "Ceres.Parallel.parallelFor_check_holds",
    "Ceres.Parallel.parallelFor_progress",
    "Ceres.Parallel.parallelFor_terminates",
    "Ceres.Parallel.parallelFor_returns",
    "Ceres.Parallel.parallelForPartitions_covers",
    "Ceres.Parallel.parallelForCosts_covers"
   ],
   "note": "All interleavings of an unbounded transition system; sequentially consistent atomics; any pool size and load."
  },
  {
   "property": "C21",
   "status": "proved",
   "theorems": [
    "Ceres.Partition.partitionRange_optimal"
   ],
   "note": "Any non-decreasing cumulative cost, any range and bound on the number of parts."
  },
  {
   "property": "C22",
   "status": "proved",
   "theorems": [
    "Ceres.Queue.queue_linearizable",
    "Ceres.Queue.queue_fifo",
    "Ceres.Queue.queue_mutex",
    "Ceres.Queue.queue_no_lost_wakeup",
    "Ceres.Queue.queue_progress",
    "Ceres.Queue.queue_calls_finish",
    "Ceres.Queue.Pool.pool_starts_in_order",
    "Ceres.Queue.Pool.pool_destructor_runs_all",
    "Ceres.Queue.Pool.pool_destructor_progress",
    "Ceres.Queue.Pool.resize_count",
    "Ceres.Queue.Pool.pool_without_threads_drops_tasks"
   ],
   "note": "All interleavings, explicit mutex and condition variable with spurious wakeups. The thread pool is modelled over the atomic queue justified by queue_linearizable."
  },
  {
   "property": "C23",
   "status": "proved",
   "theorems": [
    "Ceres.Queue.tokens_unique",
    "Ceres.Queue.tokens_block_only_when_exhausted"
   ],
   "note": "All interleavings of Acquire/Release over the fine grained queue model."
  },
  {
   "property": "C24",
   "status": "proved",
   "theorems": [
    "Ceres.Util.linearToUpper_bijection"
   ],
   "note": "All n and k."
  },
  {
   "property": "C25",
   "status": "proved",
   "theorems": [
    "Ceres.OrderedGroups.groups_consistent",
    "Ceres.OrderedGroups.groups_effects",
    "Ceres.OrderedGroups.groups_reverse"
   ],
   "note": "All operation histories."
  },
  {
   "property": "C26",
   "status": "proved",
   "theorems": [
    "Ceres.Graph.independentSetOrdering_valid",
    "Ceres.Graph.stableIndependentSetOrdering_valid",
    "Ceres.Graph.stableIndependentSetOrdering_aborts",
    "Ceres.Graph.independentSetOrdering_deterministic",
    "Ceres.Graph.independentSetOrdering_loop_aborts"
   ],
   "note": "For graphs without self loops; with one the code aborts (proved). The sort is any sort by the code's comparison; the deterministic variant is shown independent of hash order."
  },
  {
   "property": "C27",
   "status": "proved",
   "theorems": [
    "Ceres.Graph.recursiveOrdering_valid",
    "Ceres.Graph.recursiveOrdering_const_diverges",
    "Ceres.Graph.hessianGraph_adj"
   ],
   "note": "Termination within numBlocks rounds is part of the theorem. The divergence with constant blocks is proved as a finding."
  },
  {
   "property": "C28",
   "status": "proved",
   "theorems": [
    "Ceres.Graph.lexicographicOrder_spec",
    "Ceres.Graph.lexicographicOrder_sorted"
   ],
   "note": "Exact characterisation of the result and of the aborts."
  },
  {
   "property": "C29",
   "status": "proved",
   "theorems": [
    "Ceres.Graph.applyOrdering_spec",
    "Ceres.Graph.applyOrdering_refused_corrupts"
   ],
   "note": "For every consistent ordering (C69) and program whose blocks have different state pointers. On failure the list may have been partially overwritten (proved finding)."
  },
  {
   "property": "C30",
   "status": "proved",
   "theorems": [
    "Ceres.Graph.spanningForest_spec",
    "Ceres.Graph.spanningForest_maximal"
   ],
   "note": "Also proves the exact greedy characterisation: an edge is chosen iff it is not blocked by the chosen edges before it."
  },
  {
   "property": "C31",
   "status": "proved",
   "theorems": [
    "Ceres.Graph.singleLinkage_spec"
   ],
   "note": "Includes the union-find with path compression."
  },
  {
   "property": "C32",
   "status": "proved",
   "theorems": [
    "Ceres.Sparse.transpose_wf",
    "Ceres.Sparse.transpose_row",
    "Ceres.Sparse.transpose_entry",
    "Ceres.Sparse.transpose_rowsSorted",
    "Ceres.Sparse.transpose_triples_perm",
    "Ceres.Sparse.transpose_transpose_row"
   ],
   "note": "Any well formed matrix, sorted or not, with repeated entries or not. Block information of the transpose is passed through."
  },
  {
   "property": "C33",
   "status": "proved",
   "theorems": [
    "Ceres.Sparse.fromTriplet_spec",
    "Ceres.Sparse.fromTriplet_entry",
    "Ceres.Sparse.fromTriplet_noDup",
    "Ceres.Sparse.fromTriplet_products",
    "Ceres.Sparse.exists_sorted",
    "Ceres.Sparse.Triplet.resize_spec",
    "Ceres.Sparse.Triplet.appendRows_spec",
    "Ceres.Sparse.Triplet.appendCols_spec",
    "Ceres.Sparse.Triplet.toDense_spec",
    "Ceres.Sparse.Triplet.rightMul_spec",
    "Ceres.Sparse.Triplet.leftMul_spec"
   ],
   "note": "std::sort is modelled by its guarantee: any permutation without descents, so the result holds for every order of equal entries."
  },
  {
   "property": "C34",
   "status": "proved",
   "theorems": [
    "Ceres.Sparse.rightMul_unsymmetric",
    "Ceres.Sparse.leftMul_unsymmetric",
    "Ceres.Sparse.rightMul_symmetric",
    "Ceres.Sparse.leftMul_symmetric",
    "Ceres.Sparse.squaredColumnNorm_unsymmetric",
    "Ceres.Sparse.squaredColumnNorm_symmetric",
    "Ceres.Sparse.scaleColumns_entry",
    "Ceres.Sparse.appendRows_spec",
    "Ceres.Sparse.appendRows_isSome",
    "Ceres.Sparse.deleteRows_spec",
    "Ceres.Sparse.append_delete_restores",
    "Ceres.Sparse.toDense_spec",
    "Ceres.Sparse.diagonal_spec",
    "Ceres.Sparse.toDense_repeated_differs",
    "Ceres.Sparse.Dense.ofTriplet_entry",
    "Ceres.Sparse.Dense.ofTriplet_products",
    "Ceres.Sparse.Dense.rightMul_spec",
    "Ceres.Sparse.Dense.leftMul_spec",
    "Ceres.Sparse.Dense.squaredColumnNorm_spec",
    "Ceres.Sparse.Dense.scaleColumns_entry",
    "Ceres.Sparse.Dense.setZero_entry"
   ],
   "note": "Symmetric storage needs sorted rows, norms and the dense form need rows without repeated columns; toDense_repeated_differs shows the dense form is wrong otherwise."
  },
  {
   "property": "C35",
   "status": "proved",
   "theorems": [
    "Ceres.Sparse.solveUpper_spec",
    "Ceres.Sparse.solveUpperTranspose_spec",
    "Ceres.Sparse.sparseForward_spec",
    "Ceres.Sparse.solveRTR_spec",
    "Ceres.Sparse.upper_unique"
   ],
   "note": "Exact arithmetic in any field."
  },
  {
   "property": "C36",
   "status": "proved",
   "theorems": [
    "Ceres.Util.blockToScalar_permutation"
   ],
   "note": "All block structures and block orderings."
  },
  {
   "property": "C37",
   "status": "proved",
   "theorems": [
    "Ceres.Util.mapToContiguous_spec"
   ],
   "note": "All integer vectors."
  },
  {
   "property": "C38",
   "status": "proved",
   "theorems": [
    "Ceres.Sparse.dynamic_history",
    "Ceres.Sparse.Dyn.run_spec",
    "Ceres.Sparse.Dyn.finalize_spec",
    "Ceres.Sparse.Dyn.clear_none"
   ],
   "note": "dynamic_cols_[i] and dynamic_values_[i] are one list of pairs. The padding of the arrays to max_num_nonzeros is outside the part in use."
  },
  {
   "property": "C39",
   "status": "proved",
   "theorems": [
    "Ceres.Robust.loss_derivatives",
    "Ceres.Robust.huber_deriv_corner",
    "Ceres.Robust.loss_zero",
    "Ceres.Robust.loss_nonneg",
    "Ceres.Robust.loss_mono",
    "Ceres.Robust.loss_le",
    "Ceres.Robust.loss_slope_zero",
    "Ceres.Robust.corrector_never_aborts",
    "Ceres.Robust.tolerant_mono_partial",
    "Ceres.Robust.tolerant_not_monotone",
    "Ceres.Robust.tolerant_slope_zero"
   ],
   "note": "Real arithmetic. Regular excludes the corner of Huber (no second derivative), the change of formula of TolerantLoss and points where a first derivative is at the floor DBL_MIN. TolerantLoss decreases by less than b*exp(-36.7) at its change of formula (proved both ways) and has slope at most 1/2 at zero."
  },
  {
   "property": "C40",
   "status": "proved",
   "theorems": [
    "Ceres.Robust.corrected_gradient",
    "Ceres.Robust.corrected_hessian",
    "Ceres.Robust.corrected_plain",
    "Ceres.Robust.corrected_quadratic"
   ],
   "note": "Real arithmetic, any sizes."
  },
  {
   "property": "C41",
   "status": "proved",
   "theorems": [
    "Ceres.Jet.Expr.jet_value",
    "Ceres.Jet.Expr.jet_represents",
    "Ceres.Jet.Expr.seeded_deriv",
    "Ceres.Jet.autoDifferentiate_spec",
    "Ceres.Jet.autoDiffEvaluate_spec",
    "Ceres.Jet.autoDiffEvaluate_same_residuals",
    "Ceres.Jet.evaluateReals_spec",
    "Ceres.Jet.firstOrderEvaluate_spec",
    "Ceres.Jet.autoDiffPlusJacobian_spec",
    "Ceres.Jet.autoDiffMinusJacobian_spec",
    "Ceres.Jet.Represents.unique",
    "Ceres.Jet.Represents.partial_deriv",
    "Ceres.Jet.abs_represents",
    "Ceres.Jet.fmax_represents",
    "Ceres.Jet.pow_represents",
    "Ceres.Jet.atan2_represents",
    "Ceres.Jet.powConst_represents",
    "Ceres.Jet.constPow_represents",
    "Ceres.Jet.copysign_represents",
    "Ceres.Jet.besselJn_represents",
    "Ceres.Jet.erf_represents",
    "Ceres.Jet.cbrt_represents",
    "Ceres.Jet.hypot_represents",
    "Ceres.Jet.hypot3_represents"
   ],
   "note": "Jets over the reals; differentiability is asked of the composite at kinks (abs, fmax, floor, copysign, pow at 0). atan2 away from the closed negative axis. Rounding and IEEE special values are not modelled."
  },
  {
   "property": "C42",
   "status": "proved",
   "theorems": [
    "Ceres.Rotation.quaternionProduct_spec",
    "Ceres.Rotation.quaternionConjugate_spec",
    "Ceres.Rotation.cross_dot_spec",
    "Ceres.Rotation.convert_spec",
    "Ceres.Rotation.convert_convert",
    "Ceres.Rotation.unitQuaternionRotatePoint_spec",
    "Ceres.Rotation.quaternionRotatePoint_spec",
    "Ceres.Rotation.quaternionRotatePoint_eq_mulVec",
    "Ceres.Rotation.quaternionToRotation_mulVec",
    "Ceres.Rotation.quaternionToRotation_mul",
    "Ceres.Rotation.quaternionToScaledRotation_mul",
    "Ceres.Rotation.quaternionToScaledRotation_scaled",
    "Ceres.Rotation.quaternionToRotation_isRotation",
    "Ceres.Rotation.quaternionToRotation_neg",
    "Ceres.Rotation.angleAxisToQuaternion_spec",
    "Ceres.Rotation.angleAxisToQuaternion_unit",
    "Ceres.Rotation.angleAxisToRotationMatrix_eq",
    "Ceres.Rotation.angleAxisRotatePoint_eq_mulVec",
    "Ceres.Rotation.angleAxisRotatePoint_spec",
    "Ceres.Rotation.angleAxisToRotationMatrix_isRotation",
    "Ceres.Rotation.angleAxisToRotationMatrix_axis",
    "Ceres.Rotation.angleAxisToQuaternion_quaternionToAngleAxis",
    "Ceres.Rotation.quaternionToAngleAxis_le_pi",
    "Ceres.Rotation.angleAxisToRotationMatrix_quaternionToAngleAxis",
    "Ceres.Rotation.quaternionToAngleAxis_angleAxisToQuaternion",
    "Ceres.Rotation.rotationMatrixToQuaternion_spec",
    "Ceres.Rotation.unit_unique",
    "Ceres.Rotation.rotationMatrixToQuaternion_quaternionToRotation",
    "Ceres.Rotation.rotationMatrixToAngleAxis_spec",
    "Ceres.Rotation.exists_angleAxis",
    "Ceres.Rotation.adapter_bijective",
    "Ceres.Rotation.rowMajor_eq_transpose",
    "Ceres.Rotation.plain_array_conjugates",
    "Ceres.Rotation.rotationMatrixToQuaternion_eigen_out_of_bounds",
    "Ceres.Rotation.rotationMatrixToQuaternion_eigen_unwritten"
   ],
   "note": "Over the reals. RotationMatrixToQuaternion is proved for the default order; for the Eigen order it writes outside the quaternion or leaves entries unwritten if the trace is negative (proved finding), and the trace >= 0 case is rotationMatrixToQuaternion_partial."
  },
  {
   "property": "C43",
   "status": "proved",
   "theorems": [
    "Ceres.Manifold.spherePlus_zero",
    "Ceres.Manifold.norm2_spherePlus",
    "Ceres.Manifold.sphereMinus_plus",
    "Ceres.Manifold.spherePlus_minus",
    "Ceres.Manifold.linePlus_zero",
    "Ceres.Manifold.linePlus_spec",
    "Ceres.Manifold.lineMinus_plus",
    "Ceres.Manifold.linePlus_minus",
    "Ceres.Manifold.quaternionPlus_spec",
    "Ceres.Manifold.quaternionPlus_zero",
    "Ceres.Manifold.norm_quaternionPlus",
    "Ceres.Manifold.quaternionMinus_plus",
    "Ceres.Manifold.quaternionPlus_minus",
    "Ceres.Manifold.subset_laws",
    "Ceres.Manifold.euclidean_laws",
    "Ceres.Manifold.productPlus_zero",
    "Ceres.Manifold.productMinus_plus",
    "Ceres.Manifold.productPlus_minus",
    "Ceres.Manifold.spherePlus_leaves_sphere",
    "Ceres.Manifold.sphereMinus_self_ne_zero",
    "Ceres.Manifold.linePlus_minus_other_line"
   ],
   "note": "Over the reals. Sphere and line: at points that are Regular (leading part zero, or squared norm above epsilon); outside, spherePlus_leaves_sphere and sphereMinus_self_ne_zero are proved counterexamples. Quaternions: Plus(x, Minus(-x, x)) = x, the same rotation. Lines: Plus(x, Minus(y, x)) is y projected as the documentation's line, not always y itself (linePlus_minus, linePlus_minus_other_line)."
  },
  {
   "property": "C44",
   "status": "proved",
   "theorems": [
    "Ceres.Manifold.spherePlus_hasFDerivAt",
    "Ceres.Manifold.sphereMinus_hasFDerivAt",
    "Ceres.Manifold.sphereMinusJacobian_mul",
    "Ceres.Manifold.linePlus_hasFDerivAt_general",
    "Ceres.Manifold.linePlus_hasFDerivAt_partial",
    "Ceres.Manifold.lineMinus_hasFDerivAt_general",
    "Ceres.Manifold.lineMinus_hasFDerivAt_partial",
    "Ceres.Manifold.lineMinusJacobian_mul",
    "Ceres.Manifold.linePlusJacobian_wrong",
    "Ceres.Manifold.quaternionPlus_hasFDerivAt",
    "Ceres.Manifold.quaternionMinus_hasFDerivAt_general",
    "Ceres.Manifold.quaternionMinus_hasFDerivAt",
    "Ceres.Manifold.quaternionMinusJacobian_mul",
    "Ceres.Manifold.subset_jacobians",
    "Ceres.Manifold.euclidean_laws",
    "Ceres.Manifold.productPlus_hasFDerivAt",
    "Ceres.Manifold.productMinus_hasFDerivAt",
    "Ceres.Manifold.productMinusJacobian_mul",
    "Ceres.Manifold.pose_plus_hasFDerivAt",
    "Ceres.Manifold.pose_minus_hasFDerivAt"
   ],
   "note": "Frechet derivatives over the reals. Lines: for unit directions only, because for every other norm the Jacobians are wrong (linePlusJacobian_wrong, proved)."
  },
  {
   "property": "C45",
   "status": "proved",
   "theorems": [
    "Ceres.Manifold.mkSubset_spec",
    "Ceres.Manifold.mkSubset_built",
    "Ceres.Manifold.subsetPlus_spec",
    "Ceres.Manifold.subsetMinus_spec",
    "Ceres.Manifold.subsetPlusJacobian_spec",
    "Ceres.Manifold.subsetMinusJacobian_spec",
    "Ceres.Manifold.subsetRightMultiply_spec",
    "Ceres.Manifold.subsetRightMultiply_eq_mul",
    "Ceres.Manifold.subset_laws",
    "Ceres.Manifold.subset_jacobians",
    "Ceres.Manifold.euclideanRightMultiply_spec",
    "Ceres.Manifold.rightMultiply_spec"
   ],
   "note": "The constructor accepts exactly the duplicate-free in-range lists; buffers are row major; entries outside the outputs are untouched."
  },
  {
   "property": "C46",
   "status": "proved",
   "theorems": [
    "Ceres.NumericDiff.evaluateJacobianColumn_spec",
    "Ceres.NumericDiff.riddersInner_spec",
    "Ceres.NumericDiff.riddersOuter_spec",
    "Ceres.NumericDiff.stepSize_eq",
    "Ceres.NumericDiff.column_spec",
    "Ceres.NumericDiff.evaluateJacobianForParameterBlock_spec",
    "Ceres.NumericDiff.numericEvaluate_spec",
    "Ceres.NumericDiff.dynamicNumericEvaluate_spec",
    "Ceres.NumericDiff.numericEvaluate_no_jacobians",
    "Ceres.NumericDiff.firstOrderEvaluate_spec",
    "Ceres.NumericDiff.numericEvaluate_ignores_failure",
    "Ceres.NumericDiff.ridders_no_extrapolations",
    "Ceres.NumericDiff.forward_exact",
    "Ceres.NumericDiff.central_exact",
    "Ceres.NumericDiff.ridders_exact",
    "Ceres.NumericDiff.romberg_exact",
    "Ceres.NumericDiff.quotient_exact",
    "Ceres.NumericDiff.forward_mean_value",
    "Ceres.NumericDiff.central_mean_value",
    "Ceres.NumericDiff.forward_error",
    "Ceres.NumericDiff.central_error"
   ],
   "note": "Over the reals, no rounding. numericEvaluate_ignores_failure: the static cost function drops the verdict of the differentiation."
  },
  {
   "property": "C47",
   "status": "proved",
   "theorems": [
    "Ceres.Cubic.cubicEvaluate_eq",
    "Ceres.Cubic.bicubicEvaluate_eq",
    "Ceres.Cubic.interp_contDiff",
    "Ceres.Cubic.interp2_contDiff",
    "Ceres.Cubic.interp2_hasFDerivAt",
    "Ceres.Cubic.interp2_transpose",
    "Ceres.Cubic.interp_grid",
    "Ceres.Cubic.interp_slope",
    "Ceres.Cubic.interp_catmullRom",
    "Ceres.Cubic.interp_quadratic",
    "Ceres.Cubic.interp_congr",
    "Ceres.Cubic.interp_bound",
    "Ceres.Cubic.interp2_row",
    "Ceres.Cubic.interp2_col",
    "Ceres.Cubic.interp2_grid",
    "Ceres.Cubic.interp2_biquadratic",
    "Ceres.Cubic.interp2_congr",
    "Ceres.Cubic.interp2_bound",
    "Ceres.Cubic.cubicEvaluateJet_represents",
    "Ceres.Cubic.bicubicEvaluateJet_represents",
    "Ceres.Cubic.cubicEvaluateValue_eq",
    "Ceres.Cubic.bicubicEvaluateValue_eq",
    "Ceres.Cubic.grid1D_getValue",
    "Ceres.Cubic.grid1D_inside",
    "Ceres.Cubic.grid1D_index",
    "Ceres.Cubic.stores1D_exists",
    "Ceres.Cubic.grid2D_getValue",
    "Ceres.Cubic.grid2D_inside",
    "Ceres.Cubic.grid2D_index",
    "Ceres.Cubic.stores2D_exists",
    "Ceres.Cubic.interp_beyond"
   ],
   "note": "Over the reals; the conversion of floor(x) to int is unbounded in the model."
  },
  {
   "property": "C48",
   "status": "proved",
   "theorems": [
    "Ceres.TinySolver.solveTiny_spec",
    "Ceres.TinySolver.step_spec",
    "Ceres.TinySolver.loop_spec",
    "Ceres.TinySolver.update_good",
    "Ceres.TinySolver.solvesSPD_inverse",
    "Ceres.TinySolver.copyToColMajor_spec",
    "Ceres.TinySolver.adapterCall_spec",
    "Ceres.TinySolver.adapterCall_verdict",
    "Ceres.TinySolver.autoDiffCall_spec",
    "Ceres.TinySolver.negative_radius_increases_cost",
    "Ceres.TinySolver.failing_function_is_accepted",
    "Ceres.TinySolver.gradient_test_is_scaled",
    "Ceres.TinySolver.max_iterations_off_by_one"
   ],
   "note": "Over the reals. The hypotheses are needed: see negative_radius_increases_cost and failing_function_is_accepted."
  },
  {
   "property": "C49",
   "status": "proved",
   "theorems": [
    "Ceres.LineSearch.lbfgs_memory",
    "Ceres.LineSearch.LowRank.update_spec",
    "Ceres.LineSearch.LowRank.apply_eq",
    "Ceres.LineSearch.lbfgsOperator_spd",
    "Ceres.LineSearch.lbfgs_secant",
    "Ceres.LineSearch.lbfgs_next"
   ],
   "note": "Exact arithmetic in an arbitrary real inner product space; the circular buffer of columns is modelled."
  },
  {
   "property": "C50",
   "status": "proved",
   "theorems": [
    "Ceres.CG.cg_iterations",
    "Ceres.CG.cg_success",
    "Ceres.CG.cg_success_zero_start",
    "Ceres.CG.cg_never_worse",
    "Ceres.CG.cg_descent_direction",
    "Ceres.CG.cg_failure_exact",
    "Ceres.CG.cg_no_convergence",
    "Ceres.CG.cg_optimal",
    "Ceres.CG.cg_converges",
    "Ceres.CG.loop_outcome",
    "Ceres.CG.cg_exact_start_fails",
    "Ceres.CG.cg_exact_too_early_fails",
    "Ceres.CG.cg_spurious_success"
   ],
   "note": "Exact arithmetic. Findings: FAILURE at exact solutions, spurious SUCCESS of the quadratic test from a nonzero start."
  },
  {
   "property": "C51",
   "status": "proved",
   "theorems": [
    "Ceres.Schur.dense_schur_minimises",
    "Ceres.Schur.sparse_schur_minimises",
    "Ceres.Schur.schur_minimises_pseudo_inverse",
    "Ceres.Schur.schur_full_rank",
    "Ceres.Schur.eliminate_order_irrelevant",
    "Ceres.Schur.reduced_posDef",
    "Ceres.Schur.one_f_block_minimises",
    "Ceres.Schur.no_convergence_worse"
   ],
   "note": "Exact arithmetic; block kernels are matrix products (see C59 for the kernels); chunk updates atomic per cell."
  },
  {
   "property": "C52",
   "status": "proved",
   "theorems": [
    "Ceres.Detect.detectStructure_sound",
    "Ceres.Detect.detectStructure_none",
    "Ceres.Detect.chooseEliminator_fits",
    "Ceres.Detect.create_spec",
    "Ceres.Detect.create_exact"
   ],
   "note": ""
  },
  {
   "property": "C53",
   "status": "proved",
   "theorems": [
    "Ceres.Driver.runCallbacks_spec",
    "Ceres.Driver.solve_callbacks",
    "Ceres.Driver.trRun_reported",
    "Ceres.Driver.lsRun_reported",
    "Ceres.Driver.exec_trRun",
    "Ceres.Driver.exec_lsMinimizer",
    "Ceres.Driver.solve_trust_region",
    "Ceres.Driver.solve_trust_region_current",
    "Ceres.Driver.solve_line_search",
    "Ceres.Driver.nonmonotonic_callback_sees_best_point",
    "Ceres.Driver.line_search_converged_start_calls_no_callback",
    "Ceres.Driver.witness_solve",
    "Ceres.Driver.witness_solve_stop"
   ],
   "note": "solve_callbacks holds for an arbitrary minimizer; the trust region and line search models are shown to be instances. With non-monotonic steps callbacks see the best point, not the current one (finding, proved)."
  },
  {
   "property": "C54",
   "status": "proved",
   "theorems": [
    "Ceres.Driver.solve_memory",
    "Ceres.Driver.fullCost_eq",
    "Ceres.Driver.solve_empty_costs",
    "Ceres.Driver.solve_trust_region",
    "Ceres.Driver.solve_line_search",
    "Ceres.Driver.gradient_error_leaves_changed_memory",
    "Ceres.Driver.witness_line_search"
   ],
   "note": "When gradient checking fails the memory can hold changed parameters although the summary is not usable (finding, proved); that case is excluded in solve_memory. Memory is modelled block by block, see C06 for cells; the trust region final_cost can be below the cost of the result (C11)."
  },
  {
   "property": "C55",
   "status": "proved",
   "theorems": [
    "Ceres.Options.isValid_iff",
    "Ceres.Options.isValid_error",
    "Ceres.Options.isValid_refuses",
    "Ceres.Options.accepted_options_carried_out",
    "Ceres.Options.defaults_valid_iff",
    "Ceres.Options.defaults_carried_out",
    "Ceres.Options.valid_lineSearch",
    "Ceres.Options.valid_trustRegion",
    "Ceres.Options.nan_refused",
    "Ceres.Options.zero_min_diagonal_aborts",
    "Ceres.Options.spse_without_e_blocks_aborts",
    "Ceres.Options.cuda_without_e_blocks_aborts",
    "Ceres.Options.cuda_without_e_blocks_wrong_cast",
    "Ceres.Options.contraction_one_accepted",
    "Ceres.Options.defaults_refused_only_cudss",
    "Ceres.Options.switched_solver_eliminates_nothing"
   ],
   "note": "Doubles are exact here (rationals, infinities, NaN). Accepted options that abort the process or confuse matrix classes are proved and characterised exactly by accepted_options_carried_out."
  },
  {
   "property": "C56",
   "status": "proved",
   "theorems": [
    "Ceres.Inner.minimize_result",
    "Ceres.Inner.minimize_descends",
    "Ceres.Inner.sweep_descends",
    "Ceres.Inner.minimizes_descends",
    "Ceres.Inner.inner_descends",
    "Ceres.Inner.init_defined_iff",
    "Ceres.Inner.init_serves",
    "Ceres.Inner.isOrderingValid_iff",
    "Ceres.Inner.createOrdering_spec",
    "Ceres.Inner.setupInner_given",
    "Ceres.Inner.setupInner_automatic",
    "Ceres.Inner.wRun",
    "Ceres.Inner.wOverlap",
    "Ceres.Inner.wResult",
    "Ceres.Inner.unknown_address_undefined",
    "Ceres.Inner.ordering_object_changed",
    "Ceres.TrustRegion.minimize_never_worse"
   ],
   "note": "The inner solve is an arbitrary tree of accesses to shared memory; that it is a trust region minimisation is used only for the descent. Sequentially consistent interleaving of single accesses."
  },
  {
   "property": "C57",
   "status": "proved",
   "theorems": [
    "Ceres.Cov.getBlock_available",
    "Ceres.Cov.getBlock_constant",
    "Ceres.Cov.getBlock_requested",
    "Ceres.Cov.getBlock_transpose",
    "Ceres.Cov.getBlock_missing",
    "Ceres.Cov.getBlock_true_iff",
    "Ceres.Cov.getBlock_not_computed",
    "Ceres.Cov.getMatrix_spec",
    "Ceres.Cov.getMatrix_parallel",
    "Ceres.Cov.getMatrix_true_iff",
    "Ceres.Cov.allPairs_requested",
    "Ceres.Cov.allPairs_nodup",
    "Ceres.Cov.compute_outcome",
    "Ceres.Cov.compute_holds",
    "Ceres.Cov.sparseQR_computes",
    "Ceres.Cov.sparseQR_blocks",
    "Ceres.Cov.sparseQR_ignores_failure",
    "Ceres.Cov.denseSVD_computes",
    "Ceres.Cov.denseSVD_inverse",
    "Ceres.Cov.denseSVD_blocks",
    "Ceres.Cov.denseSVD_refuses",
    "Ceres.Cov.denseSVD_accepts_underdetermined",
    "Ceres.Cov.denseSVD_zero",
    "Ceres.Cov.denseSVD_failure",
    "Ceres.Cov.null_pointer",
    "Ceres.Cov.read_past_end",
    "Ceres.Cov.missing_false",
    "Ceres.Cov.stranger_accepted",
    "Ceres.Cov.getMatrix_empty",
    "Ceres.Cov.failed_evaluation_reads_zero",
    "Ceres.Cov.underdetermined_accepted",
    "Ceres.Cov.zero_jacobian"
   ],
   "note": "The last sentence of the statement fails in the code: getBlock_missing says exactly when false is returned and when the code reads past an array or through a null pointer instead (null_pointer, read_past_end). Factorisations are arbitrary ones meeting Factor.Of and Svd.Of. Real arithmetic."
  },
  {
   "property": "C58",
   "status": "proved",
   "theorems": [
    "Ceres.Feasible.programPlus_feasible",
    "Ceres.Feasible.plus_refines",
    "Ceres.Feasible.minimize_keeps",
    "Ceres.Feasible.sweep_keeps",
    "Ceres.Feasible.inner_keeps",
    "Ceres.Feasible.unconstrained_inBox",
    "Ceres.Feasible.solve_feasible",
    "Ceres.Feasible.solve_projects",
    "Ceres.Feasible.witness_feasible",
    "Ceres.Feasible.witness_projects",
    "Ceres.Feasible.failure_leaves_infeasible",
    "Ceres.Feasible.huge_cost_leaves_infeasible"
   ],
   "note": "Whole Solve with the trust region minimizer. failure_leaves_infeasible and huge_cost_leaves_infeasible show the hypotheses on the start and on costs are needed. Order of doubles, rounding not modelled."
  },
  {
   "property": "C59",
   "status": "proved",
   "theorems": [
    "Ceres.SmallBlas.matrixMatrixMultiply_correct",
    "Ceres.SmallBlas.matrixTransposeMatrixMultiply_correct",
    "Ceres.SmallBlas.matrixVectorMultiply_correct",
    "Ceres.SmallBlas.matrixTransposeVectorMultiply_correct",
    "Ceres.SmallBlas.mmmMat1x4_eq",
    "Ceres.SmallBlas.mtmMat1x4_eq",
    "Ceres.SmallBlas.mvmMat4x1_eq",
    "Ceres.SmallBlas.mtvMat4x1_eq",
    "Ceres.SmallBlas.Witness.mm_run",
    "Ceres.SmallBlas.Witness.mtm_run",
    "Ceres.SmallBlas.Witness.mv_run",
    "Ceres.SmallBlas.Witness.mtv_run",
    "Ceres.SmallBlas.Witness.alias_wrong",
    "Ceres.SmallBlas.Witness.overrun_faults"
   ],
   "note": "One shared memory with faulting accesses, so no out-of-bounds access is part of the theorems. The Eigen branch for four compile-time sizes is not modelled; rounding and int overflow are not modelled."
  },
  {
   "property": "C60",
   "status": "proved",
   "theorems": [
    "Ceres.EvalCallback.trust_region_protocol",
    "Ceres.EvalCallback.trust_region_cached",
    "Ceres.EvalCallback.trust_region_seesOnly",
    "Ceres.EvalCallback.line_search_protocol",
    "Ceres.EvalCallback.line_search_cached",
    "Ceres.EvalCallback.line_search_wolfe_parameters",
    "Ceres.EvalCallback.squareUser_honours",
    "Ceres.EvalCallback.squareRun_events",
    "Ceres.EvalCallback.lineUser_honours",
    "Ceres.EvalCallback.wolfe_contract_fails",
    "Ceres.EvalCallback.check_gradients_no_callback"
   ],
   "note": "The solvers as programs that ask for evaluations, with arbitrary answers. wolfe_contract_fails shows the contract fails with a Wolfe search that returns its starting point; check_gradients_no_callback that the callback is dropped by check_gradients. A CHECK failing inside the trust region minimizer's line search is not modelled; rounding not modelled."
  },
  {
   "property": "C61",
   "status": "proved",
   "theorems": [
    "Ceres.Strategy.lm_step_descends",
    "Ceres.Strategy.lm_step_best",
    "Ceres.Strategy.lm_step_monotone",
    "Ceres.Strategy.lm_diag_pos"
   ],
   "note": "The linear solver is assumed exact; existence of such a solver is proved (exists_exact_solver)."
  },
  {
   "property": "C62",
   "status": "proved",
   "theorems": [
    "Ceres.Strategy.dogleg_step_descends"
   ],
   "note": "The linear solver is assumed exact."
  },
  {
   "property": "C63",
   "status": "proved",
   "theorems": [
    "Ceres.Strategy.subspace_minimum",
    "Ceres.Strategy.subspace_step_optimal",
    "Ceres.Strategy.subspace_step_fits",
    "Ceres.Strategy.subspace_dogleg_best"
   ],
   "note": "Exact arithmetic; Eigen QR and the polynomial root finder are parameters with stated contracts."
  },
  {
   "property": "C64",
   "status": "proved",
   "theorems": [
    "Ceres.LineSearch.bfgsUpdate_eq",
    "Ceres.LineSearch.bfgsUpdate_spd",
    "Ceres.LineSearch.bfgs_secant",
    "Ceres.LineSearch.bfgs_next",
    "Ceres.LineSearch.ncg_descends",
    "Ceres.LineSearch.direction_descends",
    "Ceres.LineSearch.hestenes_stiefel_divides_by_zero"
   ],
   "note": "Exact arithmetic. The lower-triangle storage of the dense matrix is modelled as a symmetric operator. hestenes_stiefel_divides_by_zero is a finding: the direction is not finite if the gradient did not change."
  },
  {
   "property": "C65",
   "status": "proved",
   "theorems": [
    "Ceres.Robust.block_gradient",
    "Ceres.Robust.evaluate_gradient"
   ],
   "note": "Frechet derivative at zero with respect to the tangent step of the whole program; joins ResidualBlock::Evaluate with the concurrent model of ProgramEvaluator. Real arithmetic."
  },
  {
   "property": "C66",
   "status": "proved",
   "theorems": [
    "Ceres.Robust.evaluate_failed_iff",
    "Ceres.Robust.evaluate_not_aborted",
    "Ceres.Robust.scratch_fits"
   ],
   "note": "User function is an arbitrary partial write of the output arrays."
  },
  {
   "property": "C67",
   "status": "proved",
   "theorems": [
    "Ceres.Sparse.block_pattern_iff",
    "Ceres.Sparse.blockAt_eq_some"
   ],
   "note": "std::lower_bound is modelled as the first element that is not below the value."
  },
  {
   "property": "C68",
   "status": "proved",
   "theorems": [
    "Ceres.Graph.computeSchurOrdering_valid",
    "Ceres.Graph.computeStableSchurOrdering_valid",
    "Ceres.Graph.hessianGraph_loop"
   ],
   "note": "Programs whose residual blocks do not repeat a block (guaranteed unless safety checks are disabled)."
  },
  {
   "property": "C69",
   "status": "proved",
   "theorems": [
    "Ceres.Graph.groups_history_wf",
    "Ceres.Graph.groups_add_spec",
    "Ceres.Graph.groups_remove_spec",
    "Ceres.Graph.groups_removeAll_spec",
    "Ceres.Graph.groups_reverse_spec",
    "Ceres.Graph.groups_queries"
   ],
   "note": "Histories of any length."
  },
  {
   "property": "C70",
   "status": "proved",
   "theorems": [
    "Ceres.Rotation.eulerAnglesToRotation_spec",
    "Ceres.Rotation.aliases_complete",
    "Ceres.Rotation.elem_eq_angleAxis",
    "Ceres.Rotation.eulerAnglesToRotation_isRotation",
    "Ceres.Rotation.eulerAngles_roundtrip",
    "Ceres.Rotation.rotationMatrixToEulerAngles_range",
    "Ceres.Rotation.eulerAngles_recovered",
    "Ceres.Rotation.eulerAnglesToRotationMatrix_spec"
   ],
   "note": "All 24 named systems, stated with the axes in the name; gimbal lock included."
  },
  {
   "property": "C71",
   "status": "proved",
   "theorems": [
    "Ceres.Rotation.angleAxisToQuaternion_hasFDerivAt",
    "Ceres.Rotation.angleAxisToRotationMatrix_hasFDerivAt",
    "Ceres.Rotation.angleAxisRotatePoint_hasFDerivAt",
    "Ceres.Rotation.quaternionToAngleAxis_hasFDerivAt_one",
    "Ceres.Rotation.quaternionToAngleAxis_minus_one_wrong"
   ],
   "note": "At the identity. At the quaternion -1, QuaternionToAngleAxis has a derivative of the wrong sign (proved finding)."
  },
  {
   "property": "C72",
   "status": "proved",
   "theorems": [
    "Ceres.Manifold.product_sizes",
    "Ceres.Manifold.productPlus_spec",
    "Ceres.Manifold.productMinus_spec",
    "Ceres.Manifold.productPlusJacobian_spec",
    "Ceres.Manifold.productMinusJacobian_spec",
    "Ceres.Manifold.productPlus_zero",
    "Ceres.Manifold.productMinus_plus",
    "Ceres.Manifold.productPlus_minus",
    "Ceres.Manifold.productPlus_hasFDerivAt",
    "Ceres.Manifold.productMinus_hasFDerivAt",
    "Ceres.Manifold.productMinusJacobian_mul"
   ],
   "note": "Any list of factors. A factor that fails is taken to write nothing."
  },
  {
   "property": "C73",
   "status": "proved",
   "theorems": [
    "Ceres.Jet.dynamicEvaluate_spec",
    "Ceres.Jet.dynamicEvaluate_no_jacobians",
    "Ceres.Jet.dynamicEvaluate_empty_block",
    "Ceres.Jet.discover_inv",
    "Ceres.Jet.seed_loop",
    "Ceres.Jet.copy_loop",
    "Ceres.Jet.passes_spec"
   ],
   "note": "For non-empty blocks; dynamicEvaluate_empty_block exhibits a wrong Jacobian with blocks of size zero. The number of passes is the exact rounded up quotient (the code computes it in single precision)."
  },
  {
   "property": "C74",
   "status": "proved",
   "theorems": [
    "Ceres.CG.cgnr_never_worse",
    "Ceres.CG.cgnr_exact",
    "Ceres.CG.jacobiBlocks_eq",
    "Ceres.CG.precOp_spd",
    "Ceres.CG.cost_eq"
   ],
   "note": "Exact arithmetic; the SUBSET preconditioner and the CUDA solver are not modelled; block inversion is matrix inversion."
  },
  {
   "property": "C75",
   "status": "proved",
   "theorems": [
    "Ceres.Schur.iterative_schur_never_worse",
    "Ceres.Schur.iterative_schur_exact",
    "Ceres.Schur.iterative_schur_unwritten",
    "Ceres.Schur.rightMultiply_applies",
    "Ceres.Schur.backSubstitute_optimal",
    "Ceres.Schur.cost_backSubstitute",
    "Ceres.Schur.schur_spd",
    "Ceres.Schur.powerSeries_applies",
    "Ceres.Schur.seriesMatrix_spd",
    "Ceres.Schur.rightMultiply_overwrites"
   ],
   "note": "Exact arithmetic; SCHUR_JACOBI and the visibility based preconditioners enter as an arbitrary operator with an Update verdict; block inversion is matrix inversion."
  },
  {
   "property": "C76",
   "status": "proved",
   "theorems": [
    "Ceres.Session.session_refines",
    "Ceres.Session.session_at_rest",
    "Ceres.Session.session_structure",
    "Ceres.Session.evaluate_sees_memory",
    "Ceres.Session.solve_writes_active_only",
    "Ceres.Session.failed_evaluation_leaves_dangling",
    "Ceres.Session.failed_solve_leaves_dangling"
   ],
   "note": "Parameter vectors are numbered buffers that can be freed; reading a freed one is an error of the model. The courses of solves are arbitrary; published points are points where PlusJacobian succeeds. The two last theorems show that the hypothesis about PlusJacobian is needed. Cached plus_jacobian_, offsets, bounds and returned numbers are not in this model."
  },
  {
   "property": "C77",
   "status": "proved",
   "theorems": [
    "Ceres.SchurThreads.solve_threads",
    "Ceres.SchurThreads.eliminate_threads",
    "Ceres.SchurThreads.eliminate_no_rhs_threads",
    "Ceres.SchurThreads.back_threads",
    "Ceres.SchurThreads.dense_schur_threads",
    "Ceres.SchurThreads.sparse_schur_threads",
    "Ceres.SchurThreads.schur_full_rank_threads",
    "Ceres.SchurThreads.chunks_race_free",
    "Ceres.SchurThreads.diag_race_free",
    "Ceres.SchurThreads.back_race_free",
    "Ceres.SchurThreads.chunks_writes",
    "Ceres.SchurThreads.chunks_reads",
    "Ceres.SchurThreads.solve_exists",
    "Ceres.SchurThreads.eliminate_exists",
    "Ceres.Tasks.forRun_result",
    "Ceres.Tasks.race_free",
    "Ceres.Tasks.progress",
    "Ceres.Tasks.terminates",
    "Ceres.Tasks.returns",
    "Ceres.Tasks.access_allowed"
   ],
   "note": "Loop bodies are programs of single reads, writes, locks and unlocks, joined with the model of ParallelFor (C20). Memory is sequentially consistent, which the proved absence of data races justifies. Numbers are reals, so that the order of additions does not matter; in floating point the results differ by rounding. Elements of the reduced matrix are addressed by block and position (their flat layout is of the block random access matrices, not modelled here; the kernels are C59). SchurEliminatorForOneFBlock is modelled sequentially (C51)."
  },
  {
   "property": "C78",
   "status": "proved",
   "theorems": [
    "Ceres.BlockSparse.right_product",
    "Ceres.BlockSparse.left_product",
    "Ceres.BlockSparse.squared_column_norm",
    "Ceres.BlockSparse.scale_columns",
    "Ceres.BlockSparse.right_safe",
    "Ceres.BlockSparse.left_safe",
    "Ceres.BlockSparse.norm_safe",
    "Ceres.BlockSparse.scale_safe",
    "Ceres.BlockSparse.append_ok",
    "Ceres.BlockSparse.append_entry",
    "Ceres.BlockSparse.delete_ok",
    "Ceres.BlockSparse.delete_entry",
    "Ceres.BlockSparse.delete_first_of_sequential",
    "Ceres.BlockSparse.append_delete",
    "Ceres.BlockSparse.ofStructure_ok",
    "Ceres.BlockSparse.diagonal_ok",
    "Ceres.BlockSparse.diagonal_entry",
    "Ceres.BlockSparse.toDense_eq",
    "Ceres.BlockSparse.toTriplet_eq",
    "Ceres.BlockSparse.toCrs_eq",
    "Ceres.BlockSparse.toCrsTranspose_eq",
    "Ceres.BlockSparse.updateCrs_eq",
    "Ceres.BlockSparse.updateCrsTranspose_eq",
    "Ceres.BlockSparse.transpose_triples",
    "Ceres.BlockSparse.append_apart_wrong",
    "Ceres.BlockSparse.delete_append_wrong",
    "Ceres.BlockSparse.thin_divides_by_zero",
    "Ceres.Tasks.costRun_result",
    "Ceres.Tasks.costRun_exists",
    "Ceres.Tasks.forRunMin_result",
    "Ceres.Tasks.costReach_race_free",
    "Ceres.Tasks.forReach_race_free",
    "Ceres.Tasks.costReach_usable",
    "Ceres.Tasks.forReach_usable"
   ],
   "note": "Values are elements of a commutative ring: rounding is not modelled. Squared column norms need at most one cell per row block and column block. The kernels on one cell are C59; here a cell is read and written element by element. AppendRows needs matrices with the same column blocks and an appended matrix stored in order, deletion leaves a matrix in order if the deleted cells are last in the values; both conditions are necessary (witnesses). The transposed compressed row conversion needs column blocks with cells not to be empty. CUDA is not modelled."
  },
  {
   "property": "C79",
   "status": "proved",
   "theorems": [
    "Ceres.InnerProduct.inner_product",
    "Ceres.InnerProduct.swapped_wrong"
   ],
   "note": "Values are elements of a commutative ring: rounding is not modelled. Cells in order is needed (swapped_wrong); the Jacobian writer sorts them. With no non-zeros at all Create aborts (CHECK)."
  },
  {
   "property": "C80",
   "status": "proved",
   "theorems": [
    "Ceres.Direct.sparse_normal_cholesky",
    "Ceres.Direct.after_exists",
    "Ceres.Direct.refined_correct",
    "Ceres.Direct.dynamic_sparse_normal_cholesky",
    "Ceres.Direct.dense_normal_cholesky",
    "Ceres.Direct.dense_qr",
    "Ceres.Direct.refined_once_iff",
    "Ceres.Direct.refined_triangle_iff",
    "Ceres.Direct.dense_refinement_wrong",
    "Ceres.Direct.late_diagonal_ignored",
    "Ceres.Direct.lost_diagonal_reads_past_end",
    "Ceres.Direct.late_diagonal_witness",
    "Ceres.Direct.exactSparse_correct",
    "Ceres.Direct.exactGram_correct",
    "Ceres.Direct.exactDense_correct",
    "Ceres.Direct.exactLapack_correct"
   ],
   "note": "Exact arithmetic; the factorisation libraries are objects with contracts (met by exact implementations, *_correct). Refinement of a dense factorisation is wrong in the code and proved so (dense_refinement_wrong), and so is a diagonal that comes or goes between calls of one solver (late_diagonal_ignored, lost_diagonal_reads_past_end); the statement excludes both."
  },
  {
   "property": "C81",
   "status": "proved",
   "theorems": [
    "Ceres.Adapters.normal_prior",
    "Ceres.Adapters.conditioned_computes",
    "Ceres.Adapters.conditioned_derivative",
    "Ceres.Adapters.conditioned_deletes",
    "Ceres.Adapters.conditioned_deletes_twice",
    "Ceres.Adapters.functor_jets_compose",
    "Ceres.Adapters.functor_reals",
    "Ceres.Adapters.static_fits_iff",
    "Ceres.Adapters.isClose_spec",
    "Ceres.Adapters.probe_spec",
    "Ceres.Adapters.gradient_check_decides",
    "Ceres.Adapters.right_gradient_accepted",
    "Ceres.Adapters.checking_evaluate",
    "Ceres.Adapters.checking_evaluate_residuals",
    "Ceres.Adapters.checking_fails_at_boundary"
   ],
   "note": "Exact arithmetic. That a probe decides whether derivatives are right is proved for functions that are quadratic along each coordinate, where Ridders' method is exact (C46). Under check_gradients an evaluation also fails if the function is not defined at a perturbed point (checking_fails_at_boundary)."
  },
  {
   "property": "C82",
   "status": "proved",
   "theorems": [
    "Ceres.SchurDirect.dense_schur",
    "Ceres.SchurDirect.sparse_schur",
    "Ceres.SchurDirect.after_exists",
    "Ceres.SchurDirect.sparse_inj",
    "Ceres.SchurDirect.regularE_diagonal",
    "Ceres.SchurDirect.no_e_block_aborts"
   ],
   "note": "Exact arithmetic. The factorisations and the inverse of the e blocks are given by their contracts. Asked of the Jacobian: cells in order, rows with e blocks first and grouped, no empty block, regular e blocks (a diagonal without zeros is enough), an e block in the first row block: without it a CHECK fails (no_e_block_aborts)."
  },
  {
   "property": "C83",
   "status": "proved",
   "theorems": [
    "Ceres.GradientProblem.isValid_iff",
    "Ceres.GradientProblem.solve_invalid",
    "Ceres.GradientProblem.solve_iterations",
    "Ceres.GradientProblem.solve_usable",
    "Ceres.GradientProblem.solve_unusable",
    "Ceres.GradientProblem.solve_callbacks",
    "Ceres.GradientProblem.solve_called",
    "Ceres.GradientProblem.solve_verdict",
    "Ceres.GradientProblem.evaluate_gradient",
    "Ceres.GradientProblem.solve_gradient_max_norm",
    "Ceres.GradientProblem.array_not_restored"
   ],
   "note": "Exact arithmetic. Asked of the user: Plus(x, 0) = x, and a value that does not depend on whether the gradient is wanted. Tolerances, the minimal step and the largest expansion are finite. Not modelled: what the minimizer does after an initial value that is not finite. array_not_restored: after USER_FAILURE the array need not hold the point passed in."
  },
  {
   "property": "C84",
   "status": "proved",
   "theorems": [
    "Ceres.PartitionedView.view_create",
    "Ceres.PartitionedView.view_right_e",
    "Ceres.PartitionedView.view_right_f",
    "Ceres.PartitionedView.view_left_e",
    "Ceres.PartitionedView.view_left_f",
    "Ceres.PartitionedView.view_ete",
    "Ceres.PartitionedView.view_ftf",
    "Ceres.PartitionedView.isGram_unique",
    "Ceres.PartitionedView.view_safe",
    "Ceres.PartitionedView.view_nothing_to_eliminate",
    "Ceres.PartitionedView.view_empty_row",
    "Ceres.PartitionedView.wrong_order_wrong"
   ],
   "note": "Values in any commutative ring. Sequentially consistent memory, which is no restriction as there are no races. Template specialisations of the view choose kernels only (C59). view_nothing_to_eliminate and view_empty_row: structures on which the constructor reads outside its arrays; they do not reach it through Solve."
  },
  {
   "property": "C85",
   "status": "proved",
   "theorems": [
    "Ceres.PartitionedView.implicit_init",
    "Ceres.PartitionedView.implicit_multiply",
    "Ceres.PartitionedView.implicit_backSubstitute",
    "Ceres.PartitionedView.implicit_solves",
    "Ceres.PartitionedView.implicit_solvable",
    "Ceres.PartitionedView.implicit_powerSeries",
    "Ceres.PartitionedView.implicit_ftf",
    "Ceres.PartitionedView.implicit_safe",
    "Ceres.PartitionedView.implicit_overwrites",
    "Ceres.PartitionedView.powerSeries_aborts",
    "Ceres.PartitionedView.singular_goes_unnoticed",
    "Ceres.PartitionedView.sys_oneE",
    "Ceres.PartitionedView.independent_of_diagonal"
   ],
   "note": "Doubles are real numbers. The dense factorisation of a block (Eigen's LLT) is a parameter that inverts positive definite matrices and may return anything for others. singular_goes_unnoticed: a failed factorisation is not reported. The operators of C51 are the ones proved here (gives_rightMultiply, gives_backSubstitute, gives_powerSeries, gives_updateRhs), so that C51's statements on conjugate gradients are about these programs."
  },
  {
   "property": "C86",
   "status": "proved",
   "theorems": [
    "Ceres.Visibility.construct_spec",
    "Ceres.Visibility.row_construct",
    "Ceres.Visibility.someOrders_ok"
   ],
   "note": "Doubles are real numbers. Ties are broken by the order of visiting, which is a parameter; Spec.Greedy and Home allow any. Union-find of single linkage and the degree-2 forest use the code of C30. A CANONICAL_VIEWS cluster can be empty."
  },
  {
   "property": "C87",
   "status": "proved",
   "theorems": [
    "Ceres.Visibility.update_spec",
    "Ceres.Visibility.after_exists",
    "Ceres.Visibility.unscaled_indefinite",
    "Ceres.SchurMatrix.isSchur_unique",
    "Ceres.SchurMatrix.isSchur_posDef",
    "Ceres.SchurMatrix.isSchur_exists",
    "Ceres.SchurMatrix.schurLhs_isSchur"
   ],
   "note": "Doubles are real numbers. The sparse Cholesky library and the inverse of e blocks are parameters with a correctness assumption (exactSparse and exactInv meet it). The memory of the preconditioner persists between updates as in the code. unscaled_indefinite: without the factor 1/2 the matrix of a chain need not be positive definite, so with a library that accepts indefinite matrices (Eigen's SimplicialLDLT) positive definiteness is not guaranteed for CLUSTER_TRIDIAGONAL."
  },
  {
   "property": "C88",
   "status": "proved",
   "theorems": [
    "Ceres.SchurJacobi.schur_jacobi",
    "Ceres.SchurJacobi.invert_safe",
    "Ceres.SchurJacobi.no_f_blocks",
    "Ceres.SchurMatrix.isSchur_unique",
    "Ceres.SchurMatrix.isSchur_posDef",
    "Ceres.SchurMatrix.isSchur_exists"
   ],
   "note": "Doubles are real numbers. The Cholesky factorisation of a small matrix and the inverse of e blocks are parameters that are assumed correct on positive definite (invertible) matrices; goodLlt and exactInv meet that. Beside the theorem: without f blocks the update fails a CHECK (no_f_blocks); ITERATIVE_SCHUR does not make the preconditioner then."
  },
  {
   "property": "C89",
   "status": "proved",
   "theorems": [
    "Ceres.SchurJacobi.explicit_schur",
    "Ceres.SchurJacobi.worse_than_none",
    "Ceres.SchurJacobi.symmetricMultiply_spec",
    "Ceres.SchurMatrix.schur_isReduced",
    "Ceres.CG.cg_early"
   ],
   "note": "Doubles are real numbers. Cholesky of small matrices and the inverse of e blocks are parameters with a correctness assumption; the guarantees on success do not need the former. worse_than_none: with one iteration allowed, every call for a concrete problem returns NO_CONVERGENCE with a step that is worse than none, which LevenbergMarquardtStrategy takes for a usable step; the implicit variant (C75) does not have this."
  },
  {
   "property": "C90",
   "status": "proved",
   "theorems": [
    "Ceres.Cgnr.cgnr_solves",
    "Ceres.Cgnr.after_exists",
    "Ceres.Cgnr.cgnr_race_free",
    "Ceres.Cgnr.jacobi_update",
    "Ceres.Cgnr.subset_update",
    "Ceres.Cgnr.normalMultiply_gives",
    "Ceres.Cgnr.regular_of_solvable"
   ],
   "note": "Doubles are real numbers. Sparse Cholesky and Cholesky of small matrices are parameters; that the step is no worse than none needs nothing of them. The vectors of conjugate gradients are computed as in C74. SUBSET keeps the inner product computer of the first call, so calls with and without a diagonal must not be mixed (as in C80)."
  },
  {
   "property": "C91",
   "status": "proved",
   "theorems": [
    "Ceres.Reorder.reorderProgram_spec",
    "Ceres.Reorder.reorderSchur_spec",
    "Ceres.Reorder.reorderCholesky_spec",
    "Ceres.Reorder.partitionResiduals_spec",
    "Ceres.Reorder.defaultOrdering_spec",
    "Ceres.Reorder.sparsity_exact",
    "Ceres.Reorder.structureOf_entry",
    "Ceres.Reorder.createJacobian_made",
    "Ceres.Reorder.schurJacobian",
    "Ceres.Reorder.minimises_iff",
    "Ceres.Reorder.dense_schur_step",
    "Ceres.Reorder.sparse_schur_step",
    "Ceres.Reorder.sparse_normal_cholesky_step",
    "Ceres.Reorder.exists_call",
    "Ceres.Reorder.reduced_of_removeFixedBlocks",
    "Ceres.Reorder.scene_prepared",
    "Ceres.Reorder.failed_library_loses_blocks",
    "Ceres.Reorder.foreign_element_accepted",
    "Ceres.Reorder.foreign_element_aborts",
    "Ceres.Reorder.blockJacobian_spec",
    "Ceres.Reorder.blockHessian_spec",
    "Ceres.Reorder.blockSchur_spec",
    "Ceres.Reorder.iterative_schur_step",
    "Ceres.Reorder.cgnr_step"
   ],
   "note": "The orderings of CHOLMOD, CAMD, Eigen and METIS are parameters that return permutations (CAMD one that respects the constraints); std::stable_sort and std::partition are parameters with the guarantees of the standard. If an ordering with one group is given, its elements must be blocks of the program: Ceres does not check this, and foreign_element_accepted and foreign_element_aborts show what happens otherwise. failed_library_loses_blocks shows what happens if CHOLMOD fails. For the steps the regularisation has no zeros on its diagonal. The step theorems cover DENSE_SCHUR, SPARSE_SCHUR, SPARSE_NORMAL_CHOLESKY, ITERATIVE_SCHUR (implicit, any preconditioner) and CGNR."
  },
  {
   "property": "C92",
   "status": "proved",
   "theorems": [
    "Ceres.IterSchur.iterative_schur_solves",
    "Ceres.IterSchur.after_exists",
    "Ceres.IterSchur.gives_series",
    "Ceres.IterSchur.gives_exists",
    "Ceres.IterSchur.guess_descends"
   ],
   "note": "Doubles are real numbers. Sparse Cholesky, Cholesky of small matrices and the inverse of small matrices are parameters with their contracts. The vectors of conjugate gradients are computed as in C50. With an initial guess that is already exact conjugate gradients fail, and with q_tolerance 0 they may stop at once (C50), so exactness is stated without one."
  },
  {
   "property": "C93",
   "status": "proved",
   "theorems": [
    "Ceres.CudaCgnr.cuda_cgnr_solves",
    "Ceres.CudaCgnr.cuda_cgnr_program",
    "Ceres.CudaCgnr.cuda_cgnr_race_free",
    "Ceres.CudaCgnr.evaluator_fits",
    "Ceres.CudaCgnr.evaluator_entry",
    "Ceres.CudaCgnr.after_exists",
    "Ceres.CudaCgnr.no_diagonal_crashes"
   ],
   "note": "Doubles are real numbers. The kernels of cuSPARSE and cuBLAS are taken to compute what they stand for, in the order of the one stream; Cholesky of small matrices is a parameter with its contract. D is dereferenced without a test, so a call without it crashes (no_diagonal_crashes); the trust region minimizer always passes one."
  },
  {
   "property": "C94",
   "status": "proved",
   "theorems": [
    "Ceres.CrsView.view_is_matrix",
    "Ceres.CrsView.view_exists",
    "Ceres.CrsView.view_refuses",
    "Ceres.CrsView.copy_correct",
    "Ceres.CrsView.copy_race_free",
    "Ceres.CrsView.copy_returns",
    "Ceres.CrsView.copy_terminates",
    "Ceres.CrsView.copy_progress",
    "Ceres.CrsView.copy_defined",
    "Ceres.CrsView.gap_no_view",
    "Ceres.CrsView.trailing_empty_undefined",
    "Ceres.CrsView.middle_empty_undefined",
    "Ceres.CrsView.partitioned_shifts",
    "Ceres.CrsView.partitioned_wrong"
   ],
   "note": "Doubles are elements of a ring. A stream does its operations in order, events and synchronizations work as documented; allocation, the size of the grid and failures of CUDA are not modelled. With a row block without cells the code is undefined (gap_no_view, trailing_empty_undefined), so the theorems ask for cells in every row block. The plain copy used when no permutation is needed may end after the return; the caller must leave the values alone until then. The partitioned view, which only tests and benchmarks use, gives wrong values to F when they have to be permuted (partitioned_wrong)."
  },
  {
   "property": "C95",
   "status": "proved",
   "theorems": [
    "Ceres.Summary.report_given",
    "Ceres.Summary.report_reduced",
    "Ceres.Summary.jacobian_dims",
    "Ceres.Summary.report_schur",
    "Ceres.Summary.best_eq_create",
    "Ceres.Summary.evaluations_counted",
    "Ceres.Summary.evaluations_bound",
    "Ceres.Summary.evaluations_exact",
    "Ceres.Summary.timedRun_exec",
    "Ceres.Summary.failed_counts",
    "Ceres.Summary.summary_says"
   ],
   "note": "The preparation is that of C05 and C91 put together; what is left when it fails is not modelled. Times are not modelled. An evaluation that fails because a manifold has no PlusJacobian counts although no cost function was run (failed_counts)."
  },
  {
   "property": "C96",
   "status": "proved",
   "theorems": [
    "Ceres.Names.LinearSolverType_names",
    "Ceres.Names.PreconditionerType_names",
    "Ceres.Names.SparseLinearAlgebraLibraryType_names",
    "Ceres.Names.LinearSolverOrderingType_names",
    "Ceres.Names.DenseLinearAlgebraLibraryType_names",
    "Ceres.Names.TrustRegionStrategyType_names",
    "Ceres.Names.DoglegType_names",
    "Ceres.Names.MinimizerType_names",
    "Ceres.Names.LineSearchDirectionType_names",
    "Ceres.Names.LineSearchType_names",
    "Ceres.Names.LineSearchInterpolationType_names",
    "Ceres.Names.NonlinearConjugateGradientType_names",
    "Ceres.Names.CovarianceAlgorithmType_names",
    "Ceres.Names.NumericDiffMethodType_names",
    "Ceres.Names.VisibilityClusteringType_names",
    "Ceres.Names.LoggingType_names",
    "Ceres.Names.DumpFormatType_names",
    "Ceres.Names.TerminationType_names"
   ],
   "note": "Letters are those of the \"C\" locale: a program that calls setlocale may see other letters, and ::toupper of a negative char is undefined in C; such bytes stand for themselves in the model."
  },
  {
   "property": "C97",
   "status": "proved",
   "theorems": [
    "Ceres.Overflow.crs_exact",
    "Ceres.Overflow.block_exact",
    "Ceres.Overflow.block_sound",
    "Ceres.Overflow.block_all_e_undefined",
    "Ceres.Overflow.setup_reports",
    "Ceres.Overflow.evaluate_fits",
    "Ceres.Overflow.evaluate_crashes"
   ],
   "note": "int and unsigned int have 32 bits; overflow of an int is a distinct outcome. block_all_e_undefined and evaluate_crashes are the two ways the code breaks the promise, recorded as findings in DESIGN.md. The product of residuals and tangent size of one dense block, and the sums NumResiduals() and NumEffectiveParameters(), are computed in int before any check, hence the hypotheses of Sane."
  },
  {
   "property": "C98",
   "status": "proved",
   "theorems": [
    "Ceres.Bounds.bounds_history",
    "Ceres.Bounds.infinite_bound",
    "Ceres.Bounds.index_unchecked"
   ],
   "note": "Doubles are a linear order with a least and a largest finite element; NaN is not modelled. Coordinates are natural numbers: a negative index passes CHECK_LT in the code and is not modelled. infinite_bound shows why bounds must be finite, index_unchecked what the code does for coordinates the block has not."
  },
  {
   "property": "C99",
   "status": "proved",
   "theorems": [
    "Ceres.CApi.c_history",
    "Ceres.CApi.example_log",
    "Ceres.CApi.freed_too_early",
    "Ceres.CApi.refused"
   ],
   "note": "Which residual blocks a solve evaluates, how often and with what outcome is arbitrary; the values are those of C05 and C09. Handles are numbered in the order they are returned. freed_too_early shows that a residual block does not keep stock loss data alive."
  }
 ]
}