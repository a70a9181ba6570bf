{"id": "C01", "title": "Problem contents follow the history of adds and removes", "statement": "After any sequence of AddParameterBlock, AddResidualBlock, RemoveResidualBlock and RemoveParameterBlock calls, the parameter blocks and residual blocks reported by the Problem (NumParameterBlocks, NumResidualBlocks, GetParameterBlocks, GetResidualBlocks, HasParameterBlock) are exactly those that were added and not since removed, each listed once, and a removal never disturbs any other block.", "quantifier": "every finite sequence of Problem calls, with and without enable_fast_removal", "why_tests_cant": "The removal code swaps the last block into the hole and patches stored indices; an error only shows after particular interleavings of adds and removes, of which there are unboundedly many.", "anchors": ["internal/ceres/problem_impl.cc: AddResidualBlock, AddParameterBlock, DeleteBlockInVector, RemoveResidualBlock, RemoveParameterBlock"]}
{"id": "C02", "title": "RemoveParameterBlock removes exactly the dependent residuals", "statement": "RemoveParameterBlock(x) removes x and every residual block that has x among its parameters and no other residual block; the outcome is the same whether or not enable_fast_removal is set.", "quantifier": "every reachable Problem state, every parameter block in it, both settings of enable_fast_removal", "why_tests_cant": "Depends on the dependency sets kept in step with every earlier add and remove.", "anchors": ["internal/ceres/problem_impl.cc: RemoveParameterBlock, InternalRemoveResidualBlock", "internal/ceres/parameter_block.h: AddResidualBlock, RemoveResidualBlock"]}
{"id": "C03", "title": "Registered parameter blocks never overlap in memory", "statement": "A call that registers a block of doubles is accepted iff the pointer is already registered with that same size or the memory range overlaps no registered block; otherwise it aborts. Hence in every reachable Problem the memory ranges of distinct parameter blocks are disjoint, even though only the two neighbours in address order are examined.", "quantifier": "every reachable set of blocks, every new pointer and size", "why_tests_cant": "Neighbour-only checking is right only because of an invariant over the whole history.", "anchors": ["internal/ceres/problem_impl.cc: InternalAddParameterBlock, RegionsAlias, CheckForNoAliasing"]}
{"id": "C04", "title": "Owned cost and loss functions are freed exactly once and never while used", "statement": "When the Problem takes ownership, each cost function and loss function ever passed in is deleted exactly once over the Problem's life including its destruction, and never while a residual block that uses it is still present; without ownership none is ever deleted.", "quantifier": "every sequence of adds and removes followed by destruction, with arbitrary sharing of functions between residual blocks, both removal modes", "why_tests_cant": "Double frees or leaks depend on sharing patterns and removal orders across the whole history.", "anchors": ["internal/ceres/problem_impl.cc: DeleteBlock, DecrementValueOrDeleteKey, ~ProblemImpl"]}
{"id": "C05", "title": "Removing fixed blocks preserves the objective", "statement": "The reduced program used by Solve contains exactly the non-constant parameter blocks used by some residual, exactly the residuals depending on at least one such block, in original order, and for every value of the variable parameters cost(original) = cost(reduced) + fixed_cost.", "quantifier": "every program, every constancy assignment, every value of the variable parameters", "why_tests_cant": "Tests pick a few small programs; the equality is over all programs and all points.", "anchors": ["internal/ceres/program.cc: RemoveFixedBlocks, CreateReducedProgram"]}
{"id": "C06", "title": "State vector and user memory round trip", "statement": "Copying parameters into the state vector and back restores each block exactly; offsets are the prefix sums of the block sizes so different blocks never share state entries, and tangent offsets are the prefix sums of tangent sizes.", "quantifier": "every list of parameter blocks with any sizes and any values", "why_tests_cant": "All sizes and block counts.", "anchors": ["internal/ceres/program.cc: ParameterBlocksToStateVector, StateVectorToParameterBlocks, SetParameterOffsetsAndIndex, CopyParameterBlockStateToUserState"]}
{"id": "C07", "title": "Plus respects bounds and tangent layout", "statement": "Program::Plus moves each block by its own slice of the step and writes only its own slice of the result, under every parallel schedule; it succeeds iff every manifold's Plus succeeds; every coordinate of a bounded block ends within [lower, upper] when lower <= upper (an upper bound below the lower one is undefined behaviour), and a point already inside the box is not altered by the projection.", "quantifier": "every parameter block, every step, every set of bounds", "why_tests_cant": "Ranges over all bounds and steps.", "anchors": ["internal/ceres/program.cc: Plus", "internal/ceres/parameter_block.h: Plus, SetLowerBound, SetUpperBound"]}
{"id": "C08", "title": "Feasibility test is exact", "statement": "IsFeasible returns true iff every coordinate of every constant block has its current value within its bounds and every coordinate of every variable block has lower < upper (the current value of a variable block is not looked at); and the lower/upper bound of a coordinate is the last value set, or -+max if none was.", "quantifier": "every program, every bounds history", "why_tests_cant": "All histories of bound setting and all values.", "anchors": ["internal/ceres/program.cc: IsFeasible", "internal/ceres/parameter_block.h: SetUpperBound, SetLowerBound, UpperBound, LowerBound"]}
{"id": "C09", "title": "Evaluation is independent of threads and schedule", "statement": "Cost, residuals, gradient and Jacobian computed by the evaluator are the same for every number of threads and every order and assignment of residual blocks to threads (up to rounding of sums): cost is the sum over residual blocks, gradient is J^T r, and evaluation reports failure iff some residual block fails.", "quantifier": "every program, every thread count, every interleaving of block evaluations", "why_tests_cant": "Schedules cannot be enumerated by tests.", "anchors": ["internal/ceres/program_evaluator.h: Evaluate", "internal/ceres/residual_block.cc: Evaluate"]}
{"id": "C10", "title": "The sparse Jacobian is laid out correctly", "statement": "In the compressed row Jacobian each residual block's derivative with respect to each active parameter block occupies exactly the rows of that residual block and the columns of that parameter block, every row's column indices are distinct and increasing, no stored entry is left unwritten, and no two blocks write the same entry.", "quantifier": "every program structure: any block sizes, any subset of constant blocks, parameters listed in any order in a residual block", "why_tests_cant": "Offsets depend on all earlier block sizes; tests use a handful of shapes.", "anchors": ["internal/ceres/compressed_row_jacobian_writer.cc: CreateJacobian, Write, GetOrderedParameterBlocks", "internal/ceres/block_jacobian_writer.cc: BuildJacobianLayout"]}
{"id": "C11", "title": "The trust region minimizer returns the best point visited", "statement": "The parameters the trust region minimizer leaves are those of the lowest cost among the initial and all accepted points (also with non-monotonic steps and inner iterations), so their cost does not exceed the initial cost; the reported final_cost never exceeds the initial cost nor the cost of those parameters, and equals the latter unless a rejected step recorded a lower cost (which does happen: see the witness).", "quantifier": "every objective, every strategy, every sequence of step outcomes", "why_tests_cant": "Quantifies over all runs of the optimisation loop.", "anchors": ["internal/ceres/trust_region_minimizer.cc: Minimize, HandleSuccessfulStep, FinalizeIterationAndCheckIfMinimizerCanContinue", "internal/ceres/trust_region_step_evaluator.cc"]}
{"id": "C12", "title": "The minimizer stops within its iteration budget with the right verdict", "statement": "Minimize always terminates and never hits an internal check; it starts at most max_num_iterations iterations after iteration zero; it reports CONVERGENCE only if a gradient, parameter, function or radius tolerance test held, NO_CONVERGENCE only if an iteration or time limit was reached, USER_SUCCESS/USER_FAILURE only if a callback said so, and FAILURE only on projection or evaluation failure, strategy failure or too many consecutive invalid steps; iterations are numbered consecutively and the counters of successful and unsuccessful steps count them.", "quantifier": "every objective, strategy and option setting", "why_tests_cant": "Termination is about all runs.", "anchors": ["internal/ceres/trust_region_minimizer.cc: FinalizeIterationAndCheckIfMinimizerCanContinue, HandleInvalidStep, *Reached"]}
{"id": "C13", "title": "Non-monotonic step evaluation never loses the best cost", "statement": "The step evaluator's minimum is the least cost seen, its reference cost is one of the costs seen and never increases over accepted steps; when the number of steps since the minimum reaches max_consecutive_nonmonotonic_steps the reference becomes the largest cost since then; every accepted step has a cost below the initial cost; with max_consecutive_nonmonotonic_steps = 0 (monotonic mode) accepted costs strictly decrease by more than the threshold times the predicted decrease, also along a whole run of the minimizer.", "quantifier": "every sequence of accepted steps", "why_tests_cant": "The evaluator is a history-dependent state machine.", "anchors": ["internal/ceres/trust_region_step_evaluator.cc: StepQuality, StepAccepted"]}
{"id": "C14", "title": "Levenberg-Marquardt radius stays within limits", "statement": "Over every sequence of accepted, rejected and invalid steps the Levenberg-Marquardt radius stays positive and at most max_radius; a good enough step never shrinks the radius below what a rejection would; consecutive rejections shrink it by 2, 4, 8, ..., so the minimum radius is reached after finitely many rejections.", "quantifier": "every sequence of strategy calls with every step quality", "why_tests_cant": "All call sequences.", "anchors": ["internal/ceres/levenberg_marquardt_strategy.cc: StepAccepted, StepRejected, StepIsInvalid"]}
{"id": "C15", "title": "Dogleg steps stay inside the trust region", "statement": "The traditional dogleg step has (scaled) norm at most the radius, lies on the dogleg path, and equals the Gauss-Newton step when that fits; the radius stays positive and a rejection halves it. (The upper limit max_radius is not enforced on growth.)", "quantifier": "every gradient, Gauss-Newton step and radius; every sequence of strategy calls", "why_tests_cant": "All real vectors and histories.", "anchors": ["internal/ceres/dogleg_strategy.cc: ComputeTraditionalDoglegStep, StepAccepted, StepRejected"]}
{"id": "C16", "title": "Armijo line search returns a sufficiently decreasing step", "statement": "If the Armijo search reports success the returned step is positive, has a valid cost satisfying f(a) <= f(0) + c a f'(0), was actually evaluated, and is at most the initial step; it performs at most max_num_iterations step contractions, and contractions stay within the configured factors.", "quantifier": "every objective (including ones returning invalid values), every option setting", "why_tests_cant": "All objective functions.", "anchors": ["internal/ceres/line_search.cc: ArmijoLineSearch::DoSearch, InterpolatingPolynomialMinimizingStepSize"]}
{"id": "C17", "title": "Wolfe line search results satisfy the stated conditions", "statement": "If the Wolfe search reports success, the returned point is either one that satisfies sufficient decrease and curvature, or the lowest-cost point satisfying sufficient decrease found, and its cost never exceeds the starting cost; the number of bracketing and zoom iterations is bounded by max_num_iterations.", "quantifier": "every objective, every option setting", "why_tests_cant": "All objective functions.", "anchors": ["internal/ceres/line_search.cc: WolfeLineSearch::DoSearch, BracketingPhase, ZoomPhase"]}
{"id": "C18", "title": "Interpolating polynomials interpolate and are minimised correctly", "statement": "The interpolating polynomial through function and gradient samples matches every sample; minimising a polynomial over an interval returns a point of the interval whose value is no larger than at both ends and every interior critical point; differentiation and evaluation are those of the polynomial.", "quantifier": "every polynomial degree, every set of samples, every interval", "why_tests_cant": "All reals.", "anchors": ["internal/ceres/polynomial.cc: EvaluatePolynomial, DifferentiatePolynomial, MinimizePolynomial, FindInterpolatingPolynomial"]}
{"id": "C19", "title": "Line search minimizer decreases the cost and stops in time", "statement": "Every accepted iteration of the line search minimizer (Armijo) has cost no larger than the previous one, the parameters returned are those of the last accepted iteration, and it performs at most max_num_iterations iterations.", "quantifier": "every objective, every direction type", "why_tests_cant": "All runs.", "anchors": ["internal/ceres/line_search_minimizer.cc: Minimize"]}
{"id": "C20", "title": "ParallelFor runs every index exactly once under every schedule", "statement": "ParallelFor(start, end, num_threads, f) calls f exactly once for each index in [start, end), has completed all of them when it returns, never runs two calls with the same thread id at once, uses thread ids below num_threads, and workers that start late never touch f.", "quantifier": "every range, thread count, work block count and every interleaving of the worker threads", "why_tests_cant": "Interleavings are unbounded.", "anchors": ["internal/ceres/parallel_invoke.h: ParallelInvoke", "internal/ceres/parallel_invoke.cc", "internal/ceres/parallel_for.h"]}
{"id": "C21", "title": "Work partitioning is a minimal-maximum-cost contiguous cover", "statement": "PartitionRangeForParallelFor returns increasing boundaries from start to end with at most the requested number of parts, and the largest part cost is the least possible over all such contiguous partitions.", "quantifier": "every range, every nondecreasing cumulative cost function, every part limit", "why_tests_cant": "Optimality is over all partitions of all ranges.", "anchors": ["internal/ceres/partition_range_for_parallel_for.h"]}
{"id": "C22", "title": "Thread pool queue delivers each task once, in order", "statement": "ConcurrentQueue is linearizable to a FIFO queue: each pushed element is popped at most once and in push order, Wait returns false only once stopped and empty, and destroying the thread pool runs every task already added.", "quantifier": "every interleaving of Push, Pop, Wait, StopWaiters and EnableWaiters by any number of threads", "why_tests_cant": "Schedules.", "anchors": ["internal/ceres/concurrent_queue.h", "internal/ceres/thread_pool.cc"]}
{"id": "C23", "title": "Thread tokens are unique while held", "statement": "At every moment the thread ids currently acquired are pairwise distinct and lie in [0, num_threads), and with at most num_threads holders an Acquire never waits forever.", "quantifier": "every interleaving of Acquire and Release", "why_tests_cant": "Schedules.", "anchors": ["internal/ceres/thread_token_provider.cc"]}
{"id": "C24", "title": "Upper triangular index mapping is a bijection", "statement": "LinearIndexToUpperTriangularIndex maps 0..n(n+1)/2-1 one-to-one onto the pairs i <= j < n.", "quantifier": "every n and every index", "why_tests_cant": "Index arithmetic that folds the triangle; must hold for every n.", "anchors": ["internal/ceres/parallel_utils.cc: LinearIndexToUpperTriangularIndex"]}
{"id": "C25", "title": "OrderedGroups keeps each element in one group", "statement": "After any sequence of AddElementToGroup, Remove and Reverse every element is in exactly one nonempty group or in none, GroupId and the groups agree, sizes add up, and Reverse reverses the order of groups keeping their contents.", "quantifier": "every operation sequence", "why_tests_cant": "All histories.", "anchors": ["include/ceres/ordered_groups.h"]}
{"id": "C26", "title": "Independent set orderings are valid", "statement": "IndependentSetOrdering and StableIndependentSetOrdering return an ordering of all vertices whose first k vertices form a maximal independent set; the stable variant keeps ties in the given order.", "quantifier": "every graph", "why_tests_cant": "All graphs.", "anchors": ["internal/ceres/graph_algorithms.h: IndependentSetOrdering, StableIndependentSetOrdering", "internal/ceres/parameter_block_ordering.cc"]}
{"id": "C27", "title": "Recursive independent set ordering partitions parameters into independent groups", "statement": "The ordering used for inner iterations puts every parameter block of the program into exactly one group and no two blocks of one group share a residual block, provided the program has no constant blocks (with constant blocks the computation does not end).", "quantifier": "every program", "why_tests_cant": "All programs.", "anchors": ["internal/ceres/parameter_block_ordering.cc: ComputeRecursiveIndependentSetOrdering, CreateHessianGraph"]}
{"id": "C28", "title": "Residual reordering for Schur solvers is a permutation grouped by e-block", "statement": "LexicographicallyOrderResidualBlocks permutes the residual blocks so that those with smaller least e-block index come first and those without e-blocks come last, reversing the old order among equals; it aborts exactly if there is no e-block, a variable block has no index, or some e-block is first in no residual block.", "quantifier": "every program and every number of eliminate blocks", "why_tests_cant": "All programs.", "anchors": ["internal/ceres/reorder_program.cc: LexicographicallyOrderResidualBlocks, MinParameterBlock"]}
{"id": "C29", "title": "Applying a parameter ordering permutes the parameters by group", "statement": "ApplyOrdering never writes outside the program's list of parameter blocks; it succeeds exactly if the ordering has as many elements as the program has blocks, contains only blocks of the problem and contains all blocks of the program, and then the parameter blocks are the old ones sorted by group, each group in its old order.", "quantifier": "every program and ordering", "why_tests_cant": "All inputs.", "anchors": ["internal/ceres/reorder_program.cc: ApplyOrdering"]}
{"id": "C30", "title": "Degree-2 spanning forests are forests of paths", "statement": "Degree2MaximumSpanningForest returns a subgraph on the same vertices with no cycle, every degree at most two, using only input edges with their weights, to which no further edge can be added without violating these.", "quantifier": "every weighted graph", "why_tests_cant": "All graphs.", "anchors": ["internal/ceres/graph_algorithms.h: Degree2MaximumSpanningForest"]}
{"id": "C31", "title": "Single linkage clustering yields connected components", "statement": "ComputeSingleLinkageClustering puts two vertices in the same cluster iff they are connected by edges of similarity at least the threshold, and returns the number of clusters.", "quantifier": "every weighted graph and threshold", "why_tests_cant": "All graphs.", "anchors": ["internal/ceres/single_linkage_clustering.cc"]}
{"id": "C32", "title": "Compressed row transpose is the matrix transpose", "statement": "TransposeForCompressedRowSparseStructure yields a well-formed structure whose entries are those of the input with row and column exchanged, values carried along, with columns sorted in each row.", "quantifier": "every well-formed matrix of any size", "why_tests_cant": "All sizes and sparsity patterns.", "anchors": ["internal/ceres/compressed_row_sparse_matrix.cc: TransposeForCompressedRowSparseStructure"]}
{"id": "C33", "title": "Triplet to compressed row conversion preserves the matrix", "statement": "FromTripletSparseMatrix (and the transposed form) produces a well-formed matrix with sorted rows holding exactly the same entries; products with vectors agree with the triplet matrix.", "quantifier": "every triplet matrix", "why_tests_cant": "All inputs including duplicates and arbitrary order.", "anchors": ["internal/ceres/compressed_row_sparse_matrix.cc: FromTripletSparseMatrix", "internal/ceres/triplet_sparse_matrix.cc"]}
{"id": "C34", "title": "Sparse matrix products and row edits match dense algebra", "statement": "Right and left products, column norms, column scaling, AppendRows and DeleteRows of compressed row matrices agree with the corresponding dense operations, including upper and lower triangular storage of symmetric matrices. The same holds of the dense matrices of the dense solvers, and of a dense matrix made from triplets.", "quantifier": "every well-formed matrix and vector", "why_tests_cant": "All sizes and patterns.", "anchors": ["internal/ceres/compressed_row_sparse_matrix.cc: RightMultiplyAndAccumulate, LeftMultiplyAndAccumulate, SquaredColumnNorm, ScaleColumns, DeleteRows, AppendRows", "internal/ceres/dense_sparse_matrix.cc: DenseSparseMatrix, RightMultiplyAndAccumulate, LeftMultiplyAndAccumulate, SquaredColumnNorm, ScaleColumns"]}
{"id": "C35", "title": "Sparse triangular solves are exact inverses", "statement": "SolveUpperTriangularInPlace and its transpose solve R x = b and R^T x = b for every upper triangular matrix with nonzero diagonal, and SolveRTRWithSparseRHS returns the column of (R^T R)^-1 selected.", "quantifier": "every upper triangular compressed column matrix with nonzero diagonal stored last", "why_tests_cant": "All sizes.", "anchors": ["internal/ceres/compressed_col_sparse_matrix_utils.h: SolveUpperTriangularInPlace, SolveUpperTriangularTransposeInPlace, SolveRTRWithSparseRHS"]}
{"id": "C36", "title": "Block ordering expands to a scalar permutation", "statement": "BlockOrderingToScalarOrdering maps a permutation of blocks to a permutation of scalars that keeps each block contiguous and in order.", "quantifier": "every list of block sizes and every permutation", "why_tests_cant": "All sizes.", "anchors": ["internal/ceres/compressed_col_sparse_matrix_utils.cc: BlockOrderingToScalarOrdering"]}
{"id": "C37", "title": "Mapping values to a contiguous range preserves order", "statement": "MapValuesToContiguousRange maps the k distinct values to 0..k-1 preserving order and equality.", "quantifier": "every array", "why_tests_cant": "All arrays.", "anchors": ["internal/ceres/array_utils.cc: MapValuesToContiguousRange"]}
{"id": "C38", "title": "Dynamic sparse assembly keeps each inserted entry", "statement": "After any sequence of ClearRows and InsertEntry calls with arguments in range, Finalize succeeds and yields a well-formed compressed row matrix whose rows hold exactly the entries inserted since that row was last cleared, in insertion order, whatever the arrays held before.", "quantifier": "every operation sequence, every earlier content", "why_tests_cant": "All histories.", "anchors": ["internal/ceres/dynamic_compressed_row_sparse_matrix.cc"]}
{"id": "C39", "title": "Robust loss functions report correct derivatives", "statement": "Each loss function built from the shipped classes (with positive scales and non-negative weights), including nested composed and scaled losses, is zero at zero and never negative. Its second and third outputs are the first and second derivative of the first, wherever these derivatives exist and exceed the floor DBL_MIN. Without TolerantLoss it never decreases; without scaling it is at most s; without both its slope at zero is one. Its outputs never make the solver abort.", "quantifier": "every loss expression, every s >= 0, all admissible parameters", "why_tests_cant": "Holds over the reals.", "anchors": ["internal/ceres/loss_function.cc", "include/ceres/loss_function.h"]}
{"id": "C40", "title": "The robust corrector reproduces gradient and Gauss-Newton Hessian", "statement": "After correction the product J~^T r~ equals rho' J^T r. If rho'' > 0 and the residual is not zero, J~^T J~ equals rho' J^T J + 2 rho'' (J^T r)(J^T r)^T; otherwise (rho'' <= 0 or zero residual) residuals and Jacobian are scaled by sqrt(rho').", "quantifier": "every residual vector, Jacobian and loss derivatives", "why_tests_cant": "Over all reals and sizes.", "anchors": ["internal/ceres/corrector.cc"]}
{"id": "C41", "title": "Automatic differentiation is exact", "statement": "For every functor built from the supported jet operations, comparisons and branches, evaluating it on jets yields its value unconditionally, and its true partial derivatives at every point where each operation's composite is differentiable and the branch taken is stable; AutoDiffCostFunction, AutoDiffFirstOrderFunction and AutoDiffManifold therefore return the functor's residuals and the row major Jacobian of every requested block, the same residuals with and without Jacobians, and write nothing else.", "quantifier": "every expression, every point in the domain", "why_tests_cant": "All expressions and points.", "anchors": ["include/ceres/jet.h", "include/ceres/internal/autodiff.h", "include/ceres/autodiff_cost_function.h", "include/ceres/autodiff_first_order_function.h", "include/ceres/autodiff_manifold.h"]}
{"id": "C42", "title": "Rotation conversions are consistent", "statement": "QuaternionProduct is quaternion multiplication and composes rotations; rotating by a non-zero quaternion, by its rotation matrix, by an angle-axis vector or by its matrix is the same map p -> q p q^-1; the matrices are orthogonal with determinant one; the angle-axis conversions are the exponential map; every rotation matrix is converted to a unit quaternion (default order) and an angle-axis vector that convert back to it, and quaternions and angle-axis vectors of angle at most pi round trip, up to the sign of the quaternion.", "quantifier": "every quaternion, angle-axis vector, rotation matrix and point, every storage order of quaternions", "why_tests_cant": "All reals, including branch boundaries.", "anchors": ["include/ceres/rotation.h"]}
{"id": "C43", "title": "Manifold Plus and Minus are inverse", "statement": "For each shipped manifold Plus(x,0)=x, Minus(Plus(x,d),x)=d (within the injectivity radius), Plus(x,Minus(y,x))=y for y on the manifold of x, and Plus keeps points on the manifold (same norm; same constant coordinates). For sphere and line manifolds this is for every x whose leading coordinates are all zero or have squared norm above the machine epsilon; in between it fails, which is proved too.", "quantifier": "every point and tangent vector, every ambient dimension", "why_tests_cant": "All reals.", "anchors": ["internal/ceres/manifold.cc", "include/ceres/manifold.h", "include/ceres/sphere_manifold.h", "include/ceres/line_manifold.h", "include/ceres/product_manifold.h"]}
{"id": "C44", "title": "Manifold Jacobians are derivatives of Plus and Minus", "statement": "PlusJacobian is the derivative of Plus at zero, MinusJacobian the derivative of Minus at y=x, and MinusJacobian * PlusJacobian = I: Euclidean and subset manifolds everywhere, spheres at every non-zero regular point, quaternions at every unit quaternion, lines with unit direction, products of such factors. For lines of other directions the Jacobians are wrong by the norm of the direction, which is proved too.", "quantifier": "every point on the manifold, every ambient dimension", "why_tests_cant": "All reals.", "anchors": ["internal/ceres/manifold.cc", "include/ceres/internal/sphere_manifold_functions.h", "include/ceres/line_manifold.h"]}
{"id": "C45", "title": "Subset manifolds freeze exactly the chosen coordinates", "statement": "With a SubsetManifold the constant coordinates never change, the others move by the step, the tangent size is the number of free coordinates, and RightMultiplyByPlusJacobian selects the free columns.", "quantifier": "every size, every subset, every vector", "why_tests_cant": "All sizes and subsets.", "anchors": ["internal/ceres/manifold.cc: SubsetManifold"]}
{"id": "C46", "title": "Numeric differentiation computes the documented difference quotients, exact on low degree polynomials", "statement": "Every requested Jacobian column is the forward, central or Romberg extrapolated (Ridders) difference quotient with the documented step, and nothing else is written; the evaluation point is restored after each probe; forward differences are exact for affine functions, central ones and Ridders' method for quadratics, an entry after k extrapolations for degree 2k+2; the forward error is at most M h/2, the central one at most M h^2/6; a false verdict of the dynamic cost function and the first order function means that the functor failed at the point or at a probe.", "quantifier": "every functor (partial or total), point, block structure, set of null Jacobians and option setting", "why_tests_cant": "All reals.", "anchors": ["include/ceres/internal/numeric_diff.h", "include/ceres/numeric_diff_cost_function.h", "include/ceres/dynamic_numeric_diff_cost_function.h", "include/ceres/numeric_diff_first_order_function.h"]}
{"id": "C47", "title": "Cubic interpolation reproduces grid values and its own derivative", "statement": "Cubic and bicubic interpolators return Keys' cubic convolution of the grid and exactly its derivatives, each only if asked for; the interpolant passes through the samples, has central difference slopes there, is continuously differentiable on the whole line or plane, cell boundaries included, reproduces quadratics, depends on the four (sixteen) surrounding samples only and exceeds their bound by at most 5/4 (25/16); at jets it gives the jet of the composition; grids return the stored sample of the nearest point in range in each layout and read only inside the array; beyond the edges the interpolant is constant.", "quantifier": "every grid, every layout and every point", "why_tests_cant": "All grids and reals.", "anchors": ["include/ceres/cubic_interpolation.h: CubicHermiteSpline, CubicInterpolator, Grid1D, BiCubicInterpolator, Grid2D"]}
{"id": "C48", "title": "TinySolver never returns a worse point", "statement": "With a function that succeeds, a linear solver that solves positive definite systems and a positive initial radius: the reported costs are those of the initial and the returned point, the final cost is at most the initial one and strictly less if the point moved; the point is reached by fewer than max(1, max_num_iterations) Levenberg-Marquardt steps, each the strict minimiser of the damped linearised objective and each decreasing the cost; the status means what it says; Residuals() and Jacobian() are those of the returned point; nothing depends on earlier uses of the solver. The adapters hand over residuals and the column major Jacobian of the wrapped cost function or functor.", "quantifier": "every function and Jacobian, option setting with positive radius, initial point and previous solver state", "why_tests_cant": "All runs.", "anchors": ["include/ceres/tiny_solver.h", "include/ceres/tiny_solver_cost_function_adapter.h", "include/ceres/tiny_solver_autodiff_function.h"]}
{"id": "C49", "title": "L-BFGS applies a positive definite BFGS matrix", "statement": "The limited memory inverse Hessian product equals the BFGS matrix built from the retained corrections, the matrix is symmetric positive definite whenever corrections pass the curvature test, so the direction is a descent direction; the retained corrections are the most recent accepted ones.", "quantifier": "every sequence of updates, every rank limit, every vector", "why_tests_cant": "All histories and vectors.", "anchors": ["internal/ceres/low_rank_inverse_hessian.cc", "internal/ceres/line_search_direction.cc"]}
{"id": "C50", "title": "Conjugate gradients: what its verdict and its answer mean", "statement": "For a linear operator A: SUCCESS is reported only if b = 0 (and the answer is zero), or the true residual b - Ax is within r_tolerance |b|, or the last of i iterations lowered the quadratic model x'Ax - 2b'x by less than q_tolerance / i of its magnitude (when started from zero); the iteration count is at most max(1, max_num_iterations). For symmetric A the answer is never worse than the starting point in the quadratic model, and started from zero it is never an ascent direction. For positive (semi)definite A the answer minimises the model over the Krylov space of the iterations done; NO_CONVERGENCE means the limit was reached; with n iterations allowed the system of size n is solved.", "quantifier": "every size, symmetric operator, symmetric preconditioner, right hand side, starting point and option setting", "why_tests_cant": "All sizes, operators and runs; the invariants are over the whole history of the iteration.", "anchors": ["internal/ceres/conjugate_gradients_solver.h: ConjugateGradientsSolver"]}
{"id": "C51", "title": "Schur elimination plus back substitution solves the full problem", "statement": "If the Jacobian is ordered as the Schur solvers require (each row has at most one e block, rows of an e block contiguous and first) and the e columns are independent in [A; D], then DENSE_SCHUR and SPARSE_SCHUR, whenever they report SUCCESS with a reduced system that was solved, return a minimiser of ||Ax - b||^2 + ||Dx||^2 over all x; on a problem of full rank they do succeed and the minimiser is the unique one. Only the f block pairs that share a row or an e block need be stored. The order in which threads process chunks does not matter. With a pseudo inverse of the e blocks no rank condition is needed. The specialised eliminator for one f block does the same.", "quantifier": "every number and size of blocks, every sparsity pattern, every values and right hand side, every processing order of the chunks, every solver of the reduced system", "why_tests_cant": "All block structures and all values; tests compare on a handful of fixed problems.", "anchors": ["internal/ceres/schur_eliminator_impl.h: Init, Eliminate, BackSubstitute", "internal/ceres/schur_eliminator.h: SchurEliminatorForOneFBlock", "internal/ceres/schur_complement_solver.cc: SolveImpl, InitStorage"]}
{"id": "C52", "title": "Detected block sizes and the chosen specialisation are right", "statement": "For every structure with the rows with e blocks first: each of the three detected sizes is the common size of the row blocks with an e block, of the e blocks and of the f blocks of those rows, Dynamic exactly if two of them differ, zero (f only) exactly if there is none; detection aborts exactly if no row has an e block. The fixed-size eliminator or matrix view that is then chosen has static sizes equal to those of every block it is applied to, and the one-f-block eliminator is chosen only if there is exactly one f block.", "quantifier": "every block structure and number of blocks to eliminate", "why_tests_cant": "A wrong static size reads and writes out of place, for one structure among infinitely many.", "anchors": ["internal/ceres/detect_structure.cc: DetectStructure", "internal/ceres/schur_eliminator.cc: SchurEliminatorBase::Create", "internal/ceres/partitioned_matrix_view.cc: Create", "internal/ceres/schur_complement_solver.cc: SolveImpl"]}
{"id": "C53", "title": "Iteration callbacks see the right state and can stop the solve", "statement": "In every Solve the callbacks are called for every reported iteration in a fixed order: state update, logging, the user's in the order given, gradient checking. A callback answering abort yields USER_FAILURE, terminate yields USER_SUCCESS, and no later callback or iteration runs; those verdicts have no other cause. With update_state_every_iteration the user's memory holds, whenever a user callback runs, the minimizer's accepted parameters (trust region: the best so far, which in monotone mode is the current point; line search: the current point), without it the original values; all other memory is untouched. Trust region reports every recorded iteration, line search all but a last converged one.", "quantifier": "every list of callbacks, stateful and with any answers, every problem, every run of either minimizer", "why_tests_cant": "All runs and all callback histories.", "anchors": ["internal/ceres/minimizer.cc: RunCallbacks", "internal/ceres/callbacks.cc", "internal/ceres/preprocessor.cc: SetupCommonMinimizerOptions", "internal/ceres/solver.cc: Solve", "internal/ceres/line_search_minimizer.cc: Minimize", "internal/ceres/trust_region_minimizer.cc: FinalizeIterationAndCheckIfMinimizerCanContinue"]}
{"id": "C54", "title": "Solve writes back usable solutions only", "statement": "After Solve the user's parameter memory holds the final solution if the summary is usable and otherwise its original content (unless gradient checking failed); constant blocks and parameters not in any residual are never modified. Recorded and initial costs are those of the whole problem, fixed residuals included; with line search the final cost is the cost of the memory afterwards and not above the initial cost, with trust region the memory holds an accepted iteration of lowest cost, recorded with the cost of the memory.", "quantifier": "every problem and every minimizer outcome", "why_tests_cant": "All outcomes.", "anchors": ["internal/ceres/solver.cc: Minimize, PostSolveSummarize, Solve", "internal/ceres/solver_utils.h: SetSummaryFinalCost, IsSolutionUsable", "internal/ceres/callbacks.cc: StateUpdatingCallback"]}
{"id": "C55", "title": "Option validation accepts exactly the documented combinations", "statement": "Solver::Options::IsValid accepts options iff every documented range and combination constraint holds (NaN never satisfies a range), otherwise the reported reason is true of the options. Default options are valid in every build with a CPU sparse library or none. Accepted options meet what the line searches and trust region strategies assume, and the linear solver, preconditioner, factorization, strategy and evaluator they select can all be created and fit together, also after the automatic switch of solver when no e-block is left, except for a characterised list of combinations.", "quantifier": "every option setting including NaN and infinities, every build configuration", "why_tests_cant": "Product of all option values and build configurations.", "anchors": ["internal/ceres/solver.cc: CommonOptionsAreValid, TrustRegionOptionsAreValid, LineSearchOptionsAreValid, OptionsAreValidForLinearSolver, IsCudaRequired", "internal/ceres/types.cc: IsSparseLinearAlgebraLibraryTypeAvailable, IsDenseLinearAlgebraLibraryTypeAvailable", "internal/ceres/trust_region_preprocessor.cc: AlternateLinearSolverAndPreconditionerForSchurTypeLinearSolver, SetupLinearSolver", "internal/ceres/linear_solver.cc: Create", "internal/ceres/evaluator.cc: Create", "internal/ceres/cgnr_solver.cc", "internal/ceres/sparse_cholesky.cc: Create"]}
{"id": "C56", "title": "Inner iterations compute one block-wise sweep and do not raise the cost, under every schedule", "statement": "One call of the inner iterations goes through the groups of the ordering in increasing order and replaces each block of a group by the result of minimising over that block alone, the other blocks fixed at their values before the group; the result is the same for every number of threads and every interleaving of their memory accesses; everything else is left as it was. The cost of the program does not rise. An ordering is accepted iff no residual block depends on two blocks of one group, and the automatic ordering covers every block of the program and is always accepted.", "quantifier": "every program, every ordering, every inner solve (arbitrary sequences of reads and writes of the shared parameter blocks), every number of threads, every schedule", "why_tests_cant": "Schedules, programs and orderings are unbounded.", "anchors": ["internal/ceres/coordinate_descent_minimizer.cc: Init, Minimize, Solve, IsOrderingValid, CreateOrdering", "internal/ceres/trust_region_preprocessor.cc: SetupInnerIterationMinimizer", "internal/ceres/program.cc: IsParameterBlockSetIndependent", "internal/ceres/parameter_block.h: SetState, SetConstant, SetVarying"]}
{"id": "C57", "title": "Covariance queries return the right blocks of the inverse of J'J", "statement": "After Covariance::Compute returned true, GetCovarianceBlock(a,b) writes, for every requested pair in either order and every pair with a fixed block, exactly the rows of a and the columns of b of the computed covariance, lifted by the manifold Jacobians in the ambient variant, zero if a block is fixed or unused, and touches nothing behind the block; block (a,b) is the transpose of block (b,a). GetCovarianceMatrix assembles these blocks for every order of its parallel iterations. The computed covariance is the inverse of J'J for the sparse QR algorithms, and for dense SVD the Moore-Penrose inverse of J'J truncated as null_space_rank and min_reciprocal_condition_number say. A pair that was not requested makes GetCovarianceBlock return false.", "quantifier": "every problem, every list of requested pairs, every factorisation with the properties its library promises, every schedule", "why_tests_cant": "Problems, requests and schedules are unbounded.", "anchors": ["internal/ceres/covariance_impl.cc: Compute, ComputeCovarianceSparsity, ComputeCovarianceValuesUsing*, GetCovarianceBlockInTangentOrAmbientSpace, GetCovarianceMatrixInTangentOrAmbientSpace", "internal/ceres/compressed_col_sparse_matrix_utils.h: SolveRTRWithSparseRHS"]}
{"id": "C58", "title": "A bounds constrained solve never leaves the box", "statement": "In a bounds constrained trust region solve started with every block within its bounds, every iteration in the summary ended at a feasible point, every block in memory is within its bounds whenever a user callback is called, and when Solve returns, with whatever verdict. Started outside the bounds, all iterations are still at feasible points, and so is memory when the solution is usable, provided costs are below the largest number. Inner iterations do not leave the box either.", "quantifier": "every objective, every step the strategy proposes, every manifold and every set of bounds, every schedule of the parallel Plus and of the inner iterations, every run", "why_tests_cant": "Runs, objectives and schedules are unbounded.", "anchors": ["internal/ceres/trust_region_minimizer.cc: IterationZero, ComputeCandidatePointAndEvaluateCost, HandleSuccessfulStep", "internal/ceres/program.cc: Plus, IsBoundsConstrained", "internal/ceres/parameter_block.h: Plus", "internal/ceres/solver.cc: Minimize"]}
{"id": "C59", "title": "Small dense kernels equal matrix algebra", "statement": "The loop based small matrix kernels (MatrixMatrixMultiply, MatrixTransposeMatrixMultiply with a dynamic size, MatrixVectorMultiply, MatrixTransposeVectorMultiply) compute C op A*B, C op A^T*B, c op A*b and c op A^T*b for op in +=, -=, =, for every size including all unrolled remainders, every offset and stride. They access only the cells of A, B and the addressed block of C, terminate, and change nothing outside that block, provided the block does not overlap A or B.", "quantifier": "every size, offset, stride, operation and memory", "why_tests_cant": "Remainder handling and addressing must be right for every size and offset.", "anchors": ["internal/ceres/small_blas.h: MatrixMatrixMultiplyNaive, MatrixTransposeMatrixMultiplyNaive, MatrixVectorMultiply, MatrixTransposeVectorMultiply", "internal/ceres/small_blas_generic.h: MMM_mat1x4, MTM_mat1x4, MVM_mat4x1, MTV_mat4x1"]}
{"id": "C60", "title": "The evaluation callback contract is honoured", "statement": "In trust region solves and in line search solves with an Armijo search, every evaluation of the cost functions is immediately preceded by a call of PrepareForEvaluation, made with the parameter arrays holding the point of evaluation and told truly whether derivatives are wanted; and whenever the callback is told that the point is not new, it is the point of its previous call. So user code that recomputes the data it shares with the cost functions only at new points gets the same solve (iterations, costs, parameters, termination) as cost functions without shared data. In trust region solves with bounds the user's code sees only points within the bounds. With a Wolfe search the parameters returned are still the right ones.", "quantifier": "every run, every user code (answers may differ from call to call), every option, every history of accepted, rejected and failed steps", "why_tests_cant": "Runs and user code are unbounded; a wrong flag shows only for user code that caches.", "anchors": ["internal/ceres/program_evaluator.h: Evaluate", "include/ceres/evaluation_callback.h: PrepareForEvaluation", "internal/ceres/trust_region_minimizer.cc: EvaluateGradientAndJacobian, HandleSuccessfulStep, DoLineSearch", "internal/ceres/line_search.cc: LineSearchFunction::Evaluate, ArmijoLineSearch, WolfeLineSearch", "internal/ceres/line_search_minimizer.cc: Minimize", "internal/ceres/program.cc: RemoveFixedBlocks"]}
{"id": "C61", "title": "The Levenberg-Marquardt step is the best step of its length", "statement": "With an exact linear solve, the Levenberg-Marquardt step has a positive predicted decrease unless the gradient is zero, is the unique minimiser of the linear model among all steps that are no longer in the norm scaled by the damping diagonal, and shrinking the radius never lengthens it.", "quantifier": "every Jacobian, residual vector, diagonal and positive radius", "why_tests_cant": "All real matrices of all sizes.", "anchors": ["internal/ceres/levenberg_marquardt_strategy.cc: ComputeStep", "internal/ceres/trust_region_minimizer.cc: ComputeTrustRegionStep"]}
{"id": "C62", "title": "The dogleg step decreases the linear model", "statement": "With an exact linear solve and a nonzero gradient, every traditional dogleg step of every run strictly decreases the linear model; and it is a (regularised) Gauss-Newton step or decreases the model at least as much as every steepest descent step inside the trust region.", "quantifier": "every Jacobian, residual vector and reachable strategy state", "why_tests_cant": "All real matrices and histories.", "anchors": ["internal/ceres/dogleg_strategy.cc: ComputeStep, ComputeTraditionalDoglegStep, ComputeCauchyPoint, ComputeGaussNewtonStep"]}
{"id": "C63", "title": "The subspace dogleg step is optimal in its plane", "statement": "When the (regularised) Gauss-Newton step does not fit into the trust region, the subspace dogleg step lies on the boundary and is the unique minimiser of the model over all vectors of the plane of gradient and Gauss-Newton step that fit; when it fits, it is taken.", "quantifier": "every Jacobian, residual vector, radius and regularisation; every list of candidate multipliers that contains the real roots", "why_tests_cant": "All real matrices; correctness of a quartic root method.", "anchors": ["internal/ceres/dogleg_strategy.cc: ComputeSubspaceDoglegStep, MakePolynomialForBoundaryConstrainedProblem, FindMinimumOnTrustRegionBoundary, ComputeSubspaceModel"]}
{"id": "C64", "title": "Search directions go downhill; BFGS stays positive definite", "statement": "Every direction the line search minimizer obtains from steepest descent, nonlinear conjugate gradients, BFGS or L-BFGS makes a non-positive product with the gradient, strictly negative unless the gradient vanishes. The dense BFGS update is the textbook formula, keeps the inverse Hessian symmetric positive definite and satisfies the secant equation; in exact arithmetic (L-)BFGS never reports failure.", "quantifier": "every gradient, every history of steps, every direction type", "why_tests_cant": "All histories of real vectors.", "anchors": ["internal/ceres/line_search_direction.cc: NextDirection", "internal/ceres/low_rank_inverse_hessian.cc"]}
{"id": "C65", "title": "The reported gradient is the derivative of the reported cost", "statement": "If every cost function reports its residuals and their derivatives, every manifold the derivative of its Plus and every loss its derivative, then an evaluation of the problem reports the cost at the current point and, as gradient, the derivative of the robustified cost with respect to a step in tangent space, with any number of threads.", "quantifier": "every problem, point, loss, manifold, number of threads and schedule", "why_tests_cant": "Chain rule through user functions, manifolds, losses and the schedule: all reals, all structures.", "anchors": ["internal/ceres/residual_block.cc: ResidualBlock::Evaluate", "internal/ceres/corrector.cc", "internal/ceres/program_evaluator.h: Evaluate"]}
{"id": "C66", "title": "Unusable outputs of a cost function are detected; scratch memory suffices", "statement": "Evaluating a residual block fails exactly if the user's cost function returns false or leaves some requested residual or Jacobian entry unwritten, non-finite or equal to the marker value 1e302. It never aborts with a shipped loss. The scratch areas it uses do not overlap and fit into the amount of scratch memory announced.", "quantifier": "every behaviour of the user's function, every set of requested Jacobians", "why_tests_cant": "All user behaviours and all shapes.", "anchors": ["internal/ceres/residual_block.cc", "internal/ceres/residual_block_utils.cc", "internal/ceres/array_utils.cc"]}
{"id": "C67", "title": "Block sparsity extraction is exact", "statement": "The block pattern extracted from a scalar compressed column matrix lists, for each column block, exactly the row blocks whose top left entry is stored.", "quantifier": "every compressed column matrix, all row and column block structures", "why_tests_cant": "All sizes and patterns.", "anchors": ["internal/ceres/compressed_col_sparse_matrix_utils.cc: CompressedColumnScalarMatrixToBlockMatrix"]}
{"id": "C68", "title": "Automatic Schur orderings are maximal eliminable sets", "statement": "ComputeSchurOrdering and ComputeStableSchurOrdering return all variable blocks, then all constant blocks; the first k of them share no residual block with each other, and every other variable block shares one with one of these. The stable variant keeps the given order within each degree.", "quantifier": "every program without repeated blocks in a residual block, every outcome of the sort", "why_tests_cant": "Tests use a handful of bipartite problems; the claim is about every residual graph.", "anchors": ["internal/ceres/parameter_block_ordering.cc: ComputeSchurOrdering, ComputeStableSchurOrdering, CreateHessianGraph"]}
{"id": "C69", "title": "Parameter orderings stay consistent", "statement": "After any sequence of AddElementToGroup, Remove, Clear and Reverse calls a ParameterBlockOrdering describes one assignment of group numbers to elements: each call changes exactly the assignment it names, Reverse reverses the order of the groups and keeps the groups, and GroupId, IsMember, GroupSize, NumElements, NumGroups and MinNonZeroGroup report this assignment.", "quantifier": "every sequence of calls with any arguments", "why_tests_cant": "Two internal maps must agree after every history, including moves between groups and emptied groups.", "anchors": ["include/ceres/ordered_groups.h: OrderedGroups", "internal/ceres/parameter_block_ordering.cc: OrderingToGroupSizes"]}
{"id": "C70", "title": "Euler angles are products of elementary rotations", "statement": "For each of the 24 Euler systems, EulerAnglesToRotation is the product of the three elementary rotations about the axes in its name, in the order its name says (intrinsic or extrinsic); RotationMatrixToEulerAngles returns angles in the documented range from which EulerAnglesToRotation gives back the matrix, also in gimbal lock, and recovers angles in the interior of the range.", "quantifier": "every Euler system, every rotation matrix, every triple of angles", "why_tests_cant": "Tests sample angles; gimbal lock and range boundaries are measure-zero sets.", "anchors": ["include/ceres/rotation.h: EulerAnglesToRotation, RotationMatrixToEulerAngles, EulerAnglesToRotationMatrix", "include/ceres/internal/euler_angles.h: EulerSystem"]}
{"id": "C71", "title": "Rotation functions differentiate correctly at zero rotation", "statement": "Where AngleAxisToQuaternion, AngleAxisToRotationMatrix, AngleAxisRotatePoint and QuaternionToAngleAxis take their special branch at the identity rotation, the expression they evaluate there has the same derivative as the function itself, so automatic differentiation through them is right there.", "quantifier": "every quaternion storage order, every point", "why_tests_cant": "The special branch is taken at a single point of a continuum; agreement of derivatives is a limit statement.", "anchors": ["include/ceres/rotation.h: AngleAxisToQuaternion, QuaternionToAngleAxis, AngleAxisToRotationMatrix, AngleAxisRotatePoint"]}
{"id": "C72", "title": "Product manifolds act on each factor's own coordinates", "statement": "A ProductManifold has the sum of the sizes of its factors; Plus and Minus succeed iff they do for every factor and give each factor's result in its own range of coordinates, nothing else is written; its Jacobians are block diagonal with the Jacobians of the factors; so the laws of C43 and C44 hold for the product whenever they hold for the factors.", "quantifier": "every list of factors of any sizes, every point and tangent vector", "why_tests_cant": "Tests compose two or three fixed factors; the offsets must be right for every list of sizes, including zero sizes.", "anchors": ["include/ceres/product_manifold.h"]}
{"id": "C73", "title": "Dynamically sized automatic differentiation fills in exactly the requested Jacobians", "statement": "For every stride, every list of non-empty parameter blocks and every choice of constant blocks, DynamicAutoDiffCostFunction returns the functor's residuals and the partial derivatives of every requested block, whichever way the active parameters fall into passes, and writes nothing else; a failing functor leaves the buffers alone.", "quantifier": "every functor, stride, list of block sizes, set of null Jacobians and point", "why_tests_cant": "All strides, block structures and patterns of null Jacobians.", "anchors": ["include/ceres/dynamic_autodiff_cost_function.h: Evaluate"]}
{"id": "C74", "title": "CGNR solves the regularised linear least squares problem", "statement": "Whatever its options, preconditioner and termination, the CGNR linear solver returns a vector at least as good as zero for ||Ax - b||^2 + ||Dx||^2, strictly better unless it is zero. If A has full column rank or D has no zero entry, and the tolerances are zero and as many iterations as columns are allowed, it reports SUCCESS and returns the unique minimiser, with the identity and with the block Jacobi preconditioner.", "quantifier": "every Jacobian, residual vector, regularisation, block structure and option setting", "why_tests_cant": "All matrices and sizes.", "anchors": ["internal/ceres/cgnr_solver.cc: CgnrLinearOperator, CgnrSolver::SolveImpl", "internal/ceres/block_jacobi_preconditioner.cc: BlockSparseJacobiPreconditioner::UpdateImpl"]}
{"id": "C75", "title": "ITERATIVE_SCHUR returns a step no worse than none, and the minimiser when run to the end", "statement": "With an implicit Schur complement, for a full rank problem whose rows have at most one e block: whenever ITERATIVE_SCHUR writes a step (SUCCESS or NO_CONVERGENCE, without SPSE initialisation), the step does not increase ||Ax - b||^2 + ||Dx||^2 and its e part is optimal for its f part; with zero tolerances, min_num_iterations <= 1 and as many iterations as f columns, it reports SUCCESS and the step is the unique minimiser, with the identity, block Jacobi or power series preconditioner (any limit) or any positive definite one; it fails to write a step only when conjugate gradients stood at the exact solution.", "quantifier": "every block structure, values, damping, options, preconditioner", "why_tests_cant": "All values, sizes, tolerances and iteration limits.", "anchors": ["internal/ceres/implicit_schur_complement.cc: Init, RightMultiplyAndAccumulate, BackSubstitute, UpdateRhs", "internal/ceres/iterative_schur_complement_solver.cc: SolveImpl", "internal/ceres/power_series_expansion_preconditioner.cc: RightMultiplyAndAccumulate"]}
{"id": "C76", "title": "Solving and evaluating leave no trace in a problem", "statement": "A problem in use is nothing but its blocks and the user's memory. After any history of calls that build and change a problem, writes to the user's parameter arrays, solves (successful or not, with any reordering, inner iterations, callbacks and failures) and evaluations, the problem is exactly what the building calls alone would have made it; every evaluation shows each cost function the values that the user's arrays hold at that time; a solve shows the trial point at the varying blocks in use and the user's arrays elsewhere, and writes only to the arrays of the varying blocks in use; and no call ever reads memory that an earlier call has freed. This holds as long as PlusJacobian succeeds at the values that a solve or an evaluation leaves in the user's arrays; if it fails there, a later call at good values can read freed memory.", "quantifier": "every history of container calls, memory writes, Solve, Evaluate with any subset of blocks, EvaluateResidualBlock; every course of every solve", "why_tests_cant": "The borrowed fields of the blocks (position, constness, state pointer) matter only in the next call; histories and courses are unbounded.", "anchors": ["internal/ceres/solver.cc: Solve, Minimize", "internal/ceres/problem_impl.cc: Evaluate, EvaluateResidualBlock, DeleteBlockInVector", "internal/ceres/program.cc: SetParameterBlockStatePtrsToUserStatePtrs, StateVectorToParameterBlocks, SetParameterOffsetsAndIndex, RemoveFixedBlocks, CopyParameterBlockStateToUserState", "internal/ceres/coordinate_descent_minimizer.cc: Minimize", "internal/ceres/parameter_block.h: SetState, SetConstant, SetVarying, SetManifold", "internal/ceres/callbacks.cc: StateUpdatingCallback"]}
{"id": "C77", "title": "The Schur solvers give the same answer on any number of threads, for every schedule", "statement": "DENSE_SCHUR, SPARSE_SCHUR and ITERATIVE_SCHUR with an explicit Schur complement eliminate the points of different chunks concurrently, adding to shared blocks of the reduced system. For every number of threads, every assignment of chunks to threads and every interleaving of the individual reads, writes, locks and unlocks: the linear solver returns; it returns the termination type and the step of the sequential algorithm (so with full column rank the one minimiser of the linear least squares problem); no two threads ever access the same number at the same time with one of them writing; they never wait for each other forever; and scratch memory is accessed only inside the part allocated for the thread.", "quantifier": "every ordered block sparse Jacobian, regularisation, right hand side, earlier memory contents, number of threads, number of work blocks and interleaving of memory accesses", "why_tests_cant": "Interleavings of the accesses of concurrent chunks are unbounded and are not under a test's control; a missing lock or an overlapping slice shows only in some of them.", "anchors": ["internal/ceres/schur_eliminator_impl.h: Init, Eliminate, BackSubstitute, UpdateRhs, ChunkDiagonalBlockAndGradient, ChunkOuterProduct, EBlockRowOuterProduct, NoEBlockRowsUpdate, NoEBlockRowOuterProduct", "internal/ceres/schur_complement_solver.cc: SchurComplementSolver::SolveImpl", "internal/ceres/parallel_for.h: ParallelFor", "internal/ceres/parallel_utils.h, internal/ceres/block_random_access_matrix.h: CellInfo"]}
{"id": "C78", "title": "Block sparse matrices act as the matrix they store, on any number of threads", "statement": "A block sparse matrix (the Jacobian of every iterative and Schur solver) with cells stored in any order behaves as the one matrix its cells describe. On any number of threads and for every schedule the products y += A x and y += A' x, the squared column norms and the scaling of columns return, have the one mathematically right result, touch nothing else, have no data race and stay within the vectors and the values. Appending a block row matrix stored in order puts its rows after the others; deleting row blocks removes exactly those rows; deleting what was appended restores structure, transpose and values; the block diagonal matrix has the given diagonal. Conversion to dense, triplet, compressed row and transposed compressed row matrices, and refreshing the values of an earlier conversion, represent the same matrix whatever the target arrays held.", "quantifier": "every block structure with non-overlapping values, every vector, every number of threads, partition and interleaving, every sequence of appended rows, every earlier content of the targets", "why_tests_cant": "Block structures, layouts and interleavings are unbounded; a wrong stride, offset or partition shows only for particular shapes and schedules.", "anchors": ["internal/ceres/block_sparse_matrix.cc: BlockSparseMatrix, CreateTranspose, CreateStructureOfCompressedRowSparseMatrix, UpdateCompressedRowSparseMatrixImpl", "internal/ceres/parallel_for.h: ParallelFor, ParallelAssign, ParallelSetZero", "internal/ceres/partition_range_for_parallel_for.h: PartitionRangeForParallelFor"]}
{"id": "C79", "title": "The sparse normal equations are exactly one triangle of J'J, however often they are recomputed", "statement": "For every block sparse matrix whose rows list their cells by column block, and every range of its row blocks, the product computed for the sparse normal Cholesky solvers and the subset preconditioner is a well formed compressed row matrix with increasing columns, arrays of exactly the allocated size, the declared storage type, and as entries the wanted block triangle of the product of the chosen rows with themselves. This holds after the structure was set up once and values have changed any number of times, whatever the memory held before.", "quantifier": "every block structure with cells in order, every range of row blocks, either triangle, every history of recomputations with changed values", "why_tests_cant": "Sparsity patterns and histories are unbounded; a wrong offset or stride shows only where blocks of different sizes share rows.", "anchors": ["internal/ceres/inner_product_computer.cc: InnerProductComputer::Create, Init, ComputeNonzeros, Compute", "internal/ceres/inner_product_computer.h: ProductTerm"]}
{"id": "C80", "title": "The direct linear solvers return the minimiser of the regularised least squares problem", "statement": "SPARSE_NORMAL_CHOLESKY (with and without dynamic sparsity, on any number of threads, after any history of calls on the same structure, all with or all without a diagonal D), DENSE_NORMAL_CHOLESKY and DENSE_QR return; if they report success the solution minimises ||A x - b||^2 + ||D x||^2; they succeed whenever the minimiser is unique; and the Jacobian that was temporarily extended by D is given back as it was. Iterative refinement keeps this for sparse factorisations.", "quantifier": "every block structure, matrix, right hand side, diagonal, history of calls, number of threads and schedule of the parallel product, and every factorisation library that meets its contract", "why_tests_cant": "Structures and histories are unbounded; stale buffers, a wrong triangle or a diagonal that is not removed show only for some sizes or after some calls.", "anchors": ["internal/ceres/sparse_normal_cholesky_solver.cc: SparseNormalCholeskySolver::SolveImpl", "internal/ceres/dynamic_sparse_normal_cholesky_solver.cc: DynamicSparseNormalCholeskySolver::SolveImpl", "internal/ceres/dense_normal_cholesky_solver.cc: DenseNormalCholeskySolver::SolveImpl", "internal/ceres/dense_qr_solver.cc: DenseQRSolver::SolveImpl", "internal/ceres/dense_qr.cc: LAPACKDenseQR", "internal/ceres/sparse_cholesky.cc: SparseCholesky::FactorAndSolve, RefinedSparseCholesky", "internal/ceres/dense_cholesky.cc: DenseCholesky::FactorAndSolve, RefinedDenseCholesky", "internal/ceres/iterative_refiner.cc: Refine"]}
{"id": "C81", "title": "Cost functions made from other functions return the composition and its derivative, and gradient checking reports exactly the derivatives that differ", "statement": "NormalPrior returns A (x - b) with Jacobian A. ConditionedCostFunction returns each conditioner applied to its residual, with the Jacobian of the composition, fails exactly if the wrapped function or a conditioner does, and deletes everything it owns once. CostFunctionToFunctor and DynamicCostFunctionToFunctor applied to jets return value and derivative of the composition. GradientChecker::Probe succeeds exactly if both evaluations do and the residuals and all entries of the Jacobians in the tangent spaces are close to the numeric ones, and reports the largest relative error; with Solver::Options::check_gradients the cost function returns what it returned before, and an error is reported exactly if the probe found one.", "quantifier": "every cost function that keeps the contract of Evaluate, all numbers and sizes of parameter blocks and residuals, all sets of Jacobians asked for, all parameters, conditioners, jets, manifolds, precisions and contents of uninitialised memory", "why_tests_cant": "Sizes, functions and requested subsets are unbounded; an index error in the row major blocks shows only for some shapes, and whether a check catches all wrong derivatives cannot be seen from examples.", "anchors": ["internal/ceres/normal_prior.cc: NormalPrior::Evaluate", "internal/ceres/conditioned_cost_function.cc: ConditionedCostFunction", "include/ceres/dynamic_cost_function_to_functor.h: DynamicCostFunctionToFunctor", "include/ceres/cost_function_to_functor.h: CostFunctionToFunctor", "internal/ceres/gradient_checker.cc: GradientChecker::Probe, EvaluateCostFunction", "internal/ceres/is_close.cc: IsClose", "internal/ceres/gradient_checking_cost_function.cc: GradientCheckingCostFunction::Evaluate"]}
{"id": "C82", "title": "DENSE_SCHUR and SPARSE_SCHUR return a minimiser from the Jacobian in memory, in every call of a sequence and for every schedule", "statement": "Given a Jacobian ordered for the elimination of its first column blocks, a call of DENSE_SCHUR or SPARSE_SCHUR returns; if it reports success, x minimises |A x - b|^2 + |D x|^2 over all x; if the minimiser is unique, it reports success. For SPARSE_SCHUR this holds in every call after any sequence of calls with the same block structure, although the sparsity, the compressed row copy and the symbolic factorisation of the first call are reused.", "quantifier": "every block structure, position of the cells in the value array, Jacobian, right hand side, diagonal, number of e and f blocks, sequence of earlier calls, number of threads and schedule; both triangles a factorisation may ask for; every factorisation and inverse that keeps its contract, also with refinement of the sparse one", "why_tests_cant": "The elements of the reduced matrix pass through three layouts whose addresses must agree for all block sizes and sparsities; schedules and call sequences are unbounded.", "anchors": ["internal/ceres/schur_complement_solver.cc: SchurComplementSolver::SolveImpl, DenseSchurComplementSolver, SparseSchurComplementSolver", "internal/ceres/block_random_access_dense_matrix.cc: BlockRandomAccessDenseMatrix::GetCell", "internal/ceres/block_random_access_sparse_matrix.cc: BlockRandomAccessSparseMatrix", "internal/ceres/block_structure.cc: Tail", "internal/ceres/schur_eliminator_impl.h: SchurEliminator", "internal/ceres/schur_eliminator.h: SchurEliminatorForOneFBlock"]}
{"id": "C83", "title": "What GradientProblemSolver::Solve leaves in the array and in the summary", "statement": "For valid options, Solve on a GradientProblem returns after at most max_num_iterations iterations. Every iteration in the summary carries the value of the objective at its point, the values never increase and iteration 0 is the point passed in. If the solution is usable, initial_cost and final_cost are the values at the point passed in and at the point now in the array, and final_cost <= initial_cost. If it is not and the callbacks only read, the array is untouched, or with update_state_every_iteration it holds the point of the last iteration. Callbacks find the point of their iteration in the array if that option is set. CONVERGENCE means that one of the three tolerances is met. GradientProblem::Evaluate returns the gradient of the objective as a function of the tangent step. Invalid options give FAILURE and nothing is called or written.", "quantifier": "every objective function, manifold, starting point, set of valid options (every direction, line search and interpolation), behaviour of the callbacks and of the clock, build configuration, and content of uninitialised buffers", "why_tests_cant": "Functions, options, callbacks and the number of iterations are unbounded.", "anchors": ["include/ceres/gradient_problem.h: GradientProblem", "include/ceres/gradient_problem_solver.h: GradientProblemSolver::Options, Summary", "internal/ceres/gradient_problem.cc: GradientProblem::Evaluate", "internal/ceres/gradient_problem_solver.cc: GradientProblemSolver::Solve", "internal/ceres/gradient_problem_evaluator.h: GradientProblemEvaluator", "internal/ceres/callbacks.cc: GradientProblemSolverStateUpdatingCallback"]}
{"id": "C84", "title": "The partitioned view of a Jacobian computes with E and F whatever the threads do", "statement": "For a Jacobian ordered for elimination of its first column blocks, A = [E F], the partitioned view of ITERATIVE_SCHUR has the right sizes and its four products add exactly E x, F x, E'x and F'x to the array they are given, on every number of threads and for every schedule; the block diagonals of E'E and F'F are exactly the products of columns of the same block, whatever the array held before. No loop has a data race or accesses an element outside its arrays.", "quantifier": "every block structure ordered for elimination, values, vectors, number of threads and schedule", "why_tests_cant": "Structures and schedules are unbounded, and a race shows in few of them.", "anchors": ["internal/ceres/partitioned_matrix_view.h: PartitionedMatrixView", "internal/ceres/partitioned_matrix_view_impl.h: RightMultiplyAndAccumulateE, RightMultiplyAndAccumulateF, LeftMultiplyAndAccumulateE, LeftMultiplyAndAccumulateF, CreateBlockDiagonalMatrixLayout, UpdateBlockDiagonalEtE, UpdateBlockDiagonalFtF", "internal/ceres/partition_range_for_parallel_for.h: PartitionRangeForParallelFor", "internal/ceres/parallel_for.h: ParallelFor"]}
{"id": "C85", "title": "The implicit Schur complement is the Schur complement of the least squares problem whatever the threads do", "statement": "For a Jacobian A = [E F] ordered for elimination, a regularisation D and a right hand side b such that the columns of [A; D] are independent, the object ITERATIVE_SCHUR works with, built from arrays that may hold anything, multiplies by F'F + D^2 - F'E (E'E + D^2)^-1 E'F, holds the right hand side F'(b - E (E'E + D^2)^-1 E'b), and completes a vector by the best e part there is. A vector whose product is the right hand side is completed to the unique minimiser of |A z - b|^2 + |D z|^2. All of this is the only outcome, on every number of threads and for every schedule, without data races or accesses outside the arrays.", "quantifier": "every block structure ordered for elimination, values, regularisation, right hand side, old contents of the arrays, number of threads and schedule", "why_tests_cant": "Structures, values and schedules are unbounded; a race or a temporary vector that is not cleared shows in few of them.", "anchors": ["internal/ceres/implicit_schur_complement.h: ImplicitSchurComplement", "internal/ceres/implicit_schur_complement.cc: Init, RightMultiplyAndAccumulate, InversePowerSeriesOperatorRightMultiplyAccumulate, AddDiagonalAndInvert, BackSubstitute, UpdateRhs", "internal/ceres/parallel_vector_ops.h: ParallelAssign", "internal/ceres/partitioned_matrix_view_impl.h: CreateBlockDiagonalEtE, CreateBlockDiagonalFtF"]}
{"id": "C86", "title": "The clusters of the visibility based preconditioners are the documented ones whatever the order of hash tables", "statement": "For every block structure ordered for elimination that has a camera (a parameter block that is not eliminated), and every order in which hash sets and hash maps are visited, the preconditioner CLUSTER_JACOBI or CLUSTER_TRIDIAGONAL is built without a failed CHECK or an access outside the arrays. With SINGLE_LINKAGE two cameras share a cluster exactly when a chain of cameras, each at least 0.9 similar to the next (cosine of the visibility vectors), connects them, and no cluster is empty. With CANONICAL_VIEWS the clusters are the cameras around views that were chosen greedily for the documented quality, each camera with a most similar view. CLUSTER_TRIDIAGONAL joins clusters into chains, the pairs that share most points first, and the result has no cycles and degree at most two. The blocks that are stored are the diagonal ones and those that can differ from zero in the Schur complement between cameras of one cluster or of joined clusters.", "quantifier": "every block structure ordered for elimination, clustering type, preconditioner type and iteration order of hash tables", "why_tests_cant": "Visibility structures are unbounded and the iteration order of hash tables is unspecified; the clustering of a particular scene shows nothing about another.", "anchors": ["internal/ceres/visibility.cc: ComputeVisibility, CreateSchurComplementGraph", "internal/ceres/canonical_views_clustering.cc: CanonicalViewsClustering", "internal/ceres/single_linkage_clustering.cc: ComputeSingleLinkageClustering", "internal/ceres/graph_algorithms.h: Degree2MaximumSpanningForest", "internal/ceres/visibility_based_preconditioner.cc: VisibilityBasedPreconditioner, ComputeClusterJacobiSparsity, ComputeClusterTridiagonalSparsity, InitStorage, ClusterCameras, FlattenMembershipMap, ComputeBlockPairsInPreconditioner, CreateClusterGraph"]}
{"id": "C87", "title": "CLUSTER_JACOBI and CLUSTER_TRIDIAGONAL apply the inverse of the Schur complement restricted to their blocks", "statement": "After any history of updates with one block structure, on every number of threads, for every schedule and every order of hash tables, an update of the preconditioner returns. If it returns true, applying the preconditioner to x gives the y with M y = x, where M is the Schur complement S of the regularised least squares problem (the symmetric matrix with z'Sz the least value of |A w|^2 + |D w|^2 over all w that end in z) with the blocks between clusters that are not joined replaced by zero and the blocks between joined clusters multiplied with 1 or with 1/2. If [A; D] has independent columns, CLUSTER_JACOBI always succeeds with a positive definite M, and CLUSTER_TRIDIAGONAL succeeds unless the library reports a fatal error; M is positive definite if the factor is 1/2 or the library accepts positive definite matrices only.", "quantifier": "every block structure ordered for elimination, values, regularisation, history of updates, number of threads, schedule and order of hash tables", "why_tests_cant": "Structures, values, histories and schedules are unbounded; memory that is kept from one update to the next shows only in some histories.", "anchors": ["internal/ceres/visibility_based_preconditioner.cc: UpdateImpl, ScaleOffDiagonalCells, Factorize, RightMultiplyAndAccumulate", "internal/ceres/schur_eliminator_impl.h: Eliminate", "internal/ceres/block_random_access_sparse_matrix.cc"]}
{"id": "C88", "title": "SCHUR_JACOBI applies the inverse of the diagonal blocks of the Schur complement", "statement": "For every Jacobian ordered for elimination with at least one block that is not eliminated, and every regularisation that makes the columns of [A; D] independent, on every number of threads and for every schedule, an update of the SCHUR_JACOBI preconditioner returns. Applying it afterwards to x adds to y the solution u of M u = x, and changes nothing beyond, where M holds the diagonal blocks of the Schur complement S of the problem (the symmetric matrix with z'Sz the least value of |A w|^2 + |D w|^2 over all w that end in z). M is positive definite. The parallel loops have no data race and no access out of bounds.", "quantifier": "every block structure ordered for elimination, values, regularisation, number of threads and schedule", "why_tests_cant": "Structures, values and schedules are unbounded.", "anchors": ["internal/ceres/schur_jacobi_preconditioner.cc: SchurJacobiPreconditioner, UpdateImpl, RightMultiplyAndAccumulate", "internal/ceres/block_random_access_diagonal_matrix.cc: GetCell, Invert, RightMultiplyAndAccumulate", "internal/ceres/schur_eliminator_impl.h: Eliminate"]}
{"id": "C89", "title": "ITERATIVE_SCHUR with an explicit Schur complement: the step is no worse than none when it converges", "statement": "For every Jacobian ordered for elimination whose eliminated blocks have independent columns in [A; D], right hand side and regularisation, on every number of threads and for every schedule, a call of ITERATIVE_SCHUR with use_explicit_schur_complement and SCHUR_JACOBI returns. If it reports success, the eliminated part of the step is the best for the rest of it, and the step is as good as every step that moves eliminated blocks only, so no worse than no step. If [A; D] has independent columns and conjugate gradients may do as many iterations as there are columns that are not eliminated, without tolerances, the call succeeds with the exact solution. If conjugate gradients do not converge, the rest of the step is as good with a suitable eliminated part, but the eliminated part of the step is zero. (The step can then be worse than no step: negative theorem.)", "quantifier": "every block structure ordered for elimination, values, right hand side, regularisation, tolerances, iteration limits, number of threads and schedule", "why_tests_cant": "Structures, values, tolerances and schedules are unbounded; that the step of an iteration that stopped early is unusable shows only for some problems.", "anchors": ["internal/ceres/schur_complement_solver.cc: SchurComplementSolver::SolveImpl, SolveReducedLinearSystemUsingConjugateGradients", "internal/ceres/block_random_access_sparse_matrix.cc: SymmetricRightMultiplyAndAccumulate", "internal/ceres/block_random_access_diagonal_matrix.cc: Invert, RightMultiplyAndAccumulate", "internal/ceres/conjugate_gradients_solver.h: ConjugateGradientsSolver"]}
{"id": "C90", "title": "CGNR with IDENTITY, JACOBI or SUBSET: every call of every history returns a step no worse than none, whatever the schedule", "statement": "For every history of calls with the same block structure, on every number of threads and for every schedule, a call of CGNR with the IDENTITY, JACOBI or SUBSET preconditioner returns, gives the Jacobian back unchanged, and its step is no worse for ||A x - b||^2 + ||D x||^2 than no step, and better if it is not zero, even if the factorisations of the preconditioner failed. JACOBI is the inverse of the block diagonal of A'A + D'D and SUBSET the inverse of Q'Q + D'D for exactly the row blocks Q from the chosen one on, of the values of this call. If the problem (for SUBSET, that of the rows Q) has one solution and conjugate gradients may do as many iterations as there are columns, without tolerances, the call succeeds with the minimiser. The loops are free of data races and out of bounds accesses. (SUBSET needs calls that all have a diagonal or all have none.)", "quantifier": "every block structure, history of values, right hand sides, diagonals and options of conjugate gradients, number of threads and schedule", "why_tests_cant": "Histories, structures and schedules are unbounded; the blocks of JACOBI are accumulated by many threads under locks, and a stale part of the SUBSET factorisation would only slow convergence down.", "anchors": ["internal/ceres/cgnr_solver.cc: CgnrSolver::SolveImpl, CgnrLinearOperator", "internal/ceres/block_jacobi_preconditioner.cc: BlockSparseJacobiPreconditioner::UpdateImpl", "internal/ceres/subset_preconditioner.cc: SubsetPreconditioner::UpdateImpl, RightMultiplyAndAccumulate", "internal/ceres/block_random_access_diagonal_matrix.cc: Invert, RightMultiplyAndAccumulate"]}
{"id": "C91", "title": "Whatever order the preparation puts the blocks in, the linear solver gets what it needs and the step solves the same problem", "statement": "For every problem, linear solver, ordering given by the user or not, sparse library and ordering the library returns: the preparation of the program either fails, and only if an ordering was given that cannot be used, or leaves the same parameter blocks and residual blocks in another order; it never aborts. For a Schur type solver the blocks to eliminate are then the first group of the ordering, they are in front, no residual block depends on two of them, the residual blocks are sorted by them, and the Jacobian that is made has all that the Schur solvers need. For the SUBSET preconditioner exactly the chosen residual blocks come last. The step of DENSE_SCHUR, SPARSE_SCHUR and SPARSE_NORMAL_CHOLESKY, after any history of calls, on any number of threads and for any schedule, minimises the quadratic model of the problem, which is stated per block and knows of no order.", "quantifier": "every problem (after removal of the fixed blocks), ordering, linear solver, sparse library, permutation returned by it, linearisation, history of calls, number of threads and schedule", "why_tests_cant": "The order depends on the problem, on the heuristics and on what third party libraries return; tests compare a few orders of a few small problems.", "anchors": ["internal/ceres/reorder_program.cc: ReorderProgramForSchurTypeLinearSolver, ReorderProgramForSparseCholesky, ReorderResidualBlocksByPartition, LexicographicallyOrderResidualBlocks, ReorderSchurComplementColumnsUsingSuiteSparse, ReorderSchurComplementColumnsUsingEigen", "internal/ceres/trust_region_preprocessor.cc: ReorderProgram, CreateDefaultLinearSolverOrdering, SetupLinearSolver", "internal/ceres/program.cc: Program::CreateJacobianBlockSparsityTranspose", "internal/ceres/block_jacobian_writer.cc: BlockJacobianWriter::CreateJacobian"]}
{"id": "C92", "title": "ITERATIVE_SCHUR on the implicit Schur complement, with any preconditioner: every call of every history returns a step that is best for the points and no worse than none", "statement": "For every history of calls with the same block structure, on every number of threads and for every schedule, a call of ITERATIVE_SCHUR without an explicit Schur complement, with IDENTITY, JACOBI, SCHUR_POWER_SERIES_EXPANSION, SCHUR_JACOBI, CLUSTER_JACOBI or CLUSTER_TRIDIAGONAL, returns. If it fails it has written nothing. Otherwise nothing beyond the solution is written, the eliminated part of the step is the best one for the rest, and for ||A x - b||^2 + ||D x||^2 the step is no worse than any that moves eliminated blocks only (so no worse than none), also when conjugate gradients stopped before convergence, and better if it moves an f block. With use_spse_initialization 'no worse' holds if no residual block depends on two f blocks. If conjugate gradients may do as many iterations as the reduced system has columns, without tolerances and without an initial guess, the call succeeds with the minimiser; only CLUSTER_TRIDIAGONAL can fail instead.", "quantifier": "every block structure with independent eliminated blocks, history of values, right hand sides, diagonals and options of conjugate gradients, number of threads and schedule", "why_tests_cant": "Structures, histories and schedules are unbounded; a stale or wrong preconditioner only slows convergence down, which a test with tolerances does not see.", "anchors": ["internal/ceres/iterative_schur_complement_solver.cc: IterativeSchurComplementSolver::SolveImpl, CreatePreconditioner", "internal/ceres/power_series_expansion_preconditioner.cc: RightMultiplyAndAccumulate", "internal/ceres/implicit_schur_complement.cc: Init, RightMultiplyAndAccumulate, BackSubstitute", "internal/ceres/preconditioner.h: IdentityPreconditioner, SparseMatrixPreconditionerWrapper"]}
{"id": "C93", "title": "CGNR with CUDA: every call of every history solves the problem of this call, with the preconditioner of this call, and the update of the preconditioner has no data race", "statement": "For every problem and every history of evaluations and calls of CGNR with sparse_linear_algebra_library_type CUDA_SPARSE and IDENTITY or JACOBI, on every number of threads and for every schedule, a call with a diagonal D returns. For ||A x - b||^2 + ||D x||^2 of this call the step is no worse than none, also when conjugate gradients stopped early and whatever the small factorisations did, and better if it is not zero. If conjugate gradients may do as many iterations as there are columns, without tolerances, and the problem is regular, the step is the minimiser for the derivatives of this evaluation. What JACOBI applies is the inverse of the diagonal blocks of A'A + D'D of this call. The threads that update it never race and never access anything out of bounds.", "quantifier": "every program with non-empty parameter and residual blocks, history of Jacobians, residuals and diagonals, order of the stores of the evaluation, content of fresh arrays, options of conjugate gradients, number of threads and schedule", "why_tests_cant": "Structures, histories and schedules are unbounded; what is left on the device from an earlier call and a wrong preconditioner show only as slower convergence, and a race only now and then.", "anchors": [{"file": "internal/ceres/cgnr_solver.cc", "symbols": ["CudaCgnrSolver::CpuToGpuTransfer", "CudaCgnrSolver::SolveImpl", "CudaCgnrLinearOperator", "CudaJacobiPreconditioner", "CudaIdentityPreconditioner"]}, {"file": "internal/ceres/block_jacobi_preconditioner.cc", "symbols": ["BlockCRSJacobiPreconditioner"]}, {"file": "internal/ceres/cuda_sparse_matrix.cc", "symbols": ["CudaSparseMatrix::CopyValuesFromCpu"]}, {"file": "internal/ceres/compressed_row_jacobian_writer.cc", "symbols": ["PopulateJacobianRowAndColumnBlockVectors", "CreateJacobian"]}]}
{"id": "C94", "title": "The view of a block sparse matrix on the GPU is the matrix, after every update and for every schedule of host and device", "statement": "A CudaBlockSparseCRSView is made for a BlockSparseMatrix whose cells are stored one after the other and every row block of which has cells, and then UpdateValues is called any number of times with matrices of the same structure. After every call crs_matrix() is a well formed matrix in compressed rows with the entries of the last matrix, also where its entries have another order than the cells, whatever the arrays held before, whether the values are page-locked or not, and for every interleaving of the host, the two streams, the numbers of the transfers and the threads of the kernels. Two accesses to the same memory that may take place at the same time are both reads. Every call returns. A matrix whose cells are stored in another order is refused.", "quantifier": "every block structure, sequence of values, previous content of the buffers, kind of memory, and schedule of host and device", "why_tests_cant": "Batches of 2^19 values make more than two batches rare in tests; a buffer that is filled again before its transfer has ended shows only under an unlucky schedule.", "anchors": [{"file": "internal/ceres/cuda_streamed_buffer.h", "symbols": ["CudaStreamedBuffer::CopyToGpu"]}, {"file": "internal/ceres/cuda_block_structure.cc", "symbols": ["CudaBlockSparseStructure"]}, {"file": "internal/ceres/cuda_kernels_bsm_to_crs.cu.cc", "symbols": ["FillCRSStructure", "RowBlockIdAndNNZ", "ComputeColumns", "PermuteToCrsKernel", "PartitionPoint"]}, {"file": "internal/ceres/cuda_block_sparse_crs_view.cc", "symbols": ["CudaBlockSparseCRSView", "UpdateValues"]}]}
{"id": "C95", "title": "What Solver::Summary says about the sizes of the problem, the Schur structure and the evaluations is so", "statement": "After Solve, num_parameter_blocks, num_parameters, num_effective_parameters, num_residual_blocks and num_residuals are the numbers of the problem. The numbers with the suffix _reduced are those of the parameter blocks that are not constant and used by a residual block, and of the residual blocks that depend on one of these; the Jacobian has num_residuals_reduced rows and num_effective_parameters_reduced columns, whatever the order. With a Schur solver the first number of linear_solver_ordering_used is the number of eliminated parameter blocks, which are the first group of the ordering; schur_structure_given has the number of residuals of the residual blocks that depend on them, their size, and the size of the other variable parameter blocks of these residual blocks, each the number if it is always the same and else d; schur_structure_used is the specialisation that the linear solver runs. num_residual_evaluations and num_jacobian_evaluations are the numbers of evaluations without and with derivatives, and the cost functions have been run just as often if every point can be given to the parameter blocks.", "quantifier": "every problem, linear solver, ordering, library that returns permutations, minimizer, and behaviour of the user's cost functions and callbacks", "why_tests_cant": "The strings and numbers are computed apart from what they describe; tests compare a few problems.", "anchors": [{"file": "internal/ceres/solver.cc", "symbols": ["SummarizeGivenProgram", "SummarizeReducedProgram", "PreSolveSummarize", "PostSolveSummarize", "SchurStructureToString"]}, {"file": "internal/ceres/schur_templates.cc", "symbols": ["GetBestSchurTemplateSpecialization"]}, {"file": "internal/ceres/program.cc", "symbols": ["NumParameters", "NumEffectiveParameters", "NumResiduals"]}, {"file": "internal/ceres/execution_summary.h", "symbols": ["ExecutionSummary", "ScopedExecutionTimer"]}, {"file": "internal/ceres/trust_region_preprocessor.cc", "symbols": ["TrustRegionPreprocessor::Preprocess"]}]}
{"id": "C96", "title": "The names of options: printing and parsing an enumeration are inverse, for every text and every value", "statement": "For each of the 17 enumerations that have both conversions, XToString of an enumerator is its name, and of any other value UNKNOWN. StringToX accepts a text exactly if it is the name of an enumerator, in small or capital letters or a mixture, and then sets *type to that enumerator; on any other text it returns false and leaves *type as it was. Hence what is printed for an enumerator is read back as it, UNKNOWN never is, and two enumerators are never printed alike. TerminationTypeToString prints each way to end by its name.", "quantifier": "every enumeration with a conversion in types.h, every text, every value of the type, every former content of the variable", "why_tests_cant": "The texts are unbounded and the tables are written three times by hand.", "anchors": [{"file": "internal/ceres/types.cc", "symbols": ["LinearSolverTypeToString", "StringToLinearSolverType", "PreconditionerTypeToString", "StringToPreconditionerType", "TerminationTypeToString", "UpperCase", "CASESTR", "STRENUM"]}, {"file": "include/ceres/types.h", "symbols": ["LinearSolverType", "PreconditionerType", "SparseLinearAlgebraLibraryType", "TerminationType"]}]}
{"id": "C97", "title": "A Jacobian with more entries than an int can count is refused, never laid out wrongly", "statement": "For every problem whose residuals, tangent coordinates and dense blocks each fit an int: the compressed row Jacobian is refused exactly if its entries and columns together exceed INT_MAX, otherwise it is made without overflow and is the one of unbounded integers; the block sparse Jacobian is, as long as the entries of the eliminated blocks fit, refused exactly if its entries exceed INT_MAX, otherwise every position is the one of unbounded integers. A solve with a refused Jacobian ends with an error that says so. Without the restriction on eliminated blocks, no layout is made for a Jacobian that is too large, but an int may overflow.", "quantifier": "every problem (sizes, residual blocks and their arguments), every number of eliminated blocks", "why_tests_cant": "The counts that matter are above 2^31; which of the counters overflows first depends on the whole problem, and no test can try more than a few such sizes.", "anchors": [{"file": "internal/ceres/block_jacobian_writer.cc", "symbols": ["BuildJacobianLayout", "BlockJacobianWriter::CreateJacobian"]}, {"file": "internal/ceres/compressed_row_jacobian_writer.cc", "symbols": ["CompressedRowJacobianWriter::CreateJacobian"]}, {"file": "internal/ceres/trust_region_preprocessor.cc", "symbols": ["SetupMinimizerOptions"]}, {"file": "internal/ceres/problem_impl.cc", "symbols": ["ProblemImpl::Evaluate"]}]}
{"id": "C98", "title": "The bounds of a parameter block are those set last, through every history of calls on the problem", "statement": "After any sequence of calls that add and remove parameter and residual blocks, fix blocks, set manifolds and set finite bounds, Problem::GetParameterLowerBound and GetParameterUpperBound of every coordinate of every block return the bound set last for it since the block was added, or the lowest or largest double if none was. Setting a bound fails exactly for an address that is not in the problem or a coordinate the block has not; asking fails for an address that is not in the problem. A block that is removed and added again has no bounds, and bounds of one block never change by calls for another.", "quantifier": "every history of calls, every finite bound, every option of the problem with safety checks on", "why_tests_cant": "Bounds live in the block, not at the address: what is kept or lost depends on the whole history of additions and removals.", "anchors": [{"file": "internal/ceres/problem_impl.cc", "symbols": ["SetParameterLowerBound", "SetParameterUpperBound", "GetParameterLowerBound", "GetParameterUpperBound"]}, {"file": "internal/ceres/parameter_block.h", "symbols": ["SetUpperBound", "SetLowerBound", "UpperBound", "LowerBound"]}]}
{"id": "C99", "title": "The C interface calls every callback with the data it was given and frees every object once", "statement": "After any sequence of calls of the C interface, on any number of problems: a solve calls, for every residual block it evaluates, the cost function given when the block was added, with its user data and the parameter blocks in the order given, and then, if that succeeded, the loss function given, with its data, or none if none was given. A residual block is refused exactly if a parameter block is null, given twice, overlaps another or had another size before. Freeing a problem deletes everything made for its residual blocks exactly once and leaves data of stock loss functions alone, which may be shared between problems. The only undefined calls are those with handles that do not live, a solve that evaluates a null cost function, and a solve that evaluates a block whose stock loss function data was freed.", "quantifier": "every history of calls of the C interface, any number of problems, every choice of evaluations by the solver, every outcome of the callbacks", "why_tests_cant": "Lifetimes of wrappers, problems and stock data interleave: what is alive at a callback depends on the whole history.", "anchors": [{"file": "internal/ceres/c_api.cc", "symbols": ["ceres_create_problem", "ceres_free_problem", "ceres_problem_add_residual_block", "ceres_solve", "ceres_stock_loss_function", "ceres_free_stock_loss_function_data", "CallbackCostFunction", "CallbackLossFunction"]}]}
