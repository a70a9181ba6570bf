# A Lean 4 model of Ceres Solver

## 1. What this is

`/verif/lean` is a Lake project.  For every area of the code there are two files:

* `Verif/<Area>/Model.lean` – definitions only.  Each definition cites the file and
  lines of `/repo` it models and names each simplification.
* `Verif/<Area>/Props.lean` – the specification (small, independent of the model's
  helpers) and the property theorems with non-vacuity examples.
  Helper lemmas that are long live in `Verif/<Area>/Lemmas.lean`.

## 2. Trusted base

* Lean 4.33.0's kernel, and the axioms `propext`, `Classical.choice`, `Quot.sound`
  (no others; `#print axioms` is run on every theorem named in `MANIFEST.json`).
* Mathlib (as installed) for definitions used in statements: reals, derivatives,
  matrices, `List.Perm`, finite sums.
* The reading of C++ as text.  Nothing was compiled or run; the correspondence of a
  definition with the lines it cites is by reading.

### Modelling conventions

* **Numbers.** `double` is modelled in one of three ways, stated in each model file:
  (a) exact real numbers `ℝ` (analysis: manifolds, losses, jets, rotations,
  linear algebra); (b) an arbitrary linearly ordered field or ordered type where only
  comparisons and arithmetic matter; (c) a type with explicit
  "invalid" values where the code tests `isfinite`.  Rounding, overflow and
  underflow are *not* modelled.  `int` is modelled by `ℕ`/`ℤ` without wrap-around.
* **Abort.** `CHECK` and `LOG(FATAL)` are a distinct outcome (`none`/`Except`), never
  assumed away.
* **Undefined behaviour** (out-of-bounds access, use after free, null dereference) is a
  distinct outcome where the model has the memory to express it.
* **User code** (cost functions, callbacks, objective) is an arbitrary function
  parameter.  It is assumed not to call back into the solver.
* **Threads** are interleavings of atomic steps (sequentially consistent).
* **Time** is an arbitrary stream of readings.

### Not modelled

Eigen, SuiteSparse, Accelerate, METIS, glog, memory allocation failure,
floating-point rounding, performance, I/O and logging, string messages, SIMD.  Of CUDA only the
kernels and streams of C93 and C94.  The range of `int` only in C97.

No part of the following files is modelled:

* headers that only declare what is modelled from the `.cc` file, or only define names, traits and casts
  (`ceres.h`, `jet_fwd.h`, `jet_traits.h`, `constants.h`, `version.h`, `port.h`, `casts.h`, `callbacks.h`, ...);
* `.cc` files that only forward or only define destructors (`problem.cc`, `covariance.cc`, `context.cc`, `cost_function.cc`,
  `evaluation_callback.cc`, `iteration_callback.cc`, `first_order_function.cc`, `block_random_access_matrix.cc`, `sparse_matrix.cc`);
* `array_selector.h` and `variadic_evaluate.h` (template plumbing; the adapters of C81 and the models of automatic and numeric differentiation call functors directly);
* `accelerate_sparse.*`, `context_impl.*`, `cuda_buffer.h`, `cuda_vector.*`, `cuda_kernels_utils.h` (libraries and devices);
* `linear_operator.cc` (the threaded product falls back to the other), `map_util.h`, `trust_region_strategy.cc` (factories and lookups);
* `event_logger.*`, `file.*`, `solver_utils.cc`, `linear_least_squares_problems.*`, `fake_bundle_adjustment_jacobian.*`, `is_close.h`
  (logging, files, version strings, test data); tests, benchmarks and examples;
* `generated/` (instantiations of the templates modelled in `SchurMatrix`, `PartitionedView` and `Schur`).

### Which files each area of the model reads

A file is named if a definition of the area cites lines of it.  Only the cited lines are modelled.

| Area | Files |
|---|---|
| `Adapters` | conditioned_cost_function.cc, cost_function.h, cost_function_to_functor.h, dynamic_cost_function_to_functor.cc, dynamic_cost_function_to_functor.h, gradient_checker.cc, gradient_checker.h, gradient_checking_cost_function.cc, is_close.cc, normal_prior.cc, stl_util.h |
| `BlockSparse` | block_sparse_matrix.cc, block_sparse_matrix.h, block_structure.h, parallel_vector_ops.cc, parallel_vector_ops.h, small_blas.h |
| `Bounds` | parameter_block.h, problem_impl.cc |
| `CApi` | c_api.cc, c_api.h, loss_function.cc, problem.h, residual_block.cc |
| `CG` | block_jacobi_preconditioner.cc, block_random_access_diagonal_matrix.cc, cgnr_solver.cc, conjugate_gradients_solver.h, eigen.h, eigen_vector_ops.h, levenberg_marquardt_strategy.cc, linear_solver.h, preconditioner.h |
| `Cgnr` | block_jacobi_preconditioner.cc, block_random_access_diagonal_matrix.cc, cgnr_solver.cc, preconditioner.h, subset_preconditioner.cc, subset_preconditioner.h |
| `Cov` | compressed_row_sparse_matrix.cc, covariance.h, covariance_impl.cc, crs_matrix.h, parameter_block.h, problem_impl.cc |
| `CrsView` | cuda_block_sparse_crs_view.cc, cuda_block_sparse_crs_view.h, cuda_block_structure.cc, cuda_block_structure.h, cuda_kernels_bsm_to_crs.cu.cc, cuda_partitioned_block_sparse_crs_view.cc, cuda_streamed_buffer.h |
| `Cubic` | cubic_interpolation.h |
| `CudaCgnr` | block_jacobi_preconditioner.cc, cgnr_solver.cc, compressed_row_jacobian_writer.cc, compressed_row_sparse_matrix.cc, cuda_kernels_vector_ops.cu.cc, cuda_sparse_matrix.cc |
| `Detect` | block_structure.h, detect_structure.cc, partitioned_matrix_view.cc, schur_complement_solver.cc, schur_eliminator.cc |
| `Direct` | dense_cholesky.cc, dense_cholesky.h, dense_normal_cholesky_solver.cc, dense_qr.cc, dense_qr.h, dense_qr_solver.cc, dense_qr_solver.h, dynamic_sparse_normal_cholesky_solver.cc, iterative_refiner.cc, linear_solver.h, sparse_cholesky.cc, sparse_cholesky.h, sparse_normal_cholesky_solver.cc, sparse_normal_cholesky_solver.h |
| `Driver` | callbacks.cc, gradient_checking_cost_function.cc, gradient_checking_cost_function.h, line_search_minimizer.cc, line_search_preprocessor.cc, minimizer.cc, minimizer.h, preprocessor.cc, solver.cc, solver.h, solver_utils.h, trust_region_minimizer.cc, trust_region_preprocessor.cc |
| `EvalCallback` | evaluation_callback.h, evaluator.h, gradient_checking_cost_function.cc, line_search.cc, line_search_minimizer.cc, parameter_block.h, program.cc, program_evaluator.h, solver.cc, trust_region_minimizer.cc, trust_region_preprocessor.cc |
| `Evaluator` | block_evaluate_preparer.cc, block_jacobian_writer.cc, compressed_row_jacobian_writer.cc, dense_jacobian_writer.h, dynamic_compressed_row_jacobian_writer.cc, dynamic_compressed_row_sparse_matrix.cc, dynamic_compressed_row_sparse_matrix.h, program_evaluator.h, residual_block.cc, scratch_evaluate_preparer.cc |
| `Feasible` | coordinate_descent_minimizer.cc, program.cc, program_evaluator.h, trust_region_preprocessor.cc |
| `GradientProblem` | callbacks.cc, first_order_function.h, gradient_problem.cc, gradient_problem.h, gradient_problem_evaluator.h, gradient_problem_solver.cc, gradient_problem_solver.h, line_search.cc, line_search_minimizer.cc, minimizer.h, solver_utils.h |
| `Graph` | graph.h, graph_algorithms.h, ordered_groups.h, parameter_block_ordering.cc, reorder_program.cc, single_linkage_clustering.cc |
| `Inner` | coordinate_descent_minimizer.cc, coordinate_descent_minimizer.h, parallel_for.h, parameter_block.h, parameter_block_ordering.cc, program.cc, program_evaluator.h, residual_block.cc, trust_region_preprocessor.cc |
| `InnerProduct` | block_jacobian_writer.cc, inner_product_computer.cc, inner_product_computer.h |
| `IterSchur` | implicit_schur_complement.cc, implicit_schur_complement.h, iterative_schur_complement_solver.cc, power_series_expansion_preconditioner.cc, preconditioner.cc, preconditioner.h, visibility_based_preconditioner.cc |
| `Jet` | autodiff.h, autodiff_cost_function.h, autodiff_first_order_function.h, autodiff_manifold.h, dynamic_autodiff_cost_function.h, integer_sequence_algorithm.h, jet.h, parameter_dims.h |
| `LineSearch` | function_sample.cc, function_sample.h, iteration_callback.h, line_search.cc, line_search.h, line_search_direction.cc, line_search_direction.h, line_search_minimizer.cc, line_search_minimizer.h, low_rank_inverse_hessian.cc, low_rank_inverse_hessian.h, minimizer.cc, polynomial.cc, polynomial.h, solver.cc, types.h |
| `Manifold` | householder_vector.h, line_manifold.h, manifold.cc, manifold.h, product_manifold.h, sphere_manifold.h, sphere_manifold_functions.h |
| `Names` | types.cc, types.h |
| `NumericDiff` | dynamic_numeric_diff_cost_function.h, numeric_diff.h, numeric_diff_cost_function.h, numeric_diff_first_order_function.h, numeric_diff_options.h, types.h |
| `Options` | cgnr_solver.cc, cuda_sparse_cholesky.cc, cuda_sparse_cholesky.h, dense_cholesky.cc, dense_qr.cc, dogleg_strategy.cc, dynamic_sparse_normal_cholesky_solver.cc, eigensparse.cc, eigensparse.h, evaluator.cc, iterative_schur_complement_solver.cc, levenberg_marquardt_strategy.cc, linear_solver.cc, linear_solver.h, preconditioner.cc, reorder_program.cc, schur_complement_solver.cc, solver.cc, solver.h, sparse_cholesky.cc, subset_preconditioner.cc, suitesparse.cc, suitesparse.h, trust_region_preprocessor.cc, types.cc, types.h, visibility_based_preconditioner.cc |
| `OrderedGroups` | ordered_groups.h |
| `Overflow` | block_jacobian_writer.cc, compressed_row_jacobian_writer.cc, problem_impl.cc, trust_region_preprocessor.cc |
| `Parallel` | parallel_for.h, parallel_invoke.cc, parallel_invoke.h, thread_pool.cc |
| `Partition` | partition_range_for_parallel_for.h |
| `PartitionedView` | block_sparse_matrix.cc, implicit_schur_complement.cc, implicit_schur_complement.h, parallel_for.h, parallel_vector_ops.cc, parallel_vector_ops.h, partitioned_matrix_view.h, partitioned_matrix_view_impl.h |
| `Problem` | parameter_block.h, problem.h, problem_impl.cc, problem_impl.h, residual_block.h |
| `Program` | manifold.h, parameter_block.h, program.cc, residual_block.cc |
| `Queue` | concurrent_queue.h, thread_pool.cc, thread_token_provider.cc |
| `Reorder` | block_jacobian_writer.cc, program.cc, program.h, program_evaluator.h, reorder_program.cc, suitesparse.cc, triplet_sparse_matrix.cc, trust_region_preprocessor.cc, types.h |
| `Robust` | array_utils.cc, corrector.cc, corrector.h, loss_function.cc, loss_function.h, residual_block.cc, residual_block_utils.cc, types.h |
| `Rotation` | euler_angles.h, rotation.h |
| `Schur` | block_random_access_sparse_matrix.cc, block_structure.h, implicit_schur_complement.cc, invert_psd_matrix.h, iterative_schur_complement_solver.cc, power_series_expansion_preconditioner.cc, schur_complement_solver.cc, schur_eliminator.h, schur_eliminator_impl.h, small_blas.h |
| `SchurDirect` | block_random_access_dense_matrix.cc, block_random_access_matrix.h, block_random_access_sparse_matrix.cc, block_structure.cc, block_structure.h, schur_complement_solver.cc, schur_complement_solver.h, schur_eliminator.h, schur_eliminator_impl.h, small_blas.h |
| `SchurJacobi` | block_random_access_diagonal_matrix.cc, block_random_access_sparse_matrix.cc, schur_complement_solver.cc, schur_jacobi_preconditioner.cc, small_blas.h |
| `SchurThreads` | block_random_access_matrix.h, schur_complement_solver.cc, schur_eliminator_impl.h, small_blas.h |
| `Session` | callbacks.cc, coordinate_descent_minimizer.cc, parameter_block.h, preprocessor.cc, problem_impl.cc, program.cc, program_evaluator.h, reorder_program.cc, residual_block.cc, residual_block.h, solver.cc |
| `SmallBlas` | small_blas.h, small_blas_generic.h |
| `Sparse` | compressed_col_sparse_matrix_utils.cc, compressed_col_sparse_matrix_utils.h, compressed_row_sparse_matrix.cc, compressed_row_sparse_matrix.h, dense_sparse_matrix.cc, dense_sparse_matrix.h, dynamic_compressed_row_sparse_matrix.cc, eigen.h, triplet_sparse_matrix.cc |
| `Strategy` | dogleg_strategy.cc, dogleg_strategy.h, levenberg_marquardt_strategy.cc, levenberg_marquardt_strategy.h, solver.cc, trust_region_minimizer.cc |
| `Summary` | execution_summary.h, program.cc, program_evaluator.h, schur_templates.cc, solver.cc, trust_region_preprocessor.cc |
| `Tasks` | parallel_for.h, parallel_invoke.h |
| `TinySolver` | tiny_solver.h, tiny_solver_autodiff_function.h, tiny_solver_cost_function_adapter.h |
| `TrustRegion` | iteration_callback.h, minimizer.cc, minimizer.h, solver.cc, solver.h, solver_utils.h, trust_region_minimizer.cc, trust_region_minimizer.h, trust_region_step_evaluator.cc, trust_region_step_evaluator.h, trust_region_strategy.h, types.h |
| `Util` | array_utils.cc, block_structure.h, compressed_col_sparse_matrix_utils.cc, parallel_utils.cc |
| `Visibility` | block_random_access_sparse_matrix.cc, canonical_views_clustering.cc, canonical_views_clustering.h, graph.h, graph_algorithms.h, single_linkage_clustering.cc, visibility.cc, visibility_based_preconditioner.cc |

## 3. Plan per property

| Id | Model | How it is proved |
|---|---|---|
| C01 | `Problem`: state machine of vectors + hash maps with stored indices | refinement to two abstract sets; invariant `index = position`; induction over operations |
| C02 | same | dependency-set invariant; both removal paths characterised by one spec |
| C03 | same, addresses as integers, ordered map | pairwise-disjointness invariant ⇒ neighbour test is complete |
| C04 | same with ref counts and a delete log | ref count = number of users invariant; log has no duplicates; destructor leaves nothing |
| C05 | `Program`: RemoveFixedBlocks as list filter + cost sums | list induction |
| C06 | `Program`: state copy loops | list induction on blocks |
| C07 | `Program.Plus`, `ParameterBlock.Plus` | min/max algebra per coordinate, list induction |
| C08 | `IsFeasible`, bound setters | exact iff by loop induction; last-write theorem by induction over history |
| C09 | `Evaluator.EvalModel`: transition system with per-thread scratch, single memory operations, any assignment and interleaving; `Evaluator.DynamicThreads`: the dynamic sparse writer as sequences of accesses to the growing rows, one per residual block | flag invariant; operations of different threads commute, so every run equals a serial one; effect of one block; sums; an interleaving restricted to a row is the sequence of its owner |
| C10 | `Evaluator`: compressed row, block sparse, dense and dynamic writers, preparers | stores as lists; positions are a permutation of a range; dense semantics |
| C11–C13 | `TrustRegion`: Minimize as a state machine over an arbitrary oracle of step outcomes | loop invariants by induction on iterations |
| C14 | `LevenbergMarquardt` radius machine | induction over calls |
| C15 | `Dogleg` in a real inner product space | algebra; radius machine by induction; counterexample for max_radius |
| C16–C17 | `LineSearch` as fuel-free structural recursion on remaining iterations over an arbitrary objective | induction |
| C18 | `Polynomial` over ℝ, coefficient lists as in the code | list induction, `HasDerivAt`, compactness argument |
| C19 | `LineSearchMinimizer` loop | induction |
| C20 | `ParallelInvoke`: shared state + per-worker program counters, interleaving semantics | inductive invariant over all schedules |
| C21 | `PartitionRange`: bisection and greedy | greedy-optimality lemma |
| C22 | `ConcurrentQueue`/`ThreadPool` atomic steps | invariant + refinement to FIFO history |
| C23 | `ThreadToken` | invariant |
| C24 | `UpperTri` over ℤ with integer square root | arithmetic |
| C25 | `OrderedGroups` | refinement to a partial map element → group |
| C26–C27, C68 | `Graph/Indep`, `Graph/Hessian`: adjacency lists, colouring loop, residual graph, rounds of vertex removal | loop invariants, measure for termination |
| C30–C31 | `Graph/UnionFind`, `Graph/Forest`: parent map with path compression, edges in sorted order | invariant: representatives = components; greedy exchange invariant; Mathlib `SimpleGraph.IsAcyclic` |
| C28–C29 | `Graph/Reorder`: histogram, partial sums, fill from the back; in-place overwrite of the block list | segment invariants, pigeonhole |
| C69 | `Graph/Groups`: the two maps of `OrderedGroups` | invariant over all histories |
| C32–C34, C38 | `Sparse`: compressed row, triplet, dense and dynamic matrices as arrays (functions on positions); a matrix stands for the sums of its stored entries | loop invariants (counting sort, copying, compaction), sums |
| C35 | `Sparse.Triangular` over any field | loop invariants, uniqueness |
| C36–C37 | list functions | list induction |
| C39 | `Robust.Loss`, `LossProps`: expressions over the shipped classes, over ℝ | `HasDerivAt`, structural induction |
| C40 | `Robust.Corrector` over ℝ | matrix algebra |
| C41, C73 | `Jet` over ℝ: every function of `jet.h`, a deep embedding of functors, `AutoDifferentiate`, the automatic cost functions, first order function and manifold, and the strided passes of the dynamic one | structural induction on expressions with `HasFDerivAt`, loop invariants |
| C42 | `Rotation/{Quat,AngleAxis,FromMatrix}` over ℝ, any storage order of quaternions | polynomial identities, Mathlib quaternions and their exponential, trigonometry |
| C70 | `Rotation/Euler`: `EulerSystem` and the conversions | permutation of axes reduces 24 systems to two; trigonometry |
| C71 | `Rotation/Zero`: the special branches as functions of their own | `HasFDerivAt` of both |
| C43–C45, C72 | `Manifold`: Householder vectors, sphere, line, quaternion, subset, Euclidean and product manifolds over ℝ; `AutoDiffManifold` is not here | algebra, trigonometry, Fréchet derivatives; loop invariants for the buffers |
| C46 | `NumericDiff` over ℝ: columns, Ridders' tableau, blocks, the three evaluators, partial functors | loop induction, Taylor and mean value bounds, Richardson weights |
| C47 | `Cubic` over ℝ: spline, interpolators, grids in all layouts, jet overloads | equality with Keys' convolution `∑ g(m) K(x-m)`, `K` is C¹ |
| C48 | `TinySolver` over ℝ: update, loop, adapters; the linear solver is a function | loop invariant, strict minimiser of the damped model |
| C49 | `LBFGS` over a real inner product space | induction over corrections |
| C50, C74 | `CG`: the solver over ℝ with arbitrary operators; `CGNR` with identity and block Jacobi preconditioners | conjugacy invariants over the sequence of iterates, Krylov optimality, finite termination |
| C51, C75 | `Schur`: the eliminator on lists of row blocks with dependent block sizes, dense and sparse storage, the one-f-block eliminator; the implicit complement, power series preconditioner and ITERATIVE_SCHUR over flat matrices | loop invariants to closed sums, gradient characterisation of the minimiser; completion of squares and the CG theorems |
| C52 | `Detect`: structure detection, table of specialisations, choice of the eliminator | loop invariant over rows and cells |
| C53–C54 | `Driver`: minimizer as an interaction tree with the user's code, callbacks, `Solve`; trust region and line search minimizers as instances | induction over the tree and over callbacks, refinement of the two loops |
| C55 | `Options`: `IsValid`, availability, and the factories that consume accepted options | decision procedure ⇔ declarative spec, case analysis |
| C56 | `Inner`: `CoordinateDescentMinimizer` on shared memory, on top of the `ParallelFor` transition system, and its set-up | invariant over interleavings (each task behaves as if alone), induction over groups |
| C57 | `Cov`: sparsity, values by sparse QR and dense SVD, lookup and assembly in `CovarianceImpl` | induction over the fill loops; linear algebra over the specified factorisation; permutation invariance of the parallel loops |
| C58 | `Feasible`: `TrustRegion`, `Inner` and `Driver` with the `Plus` of `Program` | invariant over the loop for any set `Plus` lands in; refinement of the parallel `Plus` |
| C59 | `SmallBlas`: the pointer loops over one memory in which accesses outside allocations fault | loop invariants; a small calculus of "writes exactly these entries" |
| C60 | `EvalCallback`: both minimizers and both line searches as programs that ask for evaluations, run against arbitrary user code | invariant over the program tree; simulation: with the answers given by a function the programs compute what `TrustRegion.minimize` and `LineSearch.minimize` compute |
| C61 | `Strategy` (Levenberg-Marquardt step) over ℝ, exact linear solver | completing the square |
| C62 | `Strategy` (dogleg step) over ℝ, exact linear solver | convexity along the path |
| C63 | `Strategy.Subspace`: quartic and candidate loop, QR and root finder as parameters | intermediate value theorem, Lagrange sufficiency, uniqueness |
| C64 | `LineSearch.Direction` over a real inner product space | quadratic form of the updated operator |
| C65 | `Robust.Block` joined with `Evaluator` in `Robust.Gradient` | Fréchet chain rule, result of `evaluate_correct` |
| C67 | `Sparse.BlockPattern` | induction over the column blocks |
| C66 | `Robust.Block`: user function as arbitrary partial writes | case analysis, induction over arguments |
| C76 | `Session`: the container of `Problem` plus state pointers, marks, temporary constness and parameter vectors that die; Evaluate, EvaluateResidualBlock and Solve with arbitrary courses | forward simulation to a session without hidden fields, by induction on the history |
| C77 | `Tasks`: bodies of `ParallelFor` as programs of single memory accesses and mutex operations; `SchurThreads`: the loops of the Schur eliminator as such programs | a discipline for bodies (fixed, scratch, own, guarded locations) whose invariant over all interleavings gives the result, absence of races, absence of deadlock and termination; then each body is shown to keep to it |
| C78 | `BlockSparse`: `BlockSparseMatrix` with its values in one array, the loops as programs of single memory accesses, transposed structure, row editing and conversions; `Tasks.Weighted`: `ParallelFor` over cost partitions | the transposed structure lists the same cells, so each loop adds every cell once and the discipline of `Tasks` gives result and safety; closed forms of the editing and conversion loops |
| C79 | `InnerProduct`: `InnerProductComputer` with its sorted product terms, offsets and the loops of `Compute` | the loops over the sorted terms have a closed form as a layout of block pairs; each pair of cells adds at its place and the places do not overlap |
| C80 | `Direct`: the four direct solvers for least squares problems, the wrappers of the factorisation libraries and the iterative refiners; the libraries themselves (Eigen, LAPACK, SuiteSparse, Accelerate, cuDSS) are contracts | normal equations and convexity; an invariant over histories (C79) for the sparse solver; orthogonality for QR; exact libraries show that the contracts can be met |
| C81 | `Adapters`: NormalPrior, ConditionedCostFunction, CostFunctionToFunctor, GradientChecker and the cost function that `check_gradients` puts in place, on cost functions given by the contract of `Evaluate`; error logs are not modelled | loop invariants over rows and blocks; chain rule for Fréchet derivatives; Ridders' method exact on quadratics |
| C82 | `SchurDirect`: the Schur solvers on flat arrays: `Tail`, dense and sparse `BlockRandomAccessMatrix`, the set of block pairs, the copy to compressed rows, the chosen eliminator; built on `Schur`, `SchurThreads`, `BlockSparse`, `Direct`, `Detect`; the element by element writes are those of `SchurThreads`, the arrays hold their results | addresses are injective and agree between layouts; the reduced system stored is the Schur complement; invariant over the calls |
| C83 | `GradientProblem`: `GradientProblem::Evaluate`, the evaluator, the options and their translation, the callbacks and `GradientProblemSolver::Solve`; the minimizer is `Driver.lsMinimizer` with the searches of `LineSearch` | the run of the minimizer with callbacks is the run of C19 with an oracle; induction over the run for the memory; chain rule for the gradient |
| C84 | `PartitionedView`: the constructor of `PartitionedMatrixView`, its four products and the block diagonals, on flat storage, with the loops as programs on shared memory | every cell of a row block belongs to E or to F by the ordering; ownership of the rows or columns of a loop body, so that `Tasks` gives one result for all schedules; partitions of C21 for the transposed loops |
| C85 | `PartitionedView` (`init`, `rightMultiply`, `powerSeriesOperator`, `backSubstitute`, `updateRhs`, `addDiagonalAndInvert`): `ImplicitSchurComplement` on flat storage, as sequences of parallel calls | each call has one outcome (C84 for the products, `Tasks` for the vector operations), so a sequence has one; the inverted block diagonal is the inverse of E'E + D² since no row meets two e blocks; C51 for the algebra |
| C86 | `Visibility` (`construct` and below): visibility sets, the camera graph, canonical views and single linkage clustering, the cluster graph, the degree-2 forest, the list of stored blocks; the orders of hash tables are a parameter (`Orders`) | invariants of the loops; the spec (`Greedy`, `Home`, `LinkageClusters`, `Chains`, `Coupled`) is in terms of which camera sees which point |
| C87 | `Visibility` (`Update`, `apply`), `SchurMatrix`: elimination into the stored blocks (C82), scaling, factorisation, application | the buffer after elimination is the Schur complement (`schurLhs_isSchur`) on the stored blocks, and zero outside them between the clusters; `half_posDef`: a matrix of chains with halved off-diagonal blocks is positive definite since a chain has degree at most two |
| C88 | `SchurJacobi` (`Update`, `invert`, `rightMultiply`): elimination into the diagonal blocks (C82), inversion and application of a block diagonal matrix on any number of threads (C84) | the stored blocks are those of the Schur complement (`schurLhs_isSchur`, unique by `isSchur_unique`), positive definite since the problem has a unique solution; the inverse of a block diagonal matrix by blocks (`inverse_entry`) |
| C89 | `SchurJacobi` (`ExplicitSolve`, `Reduced`, `symmetricMultiply`, `copyDiagonal`): elimination (C82), the product with the stored upper triangle, the copied block diagonal, conjugate gradients (C74), back substitution | the eliminator computes the reduced least squares problem (`schur_isReduced`: `z'Sz - 2r'z + c` is the least value over all `w` that end in `z`); conjugate gradients do not increase it; back substitution attains it |
| C90 | `Cgnr` (`jacobiUpdate`, `subsetUpdate`, `apply`, `normalMultiply`, `Solve`, `After`): CGNR on flat storage, the JACOBI loop with one mutex per block, SUBSET with the kept inner product computer and factorisation | JACOBI: the discipline of `Tasks` with guarded additions, then the inverses of the blocks; SUBSET: invariant of the history as in C80 for a range of row blocks; conjugate gradients never increase the quadratic whatever the preconditioner |
| C91 | `Reorder` (`sparsityTranspose`, `schurBlocks`, `schurColumns`, `lexOrder`, `reorderSchur`, `reorderCholesky`, `partitionResiduals`, `reorderProgram`, `structureOf`, `createJacobian`): the preparation of the program for its linear solver and the block structure of the Jacobian made from it | sorted by groups and independent after each stage (invariants `Staged`, `Front`); the lexicographic order of C70 gives the row order of C82; the entries of the matrix are those of C10; the least squares problem is rewritten per block, where the order cancels |
| C92 | `IterSchur` (`seriesLoop`, `powerSeries`, `Create`, `Update`, `apply`, `Conjugate`, `Guess`, `Solve`, `After`): ITERATIVE_SCHUR on the implicit Schur complement of `PartitionedView`, with all six preconditioners as flat storage programs, and the initial guess by the power series | invariant of the history (`Inv`): what the preconditioner keeps fits the structure; every operator call gives what the matrix of C75 gives (`Gives`); conjugate gradients never increase the quadratic (C50), back substitution gives the best points; the guess by telescoping of the series |
| C93 | `CudaCgnr` (`build`, `construct`, `cellLoop`, `rowTask`, `colTask`, `update`, `copyValues`, `transfer`, `updatePrec`, `apply`, `normalMultiply`, `Solve`, `After`): CGNR with CUDA on compressed rows; `BlockCRSJacobiPreconditioner` as threads on shared memory with mutexes; the copies on the device as state | the arrays of the preconditioner by induction over the column blocks (`construct_spec`); the row loop obeys the lock discipline and adds A'A (`row_disciplined`, `row_total`); invariant of the history (`Inv`); conjugate gradients as in C50/C74; the Jacobians of `Evaluator.createJacobian` fit (`evaluator_fits`) |
| C94 | `CrsView` (`Step`, `Reach`, `flatten`, `nnzStores`, `columnStores`, `permute`, `UpdateRun`, `BuildRun`, `After`): the block structure on the device, the kernels as stores in any order, the streamed buffer as a transition system of the host and two streams | invariant of the buffer with the batches under way (`Protocol.Inv`), measure for termination, races from the invariant; the permutation maps the values onto the entries in the order of the rows (`permute_spec`, `permute_onto`), then C78's `Stores` |
| C95 | `Summary` (`countsOf`, `prepare`, `best`, `schurStrings`, `timedRun`, `report`): the loops that count, the preparation of C05 and C91 one after the other, the chain of specialisations, the two counters of the evaluator | counts of a permutation (C05, C91); `DetectStructure` (C52) on the block structure that C91 makes, read back as residual and parameter blocks (`detect_says`); induction on the minimizer as a program that asks |
| C96 | `Names` (`declare`, `switch`, `select`, `parse` and the tables of the enumerations): an enumeration as the list of its enumerators in types.h, the macros `CASESTR` and `STRENUM` on lists of names as they stand in types.cc | induction on the lists, for any well-formed enumeration whose names are the cases; the tables meet this by computation |
| C97 | `Overflow` (`countLoop`, `layoutLoop`, `buildLayout`, `nonzerosLoop`, `createJacobian`, `setupMinimizer`, `evaluate`): the functions of C10 that lay out a Jacobian, now with `int` and `unsigned int` of 32 bits, where overflow of an `int` is an outcome | simulation of the loops of C10 by induction, as long as the counts fit; a second induction shows that an `ok` cannot come after an overflow |
| C98 | `Bounds` (`setArrayLower`, `setArrayUpper`, `setLower`, `setUpper`, `getLower`, `getUpper`, `step`, `run`): the container of C01 with the two arrays of bounds of every parameter block | simulation by what is known of each address, with the invariant of C01; a lemma on every call of C01: an address that has a block had it before, or had none and the block is new |
| C99 | `CApi` (`addResidualBlock`, `wrapLoss`, `callLoss`, `evaluateBlock`, `evaluations`, `step`, `run`): the C interface over the container of C01, with the objects that wrap callbacks and the data of stock loss functions | simulation of a specification without container, wrappers and ownership, by the invariant of C01 and the order of the residual blocks |

Properties are renamed, strengthened or split as the model grows; the current status of
each is in `MANIFEST.json`.

## 4. Findings

Places where the code does not have the property one would expect.  Those marked *proved* have a
theorem with a concrete witness; the others are observations made while reading.

* Dogleg growth ignores `max_radius` (*proved*, `dogleg_exceeds_max`); once the regularisation
  multiplier reaches 1 no further step can be computed (*proved*, `dogleg_mu_stuck`).
* Inner iterations can make the model cost change negative, so that an increase of the cost is
  accepted (*proved*, `inner_increase_accepted`).
* The reported final cost can be lower than the cost of the returned parameters (*proved*,
  `finalCost_can_be_too_low`).
* A failed `Plus` leaves the previous candidate in place, and CONVERGENCE may be reported
  (*proved*, `failed_plus_reports_convergence`).
* `min_lm_diagonal = 0` passes the options check but aborts in the strategy constructor
  (*proved*, `lm_zero_min_diagonal_aborts`).
* Setting the state pointers of a block to its user state returns early on failure and leaves
  other blocks stale (*proved* in `Program`).
* `std::clamp` with lower > upper is undefined; the code reaches it if bounds are inconsistent
  (*proved*, `plus_block_ub`).
* `IsFeasible` does not look at the values of variable blocks (*proved* in `Program`).
* `ParallelFor` with `min_block_size = 0` divides by zero; a thread pool without threads drops
  its tasks (*proved* in `Parallel`/`Queue`).
* The Wolfe search reports success with step zero, dropping the best point it has seen, when the
  iteration limit is reached at an invalid point (*proved*, `wolfe_forgets_best`; the comment at
  line_search.cc:616-618 says otherwise).  A finite cost with an infinite slope aborts (*proved*,
  `wolfe_can_abort`); a NaN slope in the zoom phase yields success without sufficient decrease
  (*proved*, `wolfe_can_violate_decrease`).
* With `BISECTION` the zoom phase of the Wolfe search halves the upper end instead of the bracket.
* Hestenes-Stiefel conjugate gradients divide by zero when a step leaves the gradient unchanged
  (*proved*, `hestenes_stiefel_divides_by_zero`).
* `LineSearchOptionsAreValid` admits `min_line_search_step_contraction = 1`, which the header
  excludes.
* If the gradient tolerance is met at the start, the line search minimizer returns without
  recording an iteration (`EarlyExit`).
* `TolerantLoss` drops by a tiny amount (below rounding) where it changes formula (*proved*,
  `tolerant_not_monotone`, bounded by `tolerant_mono_partial`); unlike the other losses its slope at
  zero is at most one half (*proved*, `tolerant_slope_zero`).
* A cost function that legitimately returns the value 1e302 is treated as one that did not write
  (part of `evaluate_failed_iff`).
* `CompressedRowSparseMatrix::ToDenseMatrix` keeps only the last of repeated entries, while products and
  `TripletSparseMatrix::ToDenseMatrix` add them (*proved*, `toDense_repeated_differs`).
* `IndependentSetOrdering` aborts on a self loop (*proved*, `independentSetOrdering_loop_aborts`), which
  the residual graph has if a residual block repeats a parameter block (*proved*, `hessianGraph_loop`;
  needs `disable_all_safety_checks`).
* `ComputeRecursiveIndependentSetOrdering` never ends if the program has a constant block (*proved*,
  `recursiveOrdering_const_diverges`); the callers remove constant blocks first.
* `ApplyOrdering` that fails because a block is missing in the ordering leaves the list of parameter
  blocks overwritten, with one block twice and another lost (*proved*,
  `applyOrdering_refused_corrupts`).
* `RotationMatrixToQuaternion<EigenQuaternionOrder>` indexes the quaternion with `j + 1` style
  positions of the default order: for a matrix of negative trace it writes past the four entries, or
  leaves one unwritten (*proved*, `rotationMatrixToQuaternion_eigen_out_of_bounds`,
  `rotationMatrixToQuaternion_eigen_unwritten`).
* Plain array overloads use column-major matrices in `RotationMatrixToAngleAxis` and
  `AngleAxisToRotationMatrix` but row-major ones in `QuaternionToRotation`; mixing them gives the
  inverse rotation (*proved*, `plain_array_conjugates`).
* `QuaternionToAngleAxis` at the quaternion -1 takes a branch whose derivative has the wrong sign
  (*proved*, `quaternionToAngleAxis_minus_one_wrong`).
* `ComputeHouseholderVector` treats a leading part of squared norm at most the machine epsilon as zero:
  the reflection is then not orthogonal, `SphereManifold::Plus` leaves the sphere and `Minus(x, x)` is
  not zero (*proved*, `householder_not_orthogonal`, `spherePlus_leaves_sphere`,
  `sphereMinus_self_ne_zero`).
* `LineManifold::PlusJacobian` and `MinusJacobian` use the sphere Jacobian of the direction for the
  origin too, which scales it by the norm of the direction: wrong for every direction that is not a unit
  vector (*proved*, `linePlusJacobian_wrong`).
* `LineManifold`: `Plus(x, Minus(y, x))` can be a line different from `y`, since `Minus` drops the
  component of the origin difference along the direction of `x`, not of `y` (*proved*,
  `linePlus_minus_other_line`).
* `QuaternionManifold::Minus(-x, x) = 0`, so `Plus(x, Minus(-x, x)) = x`, not `-x` (*proved*, part of
  `quaternionPlus_minus`).
* `DynamicAutoDiffCostFunction::Evaluate` miscounts derivative sections when parameter blocks have size
  zero (nothing rejects them): some requested derivatives are never written (*proved*,
  `dynamicEvaluate_empty_block`).  It also computes the number of passes in single precision, exact only
  up to 2^24 active parameters (not modelled).
* `pow(Jet, double)` at base 0 and exponent 0 multiplies 0 by `pow(0, -1)`, an infinity, so the derivative
  of the constant 1 is NaN (not modelled: IEEE special values).
* `NumericDiffCostFunction::Evaluate` drops the verdict of the differentiation: when the functor fails at a
  perturbed point it returns true with Jacobian entries never written (*proved*,
  `numericEvaluate_ignores_failure`); the dynamic cost function and the first order function report it.
* With `max_num_ridders_extrapolations = 0` Ridders' method succeeds without evaluating anything and
  returns uninitialised memory (*proved*, `ridders_no_extrapolations`).
* The conversion `const int n = std::floor(x)` in the interpolators is undefined for coordinates beyond
  the range of `int`; the clamping of the grids comes too late to help (not modelled: unbounded `ℤ`).
* `TinySolver` ignores the verdict of the user's function: it can move to a point where the function is
  not defined and report the old cost as final (*proved*, `failing_function_is_accepted`).
* `TinySolver` does not validate its options: with a negative initial radius it returns a worse point
  (*proved*, `negative_radius_increases_cost`).
* `TinySolver`'s gradient test, documented as `max |J'f| < gradient_tolerance`, is made on the Jacobi
  scaled gradient (*proved*, `gradient_test_is_scaled`); `function_tolerance`, documented as relative to
  the cost, is absolute (see `StatusMeans`); `max_num_iterations` admits one trial step less and one
  iteration is reported even for zero (*proved*, `max_iterations_off_by_one`).
* `TinySolverCostFunctionAdapter` compares the compile time sizes with those of the cost function only if
  one of the two is dynamic (not modelled: the buffers of the model are unbounded).
* `ConjugateGradientsSolver` reports FAILURE at an exact solution: when started there with
  `min_num_iterations >= 1`, or when it gets there before `min_num_iterations` (*proved*,
  `cg_exact_start_fails`, `cg_exact_too_early_fails`); with a definite preconditioner this is the only
  way to FAILURE (*proved*, `cg_failure_exact`).
* The quadratic test of `ConjugateGradientsSolver` divides by the model value without looking at its sign:
  from a starting point with a positive model value it reports SUCCESS after one iteration, even with
  `q_tolerance = 0` (*proved*, `cg_spurious_success`).  `use_spse_initialization` supplies such starting
  points; from zero the test is sound (*proved*, `cg_success_zero_start`).
* `max_num_iterations <= 0` still runs one iteration (bound in `cg_iterations`).
* `CgnrSolver::SolveImpl` ignores the verdict of `Preconditioner::Update` (not modelled: only the `SUBSET`
  preconditioner can fail).
* `SchurComplementSolver::SolveImpl` back-substitutes only on SUCCESS.  With ITERATIVE_SCHUR and
  `use_explicit_schur_complement` the reduced solver can end with NO_CONVERGENCE, which the trust region
  minimizer accepts; the step then has a zero e part and can be worse than no step (*proved* for any reduced
  solver that ends that way, `no_convergence_worse`).  The implicit variant back-substitutes in both cases.
* `ImplicitSchurComplement::RightMultiplyAndAccumulate` and
  `PowerSeriesExpansionPreconditioner::RightMultiplyAndAccumulate` overwrite their output instead of
  accumulating (*proved* for the first, `rightMultiply_overwrites`); the callers pass zeros.
* The power series always includes its first order term, even for `max_num_spse_iterations <= 0`.
* `SchurEliminator::Init` and `SchurEliminatorForOneFBlock::Init` call `chunks_.back()` on a possibly empty
  vector when the first rows have no e block (not modelled: undefined behaviour).
* ITERATIVE_SCHUR leaves the step unwritten on FAILURE, including the FAILURE conjugate gradients report at an
  exact solution (*proved*, `iterative_schur_unwritten`).
* With `check_gradients`, `Solve` can return FAILURE and leave changed parameters in the user's memory: the
  verdict is overwritten after the write-back (*proved*, `gradient_error_leaves_changed_memory`).
* With `use_nonmonotonic_steps` and `update_state_every_iteration` callbacks see the best point so far, not
  the point of the iteration (*proved*, `nonmonotonic_callback_sees_best_point`); in monotone mode the two
  agree (*proved*, `solve_trust_region_current`).
* The line search minimizer calls no callback and records no iteration when the initial point meets the gradient
  tolerance (*proved*, `line_search_converged_start_calls_no_callback`), and none for the last iteration when
  it converges.
* `Minimize` (solver.cc:669) and `StateUpdatingCallback` ignore the result of
  `StateVectorToParameterBlocks`, and `Preprocess`/`PostSolve` that of
  `SetParameterBlockStatePtrsToUserStatePtrs`: if a manifold's `PlusJacobian` fails there, later blocks keep
  stale values (not modelled: assumed not to fail).
* `min_lm_diagonal = 0` is accepted (solver.cc:414), and the constructors of both trust region strategies abort
  on it (levenberg_marquardt_strategy.cc:62, dogleg_strategy.cc:70) (*proved*, `zero_min_diagonal_aborts`).
* `ITERATIVE_SCHUR` with `SCHUR_POWER_SERIES_EXPANSION` aborts in the constructor of `CgnrSolver` when the
  blocks of the user's first elimination group are all constant: `PreconditionerForZeroEBlocks` does not map
  that preconditioner (*proved*, `spse_without_e_blocks_aborts`).
* `ITERATIVE_SCHUR` with `CUDA_SPARSE` is accepted unchecked and without initialising CUDA; in the same
  situation it aborts in `CudaCgnrSolver::Create` (*proved*, `cuda_without_e_blocks_aborts`) or, in a build
  without CUDA, hands a compressed row Jacobian to a solver that casts it to a block sparse matrix (*proved*,
  `cuda_without_e_blocks_wrong_cast`).
* With cuDSS as the only sparse library the default options are refused: `SPARSE_NORMAL_CHOLESKY` with
  `NO_SPARSE` (*proved*, `defaults_refused_only_cudss`).
* `min_line_search_step_contraction = 1` is accepted although documented as `< 1` (*proved*,
  `contraction_one_accepted`). `max_num_refinement_iterations` is not validated at all.
* `inner_iteration_ordering` with an address that is not a parameter block of the problem passes
  `IsOrderingValid`, and `CoordinateDescentMinimizer::Init` dereferences the end iterator of the parameter map
  (coordinate_descent_minimizer.cc:86) (*proved*, `unknown_address_undefined`; exactly these orderings:
  `init_defined_iff`).
* `Solve` removes the constant blocks from the ordering object that the user's options point to
  (trust_region_preprocessor.cc:315): a block that is constant in one call is missing from the ordering in the
  next one (*proved*, `ordering_object_changed`).
* `GetCovarianceBlock` of two variable blocks that were not requested dereferences a null pointer if every
  requested pair had a fixed block (covariance_impl.cc:179) (*proved*, `Cov.null_pointer`), and reads one entry
  past the array of columns if nothing is stored behind the first row of the block with the smaller address
  (188: the entry is read before the offset is compared) (*proved*, `Cov.read_past_end`; exactly then:
  `Cov.getBlock_missing`). Otherwise it returns false as documented.
* The Boolean of `Problem::Evaluate` is ignored (covariance_impl.cc:549-550, 716-717, 812-813). If a cost
  function fails, the sparse QR algorithms factorise an empty matrix, `Compute` returns true and all covariances
  read as zero (*proved*, `Cov.sparseQR_ignores_failure`, `Cov.failed_evaluation_reads_zero`); dense SVD reads the
  first entry of an empty vector (*proved*, `Cov.denseSVD_failure`).
* DENSE_SVD with fewer residuals than columns and `null_space_rank = 0` reports success although `J'J` is
  singular, because the thin decomposition has no entries for the null space (*proved*,
  `Cov.denseSVD_accepts_underdetermined`); the documentation promises failure. A Jacobian that is zero is divided
  by instead of refused (*proved*, `Cov.zero_jacobian`).
* `GetCovarianceMatrix` for an empty list of blocks dereferences `max_element` of an empty range
  (covariance_impl.cc:310-311) (*proved*, `Cov.getMatrix_empty`).
* `Compute` accepts a pair of a fixed block and an address that is not a parameter block, on which
  `GetCovarianceBlock` aborts (*proved*, `Cov.stranger_accepted`).
* A bounds constrained solve that starts outside the bounds leaves the initial point in memory, outside the
  bounds, when the first evaluation fails (*proved*, `Feasible.failure_leaves_infeasible`), and, with
  CONVERGENCE, when no cost is below the largest double (*proved*, `Feasible.huge_cost_leaves_infeasible`).
* The small dense kernels need the output not to overlap the inputs: with `b` and `c` the same array
  `MatrixVectorMultiply` silently returns a wrong product (*proved*, `SmallBlas.Witness.alias_wrong`). The
  header does not say so and no `DCHECK` looks.
* After a Wolfe search that returned its starting point, the line search minimizer evaluates there with
  `new_evaluation_point = false` although other points were evaluated in between
  (line_search_minimizer.cc:358-365); a caching `EvaluationCallback` then delivers the data of another point,
  and the last iteration of the summary is wrong (*proved*, `EvalCallback.wolfe_contract_fails`). The
  parameters returned are right (`EvalCallback.line_search_wolfe_parameters`).
* `check_gradients` solves a copy of the problem that does not name the `EvaluationCallback`
  (gradient_checking_cost_function.cc:183-194): the callback is never called and cost functions that rely on
  it deliver stale data (*proved*, `EvalCallback.check_gradients_no_callback`).
* `Program::SetParameterBlockStatePtrsToUserStatePtrs` (program.cc:104-112) stops at the first block whose
  `PlusJacobian` fails, and its result is ignored at the end of `Solver::Solve` (solver.cc:840) and of
  `ProblemImpl::Evaluate` (problem_impl.cc:745). If the evaluated program has the blocks in another order
  than the problem, blocks after the failing one keep pointing into a vector that is freed on return; once
  such a block is made constant, later evaluations and solves at good values read freed memory (*proved*,
  `Session.failed_evaluation_leaves_dangling`, `Session.failed_solve_leaves_dangling`).
* `BlockSparseMatrix::AppendRows` copies the values of its argument in storage order into cells laid out in cell
  order (block_sparse_matrix.cc:617-668): an argument with E and F cells apart is appended wrongly (*proved*,
  `BlockSparse.append_apart_wrong`). The solvers append diagonal matrices only, which are stored in order.
* `DeleteRowBlocks` followed by `AppendRows` assumes that the deleted cells were last in the values: for a matrix
  with E and F cells apart the append overwrites cells that are left (*proved*, `BlockSparse.delete_append_wrong`).
  The solvers delete only what they appended.
* `ToCompressedRowSparseMatrixTranspose` divides by the size of a column block with cells
  (block_sparse_matrix.cc:98): a block of size zero is a division by zero (*proved*,
  `BlockSparse.thin_divides_by_zero`). Jacobians have no such blocks, since parameter blocks of tangent size zero
  are held constant.
* `InnerProductComputer` relies on the cells of each row being ordered by column block: with cells the wrong way
  round an off-diagonal block of the "upper" triangle is stored below the diagonal, where the Cholesky
  factorisation does not look (*proved*, `InnerProduct.swapped_wrong`). `BlockJacobianWriter` sorts the cells.
* `DENSE_NORMAL_CHOLESKY` with `max_num_refinement_iterations` > 0 returns wrong solutions: only the upper triangle of
  the normal equations is filled (dense_normal_cholesky_solver.cc:59-77), but `DenseIterativeRefiner::Refine`
  (iterative_refiner.cc:83-99) multiplies by the whole matrix, which is what `RefinedDenseCholesky` kept a pointer to
  (dense_cholesky.cc:322-349). One step spoils the answer already for the 2x2 problem `[1 1; 0 1] x = (2, 1)`
  (*proved*, `Direct.dense_refinement_wrong`; characterised by `Direct.refined_once_iff` and
  `Direct.refined_triangle_iff`). Mixed precision, for which solver.h:570-592 recommends refinement, leaves the
  triangle; factorisations in place leave the factor, which is also not the matrix. dense_cholesky_test.cc factorises
  full symmetric matrices only. `DENSE_SCHUR` also passes one triangle (not modelled there).
* `SparseNormalCholeskySolver` sets up the product in its first call only: if that call has no diagonal, a diagonal in
  a later call is silently ignored; if it has one, a later call without reads row blocks that are not there
  (*proved*, `Direct.late_diagonal_ignored`, `Direct.late_diagonal_witness`,
  `Direct.lost_diagonal_reads_past_end`). The trust region strategies always pass a diagonal.
* The refiners ignore the termination type of the solves they do (iterative_refiner.cc:67, 95), and `DENSE_QR` with
  Eigen always reports success, also without full rank (dense_qr.cc:164-183; not modelled).
* With `check_gradients` a cost function that evaluates at a point but not at a perturbed one fails there: `Probe`
  lets the numeric evaluation decide `return_value` too (gradient_checker.cc:165-195), which gradient_checker.h
  documents as the return value of the cost function (*proved*, `Adapters.checking_fails_at_boundary`). Checking
  also asks for all Jacobians, whichever the solver wants.
* `GradientChecker` ignores the verdict of `Manifold::PlusJacobian` and multiplies by what it left in unset memory
  (gradient_checker.cc:107). For an error it prints `parameters[k][j]` with `j` running over the tangent space, which is
  out of range if that is larger than the ambient space (not modelled).
* `ConditionedCostFunction` that owns its arguments deletes the wrapped function twice if it is also a conditioner
  (*proved*, `Adapters.conditioned_deletes_twice`).
* `CostFunctionToFunctor<kNumResiduals, ...>` never compares `kNumResiduals` with the number of residuals of the cost
  function (`Adapters.static_fits_iff`).
* DENSE_SCHUR fills only the upper triangle of blocks of its reduced matrix, so the refinement that multiplies by the
  full matrix (see C80) is wrong there too: `DenseChol.Correct` does not hold of the refined factorisation.
* A Jacobian whose first row block has no e block makes the Schur solvers abort in `DetectStructure`
  (*proved*, `SchurDirect.no_e_block_aborts`); the preprocessor never makes one.
* `GradientProblemSolver::Solve` with `update_state_every_iteration` leaves the point of the last iteration in the array
  after `FAILURE` and `USER_FAILURE` (*proved*, `GradientProblem.array_not_restored`, `solve_unusable`), while
  `Solver::Solve` restores the parameters; `final_cost` stays -1 then.
* The gradient evaluator does not reject a value that is not finite (gradient_problem_evaluator.h:66-82): from an initial
  value of plus infinity the Armijo search accepts any finite point, and the function tolerance test
  `|inf| <= function_tolerance * |inf|` then ends the run with CONVERGENCE (read from the code, not modelled).
* The constructors of `GradientProblem` dereference the function before the `CHECK` that it is not null
  (gradient_problem.cc:41-45; read from the code).
* The constructor of `PartitionedMatrixView` reads `cells[0]` of every row block, so a row block without cells is an
  access out of bounds (*proved*, `PartitionedView.view_empty_row`); on several threads and with nothing to eliminate
  `PartitionRangeForParallelFor` reads `rows[-1]` of the transposed structure (*proved*,
  `PartitionedView.view_nothing_to_eliminate`).  Neither is reachable through `Solve`: the reduced program has no residual
  blocks without parameter blocks, and the Schur solvers are replaced if there is nothing to eliminate.
* `ImplicitSchurComplement::AddDiagonalAndInvert` does not look whether the factorisation of a block failed
  (implicit_schur_complement.cc:179-204): for a singular block `Init` goes on with whatever Eigen leaves (*proved*,
  `PartitionedView.singular_goes_unnoticed`).  With the regularisation of Levenberg-Marquardt no block is singular in real
  arithmetic; DOGLEG retries with a larger regularisation only if the solver reports a failure.
* `ImplicitSchurComplement::RightMultiplyAndAccumulate` overwrites its result although every other operator of that name
  accumulates (*proved*, `PartitionedView.implicit_overwrites`); its callers pass zeros.
* CLUSTER_TRIDIAGONAL first factorises the matrix of chains without scaling (visibility_based_preconditioner.cc:359-375),
  which need not be positive definite (*proved*, `Visibility.unscaled_indefinite`).  The scaling by 1/2 happens only if the
  factorisation fails.  Eigen's SimplicialLDLT, used for EIGEN_SPARSE, also accepts indefinite matrices, so that an
  indefinite preconditioner can be kept; conjugate gradients then has no guarantee.  `update_spec` states what is
  guaranteed: positive definite after scaling, or if the library accepts positive definite matrices only.
* `CanonicalViewsClustering::FindValidViews` looks for invalid views with `vertex_weight != InvalidWeight`
  (canonical_views_clustering.cc:141-148); the invalid weight is NaN, and the comparison is true for every number and NaN.
  Every view is valid in the model for that reason.
* A cluster of CANONICAL_VIEWS can be empty: a view as similar to an earlier view as to itself stays with the earlier
  one.  `CanonicalClusters` does not ask for nonempty clusters.
* `VisibilityBasedPreconditioner::RightMultiplyAndAccumulate` overwrites its result instead of accumulating; its callers
  pass zeros.
* `SchurJacobiPreconditioner::UpdateImpl` returns true whenever it returns: `BlockRandomAccessDiagonalMatrix::Invert`
  (block_random_access_diagonal_matrix.cc:92-102) does not look at whether the Cholesky factorisation of a block
  succeeded, so that a singular block gives a preconditioner with arbitrary numbers and no error.  C88 asks for
  independent columns.
* With ITERATIVE_SCHUR and `use_explicit_schur_complement`, `SchurComplementSolver::SolveImpl`
  (schur_complement_solver.cc:151-155) substitutes back on SUCCESS only.  If conjugate gradients stop with NO_CONVERGENCE,
  the step has the last iterate for the cameras and zeros for the points.  `LevenbergMarquardtStrategy`
  (levenberg_marquardt_strategy.cc:118-128) rejects FATAL_ERROR and FAILURE only and uses that step, which can be worse
  than no step (*proved*, `SchurJacobi.worse_than_none`).  `IterativeSchurComplementSolver` substitutes back always.
* `CgnrSolver::SolveImpl` (cgnr_solver.cc:173) ignores what `Preconditioner::Update` returns.  When the factorisation of
  SUBSET fails, `SubsetPreconditioner` logs it and conjugate gradients run with whatever the solve of the failed
  factorisation leaves.  The step is still no worse than none (C90), but the user is not told.
* `SubsetPreconditioner::RightMultiplyAndAccumulate` (subset_preconditioner.cc:62-68) overwrites `y` instead of adding to
  it, contrary to the contract of `LinearOperator`.  Conjugate gradients always pass zeros, so nothing goes wrong there.
* `SubsetPreconditioner` keeps the inner product computer with the row range of the first call
  (subset_preconditioner.cc:87-94); calls with and without a diagonal must not be mixed, as in C80.
* `OrderingForSparseNormalCholeskyUsingSuiteSparse` and `ReorderSchurComplementColumnsUsingSuiteSparse`
  (reorder_program.cc:115-170, 363-404) ignore what the orderings of CHOLMOD return.  If one fails, `ordering` still holds
  the zeros it was created with, and the program ends up with as many copies of its first parameter block as it had
  parameter blocks, without an error (`failed_library_loses_blocks`).  The same happens in
  `ReorderProgramForSparseCholesky` for NO_SPARSE.
* A linear solver ordering with one group is not checked by `ReorderProgramForSchurTypeLinearSolver`
  (reorder_program.cc:476-508) beyond its number of elements.  An element that is no parameter block of the problem stays
  in group 0, the first elimination group is counted one too large, and either a `CHECK` fails or blocks are eliminated
  together on which the same residual block depends (`foreign_element_aborts`, `foreign_element_accepted`).  For several
  groups `ApplyOrdering` does check.
* With `use_spse_initialization` conjugate gradients start from a truncated power series in the inverse of the *block
  diagonal* of F'F (iterative_schur_complement_solver.cc:95-111).  It is no worse than zero if no residual block depends
  on two f blocks (*proved*, `IterSchur.guess_descends`), as in bundle adjustment.  Otherwise the block diagonal is not
  F'F and the guess can be worse than none: three scalar f blocks with F'F = 1 on the diagonal and 0.9 beside it and right
  hand side (1, 1, 1) give the value 2.4 > 0.  C92 asks for one f block per row block there.
* IterativeSchurComplementSolver leaves `x` unwritten when `Preconditioner::Update` fails
  (iterative_schur_complement_solver.cc:117-121); of the preconditioners only CLUSTER_TRIDIAGONAL can.
* `CudaCgnrSolver::CpuToGpuTransfer` passes `per_solve_options.D` to `D_->CopyFromCpu` without testing it (cgnr_solver.cc:
  317-356), unlike `CgnrSolver`: with `D == nullptr` the call crashes (*proved of the model*,
  `CudaCgnr.no_diagonal_crashes`).  The trust region minimizer always gives a diagonal.
* `BlockCRSJacobiPreconditioner::UpdateImpl` reads `a_rows[row + 1]` for the first row of every row block
  (block_jacobi_preconditioner.cc:170-178), which for a last row block of size zero is past the end.  C93 asks for row
  blocks that are not empty; `Problem::AddResidualBlock` does not.
* `CudaBlockSparseStructure` goes back over row blocks without cells with `--it` on the reverse iterator `rbegin()`
  (cuda_block_structure.cc:159-164), which leaves the array: a row block with cells after one without makes the constructor
  undefined (*proved of the model*, `CrsView.gap_no_view`).  The same lines read `cells[0].position`, the first cell of the
  matrix, where the first cell of the row block is meant.
* A last row block without cells makes `PermuteToCrsKernel` read `cells[cells.size()]` (cuda_kernels_bsm_to_crs.cu.cc:
  384-391): *proved of the model*, `CrsView.trailing_empty_undefined`.
* `CudaPartitionedBlockSparseCRSView::UpdateValues`, when the values are not in the order of compressed rows, streams
  `bsm.values()` from the start but labels each batch with `num_nonzeros_e + offset`, so the place of value `id` of F gets value
  `id - num_nonzeros_e`: *proved of the model*, `CrsView.partitioned_shifts` for every matrix and schedule, and
  `CrsView.partitioned_wrong` for a matrix of two rows.  (The row offsets of F are taken as right there.)  The unit test
  compares nothing of F: its loop runs from `num_cols_e` to `num_cols_f`.
* `ComputeColumns` reads `col_blocks[num_col_blocks_e]`, past the end if there are no F blocks.  (Read, not modelled.)
* These views are used by tests and benchmarks only, not by `Solve`.
* `num_residual_evaluations` and `num_jacobian_evaluations` count also the evaluations that end before a cost function is run
  (program_evaluator.h:142-151): *proved of the model*, `Summary.failed_counts`.  The evaluation of the fixed residual blocks
  (C05) and those of the inner iterations, which have evaluators of their own, are not counted.
* `UpperCase` (types.cc:46-48) gives `::toupper` the elements of a `std::string`; for a negative `char` this is undefined in C,
  and what is a small letter depends on the locale of the program (not modelled: bytes above 127 stand for themselves).
* `Problem::Evaluate` with a Jacobian whose entries and columns exceed `INT_MAX` (problem_impl.cc:698-743): `CreateJacobian` returns
  `nullptr`, the evaluation is made without Jacobian, and if it succeeds the null pointer is dereferenced, where one would expect
  `false` (`Ceres.Overflow.evaluate_crashes`).
* `BuildJacobianLayout` (block_jacobian_writer.cc:68-167) tests only the positions of F: if the entries of the eliminated blocks exceed
  `INT_MAX` and there are no others, the `int` `e_block_pos` overflows, which is undefined (`Ceres.Overflow.block_all_e_undefined`);
  with others, `f_block_pos` may have wrapped around in the first loop, and only the overflow of `e_block_pos` keeps a layout from being
  wrong (`block_sound`: the outcome is then undefined or refused).
* The compressed row writer counts a column as an entry (compressed_row_jacobian_writer.cc:102), so it refuses Jacobians whose entries
  alone would fit (`Ceres.Overflow.crs_exact`).
* `ParameterBlock::SetUpperBound` with an infinite bound (parameter_block.h:191-206) is dropped if the block has no upper bound yet, and
  stored otherwise: the value asked back is the largest double or infinity, depending on the history (`Ceres.Bounds.infinite_bound`; the
  same for lower bounds).
* `GetParameterUpperBound` and `GetParameterLowerBound` do not check the index (problem_impl.cc:562-584): the read is past the end of the
  array if the block has a bound (`Ceres.Bounds.index_unchecked`). `SetUpperBound` and `SetLowerBound` check only `index < size`, so a
  negative index writes before the array (not modelled).
* `ParameterBlock::IsUpperBounded` and `IsLowerBounded` (parameter_block.h:133-134) return true exactly if there is no bound; nothing
  calls them (not modelled).
* Data of a stock loss function is not owned by the residual block it was given to (c_api.cc:128-137): freeing it before the last solve is
  undefined behaviour (`Ceres.CApi.freed_too_early`). The example in c_api.h does not say how long it has to live.
