import json
P=[]
def p(title, statement, quantifier, why, anchors):
    P.append(dict(id=f"C{len(P)+1:02d}", title=title, statement=statement, quantifier=quantifier, why_tests_cant=why, anchors=anchors))
OBJ="theseus/core/objective.py"
hist="the histories of add/erase calls are unbounded; a test exercises a handful of them"
p("One name, one variable object", "After any history of successful Objective.add / Objective.erase calls, no two different variable objects registered in an objective share a name: the name->object maps for optimization variables, auxiliary variables and all variables agree with each other and an add that would break this raises.", "every sequence of successful add/erase calls with arbitrary cost functions, weights and variables", hist, [OBJ+":Objective.add", OBJ+":Objective._add_function_variables", OBJ+":Objective.erase"])
p("Variables are registered exactly while used", "After any history of successful add/erase calls, in which no already-present cost function is re-added, has_optim_var(n) (resp. has_aux_var(n)) holds exactly when some cost function currently in the objective (or, for aux variables, its weight) uses a variable called n.", "every history of successful add/erase calls", hist, [OBJ+":Objective.add", OBJ+":Objective.erase", OBJ+":Objective.has_optim_var", OBJ+":Objective.has_aux_var"])
p("Re-adding a cost function is a no-op", "Adding a cost function that is already in the objective changes nothing ('nothing to be done'), so that erasing it afterwards removes it and its unused variables just as if it had been added once.", "every reachable objective and every cost function in it", hist, [OBJ+":Objective.add", OBJ+":Objective.erase"])
p("Structure version strictly increases", "current_version strictly increases on every erase and on every add that changes the objective, so no two structurally different moments in an objective's history have the same version.", "every add/erase history, including calls that raise", hist, [OBJ+":Objective.current_version"])
p("Stale optimizers are refused", "An optimizer (or TheseusLayer) built on an objective refuses to run (RuntimeError) if, and only if, add or erase was called on the objective since construction.", "every interleaving of construction, add/erase and optimize/forward calls", "interleavings are unbounded", ["theseus/optimizer/optimizer.py:Optimizer.optimize","theseus/theseus_layer.py:TheseusLayer.forward"])
p("add is atomic", "If Objective.add raises, the objective is left as it was before the call.", "every objective and every cost function that is rejected", "rejection can happen at many points inside add", [OBJ+":Objective.add"])
p("erase undoes add", "Adding a new cost function and then erasing it by name restores the set of cost functions, variables, and variable-to-function connections (only current_version moves).", "every reachable objective and fresh cost function accepted by add", hist, [OBJ+":Objective.add", OBJ+":Objective.erase"])
p("Connected-functions queries are exact", "get_functions_connected_to_optim_var / _aux_var return exactly the cost functions (and weights, for aux) currently in the objective that use the variable, and raise for variables that are not in the objective.", "every reachable objective and variable", hist, [OBJ+":Objective._get_functions_connected_to_var"])
p("No variable is both optimization and auxiliary", "Unless the experimental mixed flag is set, an add that would make a variable both an optimization and an auxiliary variable is rejected, and after any history of successful calls the two name sets are disjoint.", "every add/erase history", hist, [OBJ+":Objective.add"])
p("Size and dimension bookkeeping", "size(), size_variables(), size_aux_vars() and dim() equal the number of cost functions, the numbers of distinct variables they use and the sum of their error dimensions, with iteration in insertion order.", "every add/erase history", hist, [OBJ+":Objective.size", OBJ+":Objective.dim", OBJ+":Objective.__iter__"])
p("Objective.copy preserves structure and is disjoint", "copy() succeeds on every objective built by successful adds, returning an objective with the same cost function names, order, weights sharing and variable sharing, but no variable object in common with the original.", "every reachable objective", "sharing patterns between cost functions, weights and variables are unbounded", [OBJ+":Objective.copy","theseus/core/theseus_function.py:TheseusFunction.copy"])
p("error() without also_update has no lasting effect", "error(input_tensors) / error_metric(input_tensors) with also_update=False leave every variable with the tensor it had before the call.", "every objective, assignment and input dictionary", "input dictionaries mention arbitrary subsets of the variables", [OBJ+":Objective.error", OBJ+":Objective.error_metric"])
p("update touches exactly the named variables", "update(input_tensors) replaces the tensor of each named registered variable and leaves all the others unchanged; names that are not registered are ignored; an update that raises ValueError leaves a prefix of the dictionary applied.", "every objective and input dictionary", "arbitrary dictionaries and orders", [OBJ+":Objective.update","theseus/core/variable.py:Variable.update"])
p("Masked batch elements are not updated", "With batch_ignore_mask, batch element i of every variable changes iff mask[i] is False (and the new tensor differs there).", "all batch sizes, masks, variables and tensors", "all masks and batch sizes", [OBJ+":Objective.update","theseus/core/variable.py:Variable.update"])
p("Batch size resolution", "update succeeds in resolving a batch size B iff every registered optimization/auxiliary variable has batch size 1 or B (with at least one variable), and then batch_size is the maximum; otherwise it raises ValueError.", "all multisets of tensor batch sizes", "the domain of size multisets is infinite", [OBJ+":Objective._resolve_batch_size"])
p("retract applies each variable's own slice", "retract_vars_sequence(delta, ordering) retracts the i-th variable by exactly the delta columns [sum of previous dofs, +dof), all columns are used exactly once when delta has total-dof columns, and masked batch elements keep their value unless force_update.", "all orderings, dofs, deltas and masks", "unbounded number of variables and dofs", [OBJ+":Objective._retract_base"])
V="theseus/core/vectorizer.py"
p("Vectorized retract equals sequential retract", "With vectorization on, retract_vars_sequence gives every variable the same value as the unvectorized sequential retract.", "all orderings with variables of any types and dofs", "grouping by type/dof with arbitrary interleavings", [V+":Vectorize._vectorized_retract_optim_vars"])
p("Vectorized cost functions give the per-function results", "With vectorization on, each cost function's weighted error and Jacobians served to the optimizer equal what the cost function itself would compute.", "all objectives of cost functions, any sharing of variables, any batch size with batch-1 broadcast", "sharing patterns and batch sizes are unbounded", [V+":Vectorize._vectorize", V+":Vectorize._update_all_cost_fns_no_shared", V+":Vectorize._construct_vectorized_base"])
p("error() is ordered by insertion", "error() returns the concatenation of cost function errors in the order in which cost functions were added, whether or not vectorization is on.", "all objectives", "orderings/interleavings of cost-function kinds are unbounded", [OBJ+":Objective.error", V+":Vectorize._get_vectorized_error_iter"])
p("error_metric does not depend on vectorization", "The default error metric (half squared norm) has the same value with and without vectorization.", "all objectives and assignments", "needs all interleavings of schemas", [OBJ+":error_squared_norm_fn", V])
p("Cached Jacobians are never stale", "After any sequence of update / retract / evaluation calls, the Jacobians and errors served under vectorization are those of the current variable tensors.", "all call histories", "cache invalidation depends on the whole history", [OBJ+":Objective._vectorization_needs_update", OBJ+":Objective.update_vectorization_if_needed","theseus/core/variable.py:Variable._num_updates"])
O="theseus/optimizer/"
p("Variable ordering indices are consistent", "index_of(name) returns the position at which iteration yields the variable; append rejects duplicates and foreign variables; the default ordering is the objective's insertion order; complete iff it contains all optimization variables.", "all append/remove/extend histories", "histories are unbounded", [O+"variable_ordering.py:VariableOrdering"])
p("Columns are partitioned by variable", "In every linearization each optimization variable owns a contiguous block of dof columns; blocks are disjoint and tile [0, sum of dofs) in the ordering's order.", "all orderings and dofs", "unbounded", [O+"linearization.py:Linearization"])
p("Dense linearization stacks the weighted Jacobians", "Block (cost function i, variable v) of A is the weighted Jacobian of cost i with respect to v (zero if unused) and rows of b are minus the weighted errors, in insertion order; AtA = A^T A and Atb = A^T b.", "all objectives whose cost functions list each optimization variable once", "unbounded objectives", [O+"dense_linearization.py:DenseLinearization._linearize_jacobian_impl"])
p("Sparse linearization represents the same matrix as dense", "The CSR structure built at construction is well formed (row pointers monotone from 0 to nnz, column indices in range) and with the values filled at linearization it denotes the same A and b as the dense linearization.", "all objectives and orderings", "unbounded", [O+"sparse_linearization.py:SparseLinearization"])
p("Sparse products agree with the matrix", "mat_vec / tmat_vec / Av / diagonal scaling on the CSR arrays equal the products with the denoted matrix.", "all CSR structures and vectors", "unbounded", ["theseus/utils/sparse_matrix_utils.py", O+"sparse_linearization.py"])
N="theseus/optimizer/nonlinear/"
p("The optimization loop terminates within its budget", "optimize() performs at most max_iterations accepted/advanced iterations and at most 3*max_iterations linear solves, for any sequence of step acceptances and convergence outcomes.", "all numbers of iterations, all sequences of rejections", "depends on data-dependent rejections", [N+"nonlinear_least_squares.py:NonlinearLeastSquares._optimize_loop", N+"nonlinear_optimizer.py"])
p("Final status is informative", "After optimize(), every batch element's status is CONVERGED, MAX_ITERATIONS or FAIL (never START), CONVERGED only if its convergence test fired, and converged_iter is the iteration at which it did.", "all runs", "data dependent", [N+"nonlinear_optimizer.py:NonlinearOptimizer._update_info"])
p("best_err is the minimum error seen", "With best-solution tracking, best_err[i] is the minimum of the errors seen by element i and best_solution[i] is the variables' value when it was attained.", "all error histories", "all histories", [N+"nonlinear_optimizer.py:NonlinearOptimizer._update_info"])
p("Converged batch elements stay frozen", "Once an element's convergence test fires, later iterations do not change its variables (when converged indices are ignored).", "all runs and batch sizes", "data dependent", [N+"nonlinear_least_squares.py", N+"nonlinear_optimizer.py:NonlinearOptimizer.retract_and_update_variables"])
p("Batch elements are optimized independently", "The result for a batch element does not depend on the other elements of the batch (same iterates, same convergence decision).", "all batches", "ranges over pairs of batches", [N+"nonlinear_least_squares.py", N+"trust_region.py", N+"levenberg_marquardt.py"])
p("Truncated backward splits the iteration budget", "For every backward mode the gradient-free and gradient-carrying loops run max_iterations in total, with at most backward_num_iterations carrying gradients (all for UNROLL and DLM, 1 for IMPLICIT, min(backward_num_iterations, max_iterations) for TRUNCATED).", "all budgets and modes", "unbounded", [N+"nonlinear_optimizer.py:NonlinearOptimizer._split_backward_iters"])
p("LM damping stays in range and moves the right way", "Adaptive LM damping always lies in [1e-7,1e7], never decreases for a rejected element, never increases for an accepted one.", "all histories of accept/reject", "unbounded histories", [N+"levenberg_marquardt.py:LevenbergMarquardt"])
p("An accepted LM step decreases the error", "If the linear system is solved exactly with damping > 0, a step accepted by adaptive LM with accept threshold >= 0 does not increase that element's error metric, and a rejected one leaves its variables unchanged.", "all errors, steps and damping values", "real-valued domain", [N+"levenberg_marquardt.py:LevenbergMarquardt._complete_step"])
p("Trust region radius stays within bounds", "The per-element trust-region radius is never below the minimum, shrinks for poor steps, grows only for good ones; nonsensical parameter combinations are rejected.", "all histories", "unbounded histories", [N+"trust_region.py:TrustRegion"])
p("Dogleg steps stay in the trust region", "Dogleg's step for each batch element has (scaled) norm at most the radius, equals the Gauss-Newton step when that fits, and the scaled steepest-descent step when the Cauchy point is outside.", "all steps and radii", "real-valued domain", [N+"dogleg.py:Dogleg"])
p("Damping adds exactly lambda*I or lambda*diag", "Dense and sparse solvers damp A^T A by the same (alpha,beta) rule; the two parametrisations (ellipsoidal or not) coincide with the documented formulas, leave off-diagonals unchanged, and make the system positive definite for lambda>0.", "all matrices and damping vectors", "real-valued domain", [O+"linear/dense_solver.py", O+"linear/utils.py", O+"autograd/common.py"])
p("Solver contexts are never reused while alive", "The backward pass of a linear solve by LUCudaSparseSolver either uses the factors of its own matrix or raises; it does not raise if fewer solves follow than there are contexts, and the number of contexts set up by optimize() is enough for all linear solves of the loop that carries gradients, whatever steps are rejected.", "all iteration counts", "unbounded", [O+"linear/lu_cuda_sparse_solver.py", N+"nonlinear_least_squares.py"])
p("Robust losses are valid M-estimators", "Welsch, Huber, Hinge, Geman-McClure evaluate to nonnegative monotone values bounded by the squared error (where documented), zero at zero, and linearize() is the derivative of evaluate() with respect to the squared error, up to the documented eps.", "all squared errors and radii", "real-valued domain", ["theseus/core/robust_loss.py"])
p("Robust cost's rescaled error encodes the loss", "Half the squared norm of RobustCostFunction.weighted_error() is half of rho(||w e||^2) up to the fixed eps, and its linearization error/Jacobian satisfy the IRLS identity J~^T e~ = rho' J^T e.", "all errors, Jacobians and radii", "real-valued domain", ["theseus/core/robust_cost_function.py:RobustCostFunction"])
p("Zero-weight masking changes nothing", "With masked Jacobians / masked variables, results equal the unmasked ones at unmasked elements and variables' tensors are restored afterwards.", "all masks", "all masks", ["theseus/core/cost_function.py","theseus/core/cost_weight.py"])
p("SO2 is a group acting by isometries", "SO2 compose/inverse/between/rotate/unrotate satisfy the group and action laws, preserve the unit-norm representation, and exp/log are mutually inverse on (-pi,pi].", "all angles", "real-valued domain", ["theseus/geometry/so2.py"])
p("SE2 is a group acting on points", "SE2 compose/inverse/transform_from/transform_to satisfy the group and action laws, are compatible with to_matrix, and preserve valid rotations.", "all poses and points", "real-valued domain", ["theseus/geometry/se2.py"])
p("SE2 exp/log round trip", "log(exp(v)) = v for rotation components in (-pi, pi) and exp(log(p)) = p for rotations other than pi: exactly when the rotation is zero or beyond the small-angle threshold, and below the threshold with exact rotation and a translation error of at most theta^4/10 of the translation; log divides by zero exactly at rotations by pi.", "all tangent vectors", "real-valued domain", ["theseus/geometry/se2.py:SE2.exp_map", "theseus/geometry/se2.py:SE2._log_map_impl"])
p("SO3 exponential produces rotations", "SO3 exp_map returns a matrix with R^T R = I, det 1, for every tangent vector, including those in the small-angle branch, and quaternion conversion gives a rotation for any non-zero quaternion.", "all tangent vectors / quaternions", "real-valued domain", ["torchlie/torchlie/functional/so3_impl.py","theseus/geometry/so3.py"])
p("SE3 compose/inverse/adjoint laws", "SE3 composition and inverse on 3x4 matrices satisfy the group laws; the adjoint is a homomorphism and conjugates hat; compose Jacobians follow.", "all poses", "real-valued domain", ["torchlie/torchlie/functional/se3_impl.py"])
p("hat and vee are inverse", "vee(hat(v)) = v, hat(vee(M)) = M exactly on matrices passing the hat check, for SO2, SE2, SO3, SE3; hat is linear.", "all vectors/matrices", "real-valued domain", ["torchlie/torchlie/functional/so3_impl.py","torchlie/torchlie/functional/se3_impl.py","theseus/geometry/so2.py","theseus/geometry/se2.py"])
p("local and retract are inverse", "a.retract(a.local(b)) = b and a.local(a.retract(d)) = d for d within the injectivity domain, for Vector/Point/SO2/SE2/SO3/SE3.", "all values", "real-valued domain", ["theseus/geometry/lie_group.py","theseus/geometry/vector.py"])
p("Analytic Jacobians of Between/Local costs are derivatives", "The Jacobians returned by the Between, MovingFrameBetween and Local (Difference) costs, by local, log_map, exp_map, rotate/unrotate, transform_from/transform_to, xy and theta for SO2/SE2/Vector equal the derivative of the value along every smooth curve of group elements (in particular along retractions).", "all poses", "real-valued domain", ["theseus/embodied/measurements/between.py","theseus/embodied/misc/local_cost_fn.py"])
p("Scoped settings are restored", "Context managers that change global settings (lie group checks, tangent mode, warnings) restore the previous settings on exit, including when the body raises, in any nesting.", "all nestings and exceptions", "all nestings", ["theseus/geometry/lie_group_check.py","torchlie/torchlie/functional/check_contexts.py", N+"nonlinear_least_squares.py"])
p("Forward kinematics composes along the URDF path", "For every requested link, forward kinematics returns the composition of the joint origins and joint motions along the path from the root in the URDF, irrespective of fixed-joint simplification, link declaration order and which links are requested.", "all kinematic trees and joint angles", "trees are unbounded", ["torchkin/torchkin/robot.py:Robot.from_urdf_file","torchkin/torchkin/forward_kinematics.py"])
p("Ill-formed registrations are rejected", "register_optim_vars / register_aux_vars never leave a function with a duplicated attribute or one that is both optimization and auxiliary.", "all registration histories", "histories unbounded", ["theseus/core/theseus_function.py"])
p("Sparse solve gradients", "The gradients that the backward pass of the sparse solvers (Cholmod, LU CUDA, BaSpaCho) returns for the matrix values A_val and the right-hand side b are the gradients of the solution of the damped normal equations, including multiplicative damping; with a detached Hessian they are the gradients with the normal matrix held constant, and multiplicative damping is then refused. No gradient is returned for the damping.", "all CSR structures, values, right-hand sides, damping with invertible normal matrix, batches", "real-valued domain", [O+"autograd/common.py:compute_A_grad",O+"autograd/lu_cuda_sparse_autograd.py",O+"autograd/cholmod_sparse_autograd.py",O+"autograd/baspacho_sparse_autograd.py"])
p("DCEM's elite update", "One DCEM step with hard elites (1 <= n_elite <= n_sample) replaces the mean by the average of n_elite samples none of which is costlier than a sample left out, and the deviation by theirs plus 1e-10; with soft weights the mean is a combination of all samples with positive weights, larger for cheaper samples, that sum to n_elite (exactly for n_elite = 1, up to n_sample*lml_eps/8 otherwise), so it stays in every box containing the samples up to that error; the deviation is never negative; the vector-to-variables split covers the mean vector exactly, and a step gets through only if every variable's tensor is as wide as its dof.", "all sample sets, costs, settings and dimensions", "real-valued; all sample sets", [N+"dcem.py:DCEM._CEM_step", N+"dcem.py:DCEM._mu_vec_to_dict"])
p("ManifoldGaussian local/retract are inverse", "local_gaussian undoes retract_gaussian (mean, precision, information vector) and retract_gaussian undoes local_gaussian, wherever local and retract undo each other on the mean; symmetric and positive definite precisions stay so and pass the constructor check; the tangent precision is the pull-back of the precision along the exponential; a Gaussian over several variables or of another class is refused.", "all Lie group classes, variables, means and precisions", "real-valued", [O+"manifold_gaussian.py:local_gaussian",O+"manifold_gaussian.py:retract_gaussian"])
p("Dogleg steps are descent steps of the model", "For exact Gauss-Newton solves and step sizes in [0,1], the reduction predicted by the quadratic model for the Dogleg step is never negative, so an accepted step (accept threshold >= 0) never increases the element's error.", "all linearizations, radii, batches and step sizes", "real-valued domain", [N+"dogleg.py:Dogleg", N+"trust_region.py:TrustRegion._complete_step"])
p("Adaptive LM and Dogleg never increase a recorded error", "In a whole optimize() call with adaptive Levenberg-Marquardt or Dogleg (exact linear solves), the recorded error history of every batch element is non-increasing, in UNROLL, DLM and TRUNCATED modes.", "all objectives, initial values, initial damping or radius, batch sizes and iteration counts", "whole histories of an unbounded loop", [N+"levenberg_marquardt.py:LevenbergMarquardt", N+"dogleg.py:Dogleg", N+"nonlinear_least_squares.py:NonlinearLeastSquares"])
p("Vectorization covers the whole objective", "With vectorization on, error() and the Jacobians served range over exactly the cost functions currently in the objective.", "all histories of adding/erasing cost functions, enabling vectorization and evaluating", "histories are unbounded", ["theseus/core/vectorizer.py:Vectorize.__init__","theseus/core/objective.py:Objective.add","theseus/theseus_layer.py:TheseusLayer.__init__"])
p("SO3/SE3 exp and log are mutually inverse", "For SO3 and SE3, log_map(exp_map(v)) = v when the rotation angle is below pi and exp_map(log_map(g)) = g for every group element, exactly outside the small-angle branches and within a stated bound inside of them.", "all tangent vectors and group elements", "real-valued domain with several numerical branches", ["torchlie/torchlie/functional/so3_impl.py:_log_impl","torchlie/torchlie/functional/so3_impl.py:_exp_impl","torchlie/torchlie/functional/se3_impl.py:_log_impl","torchlie/torchlie/functional/se3_impl.py:_exp_impl"])
p("SO3/SE3 analytic Jacobians are derivatives", "The Jacobians returned for SO3/SE3 by exp_map, log_map, local, compose, inverse, between, rotate/unrotate, transform_from/transform_to, quaternion conversion and the Between/Local costs equal the derivative of the value along every smooth curve (right perturbations).", "all poses, points and tangent vectors", "real-valued domain", ["torchlie/torchlie/functional/so3_impl.py","torchlie/torchlie/functional/se3_impl.py","theseus/geometry/so3.py","theseus/geometry/se3.py"])
p("Rotation to quaternion conversion", "to_quaternion returns a unit quaternion that converts back to the same rotation, and converting a unit quaternion to a rotation and back returns it up to sign; likewise to_x_y_z_quaternion for poses.", "all rotations, poses and unit quaternions", "real-valued domain with branches near 0 and pi", ["theseus/geometry/so3.py:SO3.to_quaternion","theseus/geometry/se3.py:SE3.to_x_y_z_quaternion"])
p("Constructors validate their tensor", "A Manifold constructor given a tensor either stores a valid group element for every batch element (the tensor itself if valid, else its normalisation with a warning), or, with strict_checks, raises ValueError iff some element is invalid; disable_checks and no_lie_group_check store the tensor as given; normalize returns the nearest group element and keeps valid ones.", "all classes, batches, tensors, flags and contexts", "real-valued domain and all combinations of flags", ["theseus/geometry/manifold.py:Manifold.__init__","theseus/geometry/manifold.py:Manifold._check_tensor","theseus/geometry/so3.py:SO3._check_tensor_impl","torchlie/torchlie/functional/so3_impl.py:_normalize_impl_helper","torchlie/torchlie/functional/check_contexts.py"])
p("Custom backward passes compute gradients", "The backward pass of every torchlie SO3/SE3 operation with a hand-written one (exp, log, adjoint, inverse, hat, vee, compose, transform, untransform, quaternion_to_rotation, lift, project, left_act, left_project, normalize) returns the gradient of <grad_output, f(x)> with respect to the inputs.", "all inputs and incoming gradients", "real-valued domain", ["torchlie/torchlie/functional/so3_impl.py","torchlie/torchlie/functional/se3_impl.py"])
p("Kinematic Jacobians and gradients are derivatives", "The spatial and body Jacobians returned by torchkin give the spatial and body velocity of every requested link along every curve of joint angles, and the backward pass of forward kinematics returns the gradient of every linear functional of the requested poses.", "all kinematic trees, requested links and curves of joint angles", "trees are unbounded and the domain is real-valued", ["torchkin/torchkin/forward_kinematics.py:ForwardKinematicsFactory","torchkin/torchkin/forward_kinematics.py:get_forward_kinematics_fns"])
p("Axis-aligned joints are the joints they name", "RevoluteJointX/Y/Z and PrismaticJointX/Y/Z, constructed with or without an id, have that id and move about or along the axis they name, like the general joint with that unit axis.", "all ids, origins and angles", "real-valued domain", ["torchkin/torchkin/joint.py:RevoluteJointX","torchkin/torchkin/joint.py:PrismaticJointX","torchkin/torchkin/joint.py:_RevoluteJointXYZImpl"])
p("ManifoldGaussian objects stay consistent", "A ManifoldGaussian whose constructor succeeded keeps, along every history of updates including refused ones, a precision that is a batch of symmetric dof x dof matrices matching its means in batch size, dtype and device; an accepted update sets every mean and the precision and touches nothing else; a refused update changes nothing.", "all histories of update calls with arbitrary arguments", "unbounded histories", [O+"manifold_gaussian.py:ManifoldGaussian"])

p("The limited multi-label projection", "For a row with more than N entries (at most 1000) LML returns weights in (0,1), larger for larger entries, that sum to N up to length*eps/8, each within eps/8 of the exact projection; the exact projection is the maximiser of x.z + entropy(z) over 0<=z<=1 with sum N; the backward pass is the derivative of the exact projection; rows with at most N entries give 1-1e-5 everywhere.", "all rows, N, tolerances, branching factors and iteration limits wide enough for the tolerance", "real-valued; an iterative search that must end near the root for every input", ["theseus/third_party/lml.py:LML_Function.forward", "theseus/third_party/lml.py:LML_Function.backward"])
p("DCEM's loop", "A DCEM run takes at most max_iterations sampling steps, each from the mean and deviation left by the previous one, and stops early only when the convergence tests of all elements fire in the same iteration; histories, best solution and best error are exactly those of the run, an element is CONVERGED iff its test fired in some iteration, and otherwise MAX_ITERATIONS with converged_iter -1; TRUNCATED and IMPLICIT are refused.", "all objectives, random numbers, batch sizes and iteration counts", "whole histories of an unbounded loop", [N+"dcem.py:DCEM._optimize_loop", N+"dcem.py:DCEM._optimize_impl"])


EM="theseus/embodied/"
p("Constant-velocity motion model", "DoubleIntegrator's error is zero exactly when the second pose is the first one retracted by dt times the velocity and the velocities agree; it does not depend on the frame of reference; its Jacobians with respect to both poses and velocities are the derivatives of the error, for poses of every Lie group class.", "all poses, velocities and time steps", "real-valued domain", [EM+"motionmodel/double_integrator.py:DoubleIntegrator"])
p("Gaussian-process cost weight", "GPCostWeight computes a factor W with W^T W equal to the inverse covariance of the white-noise-on-acceleration prior over dt, for every dt > 0 and positive definite Qc_inv, so that the squared weighted error is the Mahalanobis distance; the constructor accepts exactly positive dt and Qc_inv with positive definite lower triangle.", "all time steps, dimensions, batches and matrices", "real-valued domain", [EM+"motionmodel/double_integrator.py:GPCostWeight"])
p("Signed distance field lookup", "signed_distance answers every query; at a grid node it is the stored value, inside a cell the bilinear interpolation of the corners, hence between the smallest and largest stored value and continuous on the rectangle of nodes; outside it is zero; the Jacobian is the derivative inside the cells; after update_data it uses the new data.", "all fields, origins, cell sizes and query points", "real-valued domain and all grid sizes", [EM+"collision/signed_distance_field.py:SignedDistanceField2D.signed_distance"])
p("Signed distance field of an occupancy map", "The field built from an occupancy map is, at a free cell, the distance to the nearest occupied cell and at an occupied cell minus the distance to the nearest free one, in world units; its sign tells occupied from free; between two cells it changes by at most twice their distance, it never grows if cells become occupied, and for an empty map it is constant and larger than every distance in the map.", "all maps with a free cell, sizes, thresholds and cell sizes", "all grid sizes", [EM+"collision/signed_distance_field.py:SignedDistanceField2D._compute_sdf_data_from_map"])
p("Collision and contact costs", "Collision2D is max(0, eps - distance) of the robot position and EffectorObjectContactPlanar the absolute difference of the distance of the effector in the object's frame and its radius; the Jacobians with respect to poses are the derivatives away from cell borders and hinges; the contact cost does not depend on the frame of reference.", "all fields, poses and margins", "real-valued domain", [EM+"collision/collision.py:Collision2D", EM+"collision/eff_obj_contact.py:EffectorObjectContactPlanar"])
p("Reprojection cost", "Reprojection's error is the pinhole projection with radial distortion of the world point in the camera frame minus the observed feature; its Jacobians with respect to the camera pose and the point are the derivatives at every non-zero depth; moving camera and point by the same rigid motion does not change it; cost functions built with default calibrations can be added to one objective.", "all poses, points, focal lengths and distortions", "real-valued domain", [EM+"measurements/reprojection.py:Reprojection"])
p("Quasi-static pushing model", "QuasiStaticPushingPlanar's error is zero exactly when the object velocity satisfies the limit-surface relation with the contact velocity; it does not depend on the frame of reference, is zero when nothing moves; its Jacobians with respect to the four poses are the derivatives.", "all poses and friction ratios", "real-valued domain", [EM+"motionmodel/quasi_static_pushing_planar.py:QuasiStaticPushingPlanar"])
p("Limits and nonholonomic constraint", "HingeCost is the distance of each component to the interval between the limits shrunk by the threshold, zero only within the limits, with its derivative as Jacobian; inconsistent limits and negative thresholds are rejected; Nonholonomic is the lateral velocity in the body frame, zero exactly if the velocity is along the heading, with its derivatives as Jacobians.", "all limits, thresholds, poses and velocities", "real-valued domain", [EM+"motionmodel/misc.py:HingeCost", EM+"motionmodel/misc.py:Nonholonomic"])
p("Jacobians of AutoDiffCostFunction", "For an error function that acts on each batch element by f, jacobians() returns, in every autograd mode and with broadcasting of batch size 1, the error of every batch element and, for every optimization variable of any geometry class, one matrix per batch element that is the derivative of f with respect to that variable; the three modes agree.", "all error functions, numbers and classes of variables, batch sizes and values", "all error functions and batch shapes", ["theseus/core/cost_function.py:AutoDiffCostFunction.jacobians", "theseus/core/cost_function.py:AutoDiffCostFunction._compute_autograd_jacobian_vmap", "theseus/geometry/manifold.py:Manifold.project"])

p("Dense solvers solve the least-squares problem", "DenseSolver.solve() (LU and Cholesky, without damping) returns for every batch element the only minimizer of the squared linearized error, or raises if one of the problems has no unique minimizer; with check_singular it never raises, gives the elements without unique minimizer a zero step and the others their minimizer; with damping it solves the damped system of every element.", "all linearizations, batches, damping values and options", "real-valued domain, all mixes of singular and regular batch elements", [O+"linear/dense_solver.py:DenseSolver.solve", O+"linear/dense_solver.py:CholeskyDenseSolver", O+"linear/dense_solver.py:LUDenseSolver"])
p("Linear least-squares problems are solved exactly", "For costs that are affine in vector variables, LinearOptimizer ends in one solve at the global minimizer from every initial value and reports CONVERGED, and FAIL (leaving the variables unchanged) if there is no unique minimizer; Gauss-Newton with step size s contracts the distance to the minimizer by 1-s per step, so that with step size 1 its result is the minimizer.", "all affine problems, initial values, batches, step sizes and iteration limits", "real-valued domain", [O+"linear/linear_optimizer.py:LinearOptimizer", N+"gauss_newton.py:GaussNewton"])
p("IMPLICIT mode returns the gradient of the solution", "With backward mode IMPLICIT, at a solution of the problem, the gradient that autograd returns is the derivative of the solution with respect to the inputs; TRUNCATED with one Gauss-Newton iteration returns the same.", "all differentiable problems, solutions and inputs", "real-valued domain, all error functions", [N+"nonlinear_least_squares.py:NonlinearLeastSquares._optimize_loop", N+"nonlinear_optimizer.py:NonlinearOptimizer._optimize_impl"])
p("DLM mode returns the gradient of the solution in the limit", "The gradient returned by backward mode DLM tends, as dlm_epsilon tends to 0, to that of mode IMPLICIT and hence to the derivative of the solution, for every incoming gradient.", "all problems, solutions, incoming gradients", "real-valued domain, a limit", ["theseus/theseus_layer.py:TheseusLayerDLMForward.backward", "theseus/theseus_layer.py:_DLMPerturbation"])
p("compute_samples draws from the Laplace approximation", "compute_samples returns, for every variable type, samples whose mean is the Gauss-Newton update of the current values and whose covariance is temperature times the inverse of the Hessian approximation, independent for different samples and batch elements; it raises if the Hessian approximation is singular.", "all linearizations, batches, temperatures and numbers of samples", "a statement on a distribution", ["theseus/theseus_layer.py:TheseusLayer.compute_samples"])
p("Checking Jacobians is sound and leaves no trace", "check_jacobians raises exactly if at some of the sampled values a Jacobian differs from the one of autograd by more than the tolerance; verify_jacobians reports success exactly if no cost function fails; in all cases every variable has afterwards the tensor it had before.", "all cost functions, random values and tolerances", "all cost functions and exceptions", ["theseus/utils/utils.py:check_jacobians", "theseus/core/cost_function.py:_tmp_tensors", "theseus/theseus_layer.py:TheseusLayer.verify_jacobians"])
p("TheseusLayer.forward", "forward raises and touches no variable if the objective was modified since the layer was built or the arguments are invalid; otherwise it sets the named variables, runs the optimizer once from there and returns the optimization variables' names with their final tensors; in DLM mode the backward pass works on the data of its own forward pass, also after to().", "all histories of objective and layer calls, all optimizers and arguments", "unbounded histories", ["theseus/theseus_layer.py:TheseusLayer.forward", "theseus/theseus_layer.py:TheseusLayer.to", "theseus/theseus_layer.py:TheseusLayerDLMForward"])
p("Cost weights", "ScaleCostWeight and DiagonalCostWeight multiply every row of the error and of the Jacobians of a batch element by the same weight, with broadcasting of batch size 1, so that the weighted Jacobians are the Jacobians of the weighted error; is_zero tells exactly the batch elements where every error is weighted to zero; shapes that do not fit are rejected.", "all weights, errors, Jacobians, batch sizes and dimensions", "real-valued domain, all shapes", ["theseus/core/cost_weight.py:ScaleCostWeight", "theseus/core/cost_weight.py:DiagonalCostWeight"])

p("torch optimizers stay on the group", "A LieGroupTensor updated by a torch optimizer inside enable_lie_tangent holds legal group elements after every sequence of updates; gradient descent with the Euclidean gradient decreases the loss for every small enough learning rate, unless the parameter is a stationary point of the loss on the group; vectors are updated as usual; outside of the context the optimizer makes its usual Euclidean update.", "all group classes, batch sizes, losses, update sequences and optimizer states", "real-valued domain, unbounded sequences of steps", ["theseus/geometry/utils.py:LieGroupTensor", "theseus/geometry/manifold.py:Manifold.project", "theseus/geometry/lie_group.py:LieGroup._retract_impl"])
p("Operators of LieTensor", "For LieTensors x * y is x.compose(y), so that (x * y) @ p = x @ (y @ p); inv undoes; local and retract are inverse to each other where log and exp are; arguments of the wrong type or ltype raise.", "all elements of SO3 and SE3 and all arguments", "real-valued domain", ["torchlie/torchlie/lie_tensor.py:LieTensor.__mul__", "torchlie/torchlie/lie_tensor.py:LieTensor.compose", "torchlie/torchlie/lie_tensor.py:LieTensor.__matmul__", "torchlie/torchlie/lie_tensor.py:LieTensor.local", "torchlie/torchlie/lie_tensor.py:LieTensor.retract"])
p("Torch functions on LieTensors", "Outside as_euclidean() only the supported torch functions work on LieTensors, and every LieTensor that one of them returns has the type of its arguments and legal data, however the arguments are passed; inside, every torch function works on the raw data without checks of types.", "all torch functions and arguments", "all functions and argument lists", ["torchlie/torchlie/lie_tensor.py:LieTensor.__torch_function__", "torchlie/torchlie/lie_tensor.py:LieTensor._torch_function_impl_lie", "torchlie/torchlie/lie_tensor.py:_LieTensorBase.get_ltype"])
p("LieTensors hold legal data; copies and aliases", "Along every history of creating tensors and LieTensors, aliasing, in-place operations and optimizer steps, every LieTensor holds legal data of its type; SO3(t), SE3(t), LieTensor(t, ltype) and new_lietensor copy, from_tensor and as_lietensor share memory; a step of an optimizer is seen through every alias; as_lietensor gives a LieTensor of the requested type.", "all histories", "unbounded histories", ["torchlie/torchlie/lie_tensor.py:LieTensor.__init__", "torchlie/torchlie/lie_tensor.py:LieTensor.from_tensor", "torchlie/torchlie/lie_tensor.py:as_lietensor", "torchlie/torchlie/lie_tensor.py:LieTensor.add_", "torchlie/torchlie/lie_tensor.py:LieTensor.new_lietensor"])

p("CUDA kernels for sparse matrices", "Whatever the order in which the GPU runs the threads of mat_vec, tmat_vec, mult_MtM and apply_damping, and whatever the memory held before, the results are the products with the matrix and its transpose, the product of the transpose with the matrix, and the damped diagonal; the pattern computed in Python has a place for every product; so the CUDA LU solver factors the damped normal matrix and its forward pass returns the solution of the damped normal equations, the same for all schedules; calls with arguments of wrong shape are rejected.", "all matrices, batch sizes, dampings and thread schedules", "thread schedules cannot be enumerated", ["theseus/extlib/mat_mult.cu:mult_MtM", "theseus/extlib/mat_mult.cu:mat_vec", "theseus/extlib/mat_mult.cu:tmat_vec", "theseus/extlib/mat_mult.cu:apply_damping", O+"linear/lu_cuda_sparse_solver.py:LUCudaSparseSolver.reset", O+"autograd/lu_cuda_sparse_autograd.py:LUCudaSolveFunction.forward"])

p("BaSpaCho solver on CPU and GPU", "For every non-empty batch and whatever the schedules of the GPU threads, add_MtM, add_M and damp of the BaSpaCho bindings add the product of the transpose with the matrix, the symmetric matrix with the given lower half and the damping to the matrix of every batch element, wherever the library puts its blocks and in whatever order, and solve solves the system; the block structure computed in Python has exactly the blocks that occur; so the forward pass of BaspachoSparseSolver returns the solution of the damped normal equations wherever their matrix is positive definite (with damping: always), the same on both devices.", "all linearizations, block sizes, layouts and orders of the library, batch sizes, dampings and thread schedules", "thread schedules and library layouts cannot be enumerated", ["theseus/extlib/baspacho_solver.cpp:NumericDecomposition", "theseus/extlib/baspacho_solver_cuda.cu:add_MtM_kernel", O+"linear/baspacho_sparse_solver.py:BaspachoSparseSolver.reset", O+"autograd/baspacho_sparse_autograd.py:BaspachoSolveFunction.forward"])

p("Local convergence of Gauss-Newton and Levenberg-Marquardt", "For errors that are twice continuously differentiable functions of vector variables, started close enough to a point where the errors vanish and the Jacobian has full column rank, optimize() with GaussNewton never fails and with step size 1 converges quadratically; LevenbergMarquardt with a fixed damping (not ellipsoidal), and any step size up to 1, converges linearly. Near a stationary point with a residual r the distance shrinks per step at any rate above (damping + L|r|)/(m^2 + damping), with L the Lipschitz constant of the Jacobian and m its smallest singular value at that point; if L|r| < m^2, every element is reported CONVERGED once max_iterations is large enough. An element of a Gauss-Newton run without residual that is reported CONVERGED has an error below batch_size * abs_err_tolerance. Without the condition on the residual, Gauss-Newton can move away from a unique minimum.", "all such problems, batches, starting values in a neighbourhood, tolerances and iteration limits", "real-valued domain, all problems", [N+"gauss_newton.py:GaussNewton.compute_delta", N+"levenberg_marquardt.py:LevenbergMarquardt.compute_delta", N+"nonlinear_least_squares.py:NonlinearLeastSquares._optimize_loop", N+"nonlinear_optimizer.py:NonlinearOptimizer._check_convergence"])

p("Jacobians from torchlie's functional interface and LieTensor", "Passing jacobians= to exp, log, inverse, quaternion_to_rotation, compose, transform or untransform of the functional interface of SO3 and SE3 changes neither the result nor its gradient nor the exception of the plain call, refuses a list that is not empty and otherwise fills it with the derivatives with respect to the arguments, in their order, whatever the settings; the other operators refuse it; jexp, jlog, jinv, jquaternion_to_rotation, jcompose, jtransform, juntransform and the methods of LieTensor return the same Jacobians and values.", "both groups, all data, lists and settings (checks, passthrough)", "real-valued domain, all settings", ["torchlie/torchlie/functional/lie_group.py:UnaryOperatorOpFnType", "torchlie/torchlie/functional/lie_group.py:UnaryOperatorFactory", "torchlie/torchlie/functional/lie_group.py:BinaryOperatorFactory", "torchlie/torchlie/lie_tensor.py:LieTensor._unary_jop_base"])

p("Global parameters", "After every history of calls of set_global_params and reset_global_params of torchlie and theseus, a call that returns has set exactly the options it names in its own package, and one that raises has changed nothing; it raises exactly for names that are not options; an option has the value of the last call that names it, or its value at import after a reset; get_eps returns for both dtypes the option of its name, torchlie's options taking precedence, and every tolerance read by the library exists and is positive at import.", "all histories of calls, all options and values", "unbounded histories", ["torchlie/torchlie/global_params.py:set_global_params", "torchlie/torchlie/global_params.py:reset_global_params", "theseus/global_params.py:set_global_params", "theseus/global_params.py:_TheseusGlobalParams.get_eps"])

p("Finite-difference Jacobians", "For a function that acts on each batch element, with arguments and result in any of the group classes and function_dim its dimension, numeric_jacobian returns, with broadcasting of arguments of batch size 1, matrices that tend to the Jacobians with respect to every argument at every batch element as delta_mag tends to 0; for results that are vectors the error is at most M delta_mag^2/6, with M a bound of the third derivative along the perturbation; numeric_grad approximates the gradient in the same way for arrays of floating-point numbers; calls whose shapes do not fit raise.", "all functions, groups, batch sizes, values and steps", "real-valued domain, a limit", ["theseus/utils/utils.py:numeric_jacobian", "theseus/utils/utils.py:numeric_grad"])
p("Timer, gather_from_rows_cols and build_mlp", "A Timer records, for every history of timed sections, under each name exactly the durations of the sections of that name that were not deactivated, in order, and an inactive one nothing; gather_from_rows_cols returns matrix[i, rows[i, j], cols[i, j]], with one matrix for all i if there is only one, and raises for indices outside; build_mlp returns a network from input_dim to output_dim with hidden_depth hidden layers of size hidden_dim and an activation between any two linear layers.", "all histories of calls and clock readings, all shapes and indices, all depths", "unbounded histories and sizes", ["theseus/utils/utils.py:Timer", "theseus/utils/utils.py:gather_from_rows_cols", "theseus/utils/utils.py:build_mlp"])

PG="theseus/utils/examples/pose_graph/dataset.py:"
p("Pose graph files", "read_3D_g2o_file of a g2o file returns the edges of the file in order, with the measured pose and as weights the square roots of the information matrix, and its vertices in the order of their numbers, so that the ends of edges are positions in the list of poses; it ignores other lines and raises for incomplete ones; reading what write_3D_g2o wrote gives the poses, edges and weights back; read_2D_g2o_file does the same for planar files.", "all files, poses, edges and batch elements", "all files", [PG+"read_3D_g2o_file", PG+"read_2D_g2o_file", PG+"PoseGraphDataset.write_3D_g2o"])
p("Pose graph datasets", "PoseGraphDataset accepts exactly poses, measurements and ground truth of one common size; the batches get_batch_dataset(0), ..., get_batch_dataset(num_batches - 1) have at most batch_size elements each and concatenated give the dataset; other numbers raise; histogram counts every error of every edge once, in its bucket; in the data of generate_synthetic_3D every measurement is the true motion between its ends composed with its noise, so that its error at the true poses is that noise, edges join all consecutive poses, and no two edges have the same ends.", "all datasets, sizes, batch sizes and random numbers", "all sizes and random numbers", [PG+"PoseGraphDataset", PG+"PoseGraphDataset.get_batch_dataset", PG+"PoseGraphDataset.histogram", PG+"PoseGraphDataset.generate_synthetic_3D"])

BA="theseus/utils/examples/bundle_adjustment/data.py:"
p("Bundle adjustment files", "load_bal_dataset reads exactly the files in the BAL format (counts, observations, nine parameters per camera, three coordinates per point) and returns the cameras, points and observations that they list, in order; every other file raises. load_from_file of what save_to_file wrote gives back the same problem, with its ground truth.", "all files, problems and rotations", "all files, real-valued domain", [BA+"BundleAdjustmentDataset.load_bal_dataset", BA+"BundleAdjustmentDataset.save_bal_dataset", BA+"BundleAdjustmentDataset.load_from_file", BA+"BundleAdjustmentDataset.save_to_file", BA+"Camera.to_params", BA+"Camera.from_params"])
p("Synthetic bundle adjustment problems", "Whatever is drawn, generate_synthetic returns a problem in which every camera observes min(average_track_length * num_points // num_cameras, num_points) different existing points; at the ground truth the reprojection error of every observation is its noise, at most feat_random per coordinate, or feat_random + outlier_feat_random for outliers; the starting values are within the requested ranges of the ground truth; random_small_quaternion(max_degrees) rotates by at most max_degrees around a random axis; every point can be observed.", "all sizes and options, all random numbers", "all random numbers, real-valued domain", [BA+"BundleAdjustmentDataset.generate_synthetic", BA+"Camera.generate_synthetic", BA+"Camera.perturbed", BA+"Camera.project_point", "theseus/utils/examples/bundle_adjustment/util.py:random_small_quaternion", "theseus/embodied/measurements/reprojection.py:Reprojection.error"])
p("Error histograms and soft losses of bundle adjustment", "histogram counts every observation once, in the bucket of its reprojection error rounded down, the last bucket being for 10 pixels and more; it draws bars of at most 80 characters, of 80 for the fullest bucket; it raises exactly if there is no observation or one of a missing camera or point or of a point in the plane of the camera. The second result of soft_loss_cauchy and soft_loss_huber_like is the derivative of the first.", "all problems, all arguments above -radius", "all problems, real-valued domain", [BA+"BundleAdjustmentDataset.histogram", BA+"ba_histogram", "theseus/utils/examples/bundle_adjustment/util.py:soft_loss_cauchy", "theseus/utils/examples/bundle_adjustment/util.py:soft_loss_huber_like"])

MP="theseus/utils/examples/motion_planning/"
p("The motion planning objective", "Building a MotionPlanner succeeds exactly for the arguments with positive horizon, at least one step, a known pose type, and consistent weights and dtypes; the objective then holds exactly: pose and velocity of step 0 and of the last step tied to start and goal, for every step from 1 a collision cost and a Gaussian-process cost linking it to the previous step, and the optional nonholonomic and velocity costs; every variable appears once, in a known order.", "all constructor arguments and numbers of steps", "number of steps is unbounded", [MP+"motion_planner.py:MotionPlannerObjective"])
p("What the planner's cost measures", "The squared error norm of a planner objective is the sum of the weighted squared distances of the ends to start and goal and zero velocity, of the squared hinge of the signed distance at every step after the first, and of the Mahalanobis norms of the deviation from constant velocity between consecutive steps; it is zero exactly for the trajectories that start and end at rest where asked, move consistently with the velocities and keep the safety distance, also with the optional costs.", "all trajectories, fields, weights and numbers of steps", "real-valued, unbounded number of steps", [MP+"motion_planner.py:MotionPlannerObjective"])
p("Trajectories in and out of the planner, copies", "The straight-line initialization runs from start to goal at constant velocity and has no motion cost between steps; get_trajectory and get_variable_values_from_trajectory are inverse to each other and keep every value; get_total_squared_errors gives the summed errors of exactly the GP and of exactly the collision costs; copy() gives a planner with the same objective, with the collision weight given.", "all trajectories, planners and numbers of steps", "unbounded number of steps, all names", [MP+"motion_planner.py:MotionPlanner.get_variable_values_from_straight_line", MP+"motion_planner.py:MotionPlanner.get_trajectory", MP+"motion_planner.py:MotionPlanner.get_variable_values_from_trajectory", MP+"motion_planner.py:MotionPlanner.get_total_squared_errors", MP+"motion_planner.py:MotionPlanner.copy"])
p("The learned initial trajectory", "InitialTrajectoryModel's mean trajectory starts at the start and ends at the goal, bends away from the straight line by a parabola whose height is the predicted coefficient, with velocities that are its finite differences; the sampled trajectory is the mean displaced at every time step by the sampled value of that step.", "all starts, goals, coefficients, samples and numbers of steps", "real-valued, unbounded number of steps", [MP+"models.py:InitialTrajectoryModel.forward"])

TP="theseus/utils/examples/tactile_pose_estimation/"
p("Tactile measurements as inputs", "get_tactile_nn_measurements_inputs returns, for every pair of steps for which the estimator has a measurement variable and for no other, one row per batch element: the measurement of that pair in that batch element, so that with the oracle's measurements the measurement costs vanish at the true poses; TactileMeasModel is one affine map per object class; poses go into and out of the layer unchanged.", "all windows, numbers of steps, batch sizes, networks and poses", "all sizes", [TP+"models.py:get_tactile_nn_measurements_inputs", TP+"models.py:TactileMeasModel", TP+"models.py:get_tactile_poses_from_values", TP+"models.py:get_tactile_initial_optim_vars"])
p("The objective of the tactile pose estimator", "Building a TactilePoseEstimator succeeds exactly for windows with a positive step and double precision as default; the objective then holds exactly: the prior on the first object pose, a quasi-static cost for every consecutive pair of steps, a measurement cost for every pair of steps in the windows, a contact and an effector-prior cost for every step and the optional regularization, each on the variables of its steps; its optimization variables are exactly the object and effector poses of all steps, and the inputs computed from a batch match the auxiliary variables.", "all constructor arguments and numbers of steps", "number of steps is unbounded", [TP+"pose_estimator.py:TactilePoseEstimator"])
p("Example datasets", "TactilePushingDataset reads at most max_episodes episodes of the required length from a file, every one a contiguous piece of the steps of one recorded episode, in the order of their numbers; training and validation sets are disjoint and together all episodes; the batches hold each episode once; get_batch of another number raises. The training and validation files of TrajectoryDataset are disjoint and together exactly the maps without collision of the chosen types, with the requested fraction for validation.", "all recordings, options, permutations and sizes", "all sizes and permutations", [TP+"misc.py:TactilePushingDataset", TP+"misc.py:TactilePushingDataset.get_batch", MP+"misc.py:TrajectoryDataset"])

p("Robot models", "For a legal URDF file and known link names, UrdfRobotModel.forward_kinematics returns exactly the selected links, each with the composition of joint frames and motions along its path from the root; passing an empty dictionary fills it with the body or spatial Jacobians of the same links and changes nothing else; a non-empty dictionary, a wrong number of joint states, an unknown link and inputs of another type raise. IdentityModel returns its argument exactly for vectors with two degrees of freedom.", "all files, link names, joint states and both kinds of Jacobians", "all trees of links and joints", ["theseus/embodied/kinematics/kinematics_model.py:UrdfRobotModel", "theseus/embodied/kinematics/kinematics_model.py:IdentityModel"])
p("Inverse kinematics", "In the inverse kinematics example, the step computed from the body or spatial Jacobian with the pseudo-inverse is the shortest least-squares solution of the linearised equation; when the error is in reach of the Jacobian, every small enough fraction of the step reduces the distance of the link from its target; at the target the step is zero and the loop stops; when the loop stops early every element of the batch is within the tolerance.", "all files, joint states away from the small-angle threshold, targets and both kinds of Jacobians", "all trees, all joint states, a limit of step sizes", ["examples/inverse_kinematics.py:compute_delta_theta", "examples/inverse_kinematics.py:run_ik_using_body_or_spatial_jacobian", "torchkin/torchkin/forward_kinematics.py:get_forward_kinematics_fns"])

p("Reading a URDF document", "A well-formed XML document is accepted as a URDF exactly if the root has a name and no version or version 1.0, every link has a name, every joint has a name, a known type, a parent and a child, every origin, axis and other element of the schema can be read; the result lists the links and joints in document order, each joint with the frame (zero by default) and the axis of its element; the first of several scalar elements counts, a parent or child element without a link names the link None. Comments, unknown attributes and elements, the order of attributes and the mixing of elements of different names make no difference.", "all XML trees and all number syntaxes", "all documents of any size and nesting", ["torchkin/torchkin/third_party/urdf_parser_py/xml_reflection/core.py:Reflection.set_from_xml", "torchkin/torchkin/third_party/urdf_parser_py/urdf.py:Robot", "torchkin/torchkin/third_party/urdf_parser_py/urdf.py:Joint"])
p("Robots from files", "Robot.from_urdf_file makes, from every file whose links and joints form a tree of supported joints, a robot with one degree of freedom for each joint that moves by itself (a mimic joint follows the joint that it names), and forward kinematics gives every link the composition of the frames and motions that the file declares along its path, with the default of URDF for an axis that is not given; unsupported joints and undeclared links raise.", "all files and joint states", "all documents and trees", ["torchkin/torchkin/robot.py:Robot.from_urdf_file", "torchkin/torchkin/third_party/urdf_parser_py/urdf.py:JointMimic"])

p("Copies of cost functions and cost weights", "copy() of a cost function or a cost weight returns an object of the same class and options that evaluates to the same (weighted) error and Jacobians, whose variables are all new objects with the data of the original's, under the same attributes and roles and, if asked to, with the same names; nothing changes in the original, and later updates of the variables of one do not change the other. This holds for robust cost functions too, whose copy shares its variables with a copy of the wrapped one. copy() raises only if a constructor refuses the data.", "all cost functions and weights of the library, over all data of their variables, all sharings of variables and all names", "all data, sharings and histories of updates before the copy", ["theseus/core/theseus_function.py:TheseusFunction.copy", "theseus/core/cost_function.py:CostFunction.copy", "theseus/core/cost_function.py:AutoDiffCostFunction._copy_impl", "theseus/core/cost_weight.py:CostWeight.copy", "theseus/core/robust_cost_function.py:RobustCostFunction._copy_impl", "theseus/embodied/motionmodel/double_integrator.py:DoubleIntegrator._copy_impl"])

p("Batches of the limited multi-label projection", "LML of a batch gives every row the weights of the row alone, whatever the other rows are and however long their search takes, with the accuracy of C67, and raises only if a row alone does; a single vector is treated as a batch of one; the backward pass of a batch is the derivative of the exact projections of its rows.", "all batches of rows of the same length, N, tolerances, branching factors and iteration limits", "rows leave the search at different iterations, over all batches", ["theseus/third_party/lml.py:LML_Function.forward", "theseus/third_party/lml.py:LML_Function.backward"])

p("Random and identity group elements", "rand and randn of SO2, SE2, SO3 and SE3 return, whatever the generator produces, as many elements of the group as asked for, never raising for one non-negative size; they can draw every element (rand: every rotation up to a set of measure zero, translations in the unit cube); the result tracks gradients exactly if asked; identity is the identity; check_jacobians draws its variables from the group.", "all generators, sizes, draws, thresholds and tolerances", "statements about every possible draw and about what can be drawn at all; a test sees one seed", ["torchlie/torchlie/functional/so3_impl.py:rand", "torchlie/torchlie/functional/so3_impl.py:randn", "torchlie/torchlie/functional/so3_impl.py:identity", "torchlie/torchlie/functional/se3_impl.py:rand", "torchlie/torchlie/functional/se3_impl.py:randn", "theseus/geometry/so2.py:SO2.rand", "theseus/geometry/se2.py:SE2.rand", "theseus/geometry/so3.py:SO3.rand", "theseus/geometry/se3.py:SE3.rand", "theseus/geometry/vector.py:Vector.rand", "theseus/utils/utils.py:_rand_fill_"])

p("Group actions on batches of tensors", "SO3.left_act and SE3.left_act broadcast the batch dimensions of the group with those of the tensor (filling missing ones in front), keep the dim_out dimensions before the last two, and multiply every matrix with the rotation of its group element; left_project gives the tangent part of R^T M the same way; compose and transform are the products at the broadcast batch index. Exactly the wrong shapes raise the shape error, shapes that do not broadcast raise, and so does every negative dim_out, which is also the default for a tensor with fewer batch dimensions than the group.", "all batch shapes, kept dimensions, indices and values", "the dimensions are permuted by index arithmetic on the number of dimensions; tests fix a few shapes", ["torchlie/torchlie/functional/so3_impl.py:_left_act_impl", "torchlie/torchlie/functional/se3_impl.py:_left_act_impl", "torchlie/torchlie/functional/lie_group.py:LeftProjectImplFactory", "torchlie/torchlie/functional/utils.py:permute_op_dim", "torchlie/torchlie/functional/utils.py:unpermute_op_dim", "torchlie/torchlie/functional/utils.py:fill_dims", "torchlie/torchlie/functional/so3_impl.py:_compose_impl", "torchlie/torchlie/functional/so3_impl.py:_transform_impl"])

p("Gradients through group actions on batches", "The backward passes of SO3.left_act, SE3.left_act, SO3.left_project, SE3.left_project, SO3.compose and SO3.transform return, for every output gradient, gradients with the shapes of the inputs that are the transposes of the forward operation (linear in each argument), whatever was broadcast, filled in front or kept by dim_out.", "all batch shapes, kept dimensions, inputs, output gradients and directions", "the backward passes permute, transpose and sum dimensions by index arithmetic; gradcheck on a few shapes cannot settle the others", ["torchlie/torchlie/functional/so3_impl.py:_left_act_backward_helper", "torchlie/torchlie/functional/so3_impl.py:LeftAct", "torchlie/torchlie/functional/so3_impl.py:LeftProject", "torchlie/torchlie/functional/so3_impl.py:_lift_impl", "torchlie/torchlie/functional/so3_impl.py:Compose", "torchlie/torchlie/functional/so3_impl.py:TransformFrom", "torchlie/torchlie/functional/se3_impl.py:LeftAct", "torchlie/torchlie/functional/se3_impl.py:LeftProject"])

p("SE3 compose, transform and untransform on batches, forwards and backwards", "SE3.compose, SE3.transform, SE3.untransform and SO3.untransform of batches of any broadcastable shapes hold at every index the result for the single elements, raise when the shapes cannot be broadcast, and their backward passes return, with the shapes of the inputs, the derivatives of the pairing of the result with the output gradient.", "all batch shapes, poses, points, output gradients and directions", "slices, concatenation, broadcasting and views are index arithmetic, right for the few shapes of a test and wrong for others; the backward passes are written by hand", ["torchlie/torchlie/functional/se3_impl.py:_compose_impl", "torchlie/torchlie/functional/se3_impl.py:Compose", "torchlie/torchlie/functional/se3_impl.py:_transform_impl", "torchlie/torchlie/functional/se3_impl.py:TransformFrom", "torchlie/torchlie/functional/se3_impl.py:_untransform_impl", "torchlie/torchlie/functional/se3_impl.py:Untransform", "torchlie/torchlie/functional/so3_impl.py:_untransform_impl", "torchlie/torchlie/functional/so3_impl.py:Untransform"])

p("Jacobians on batches", "The Jacobian functions jcompose, jtransform and juntransform of SO3 and SE3, on batches of any broadcastable shapes, return the result of the operation and Jacobians of the broadcast batch shape whose entry at every index is the Jacobian of the single elements (which are the derivatives in the tangent space), and raise when the shapes cannot be broadcast.", "all batch shapes, group elements, points, and contents of uninitialised memory", "expand, slice assignment and new_empty are right for the few shapes of a test and wrong for others; an entry that is never written shows whatever was in memory", ["torchlie/torchlie/functional/so3_impl.py:_jcompose_impl", "torchlie/torchlie/functional/so3_impl.py:_jtransform_impl", "torchlie/torchlie/functional/so3_impl.py:_juntransform_impl", "torchlie/torchlie/functional/se3_impl.py:_jcompose_impl", "torchlie/torchlie/functional/se3_impl.py:_jtransform_impl", "torchlie/torchlie/functional/se3_impl.py:_juntransform_impl", "torchlie/torchlie/functional/se3_impl.py:_adjoint_impl"])

p("Quaternions on batches", "quaternion_to_rotation of a tensor of quaternions of any batch shape returns the rotations of that batch shape, with jacobians= it returns the same rotations and puts one Jacobian of that batch shape in the list, at every index those of the single quaternion; the backward pass returns a gradient of the shape of the quaternions, at every index that of the single quaternion; a last dimension other than 4 raises.", "all batch shapes and quaternions", "single quaternions are made a batch of one in one of the two functions only; a test of a few shapes cannot settle the others", ["torchlie/torchlie/functional/so3_impl.py:_quaternion_to_rotation_impl", "torchlie/torchlie/functional/so3_impl.py:_jquaternion_to_rotation_impl", "torchlie/torchlie/functional/so3_impl.py:QuaternionToRotation", "torchlie/torchlie/functional/lie_group.py:UnaryOperatorFactory"])

p("SE3.inverse and SE3.adjoint on batches", "For poses of any batch shape, SE3.inverse returns a tensor of that shape with the inverse of each pose and SE3.adjoint a tensor of 6x6 matrices of that batch shape with the adjoint of each pose, and SE3.jinverse the inverses with one Jacobian per pose, minus its adjoint; backward, the gradients have the shape of the poses and are at every index those of the single pose for the output gradient at that index.", "all batch shapes, poses and output gradients", "the block assignments, slices and views are on whole tensors; a test of a few shapes cannot settle the others", ["torchlie/torchlie/functional/se3_impl.py:_inverse_impl", "torchlie/torchlie/functional/se3_impl.py:Inverse", "torchlie/torchlie/functional/se3_impl.py:_adjoint_impl", "torchlie/torchlie/functional/se3_impl.py:Adjoint", "torchlie/torchlie/functional/lie_group.py:JInverseImplFactory"])

p("lift and project on batches", "For tensors of any batch shape, SO3.lift, SO3.project, SE3.lift and SE3.project return the results of the single vectors or matrices at every index; other last dimensions raise; backward, each returns a gradient of the shape of its input that is the gradient of the inner product of the result with the output gradient.", "all batch shapes, tensors and output gradients", "the backward pass of each calls the other on whole tensors; a test of a few shapes cannot settle the others", ["torchlie/torchlie/functional/so3_impl.py:_lift_impl", "torchlie/torchlie/functional/so3_impl.py:_project_impl", "torchlie/torchlie/functional/se3_impl.py:_lift_impl", "torchlie/torchlie/functional/se3_impl.py:_project_impl"])

if __name__=="__main__":
    with open(__import__("os").path.join(__import__("os").path.dirname(__import__("os").path.dirname(__import__("os").path.abspath(__file__))),"properties.jsonl"),"w") as f:
        for x in P: f.write(json.dumps(x)+"\n")
    print(len(P))
