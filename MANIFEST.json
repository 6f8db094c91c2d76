{
 "claims": [
  {
   "property": "C01",
   "status": "proved",
   "theorems": [
    "Verif.Objective.one_name_one_object",
    "Verif.Objective.conflicting_add_raises",
    "Verif.Objective.add_accepts_iff"
   ],
   "note": ""
  },
  {
   "property": "C02",
   "status": "proved",
   "theorems": [
    "Verif.Objective.hasOptimVar_iff_used",
    "Verif.Objective.hasAuxVar_iff_used",
    "Verif.Objective.erase_never_raises"
   ],
   "note": ""
  },
  {
   "property": "C03",
   "status": "partial",
   "theorems": [
    "Verif.Objective.readd_not_noop",
    "Verif.Objective.readd_partial"
   ],
   "note": "The code violates the property (readd_not_noop is a concrete counterexample); readd_partial is what does hold."
  },
  {
   "property": "C04",
   "status": "proved",
   "theorems": [
    "Verif.Objective.erase_increases_version",
    "Verif.Objective.add_increases_version",
    "Verif.Objective.version_detects_change"
   ],
   "note": ""
  },
  {
   "property": "C05",
   "status": "proved",
   "theorems": [
    "Verif.Objective.stale_runner_refused_iff"
   ],
   "note": ""
  },
  {
   "property": "C06",
   "status": "partial",
   "theorems": [
    "Verif.Objective.add_not_atomic",
    "Verif.Objective.caught_exceptions_break_unique_names",
    "Verif.Objective.add_atomic_partial"
   ],
   "note": "The code violates the property (add_not_atomic); only the duplicate-name rejection is atomic (add_atomic_partial)."
  },
  {
   "property": "C07",
   "status": "proved",
   "theorems": [
    "Verif.Objective.erase_undoes_add"
   ],
   "note": ""
  },
  {
   "property": "C08",
   "status": "proved",
   "theorems": [
    "Verif.Objective.connected_optim_exact",
    "Verif.Objective.connected_aux_exact",
    "Verif.Objective.connected_by_name"
   ],
   "note": ""
  },
  {
   "property": "C09",
   "status": "proved",
   "theorems": [
    "Verif.Objective.optim_aux_disjoint",
    "Verif.Objective.dual_add_raises",
    "Verif.Objective.dual_add_is_keyError"
   ],
   "note": "mixed_erase_raises shows the experimental mixed mode is not covered by the property."
  },
  {
   "property": "C10",
   "status": "proved",
   "theorems": [
    "Verif.Objective.sizes_and_dim",
    "Verif.Objective.iter_eq_spec",
    "Verif.Objective.getCostFunction_spec"
   ],
   "note": ""
  },
  {
   "property": "C100",
   "status": "partial",
   "theorems": [
    "Verif.Bundle.random_spheres",
    "Verif.Bundle.small_quaternion_rotates",
    "Verif.Bundle.small_quaternion_bound",
    "Verif.Bundle.small_quaternion_exceeds",
    "Verif.Bundle.project_reprojection",
    "Verif.Bundle.perturbed_near",
    "Verif.Bundle.generate_returns",
    "Verif.Bundle.generate_observations",
    "Verif.Bundle.generate_features",
    "Verif.Bundle.generate_near",
    "Verif.Bundle.generate_unobserved",
    "Verif.Bundle.default_unobserved"
   ],
   "note": "False in the code: random_small_quaternion rotates by twice the angle it is asked for (small_quaternion_rotates, small_quaternion_exceeds); one camera divides by zero (generate_returns); the points beyond the span of the last camera are never observed (generate_unobserved, default_unobserved). Random numbers are inputs; the order of the draws, dtypes and names are not modelled."
  },
  {
   "property": "C101",
   "status": "proved",
   "theorems": [
    "Verif.Bundle.histogram_returns",
    "Verif.Bundle.histogram_counts",
    "Verif.Bundle.soft_losses"
   ],
   "note": "The bar lengths and counts are modelled, not the text around them."
  },
  {
   "property": "C102",
   "status": "proved",
   "theorems": [
    "Verif.Planner.build_returns",
    "Verif.Planner.build_costs",
    "Verif.Planner.build_vars"
   ],
   "note": "Legal says which arguments are accepted; among its conditions are two a user would not expect: with a non-zero nonholonomic or velocity weight the dtype of the planner must be the default dtype, and a negative velocity weight raises UnboundLocalError. Names are modelled as an injective code; shapes of Qc_inv are checked later, by the weight."
  },
  {
   "property": "C103",
   "status": "partial",
   "theorems": [
    "Verif.Planner.planner_cost",
    "Verif.Planner.zero_cost",
    "Verif.Planner.point2_zero_cost",
    "Verif.Planner.positive_vel_conflict"
   ],
   "note": "False with the positive-velocity cost: its hinge asks for velocity at least 1 also where the boundary costs ask for zero velocity, so that no trajectory has zero cost (positive_vel_conflict). One batch element; the values of the collision field are a parameter (C71, C73)."
  },
  {
   "property": "C104",
   "status": "partial",
   "theorems": [
    "Verif.Planner.straight_line",
    "Verif.Planner.straight_line_cost",
    "Verif.Planner.straight_se2",
    "Verif.Planner.straight_se2_deviation",
    "Verif.Planner.values_of",
    "Verif.Planner.trajectory_of",
    "Verif.Planner.trajectory_roundtrip",
    "Verif.Planner.trajectory_rounded",
    "Verif.Planner.total_errors",
    "Verif.Planner.copy_same",
    "Verif.Planner.copy_drops",
    "Verif.Planner.copy_weight"
   ],
   "note": "False in the code: the straight line of SE2 poses uses world-frame velocities, so that it has a motion cost unless the start heading is zero (straight_se2_deviation); get_trajectory rounds to the default dtype (trajectory_rounded); copy() drops the nonholonomic and velocity costs (copy_drops) and ignores collision_weight=0 (copy_weight)."
  },
  {
   "property": "C105",
   "status": "partial",
   "theorems": [
    "Verif.Planner.mean_pos",
    "Verif.Planner.mean_ends",
    "Verif.Planner.initial_mean",
    "Verif.Planner.sample_rows",
    "Verif.Planner.sample_misplaced"
   ],
   "note": "False in the code for the samples: rows of the sample are in the order of the objective (step 0, last step, 1, 2, ...) but are added to the trajectory in time order, so that every step but the first is displaced by the sample of another one (sample_rows, sample_misplaced). The network is a parameter; start equal to goal, where the code gives NaN, is excluded."
  },
  {
   "property": "C106",
   "status": "partial",
   "theorems": [
    "Verif.Tactile.pairs_spec",
    "Verif.Tactile.measurements_return",
    "Verif.Tactile.oracle_rows",
    "Verif.Tactile.network_rows",
    "Verif.Tactile.measurements_right_partial",
    "Verif.Tactile.measurements_mixed",
    "Verif.Tactile.oracle_truth_partial",
    "Verif.Tactile.oracle_truth_fails",
    "Verif.Tactile.meas_model_class",
    "Verif.Tactile.poses_roundtrip"
   ],
   "note": "False in the code: with two or more batch elements and pairs the rows of different elements and pairs are mixed up (measurements_mixed, oracle_truth_fails), and with a network the whole batch gets the same row; get_tactile_poses_from_values rounds to the default dtype (poses_roundtrip). Window parameters are natural numbers; the networks are parameters."
  },
  {
   "property": "C107",
   "status": "proved",
   "theorems": [
    "Verif.Tactile.build_returns",
    "Verif.Tactile.build_costs",
    "Verif.Tactile.build_vars",
    "Verif.Tactile.inputs_match"
   ],
   "note": "Names are modelled as an injective code; a zero window step raises only if the loop around it is entered; with 0 steps nothing is added."
  },
  {
   "property": "C108",
   "status": "partial",
   "theorems": [
    "Verif.Tactile.uniqueIds_spec",
    "Verif.Tactile.load_spec",
    "Verif.Tactile.load_episodes",
    "Verif.Tactile.single_step_raises",
    "Verif.Tactile.split_partition",
    "Verif.Tactile.val_count",
    "Verif.Tactile.tactile_batches",
    "Verif.Tactile.tactile_minus_one",
    "Verif.Tactile.trajectory_split",
    "Verif.Tactile.trajectory_val_empty"
   ],
   "note": "False in the code: a recorded episode with one step raises (single_step_raises); with split episodes more than max_episodes can be kept (load_spec); two episodes are set aside for validation even for val_ratio 0 (val_count); get_batch(-1) is empty instead of raising (tactile_minus_one); TrajectoryDataset counts training maps before removing those with collisions, so that there may be none for validation (trajectory_val_empty). Reading files and images is not modelled; permutations are inputs."
  },
  {
   "property": "C109",
   "status": "proved",
   "theorems": [
    "Verif.Kin.robot_model_poses",
    "Verif.Kin.robot_model_raises",
    "Verif.Kin.robot_model_default_links_raises",
    "Verif.Kin.identity_model"
   ],
   "note": "One row of joint states is modelled. The default link_names=None builds a model that accepts no joint states (robot_model_default_links_raises). The Jacobians are those of C64, with its caveat below the small-angle threshold."
  },
  {
   "property": "C11",
   "status": "partial",
   "theorems": [
    "Verif.Copy.copy_isomorphic_partial",
    "Verif.Copy.copyLoop_reads",
    "Verif.Copy.copy_fails_shared_with_weight",
    "Verif.Copy.copy_fails_mixed",
    "Verif.Copy.copy_robust_detached"
   ],
   "note": "The code violates the property: copy() raises when a cost function shares a variable with its own weight, and robust cost functions sharing a variable are detached from the copied objective. copy_isomorphic_partial is the full isomorphism for all other objectives."
  },
  {
   "property": "C110",
   "status": "proved",
   "theorems": [
    "Verif.Kin.ik_step_descends",
    "Verif.Kin.ik_step_least_squares",
    "Verif.Kin.ik_at_target",
    "Verif.Kin.ik_loop"
   ],
   "note": "pinverse is specified by the Penrose equations, which have exactly one solution (IsPinv.exists, IsPinv.unique). The descent is stated where the kinematic Jacobian and the logarithm are differentiable; rounding is not modelled."
  },
  {
   "property": "C111",
   "status": "proved",
   "theorems": [
    "Verif.Kin.Urdfx.urdf_reads",
    "Verif.Kin.Urdfx.declares_unique",
    "Verif.Kin.Urdfx.read_iff",
    "Verif.Kin.Urdfx.read_ext"
   ],
   "note": "The lexer (float restricted to finite numbers, str.split) is a parameter; the XML tree is the one that lxml delivers. Which exception is raised and the messages on stderr are not part of the claim."
  },
  {
   "property": "C112",
   "status": "partial",
   "theorems": [
    "Verif.Kin.Urdfx.urdf_file_fk_partial",
    "Verif.Kin.Urdfx.urdf_file_rejects",
    "Verif.Kin.Urdfx.urdf_mimic_wrong",
    "Verif.Kin.Urdfx.urdf_default_axis_wrong"
   ],
   "note": "The code violates the property in two places: a mimic joint is an independent degree of freedom (urdf_mimic_wrong), and a moving joint without an axis is accepted by the parser but raises in from_urdf_file instead of getting the x-axis (urdf_default_axis_wrong). For files without these the property is urdf_file_fk_partial."
  },
  {
   "property": "C113",
   "status": "partial",
   "theorems": [
    "Verif.CopyFn.copy_cost_function_partial",
    "Verif.CopyFn.copy_error",
    "Verif.CopyFn.copy_jacobians",
    "Verif.CopyFn.copy_class",
    "Verif.CopyFn.copy_gp_class",
    "Verif.CopyFn.copy_autodiff_options",
    "Verif.CopyFn.copy_independent",
    "Verif.CopyFn.copy_built",
    "Verif.CopyFn.copy_splits",
    "Verif.CopyFn.copy_cost_weight",
    "Verif.CopyFn.copy_raises",
    "Verif.CopyFn.copy_robust",
    "Verif.CopyFn.copy_robust_error",
    "Verif.CopyFn.copy_shared_dt_wrong",
    "Verif.CopyFn.copy_normalizes",
    "Verif.CopyFn.copy_hinge_raises",
    "Verif.CopyFn.copy_robust_detached_wrong",
    "Verif.CopyFn.legal_of_classes"
   ],
   "note": "The code violates the property in these places: the copy of a GPMotionModel is a DoubleIntegrator (copy_gp_class); the autograd options of an AutoDiffCostFunction are not copied (copy_autodiff_options), so its Jacobians are only shown to agree with default options; a variable shared by a cost function and its weight is split (copy_splits, copy_shared_dt_wrong); data of SO2 and SE2 off the group is normalized (copy_normalizes; elsewhere legal_of_classes); the names of the weight variables are never kept; a robust cost function whose attribute was re-pointed copies the old variable (copy_robust_detached_wrong). The checks of the constructors and the meaning of error and weight_error are parameters; the reshaping in some constructors is left out."
  },
  {
   "property": "C114",
   "status": "partial",
   "theorems": [
    "Verif.Dcem.lml_batch_rows",
    "Verif.Dcem.lml_batch_returns",
    "Verif.Dcem.lml_batch_weights",
    "Verif.Dcem.lml_single",
    "Verif.Dcem.lml_batch_backward",
    "Verif.Dcem.lml_batch_backward_short",
    "Verif.Dcem.lml_batch_mask_wrong"
   ],
   "note": "Whenever the forward pass of a batch returns, its rows are those of the rows alone (lml_batch_rows). It returns for all rows of fewer than e^7 entries; beyond that the code violates the property: the mask of the warning branch has the wrong length when another row is finished (lml_batch_mask_wrong). Real arithmetic."
  },
  {
   "property": "C115",
   "status": "partial",
   "theorems": [
    "Verif.Geometry.Random.so3_rand_returns",
    "Verif.Geometry.Random.so3_rand_reaches",
    "Verif.Geometry.Random.so3_randn_draws",
    "Verif.Geometry.Random.se3_rand_returns",
    "Verif.Geometry.Random.se3_randn_draws",
    "Verif.Geometry.Random.theseus_sizes",
    "Verif.Geometry.Random.vector_rand",
    "Verif.Geometry.Random.so2_rand",
    "Verif.Geometry.Random.se2_rand",
    "Verif.Geometry.Random.identity_is_identity",
    "Verif.Geometry.Random.rand_fill"
   ],
   "note": "The code violates the property in these places: SE2.rand and SE2.randn raise with requires_grad (se2_rand), with it SO2.rand gives no leaf (so2_rand), check_jacobians fills SO2 variables with arbitrary pairs (rand_fill). Real arithmetic; that the distributions are uniform is not shown."
  },
  {
   "property": "C116",
   "status": "proved",
   "theorems": [
    "Verif.Lie.Batch.bcast_spec",
    "Verif.Lie.Batch.so3LeftAct_spec",
    "Verif.Lie.Batch.se3LeftAct_spec",
    "Verif.Lie.Batch.se3LeftAct_translation",
    "Verif.Lie.Batch.leftAct_shape_error",
    "Verif.Lie.Batch.so3LeftAct_short",
    "Verif.Lie.Batch.leftAct_default_raises",
    "Verif.Lie.Batch.leftAct_negative_raises",
    "Verif.Lie.Batch.so3LeftProject_spec",
    "Verif.Lie.Batch.se3LeftProject_spec",
    "Verif.Lie.Batch.so3Compose_spec",
    "Verif.Lie.Batch.so3Transform_spec"
   ],
   "note": "Without dim_out, a tensor with fewer batch dimensions than the group raises although dim_out=0 broadcasts it (leftAct_default_raises). The value checks (check_contexts) are off here. Forward passes only."
  },
  {
   "property": "C117",
   "status": "proved",
   "theorems": [
    "Verif.Lie.Batch.so3LeftActGrad_spec",
    "Verif.Lie.Batch.se3LeftActGrad_spec",
    "Verif.Lie.Batch.so3LeftProjectGrad_spec",
    "Verif.Lie.Batch.se3LeftProjectGrad_spec",
    "Verif.Lie.Batch.so3ComposeGrad_spec",
    "Verif.Lie.Batch.so3TransformGrad_spec"
   ],
   "note": "Euclidean gradients of the matrix entries, as these classes return them; the autograd engine sums a gradient of a broadcast shape to the shape of the input, which is modelled from its documented behaviour."
  },
  {
   "property": "C118",
   "status": "partial",
   "theorems": [
    "Verif.Lie.Batch.se3Compose_spec",
    "Verif.Lie.Batch.se3ComposeGrad_spec",
    "Verif.Lie.Batch.se3Transform_spec",
    "Verif.Lie.Batch.se3TransformGrad_spec",
    "Verif.Lie.Batch.so3Untransform_spec",
    "Verif.Lie.Batch.so3UntransformGrad_spec",
    "Verif.Lie.Batch.se3Untransform_spec",
    "Verif.Lie.Batch.se3UntransformGrad_partial",
    "Verif.Lie.Batch.se3UntransformGrad_raises",
    "Verif.Lie.Batch.IsGrad.hasDerivAt"
   ],
   "note": "the code violates it: the backward pass of SE3.untransform views the broadcast difference with the shape of the points and raises when the poses broadcast the points (se3UntransformGrad_raises); se3UntransformGrad_partial is every other case (broadcasting keeps the number of points). Everything else holds in full."
  },
  {
   "property": "C119",
   "status": "proved",
   "theorems": [
    "Verif.Lie.Batch.so3JCompose_spec",
    "Verif.Lie.Batch.se3JCompose_spec",
    "Verif.Lie.Batch.so3JTransform_spec",
    "Verif.Lie.Batch.se3JTransform_spec",
    "Verif.Lie.Batch.so3JUntransform_spec",
    "Verif.Lie.Batch.se3JUntransform_spec",
    "Verif.Geometry.so3_transform_jac",
    "Verif.Geometry.se3_transform_jac",
    "Verif.Geometry.spatial_group_jac"
   ],
   "note": "The Jacobians of single elements are those of Verif.Geometry, proved to be the derivatives for rotations (so3_transform_jac, se3_transform_jac and, for compose, spatial_group_jac). The inverse and adjoint inside SE3.jcompose act entry by entry."
  },
  {
   "property": "C12",
   "status": "partial",
   "theorems": [
    "Verif.Update.error_restores_partial",
    "Verif.Update.error_keeps_aux",
    "Verif.Update.error_leaks_aux",
    "Verif.Update.error_raise_leaks",
    "Verif.Update.error_restore_raises"
   ],
   "note": "The code violates the property for auxiliary variables and for calls that raise; error_restores_partial covers optimization variables on normal return."
  },
  {
   "property": "C120",
   "status": "partial",
   "theorems": [
    "Verif.Lie.Batch.quaternionToRotation_partial",
    "Verif.Lie.Batch.quatGrad_spec",
    "Verif.Lie.Batch.quaternion_single_wrong",
    "Verif.Lie.Batch.quaternion_shape_error"
   ],
   "note": "the code violates it for a quaternion without batch dimensions: its Jacobian has shape (1, 3, 4) (quaternion_single_wrong). The check of the norms is off; that the single Jacobian is the derivative is so3_quaternion_jac."
  },
  {
   "property": "C121",
   "status": "proved",
   "theorems": [
    "Verif.Lie.Batch.se3Inverse_spec",
    "Verif.Lie.Batch.se3InverseGrad_spec",
    "Verif.Lie.Batch.se3Adjoint_spec",
    "Verif.Lie.Batch.se3AdjointGrad_spec",
    "Verif.Lie.Batch.se3JInverse_spec",
    "Verif.Geometry.se3_backward"
   ],
   "note": "that the single-pose formulas are the gradients is se3_backward."
  },
  {
   "property": "C122",
   "status": "proved",
   "theorems": [
    "Verif.Lie.Batch.so3Lift_spec",
    "Verif.Lie.Batch.so3Project_spec",
    "Verif.Lie.Batch.se3Lift_spec",
    "Verif.Lie.Batch.se3Project_spec",
    "Verif.Lie.Batch.lift_shape_error"
   ],
   "note": "both functions are linear, so the transpose for the inner product is the gradient."
  },
  {
   "property": "C13",
   "status": "proved",
   "theorems": [
    "Verif.Update.update_frame",
    "Verif.Update.update_sets_named",
    "Verif.Update.update_accepts_iff",
    "Verif.Update.update_raise_prefix"
   ],
   "note": ""
  },
  {
   "property": "C14",
   "status": "proved",
   "theorems": [
    "Verif.Update.update_masked",
    "Verif.Update.varUpdate_masked_length"
   ],
   "note": ""
  },
  {
   "property": "C15",
   "status": "proved",
   "theorems": [
    "Verif.Update.batch_size_resolved_iff",
    "Verif.Update.batch_size_unresolved"
   ],
   "note": ""
  },
  {
   "property": "C16",
   "status": "proved",
   "theorems": [
    "Verif.Update.retract_own_slice",
    "Verif.Update.slices_partition"
   ],
   "note": ""
  },
  {
   "property": "C17",
   "status": "proved",
   "theorems": [
    "Verif.Vectorize.retract_vectorized_eq_sequential",
    "Verif.Vectorize.retract_vectorized_succeeds",
    "Verif.Vectorize.retract_vectorized_no_broadcast"
   ],
   "note": "The equality holds whenever the vectorized retraction succeeds; retract_vectorized_no_broadcast shows a case where the sequential one broadcasts and the vectorized one raises."
  },
  {
   "property": "C18",
   "status": "proved",
   "theorems": [
    "Verif.Vectorize.vectorized_results",
    "Verif.Vectorize.vectorized_results_need_same_code"
   ],
   "note": "Under the assumption that the schema determines the code; vectorized_results_need_same_code is the counterexample without it (non-variable attributes are invisible to the schema)."
  },
  {
   "property": "C19",
   "status": "partial",
   "theorems": [
    "Verif.Vectorize.error_order_unvectorized",
    "Verif.Vectorize.error_order_vectorized",
    "Verif.Vectorize.error_order_vectorized_partial",
    "Verif.Vectorize.error_order_vectorized_differs"
   ],
   "note": "The code violates the property with vectorization on and interleaved schemas (error_order_vectorized_differs); the order that does come out is characterized by error_order_vectorized."
  },
  {
   "property": "C20",
   "status": "proved",
   "theorems": [
    "Verif.Vectorize.error_metric_vectorized"
   ],
   "note": ""
  },
  {
   "property": "C21",
   "status": "partial",
   "theorems": [
    "Verif.Vectorize.jacobians_current_partial",
    "Verif.Vectorize.jacobians_stale_batch_size",
    "Verif.Vectorize.jacobians_stale_after_failure",
    "Verif.Vectorize.recreated_vectorization_serves_fallback"
   ],
   "note": "Proved for every history without exceptions and without batch size changes behind the objective's back; the other theorems are counterexamples outside of that."
  },
  {
   "property": "C22",
   "status": "partial",
   "theorems": [
    "Verif.Linear.index_of_is_position_partial",
    "Verif.Linear.remove_leaves_stale_index",
    "Verif.Linear.default_order",
    "Verif.Linear.append_accepts_iff",
    "Verif.Linear.append_accepts_foreign_object",
    "Verif.Linear.complete_iff"
   ],
   "note": "False as stated: remove() does not reindex and append() checks names only (both proved by witness). Proved for all append/extend histories; default order, append acceptance and completeness proved for all histories."
  },
  {
   "property": "C23",
   "status": "proved",
   "theorems": [
    "Verif.Linear.columns_of_variable",
    "Verif.Linear.columns_partition"
   ],
   "note": "For every ordering and dof assignment."
  },
  {
   "property": "C24",
   "status": "proved",
   "theorems": [
    "Verif.Linear.dense_blocks",
    "Verif.Linear.hessian_blocks",
    "Verif.Linear.consistent_of_history",
    "Verif.Linear.dense_no_variable_wrong"
   ],
   "note": "Exact arithmetic over any commutative ring, one batch element. Cost functions without optimization variables are excluded by GoodCost, and dense_no_variable_wrong shows the code is wrong for them."
  },
  {
   "property": "C25",
   "status": "proved",
   "theorems": [
    "Verif.Linear.sparse_blocks",
    "Verif.Linear.sparse_eq_dense",
    "Verif.Linear.csr_wellFormed",
    "Verif.Linear.csr_noDup",
    "Verif.Linear.dense_keeps_last"
   ],
   "note": "Equality for cost functions that list each variable once; sparse_blocks has no such restriction and dense_keeps_last shows the two differ without it."
  },
  {
   "property": "C26",
   "status": "proved",
   "theorems": [
    "Verif.Linear.matVec_eq",
    "Verif.Linear.tmatVec_eq",
    "Verif.Linear.diagonal_scaling_eq",
    "Verif.Linear.diagonal_scaling_dup_wrong",
    "Verif.Linear.mv_backward_values",
    "Verif.Linear.mv_backward_vector",
    "Verif.Linear.mtv_backward"
   ],
   "note": "CPU code paths; diagonal scaling needs distinct columns per row, which csr_noDup provides."
  },
  {
   "property": "C27",
   "status": "proved",
   "theorems": [
    "Verif.Nlopt.loop_terminates",
    "Verif.Nlopt.fuel_irrelevant"
   ],
   "note": "For every optimizer (any step function, any rejection pattern, any solver failure pattern). Budget per loop; with split_budget the two loops of a run share max_iterations."
  },
  {
   "property": "C28",
   "status": "proved",
   "theorems": [
    "Verif.Nlopt.final_status_not_start",
    "Verif.Nlopt.final_status_exact",
    "Verif.Nlopt.converged_iter_exact",
    "Verif.Nlopt.final_status_two_phase",
    "Verif.Nlopt.failure_in_second_run_asserts"
   ],
   "note": "Every mode, every run that returns; converged_iter needs a positive absolute tolerance. In the two-run modes a solver failure in the second run under no_grad raises AssertionError instead of returning FAIL (witness failure_in_second_run_asserts)."
  },
  {
   "property": "C29",
   "status": "proved",
   "theorems": [
    "Verif.Nlopt.best_is_minimum",
    "Verif.Nlopt.best_is_minimum_two_phase",
    "Verif.Nlopt.nan_error_spoils_best"
   ],
   "note": "For errors that are never NaN; nan_error_spoils_best shows that a NaN error is kept as best forever."
  },
  {
   "property": "C30",
   "status": "partial",
   "theorems": [
    "Verif.Nlopt.converged_frozen_partial",
    "Verif.Nlopt.truncated_moves_converged",
    "Verif.Nlopt.implicit_moves_converged"
   ],
   "note": "Modes UNROLL and DLM, positive absolute tolerance. False in modes TRUNCATED/IMPLICIT, whose second run forgets which elements had converged (witnesses)."
  },
  {
   "property": "C31",
   "status": "partial",
   "theorems": [
    "Verif.Nlopt.batch_independent_partial",
    "Verif.Nlopt.mean_test_couples_batch",
    "Verif.Nlopt.rejection_couples_batch"
   ],
   "note": "Holds for optimizers without step rejection when the mean test never fires; false otherwise (witnesses)."
  },
  {
   "property": "C32",
   "status": "proved",
   "theorems": [
    "Verif.Nlopt.split_budget",
    "Verif.Nlopt.two_phase_record",
    "Verif.Nlopt.unroll_record",
    "Verif.Nlopt.implicit_zero_budget",
    "Verif.Nlopt.negative_backward_exceeds_budget"
   ],
   "note": "For max_iterations >= 1 and backward_num_iterations >= 0; the two witnesses show the behaviour outside."
  },
  {
   "property": "C33",
   "status": "proved",
   "theorems": [
    "Verif.Steps.lm_damping_range",
    "Verif.Steps.lm_damping_direction",
    "Verif.Steps.lm_initial_damping_unclamped"
   ],
   "note": "the range holds from the first completed step on; the initial damping is not clamped (lm_initial_damping_unclamped)."
  },
  {
   "property": "C34",
   "status": "proved",
   "theorems": [
    "Verif.Steps.lm_accept_decreases",
    "Verif.Steps.lm_accepts_nan"
   ],
   "note": "lm_accepts_nan shows that a step to a nan error is accepted (nan is not an increase in IEEE order)."
  },
  {
   "property": "C35",
   "status": "proved",
   "theorems": [
    "Verif.Steps.tr_params_checked",
    "Verif.Steps.tr_radius_step",
    "Verif.Steps.tr_radius_range"
   ],
   "note": ""
  },
  {
   "property": "C36",
   "status": "partial",
   "theorems": [
    "Verif.Steps.dogleg_in_region_partial",
    "Verif.Steps.dogleg_norm_bound",
    "Verif.Steps.dogleg_takes_gn",
    "Verif.Steps.dogleg_truncates",
    "Verif.Steps.dogleg_leaves_region",
    "Verif.Steps.dogleg_mixed_batch"
   ],
   "note": "The code violates the property: EPS regularization lets the step leave small regions (dogleg_leaves_region), and in a mixed batch a fitting Gauss-Newton step is not taken exactly (dogleg_mixed_batch). dogleg_norm_bound bounds the violation in all cases."
  },
  {
   "property": "C37",
   "status": "proved",
   "theorems": [
    "Verif.Steps.damping_entries",
    "Verif.Steps.damping_agrees",
    "Verif.Steps.damping_batch_agrees",
    "Verif.Steps.damping_posDef",
    "Verif.Steps.damping_unique_solution",
    "Verif.Steps.ellipsoidal_needs_eps",
    "Verif.Steps.cholmod_damping",
    "Verif.Steps.cholmod_zero_damping_ignored"
   ],
   "note": ""
  },
  {
   "property": "C38",
   "status": "proved",
   "theorems": [
    "Verif.Lu.stale_backward_detected",
    "Verif.Lu.contexts_suffice",
    "Verif.Lu.contexts_needed",
    "Verif.Lu.consecutive_solves",
    "Verif.Lu.optimize_contexts_suffice",
    "Verif.Lu.reset_gives",
    "Verif.Lu.zero_backward_iterations_break"
   ],
   "note": "zero_backward_iterations_break: with backward_num_iterations=0 no context is created and the gradient-free solves raise (no silent wrong result)."
  },
  {
   "property": "C39",
   "status": "partial",
   "theorems": [
    "Verif.Robust.welsch_valid",
    "Verif.Robust.huber_valid",
    "Verif.Robust.geman_valid",
    "Verif.Robust.hinge_valid_partial",
    "Verif.Robust.hinge_not_valid"
   ],
   "note": "Proved for Welsch, Huber and Geman-McClure. HingeLoss as coded is not zero at zero, not monotone and not below the squared error (hinge_not_valid); hinge_valid_partial is what does hold."
  },
  {
   "property": "C40",
   "status": "partial",
   "theorems": [
    "Verif.Robust.weightedError_norm",
    "Verif.Robust.weightedJacErr_irls",
    "Verif.Robust.robust_gradient",
    "Verif.Robust.weightedError_norm_flatten_partial",
    "Verif.Robust.weightedJacErr_irls_flatten_partial",
    "Verif.Robust.flatten_batched_radius_raises"
   ],
   "note": "With flatten_dims and one radius per batch element the code raises (flatten_batched_radius_raises); the flatten theorems are for a single radius."
  },
  {
   "property": "C41",
   "status": "partial",
   "theorems": [
    "Verif.Masking.masking_changes_nothing",
    "Verif.Masking.masked_jacobians_rows",
    "Verif.Masking.withMasked_restores_partial",
    "Verif.Masking.scale_zero",
    "Verif.Masking.diag_zero",
    "Verif.Masking.masked_variables_not_restored",
    "Verif.Masking.masked_variables_repeated_not_restored"
   ],
   "note": "Proved when the variables are distinct and have as many batch elements as the mask (always so in vectorized cost functions); otherwise __enter__ raises and leaves earlier variables masked (masked_variables_not_restored)."
  },
  {
   "property": "C42",
   "status": "proved",
   "theorems": [
    "Verif.Geometry.so2_group",
    "Verif.Geometry.so2_action",
    "Verif.Geometry.so2_exp_log",
    "Verif.Geometry.so2_normalize",
    "Verif.Geometry.so2_normalize_zero_unguarded"
   ],
   "note": ""
  },
  {
   "property": "C43",
   "status": "proved",
   "theorems": [
    "Verif.Geometry.se2_group",
    "Verif.Geometry.se2_action",
    "Verif.Geometry.se2_adjoint"
   ],
   "note": ""
  },
  {
   "property": "C44",
   "status": "proved",
   "theorems": [
    "Verif.Geometry.se2_log_exp",
    "Verif.Geometry.se2_exp_log",
    "Verif.Geometry.se2_log_exp_near",
    "Verif.Geometry.se2_exp_log_near",
    "Verif.Geometry.se2_log_divides_by_zero_iff"
   ],
   "note": ""
  },
  {
   "property": "C45",
   "status": "proved",
   "theorems": [
    "Verif.Geometry.so3_exp_rotation",
    "Verif.Geometry.so3_exp_angle",
    "Verif.Geometry.so3_quaternion",
    "Verif.Geometry.so3_group",
    "Verif.Geometry.so3_action"
   ],
   "note": ""
  },
  {
   "property": "C46",
   "status": "proved",
   "theorems": [
    "Verif.Geometry.se3_group",
    "Verif.Geometry.se3_action",
    "Verif.Geometry.se3_adjoint",
    "Verif.Geometry.se3_exp_pose",
    "Verif.Geometry.spatial_group_jac"
   ],
   "note": ""
  },
  {
   "property": "C47",
   "status": "partial",
   "theorems": [
    "Verif.Geometry.so2_hat_vee",
    "Verif.Geometry.se2_hat_vee_partial",
    "Verif.Geometry.se2_vee_accepts_bad_last_row",
    "Verif.Geometry.so3_hat_vee",
    "Verif.Geometry.so3_vee_unchecked",
    "Verif.Geometry.se3_hat_vee_partial",
    "Verif.Geometry.se3_vee_rejects_hats",
    "Verif.Geometry.se3_vee_accepts_bad_last_row"
   ],
   "note": "Proved for SO2 and SO3. The code violates the property for SE2 (last row unchecked) and SE3 (with checks on, vee looks at the last column instead of the last row, so it rejects hats with a translation and accepts any last row); torchlie's checks are off by default (so3_vee_unchecked)."
  },
  {
   "property": "C48",
   "status": "partial",
   "theorems": [
    "Verif.Geometry.vec_local_retract",
    "Verif.Geometry.so2_local_retract",
    "Verif.Geometry.se2_local_retract",
    "Verif.Geometry.retract_local",
    "Verif.Geometry.local_retract",
    "Verif.Geometry.so3_local_retract_partial",
    "Verif.Geometry.se3_local_retract_partial"
   ],
   "note": "Proved for Vector/Point/SO2/SE2; for SO3/SE3 outside the small-angle branch (where the round trip is only approximate) and the rotations near pi about (0, 1, 1) and (0, 1, -1), at which log divides by zero."
  },
  {
   "property": "C49",
   "status": "partial",
   "theorems": [
    "Verif.Geometry.so2_between_jac",
    "Verif.Geometry.se2_between_jac_partial",
    "Verif.Geometry.vec_between_jac",
    "Verif.Geometry.local_cost_jac_partial",
    "Verif.Geometry.se2_local_jac_partial",
    "Verif.Geometry.so2_log_jac",
    "Verif.Geometry.se2_log_jac",
    "Verif.Geometry.se2_log_jac_near",
    "Verif.Geometry.vec_log_jac",
    "Verif.Geometry.moving_frame_jac_partial",
    "Verif.Geometry.so2_moving_frame_jac",
    "Verif.Geometry.se2_moving_frame_jac_wrong",
    "Verif.Geometry.se2_local_fast_wrong",
    "Verif.Geometry.so2_rotate_jac",
    "Verif.Geometry.se2_transform_jac",
    "Verif.Geometry.planar_project",
    "Verif.Geometry.se2_exp_jac_partial",
    "Verif.Geometry.se2_exp_jac_wrong"
   ],
   "note": "The code violates the property for MovingFrameBetween on SE2 (se2_moving_frame_jac_wrong), for Local with fast_approx_local_jacobians (se2_local_fast_wrong) and for SE2.exp_map in the small-angle branch (se2_exp_jac_wrong). The SE2 logarithm's Jacobian is proved exact outside 0<|theta|<threshold; inside, where the code uses truncated series, the distance to the derivative is bounded (se2_log_jac_near)."
  },
  {
   "property": "C50",
   "status": "partial",
   "theorems": [
    "Verif.Scoped.class_settings_restored",
    "Verif.Scoped.settings_restored_partial",
    "Verif.Scoped.settings_restored_normally",
    "Verif.Scoped.check_not_restored",
    "Verif.Scoped.optimize_raise_silences",
    "Verif.Scoped.reentered_manager_leaks"
   ],
   "note": "The code violates the property for exceptions through the generator based managers (check_not_restored, optimize_raise_silences) and for a re-entered manager object; the other cases are proved."
  },
  {
   "property": "C51",
   "status": "proved",
   "theorems": [
    "Verif.Kin.fk_path",
    "Verif.Kin.path_pose_unique",
    "Verif.Kin.fk_rejects"
   ],
   "note": "For every legal URDF (Urdf.WF) with revolute, continuous, prismatic and fixed joints; XML parsing is C111, batching is not modelled; the rotation by an angle is torchlie's exponential."
  },
  {
   "property": "C52",
   "status": "proved",
   "theorems": [
    "Verif.Func.registrations_well_formed",
    "Verif.Func.register_raises_iff",
    "Verif.Func.registerOptimVars_iff",
    "Verif.Func.registerAuxVars_iff",
    "Verif.Func.registerVars_iff",
    "Verif.Func.bulk_registration_not_atomic"
   ],
   "note": ""
  },
  {
   "property": "C53",
   "status": "proved",
   "theorems": [
    "Verif.Autograd.sparse_solve_gradient",
    "Verif.Autograd.sparse_solve_gradient_detached",
    "Verif.Autograd.sparse_solve_detached_damped"
   ],
   "note": "Exact solves over the reals, CSR arrays without repeated columns in a row (as the linearization builds them). Float dtype conversions, the factorizations and the GPU kernels are not modelled."
  },
  {
   "property": "C54",
   "status": "proved",
   "theorems": [
    "Verif.Dcem.split_covers",
    "Verif.Dcem.shapes_need_flat",
    "Verif.Dcem.hard_step",
    "Verif.Dcem.hard_monotone_invariant",
    "Verif.Dcem.soft_one_step",
    "Verif.Dcem.soft_many_step",
    "Verif.Dcem.normCost_shift",
    "Verif.Dcem.zero_sigma_raises",
    "Verif.Dcem.too_many_elites",
    "Verif.Dcem.too_many_elites_leaves_range"
   ],
   "note": "one batch row, real arithmetic, argsort by its contract. Findings proved: n_elite > n_sample pulls the mean to the origin; a zero deviation (all samples equal in a coordinate, soft mode) makes the next step raise ValueError."
  },
  {
   "property": "C55",
   "status": "partial",
   "theorems": [
    "Verif.Gauss.local_retract_gaussian",
    "Verif.Gauss.retract_local_gaussian",
    "Verif.Gauss.local_gaussian_precision_partial",
    "Verif.Gauss.gaussian_posdef",
    "Verif.Gauss.local_gaussian_rejects",
    "Verif.Gauss.local_gaussian_precision_wrong"
   ],
   "note": "One batch element. The round trips and positive definiteness are proved for all classes on the domain of C48. The pull-back is proved off the small-angle branches; for SE2 in the small-angle branch the code violates it (local_gaussian_precision_wrong), because of the Jacobian of SE2.exp_map."
  },
  {
   "property": "C56",
   "status": "proved",
   "theorems": [
    "Verif.Steps.dogleg_predicted_reduction",
    "Verif.Steps.dogleg_accept_decreases",
    "Verif.Steps.tr_accepts_nan"
   ],
   "note": ""
  },
  {
   "property": "C57",
   "status": "proved",
   "theorems": [
    "Verif.Nlopt.never_increases",
    "Verif.Nlopt.never_increases_truncated",
    "Verif.Steps.lm_monotone",
    "Verif.Steps.lm_never_increases",
    "Verif.Steps.dogleg_monotone",
    "Verif.Steps.dogleg_never_increases"
   ],
   "note": ""
  },
  {
   "property": "C58",
   "status": "partial",
   "theorems": [
    "Verif.Vectorize.vectorized_covers_objective_partial",
    "Verif.Vectorize.vectorized_ignores_added"
   ],
   "note": "The code violates the property: a cost function added after vectorization was enabled is silently ignored (vectorized_ignores_added)."
  },
  {
   "property": "C59",
   "status": "partial",
   "theorems": [
    "Verif.Geometry.so3_log_exp_partial",
    "Verif.Geometry.so3_exp_log_partial",
    "Verif.Geometry.so3_log_divides_by_zero",
    "Verif.Geometry.se3_log_exp_partial",
    "Verif.Geometry.se3_exp_log_partial",
    "Verif.Geometry.SO3.log_exp_near",
    "Verif.Geometry.SO3.exp_log_near",
    "Verif.Geometry.SE3.log_exp_near",
    "Verif.Geometry.SE3.exp_log_near"
   ],
   "note": "Exact outside the small-angle branches, with explicit error bounds inside. The code violates the property for rotations near pi about (0, 1, 1) and (0, 1, -1), and only there: log divides zero by zero (so3_log_divides_by_zero is an equivalence)."
  },
  {
   "property": "C60",
   "status": "partial",
   "theorems": [
    "Verif.Geometry.so3_log_jac_partial",
    "Verif.Geometry.se3_log_jac_partial",
    "Verif.Geometry.so3_log_jac_near",
    "Verif.Geometry.se3_log_jac_near",
    "Verif.Geometry.se3_log_jac_wrong",
    "Verif.Geometry.so3_exp_jac",
    "Verif.Geometry.se3_exp_jac_partial",
    "Verif.Geometry.spatial_group_jac",
    "Verif.Geometry.so3_costs_jac_partial",
    "Verif.Geometry.se3_costs_jac_partial",
    "Verif.Geometry.so3_transform_jac",
    "Verif.Geometry.se3_transform_jac",
    "Verif.Geometry.so3_quaternion_jac"
   ],
   "note": "The log Jacobians are proved exact outside of the small-angle branches, up to pi, except for rotations near pi about (0, 1, 1) and (0, 1, -1), where log divides by zero (C59). In the small-angle branch, where the code uses truncated series, their distance to the derivative is bounded: fourth order for SO3; only third order for SE3, whose series of c has the wrong sign (se3_log_jac_wrong)."
  },
  {
   "property": "C61",
   "status": "partial",
   "theorems": [
    "Verif.Geometry.so3_to_quaternion_partial",
    "Verif.Geometry.so3_quaternion_roundtrip_partial",
    "Verif.Geometry.so3_to_quaternion_divides_by_zero",
    "Verif.Geometry.se3_xyz_quaternion_partial"
   ],
   "note": "The code violates the property for rotations near pi about (0, 1, 1) and (0, 1, -1), and only there (so3_to_quaternion_divides_by_zero is an equivalence)."
  },
  {
   "property": "C62",
   "status": "partial",
   "theorems": [
    "Verif.Geometry.construct_spec",
    "Verif.Geometry.so2_construct_valid",
    "Verif.Geometry.se2_construct_valid",
    "Verif.Geometry.so3_construct_valid_partial",
    "Verif.Geometry.spatial_construct_unchecked",
    "Verif.Geometry.so3_normalize"
   ],
   "note": "Proved for SO2/SE2 (tensors without zero rows). For SO3/SE3 the code violates the property in the default configuration: torchlie's check is a no-op, so every tensor is accepted (spatial_construct_unchecked); so3_construct_valid_partial is with torchlie's checks enabled. torch.svd is a parameter with its contract (IsSvd)."
  },
  {
   "property": "C63",
   "status": "partial",
   "theorems": [
    "Verif.Geometry.so3_backward",
    "Verif.Geometry.so3_left_backward",
    "Verif.Geometry.so3_exp_backward",
    "Verif.Geometry.so3_quaternion_backward",
    "Verif.Geometry.so3_log_backward_partial",
    "Verif.Geometry.so3_sine_axis_paths",
    "Verif.Geometry.se3_backward",
    "Verif.Geometry.se3_left_backward",
    "Verif.Geometry.se3_exp_backward_partial",
    "Verif.Geometry.se3_log_backward_partial",
    "Verif.Geometry.so3_normalize_backward_partial",
    "Verif.Geometry.so3_normalize_backward_wrong"
   ],
   "note": "log and SE3 exp outside the small-angle branches (truncated series), up to pi except where log divides by zero (C59). The code violates the property for normalize at repeated singular values, in particular at every rotation matrix, where the returned gradient is zero (so3_normalize_backward_wrong); with distinct singular values it is the gradient."
  },
  {
   "property": "C64",
   "status": "partial",
   "theorems": [
    "Verif.Kin.fk_jacobians_partial",
    "Verif.Kin.fk_jacobians_exact",
    "Verif.Kin.fk_backward_partial",
    "Verif.Kin.fk_jacobian_small_angle_wrong",
    "Verif.Kin.gain_bounds",
    "Verif.Kin.gain_eq_one"
   ],
   "note": "Exact when every revolute joint is at zero or beyond the small-angle threshold. Below it the code violates the property: the columns are off by the factor gain, within eps^2/4 of 1 (fk_jacobian_small_angle_wrong). Angles exactly at the threshold, where forward kinematics is discontinuous, are excluded."
  },
  {
   "property": "C65",
   "status": "partial",
   "theorems": [
    "Verif.Kin.axis_joint_motion",
    "Verif.Kin.axis_joint_wrong"
   ],
   "note": "The code violates the property: the constructors pass the id as the axis number and vice versa (axis_joint_wrong). Given the axis number, the motion is right (axis_joint_motion), for one batch element."
  },
  {
   "property": "C66",
   "status": "partial",
   "theorems": [
    "Verif.Gauss.State.update_ok",
    "Verif.Gauss.State.construct_spec",
    "Verif.Gauss.State.precision_invariant",
    "Verif.Gauss.State.update_fail",
    "Verif.Gauss.State.update_not_atomic",
    "Verif.Gauss.State.update_permuted"
   ],
   "note": "The code violates the property: a refused precision leaves the new means in place, so batch sizes can disagree (update_not_atomic). What holds along every history is precision_invariant."
  },
  {
   "property": "C67",
   "status": "proved",
   "theorems": [
    "Verif.Dcem.lml_forward",
    "Verif.Dcem.lml_weights",
    "Verif.Dcem.lml_default_width",
    "Verif.Dcem.lml_short",
    "Verif.Dcem.lml_optimal",
    "Verif.Dcem.lml_backward",
    "Verif.Dcem.lml_backward_const",
    "Verif.Dcem.lml_fails_large",
    "Verif.Dcem.lml_weights_long",
    "Verif.Dcem.lml_returns"
   ],
   "note": "one row (whole batches: C114), real arithmetic. lml_weights_long removes the bound on the number of entries. Finding proved: for N > e^7 the forward pass raises on N+1 equal entries."
  },
  {
   "property": "C68",
   "status": "proved",
   "theorems": [
    "Verif.Dcem.dcem_record",
    "Verif.Dcem.dcem_modes",
    "Verif.Dcem.dcem_converged_iter",
    "Verif.Dcem.dcem_converged_moves"
   ],
   "note": "the sampling step is a parameter; NaN and infinite errors included. Finding proved: a converged element keeps moving and converged_iter is then not the iteration in which its test fired."
  },
  {
   "property": "C69",
   "status": "partial",
   "theorems": [
    "Verif.Embodied.double_integrator_jac",
    "Verif.Embodied.double_integrator_zero",
    "Verif.Embodied.double_integrator_invariant",
    "Verif.Embodied.double_integrator_jac_groups_partial"
   ],
   "note": "Zero set and invariance are proved where local and retract are inverse (C48). The Jacobians are proved for relative rotations that are zero or beyond the small-angle threshold, up to pi except where log divides by zero (C59); inside the small-angle branch they inherit the approximation of C49/C60."
  },
  {
   "property": "C70",
   "status": "partial",
   "theorems": [
    "Verif.Embodied.gp_info_inverse",
    "Verif.Embodied.gp_weight_total",
    "Verif.Embodied.gp_weighted_cost",
    "Verif.Embodied.gp_accepts_iff",
    "Verif.Embodied.gp_weights_batch",
    "Verif.Embodied.gp_batched_dt_raises",
    "Verif.Embodied.gp_asymmetric_accepted",
    "Verif.Embodied.cholesky_isSome_iff"
   ],
   "note": "Proved over the reals with torch.linalg.cholesky by its contract. The code violates the property in two corners, both proved: batched dt with a single Qc_inv raises (gp_batched_dt_raises) although the shapes broadcast, and an asymmetric Qc_inv passes the constructor and then fails (gp_asymmetric_accepted)."
  },
  {
   "property": "C71",
   "status": "partial",
   "theorems": [
    "Verif.Embodied.sdf_total",
    "Verif.Embodied.sdf_at_node",
    "Verif.Embodied.sdf_in_cell",
    "Verif.Embodied.sdf_bounds",
    "Verif.Embodied.sdf_outside",
    "Verif.Embodied.sdf_jac",
    "Verif.Embodied.sdf_continuous",
    "Verif.Embodied.sdf_update_smaller_raises",
    "Verif.Embodied.sdf_update_larger_ignored",
    "Verif.Embodied.sdf_edge_jac"
   ],
   "note": "One batch element. The lookup is proved for freshly constructed fields. The code violates the part on update_data: the number of rows and columns is not updated (sdf_update_smaller_raises, sdf_update_larger_ignored); and on the right and top edges the Jacobian is zero (sdf_edge_jac)."
  },
  {
   "property": "C72",
   "status": "proved",
   "theorems": [
    "Verif.Embodied.map_free_cell",
    "Verif.Embodied.map_occupied_cell",
    "Verif.Embodied.map_sign",
    "Verif.Embodied.map_empty",
    "Verif.Embodied.map_lipschitz",
    "Verif.Embodied.map_antitone",
    "Verif.Embodied.map_full"
   ],
   "note": "scipy's distance transform by its contract. A map without free cells is outside the property (map_full)."
  },
  {
   "property": "C73",
   "status": "proved",
   "theorems": [
    "Verif.Embodied.collision_error",
    "Verif.Embodied.collision_zero_iff",
    "Verif.Embodied.collision_jac",
    "Verif.Embodied.collision_jac_se2",
    "Verif.Embodied.collision_outside",
    "Verif.Embodied.contact_zero_iff",
    "Verif.Embodied.contact_invariant",
    "Verif.Embodied.contact_jac"
   ],
   "note": "One batch element, fields of distances from C71. Finding proved: outside the map the collision cost is eps with zero gradient (collision_outside). use_huber_loss is refused by the constructor and not modelled."
  },
  {
   "property": "C74",
   "status": "partial",
   "theorems": [
    "Verif.Embodied.reprojection_jac",
    "Verif.Embodied.reprojection_pinhole",
    "Verif.Embodied.reprojection_invariant",
    "Verif.Embodied.reprojection_line",
    "Verif.Embodied.reprojection_default_calib_clash",
    "Verif.Embodied.reprojection_defaults_accepted"
   ],
   "note": "The code violates the last part: default calibrations get fixed names, so a second cost function with defaults is refused by Objective.add (reprojection_default_calib_clash). The rest is proved for non-zero depths; the sign of the depth is not distinguished (reprojection_line)."
  },
  {
   "property": "C75",
   "status": "proved",
   "theorems": [
    "Verif.Embodied.pushing_zero_iff",
    "Verif.Embodied.pushing_invariant",
    "Verif.Embodied.pushing_rest",
    "Verif.Embodied.pushing_jac"
   ],
   "note": "One batch element, real arithmetic; the Jacobians for relative object rotations other than pi."
  },
  {
   "property": "C76",
   "status": "partial",
   "theorems": [
    "Verif.Embodied.hinge_error",
    "Verif.Embodied.hinge_jac",
    "Verif.Embodied.hinge_accepts_iff",
    "Verif.Embodied.hinge_zero_within",
    "Verif.Embodied.hinge_negative_threshold",
    "Verif.Embodied.hinge_large_threshold",
    "Verif.Embodied.nonholonomic_vector",
    "Verif.Embodied.nonholonomic_se2"
   ],
   "note": "The code violates the part on rejection: only the maximum of the thresholds is tested (hinge_negative_threshold), and thresholds above half the range pass (hinge_large_threshold). The rest is proved, the Jacobian of HingeCost away from its corners."
  },
  {
   "property": "C77",
   "status": "partial",
   "theorems": [
    "Verif.Autodiff.autodiff_jac_partial",
    "Verif.Autodiff.autodiff_modes_agree",
    "Verif.Autodiff.autodiff_dense_raises",
    "Verif.Autodiff.autodiff_loop_short",
    "Verif.Autodiff.autodiff_loop_raises",
    "Verif.Autodiff.vec_represents",
    "Verif.Autodiff.so2_represents",
    "Verif.Autodiff.se2_represents",
    "Verif.Autodiff.so3_represents",
    "Verif.Autodiff.se3_represents",
    "Verif.Autodiff.classes_ok"
   ],
   "note": "Missing: broadcasting in the modes DENSE (optimization variables) and LOOP_BATCH (any variable), of which the code violates the claim (autodiff_dense_raises, autodiff_loop_short, autodiff_loop_raises). torch's own derivatives are taken to be those of calculus."
  },
  {
   "property": "C78",
   "status": "partial",
   "theorems": [
    "Verif.Layer.solve_is_least_squares",
    "Verif.Layer.check_singular_spec",
    "Verif.Layer.check_singular_damped",
    "Verif.Layer.damped_solve",
    "Verif.Layer.check_singular_blocks_damped_step",
    "Verif.Layer.check_singular_dtype_raises",
    "Verif.Layer.check_singular_batch_damping_raises"
   ],
   "note": "The code violates parts of it: with check_singular a singular element is not moved although its damped system is solvable (check_singular_blocks_damped_step), data types other than torch's default raise (check_singular_dtype_raises) and so does one damping value per batch element when an element is singular (check_singular_batch_damping_raises). Everything else is proved in real arithmetic."
  },
  {
   "property": "C79",
   "status": "proved",
   "theorems": [
    "Verif.Layer.linear_optimize_outcome",
    "Verif.Layer.linear_optimize_minimizes",
    "Verif.Layer.linear_optimize_init_irrelevant",
    "Verif.Layer.linear_optimize_singular",
    "Verif.Layer.linear_optimize_check_singular",
    "Verif.Layer.converged_not_minimal",
    "Verif.Layer.gn_affine",
    "Verif.Layer.gn_affine_exact",
    "Verif.Layer.gn_affine_error"
   ],
   "note": "Dense solvers, real arithmetic. With check_singular a singular element is reported CONVERGED although it was not moved (converged_not_minimal). FAIL is only reported with gradients off; with gradients on the exception is passed on (linear_optimize_outcome)."
  },
  {
   "property": "C80",
   "status": "partial",
   "theorems": [
    "Verif.Layer.implicit_step_deriv",
    "Verif.Layer.implicit_gradient_partial",
    "Verif.Layer.implicit_gradient_zero_residual",
    "Verif.Layer.implicit_gradient_affine",
    "Verif.Layer.implicit_gradient_affine_exact",
    "Verif.Layer.truncated_one_eq_implicit",
    "Verif.Layer.implicit_last_step",
    "Verif.Layer.groups_exp",
    "Verif.Layer.group_implicit_gradient_partial",
    "Verif.Layer.group_implicit_zero_residual",
    "Verif.Layer.group_truncated_one",
    "Verif.Layer.implicit_gradient_false"
   ],
   "note": "The statement is false of the code in general: for errors that are not zero at the solution and Jacobians that change with the variables, the Gauss-Newton Hessian is not the Hessian (implicit_gradient_false: 4/5 instead of 1). Proved under the exact condition for it (implicit_gradient_partial), which holds for zero residuals and for affine costs; the group_ theorems prove it for any number of variables of all group classes (groups_exp), along every curve of inputs. torch's derivatives are taken to be those of calculus."
  },
  {
   "property": "C81",
   "status": "partial",
   "theorems": [
    "Verif.Layer.dlm_tends_to_implicit",
    "Verif.Layer.dlm_tends_to_gradient_partial",
    "Verif.Layer.dlm_bias",
    "Verif.Layer.dlm_default_epsilon_bias",
    "Verif.Layer.copyTask_smooth",
    "Verif.Layer.group_dlm_limit",
    "Verif.Layer.group_dlm_gradient_partial",
    "Verif.Layer.angleTask_grad"
   ],
   "note": "The limit is proved for vector variables and twice differentiable errors, and for any number of variables of all group classes along every curve of inputs (group_dlm_limit); that it is the derivative of the solution needs the condition of C80. For positive epsilon the returned gradient is biased by the value of the solution itself (dlm_bias); with the default epsilon the bias can cancel the gradient (dlm_default_epsilon_bias)."
  },
  {
   "property": "C82",
   "status": "partial",
   "theorems": [
    "Verif.Layer.compute_samples_spec",
    "Verif.Layer.compute_samples_moments",
    "Verif.Layer.compute_samples_normal",
    "Verif.Layer.compute_samples_singular",
    "Verif.Layer.compute_samples_dtype_raises",
    "Verif.Layer.compute_samples_group_raises",
    "Verif.Layer.compute_samples_shared_noise"
   ],
   "note": "Proved for vector variables in torch's default data type. The code violates the rest: rotations and poses raise (compute_samples_group_raises), other data types raise (compute_samples_dtype_raises) and the random numbers are shared by the batch elements (compute_samples_shared_noise). Dense solvers."
  },
  {
   "property": "C83",
   "status": "partial",
   "theorems": [
    "Verif.Check.check_passes_iff",
    "Verif.Check.check_frame",
    "Verif.Check.verify_success_iff",
    "Verif.Check.check_failure_corrupts",
    "Verif.Check.verify_failure_corrupts",
    "Verif.Check.check_nan_passes"
   ],
   "note": "The code violates two parts: when a check fails the variables keep the random values, also after verify_jacobians has caught the exception (check_failure_corrupts, verify_failure_corrupts), and a NaN in the difference hides all other errors (check_nan_passes). The rest is proved."
  },
  {
   "property": "C84",
   "status": "partial",
   "theorems": [
    "Verif.Forward.forward_modified_raises",
    "Verif.Forward.forward_bad_args",
    "Verif.Forward.forward_spec",
    "Verif.Forward.forward_no_inputs",
    "Verif.Forward.forward_kwargs",
    "Verif.Forward.dlm_backward_data",
    "Verif.Forward.dlm_without_inputs_raises",
    "Verif.Forward.to_breaks_dlm_backward",
    "Verif.Forward.dlm_stale_aux",
    "Verif.Forward.resolve_means"
   ],
   "note": "The code violates the last part: the copy of the objective used by the DLM backward pass is made once, is not converted by to() (to_breaks_dlm_backward) and keeps old tensors of auxiliary variables that are not passed as inputs (dlm_stale_aux); DLM without inputs raises (dlm_without_inputs_raises). The optimizer is an arbitrary function here; its loop is modelled in Nlopt."
  },
  {
   "property": "C85",
   "status": "partial",
   "theorems": [
    "Verif.Weight.weight_error_spec",
    "Verif.Weight.weight_jacobians_error_agree",
    "Verif.Weight.weighted_jacobian_correct",
    "Verif.Weight.is_zero_spec",
    "Verif.Weight.scale_sq_norm",
    "Verif.Weight.scale_constructor",
    "Verif.Weight.one_dim_tensor",
    "Verif.Weight.diagonal_enlarges_error"
   ],
   "note": "Missing: rejection of shapes that do not fit, which the code does not do for errors of dimension 1 (diagonal_enlarges_error). Tensors of more than two dimensions given to DiagonalCostWeight are not modelled."
  },
  {
   "property": "C86",
   "status": "partial",
   "theorems": [
    "Verif.Lie.lie_steps_stay_valid",
    "Verif.Lie.lie_step_slope",
    "Verif.Lie.lie_step_stationary",
    "Verif.Lie.lie_step_descends",
    "Verif.Lie.lie_step_vector",
    "Verif.Lie.isGrad_of_hasFDerivAt",
    "Verif.Lie.lie_step_recursion"
   ],
   "note": "The code violates the last part: outside of the context add_ calls itself without end (lie_step_recursion); addcdiv_ and addcmul_ make the usual update. Everything inside the context is proved. The optimizer's own arithmetic is arbitrary: a run is any sequence of in-place operations."
  },
  {
   "property": "C87",
   "status": "partial",
   "theorems": [
    "Verif.Lie.Tensor.lie_compose_acts",
    "Verif.Lie.Tensor.lie_mul_reversed",
    "Verif.Lie.Tensor.lie_mul_not_compose",
    "Verif.Lie.Tensor.lie_operators_reject",
    "Verif.Lie.Tensor.lie_local_retract_partial"
   ],
   "note": "The code violates the first part: x * y is y.compose(x) (lie_mul_reversed; lie_mul_not_compose has a witness), equal to x.compose(y) exactly if the two commute. lie_local_retract_partial leaves out small angles and the rotations near pi about (0,1,1) and (0,1,-1), as C48."
  },
  {
   "property": "C88",
   "status": "partial",
   "theorems": [
    "Verif.Lie.Dispatch.dispatch_results_checked",
    "Verif.Lie.Dispatch.dispatch_listed_only",
    "Verif.Lie.Dispatch.dispatch_mixed",
    "Verif.Lie.Dispatch.dispatch_keywords"
   ],
   "note": "The code violates two parts: inside as_euclidean() arguments of different types still raise ValueError (dispatch_mixed), and supported functions whose LieTensors are passed by keyword raise AttributeError (dispatch_keywords). The computations of torch are arbitrary functions here."
  },
  {
   "property": "C89",
   "status": "partial",
   "theorems": [
    "Verif.Lie.Storage.lie_tensors_sound_partial",
    "Verif.Lie.Storage.lie_constructor_copies",
    "Verif.Lie.Storage.lie_from_tensor_shares",
    "Verif.Lie.Storage.lie_step_not_in_place",
    "Verif.Lie.Storage.as_lietensor_ignores_ltype",
    "Verif.Lie.Storage.lie_alias_unsound"
   ],
   "note": "Soundness is proved for histories in which nobody writes through an alias of a LieTensor; without this it is false (lie_alias_unsound). The code violates the last parts: a step is not seen through aliases (lie_step_not_in_place) and as_lietensor ignores the requested type of a LieTensor (as_lietensor_ignores_ltype). Views of a part of a storage are not modelled."
  },
  {
   "property": "C90",
   "status": "partial",
   "theorems": [
    "Verif.Ext.cuda_mat_vec",
    "Verif.Ext.cuda_tmat_vec",
    "Verif.Ext.cuda_mult_MtM",
    "Verif.Ext.cuda_apply_damping",
    "Verif.Ext.ata_pattern_fits",
    "Verif.Linear.csr_columns_stored",
    "Verif.Ext.gpu_assembles",
    "Verif.Ext.lu_forward_solves",
    "Verif.Ext.lu_forward_exists",
    "Verif.Ext.lu_forward_deterministic",
    "Verif.Ext.cuda_mat_vec_reads_outside",
    "Verif.Ext.damping_needs_columns"
   ],
   "note": "All products and the forward pass are proved for every schedule, over exact numbers and unbounded integers. The code violates the last part: mat_vec on the GPU does not check the width of the vector and reads outside of it (cuda_mat_vec_reads_outside). Damping needs an entry in every column (damping_needs_columns), which the linearization provides (csr_columns_stored). The cuSolver library enters as an exact solve; the kernels of one forward pass run one after another."
  },
  {
   "property": "C91",
   "status": "proved",
   "theorems": [
    "Verif.Ext.cpu_add_MtM",
    "Verif.Ext.cuda_add_MtM",
    "Verif.Ext.cpu_add_M",
    "Verif.Ext.cuda_add_M",
    "Verif.Ext.cpu_damp",
    "Verif.Ext.cuda_damp",
    "Verif.Ext.cpu_solve",
    "Verif.Ext.cuda_solve",
    "Verif.Ext.blockPattern_stored",
    "Verif.Linear.csr_sorted",
    "Verif.Ext.linearization_fits",
    "Verif.Ext.normal_posDef",
    "Verif.Ext.bsp_forward_cpu",
    "Verif.Ext.bsp_forward_gpu",
    "Verif.Ext.bsp_devices_agree",
    "Verif.Ext.bsp_cpu_exists",
    "Verif.Ext.bsp_gpu_exists",
    "Verif.Ext.exact_solves",
    "Verif.Ext.bsp_gpu_empty_batch",
    "Verif.Ext.bsp_needs_sorted"
   ],
   "note": "Over exact numbers and unbounded integers. The BaSpaCho library enters by its contract (BaspachoSpec.lean): the accessor addresses the lower half of a symmetric block matrix in an order of its own without overlaps, and factor and solve solve positive definite systems; exact_solves and the layouts of BaspachoDense.lean show that the contract can be met. For an empty batch the GPU functions never return (bsp_gpu_empty_batch) while the CPU returns. The columns of every row must increase (bsp_needs_sorted), which the linearization provides (csr_sorted)."
  },
  {
   "property": "C92",
   "status": "proved",
   "theorems": [
    "Verif.Conv.gn_quadratic",
    "Verif.Conv.lm_linear",
    "Verif.Conv.local_linear",
    "Verif.Conv.local_converges",
    "Verif.Conv.gn_repelled",
    "Verif.Conv.lm_rate_sharp"
   ],
   "note": "Over exact numbers, in the UNROLL and DLM modes, with a dense solver and a positive abs_err_tolerance. gn_repelled is the last part. lm_rate_sharp shows that the rate cannot be improved."
  },
  {
   "property": "C93",
   "status": "partial",
   "theorems": [
    "Verif.Lie.Fn.jacobians_contract",
    "Verif.Lie.Fn.jacobians_unsupported",
    "Verif.Lie.Fn.jacobians_are_derivatives_partial",
    "Verif.Lie.Fn.jop_binary",
    "Verif.Lie.Fn.jop_unary_raises",
    "Verif.Lie.Fn.lietensor_jacobians",
    "Verif.Lie.Fn.compose_jacobians_rejects"
   ],
   "note": "Over exact numbers and for one batch element. False in the code: jexp, jlog, jinv and jquaternion_to_rotation of the functional interface raise AttributeError for every argument (jop_unary_raises); compose of SE3 with jacobians= can reject data that compose accepts, because it checks the inverse as well (compose_jacobians_rejects). Derivatives of exp and log are missing where the code uses truncated series or divides by zero (C59, C60)."
  },
  {
   "property": "C94",
   "status": "partial",
   "theorems": [
    "Verif.Params.set_exact",
    "Verif.Params.set_raises",
    "Verif.Params.set_not_atomic",
    "Verif.Params.last_set_wins",
    "Verif.Params.reset_restores_partial",
    "Verif.Params.th_reset_restores_partial",
    "Verif.Params.reset_returns",
    "Verif.Params.reset_keeps_flags",
    "Verif.Params.th_reset_keeps_norm",
    "Verif.Params.reset_broken",
    "Verif.Params.get_eps_reads",
    "Verif.Params.sites_exist",
    "Verif.Params.defaults_positive"
   ],
   "note": "False in the code: a call that raises may have set some options (set_not_atomic); a reset of torchlie keeps the two flags (reset_keeps_flags) and one of theseus so2_norm_eps_float64 (th_reset_keeps_norm), whose value at import is 0 (defaults_positive); the method names reset and get_eps are accepted as options, after which resets and every get_eps raise (reset_broken). Names starting with two underscores and callable values are not modelled."
  },
  {
   "property": "C95",
   "status": "proved",
   "theorems": [
    "Verif.Numeric.groups_lawful",
    "Verif.Numeric.numeric_limit",
    "Verif.Numeric.numeric_compose",
    "Verif.Numeric.numeric_raises",
    "Verif.Numeric.numeric_batch",
    "Verif.Numeric.numeric_error",
    "Verif.Numeric.numeric_grad_approx",
    "Verif.Numeric.numeric_repeats_rows",
    "Verif.Numeric.numeric_grad_int"
   ],
   "note": "Exact real arithmetic. Outside the hypotheses the functions return something else without an exception: with function_dim omitted (or 0) and a function of dimension 1, every row of the result is the gradient (numeric_repeats_rows); for arrays of integers numeric_grad returns zero (numeric_grad_int). The finite-step bound is for results that are vectors; for groups the limit is proved."
  },
  {
   "property": "C96",
   "status": "partial",
   "theorems": [
    "Verif.Util.timer_records_partial",
    "Verif.Util.timer_fresh_bare",
    "Verif.Util.timer_bare_charged",
    "Verif.Util.timer_nested",
    "Verif.Util.timer_call_lost",
    "Verif.Util.timer_inactive",
    "Verif.Util.timer_end_raises",
    "Verif.Util.gather_returns",
    "Verif.Util.gather_entries",
    "Verif.Util.build_mlp_chain",
    "Verif.Util.build_mlp_negative"
   ],
   "note": "False in the code for some histories: a section without name is charged to the last name used (timer_bare_charged), nested sections are charged to the inner name and measured from its start (timer_nested), and a call that is not followed by with deactivates the next section (timer_call_lost). Proved for all sequences of sections that name themselves. CUDA events and tensors of wrong rank are not modelled; a negative depth is taken for 1 (build_mlp_negative)."
  },
  {
   "property": "C97",
   "status": "partial",
   "theorems": [
    "Verif.PoseGraph.read_returns",
    "Verif.PoseGraph.read_blank_raises",
    "Verif.PoseGraph.read_result",
    "Verif.PoseGraph.read_positions",
    "Verif.PoseGraph.read_shifted",
    "Verif.PoseGraph.read_ignores_offdiagonal",
    "Verif.PoseGraph.write_read",
    "Verif.PoseGraph.read2_edges_raise"
   ],
   "note": "False in the code: a blank line raises (read_blank_raises); every edge of a planar file raises, so read_2D_g2o_file only reads files without edges (read2_edges_raise); if the numbers of the vertices have gaps the ends of edges are not positions (read_shifted); entries of the information matrix off the diagonal are ignored (read_ignores_offdiagonal). write_3D_g2o writes the weights of the first batch element only, and reading them gives absolute values (write_read). Lines are lists of tokens; the decimal representation of numbers is not modelled (write_read assumes that numbers are read as they were written). A zero quaternion or a negative variance, for which the code returns NaN without an exception, is an error of the model."
  },
  {
   "property": "C98",
   "status": "partial",
   "theorems": [
    "Verif.PoseGraph.create_returns",
    "Verif.PoseGraph.batches_partition",
    "Verif.PoseGraph.batch_minus_one",
    "Verif.PoseGraph.histogram_counts",
    "Verif.PoseGraph.histogram_no_edges",
    "Verif.PoseGraph.synthetic_edges",
    "Verif.PoseGraph.synthetic_error",
    "Verif.PoseGraph.synthetic_zero_noise"
   ],
   "note": "False in the code: batch number -1 is an empty dataset instead of an exception (batch_minus_one), histogram of a dataset without edges raises (histogram_no_edges), and data without noise cannot be generated (synthetic_zero_noise). Random numbers are inputs; names and the bars printed by histogram are not modelled."
  },
  {
   "property": "C99",
   "status": "partial",
   "theorems": [
    "Verif.Bundle.load_iff",
    "Verif.Bundle.save_load",
    "Verif.Bundle.save_load_exact_partial",
    "Verif.Bundle.save_load_near",
    "Verif.Bundle.gt_swapped",
    "Verif.Bundle.load_no_gt",
    "Verif.Bundle.gt_not_restored",
    "Verif.Bundle.save_no_gt_raises"
   ],
   "note": "False in the code for the ground truth: load_from_file returns its cameras as points and its points as cameras (gt_swapped, gt_not_restored), and saving the ground truth of a problem without one raises after creating the file (save_no_gt_raises). Cameras are restored exactly if their rotations are at least the threshold of exp_map and not half turns with tied axes (save_load_exact_partial); below the threshold entries change by at most half its cube (save_load_near). Lines are lists of tokens; the decimal representation of numbers is not modelled."
  }
 ]
}