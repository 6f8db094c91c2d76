# Axioms of the theorems in MANIFEST.json

Generated by `tools/axioms.py` from `#print axioms`.

## propext (32 theorems)

* `Verif.Objective.readd_not_noop`
* `Verif.Objective.erase_increases_version`
* `Verif.Objective.add_increases_version`
* `Verif.Objective.add_not_atomic`
* `Verif.Objective.caught_exceptions_break_unique_names`
* `Verif.Objective.add_atomic_partial`
* `Verif.Objective.dual_add_is_keyError`
* `Verif.Copy.copy_fails_shared_with_weight`
* `Verif.Copy.copy_fails_mixed`
* `Verif.Copy.copy_robust_detached`
* `Verif.CopyFn.copy_gp_class`
* `Verif.CopyFn.copy_autodiff_options`
* `Verif.CopyFn.legal_of_classes`
* `Verif.Update.error_leaks_aux`
* `Verif.Update.error_raise_leaks`
* `Verif.Update.error_restore_raises`
* `Verif.Vectorize.retract_vectorized_no_broadcast`
* `Verif.Vectorize.error_order_vectorized_differs`
* `Verif.Vectorize.jacobians_stale_batch_size`
* `Verif.Vectorize.jacobians_stale_after_failure`
* `Verif.Vectorize.recreated_vectorization_serves_fallback`
* `Verif.Linear.remove_leaves_stale_index`
* `Verif.Linear.append_accepts_foreign_object`
* `Verif.Lu.reset_gives`
* `Verif.Lu.zero_backward_iterations_break`
* `Verif.Masking.masked_variables_not_restored`
* `Verif.Masking.masked_variables_repeated_not_restored`
* `Verif.Scoped.optimize_raise_silences`
* `Verif.Scoped.reentered_manager_leaks`
* `Verif.Func.bulk_registration_not_atomic`
* `Verif.Vectorize.vectorized_ignores_added`
* `Verif.Lie.Storage.lie_alias_unsound`

## propext, Quot.sound (36 theorems)

* `Verif.Objective.version_detects_change`
* `Verif.Objective.stale_runner_refused_iff`
* `Verif.Planner.sample_misplaced`
* `Verif.Tactile.load_spec`
* `Verif.Tactile.load_episodes`
* `Verif.Copy.copyLoop_reads`
* `Verif.CopyFn.copy_error`
* `Verif.CopyFn.copy_jacobians`
* `Verif.CopyFn.copy_class`
* `Verif.CopyFn.copy_independent`
* `Verif.CopyFn.copy_splits`
* `Verif.CopyFn.copy_robust_error`
* `Verif.Update.retract_own_slice`
* `Verif.Update.slices_partition`
* `Verif.Nlopt.fuel_irrelevant`
* `Verif.Steps.damping_entries`
* `Verif.Steps.damping_agrees`
* `Verif.Steps.cholmod_damping`
* `Verif.Masking.withMasked_restores_partial`
* `Verif.Masking.scale_zero`
* `Verif.Masking.diag_zero`
* `Verif.Scoped.class_settings_restored`
* `Verif.Scoped.settings_restored_partial`
* `Verif.Scoped.settings_restored_normally`
* `Verif.Scoped.check_not_restored`
* `Verif.Func.registrations_well_formed`
* `Verif.Func.register_raises_iff`
* `Verif.Dcem.shapes_need_flat`
* `Verif.Nlopt.never_increases`
* `Verif.Kin.axis_joint_wrong`
* `Verif.Dcem.dcem_modes`
* `Verif.Layer.implicit_last_step`
* `Verif.Lie.Storage.as_lietensor_ignores_ltype`
* `Verif.Util.gather_returns`
* `Verif.Util.gather_entries`
* `Verif.Util.build_mlp_negative`

## propext, Classical.choice, Quot.sound (675 theorems)

* `Verif.Objective.one_name_one_object`
* `Verif.Objective.conflicting_add_raises`
* `Verif.Objective.add_accepts_iff`
* `Verif.Objective.hasOptimVar_iff_used`
* `Verif.Objective.hasAuxVar_iff_used`
* `Verif.Objective.erase_never_raises`
* `Verif.Objective.readd_partial`
* `Verif.Objective.erase_undoes_add`
* `Verif.Objective.connected_optim_exact`
* `Verif.Objective.connected_aux_exact`
* `Verif.Objective.connected_by_name`
* `Verif.Objective.optim_aux_disjoint`
* `Verif.Objective.dual_add_raises`
* `Verif.Objective.sizes_and_dim`
* `Verif.Objective.iter_eq_spec`
* `Verif.Objective.getCostFunction_spec`
* `Verif.Bundle.random_spheres`
* `Verif.Bundle.small_quaternion_rotates`
* `Verif.Bundle.small_quaternion_bound`
* `Verif.Bundle.small_quaternion_exceeds`
* `Verif.Bundle.project_reprojection`
* `Verif.Bundle.perturbed_near`
* `Verif.Bundle.generate_returns`
* `Verif.Bundle.generate_observations`
* `Verif.Bundle.generate_features`
* `Verif.Bundle.generate_near`
* `Verif.Bundle.generate_unobserved`
* `Verif.Bundle.default_unobserved`
* `Verif.Bundle.histogram_returns`
* `Verif.Bundle.histogram_counts`
* `Verif.Bundle.soft_losses`
* `Verif.Planner.build_returns`
* `Verif.Planner.build_costs`
* `Verif.Planner.build_vars`
* `Verif.Planner.planner_cost`
* `Verif.Planner.zero_cost`
* `Verif.Planner.point2_zero_cost`
* `Verif.Planner.positive_vel_conflict`
* `Verif.Planner.straight_line`
* `Verif.Planner.straight_line_cost`
* `Verif.Planner.straight_se2`
* `Verif.Planner.straight_se2_deviation`
* `Verif.Planner.values_of`
* `Verif.Planner.trajectory_of`
* `Verif.Planner.trajectory_roundtrip`
* `Verif.Planner.trajectory_rounded`
* `Verif.Planner.total_errors`
* `Verif.Planner.copy_same`
* `Verif.Planner.copy_drops`
* `Verif.Planner.copy_weight`
* `Verif.Planner.mean_pos`
* `Verif.Planner.mean_ends`
* `Verif.Planner.initial_mean`
* `Verif.Planner.sample_rows`
* `Verif.Tactile.pairs_spec`
* `Verif.Tactile.measurements_return`
* `Verif.Tactile.oracle_rows`
* `Verif.Tactile.network_rows`
* `Verif.Tactile.measurements_right_partial`
* `Verif.Tactile.measurements_mixed`
* `Verif.Tactile.oracle_truth_partial`
* `Verif.Tactile.oracle_truth_fails`
* `Verif.Tactile.meas_model_class`
* `Verif.Tactile.poses_roundtrip`
* `Verif.Tactile.build_returns`
* `Verif.Tactile.build_costs`
* `Verif.Tactile.build_vars`
* `Verif.Tactile.inputs_match`
* `Verif.Tactile.uniqueIds_spec`
* `Verif.Tactile.single_step_raises`
* `Verif.Tactile.split_partition`
* `Verif.Tactile.val_count`
* `Verif.Tactile.tactile_batches`
* `Verif.Tactile.tactile_minus_one`
* `Verif.Tactile.trajectory_split`
* `Verif.Tactile.trajectory_val_empty`
* `Verif.Kin.robot_model_poses`
* `Verif.Kin.robot_model_raises`
* `Verif.Kin.robot_model_default_links_raises`
* `Verif.Kin.identity_model`
* `Verif.Copy.copy_isomorphic_partial`
* `Verif.Kin.ik_step_descends`
* `Verif.Kin.ik_step_least_squares`
* `Verif.Kin.ik_at_target`
* `Verif.Kin.ik_loop`
* `Verif.Kin.Urdfx.urdf_reads`
* `Verif.Kin.Urdfx.declares_unique`
* `Verif.Kin.Urdfx.read_iff`
* `Verif.Kin.Urdfx.read_ext`
* `Verif.Kin.Urdfx.urdf_file_fk_partial`
* `Verif.Kin.Urdfx.urdf_file_rejects`
* `Verif.Kin.Urdfx.urdf_mimic_wrong`
* `Verif.Kin.Urdfx.urdf_default_axis_wrong`
* `Verif.CopyFn.copy_cost_function_partial`
* `Verif.CopyFn.copy_built`
* `Verif.CopyFn.copy_cost_weight`
* `Verif.CopyFn.copy_raises`
* `Verif.CopyFn.copy_robust`
* `Verif.CopyFn.copy_shared_dt_wrong`
* `Verif.CopyFn.copy_normalizes`
* `Verif.CopyFn.copy_hinge_raises`
* `Verif.CopyFn.copy_robust_detached_wrong`
* `Verif.Dcem.lml_batch_rows`
* `Verif.Dcem.lml_batch_returns`
* `Verif.Dcem.lml_batch_weights`
* `Verif.Dcem.lml_single`
* `Verif.Dcem.lml_batch_backward`
* `Verif.Dcem.lml_batch_backward_short`
* `Verif.Dcem.lml_batch_mask_wrong`
* `Verif.Geometry.Random.so3_rand_returns`
* `Verif.Geometry.Random.so3_rand_reaches`
* `Verif.Geometry.Random.so3_randn_draws`
* `Verif.Geometry.Random.se3_rand_returns`
* `Verif.Geometry.Random.se3_randn_draws`
* `Verif.Geometry.Random.theseus_sizes`
* `Verif.Geometry.Random.vector_rand`
* `Verif.Geometry.Random.so2_rand`
* `Verif.Geometry.Random.se2_rand`
* `Verif.Geometry.Random.identity_is_identity`
* `Verif.Geometry.Random.rand_fill`
* `Verif.Lie.Batch.bcast_spec`
* `Verif.Lie.Batch.so3LeftAct_spec`
* `Verif.Lie.Batch.se3LeftAct_spec`
* `Verif.Lie.Batch.se3LeftAct_translation`
* `Verif.Lie.Batch.leftAct_shape_error`
* `Verif.Lie.Batch.so3LeftAct_short`
* `Verif.Lie.Batch.leftAct_default_raises`
* `Verif.Lie.Batch.leftAct_negative_raises`
* `Verif.Lie.Batch.so3LeftProject_spec`
* `Verif.Lie.Batch.se3LeftProject_spec`
* `Verif.Lie.Batch.so3Compose_spec`
* `Verif.Lie.Batch.so3Transform_spec`
* `Verif.Lie.Batch.so3LeftActGrad_spec`
* `Verif.Lie.Batch.se3LeftActGrad_spec`
* `Verif.Lie.Batch.so3LeftProjectGrad_spec`
* `Verif.Lie.Batch.se3LeftProjectGrad_spec`
* `Verif.Lie.Batch.so3ComposeGrad_spec`
* `Verif.Lie.Batch.so3TransformGrad_spec`
* `Verif.Lie.Batch.se3Compose_spec`
* `Verif.Lie.Batch.se3ComposeGrad_spec`
* `Verif.Lie.Batch.se3Transform_spec`
* `Verif.Lie.Batch.se3TransformGrad_spec`
* `Verif.Lie.Batch.so3Untransform_spec`
* `Verif.Lie.Batch.so3UntransformGrad_spec`
* `Verif.Lie.Batch.se3Untransform_spec`
* `Verif.Lie.Batch.se3UntransformGrad_partial`
* `Verif.Lie.Batch.se3UntransformGrad_raises`
* `Verif.Lie.Batch.IsGrad.hasDerivAt`
* `Verif.Lie.Batch.so3JCompose_spec`
* `Verif.Lie.Batch.se3JCompose_spec`
* `Verif.Lie.Batch.so3JTransform_spec`
* `Verif.Lie.Batch.se3JTransform_spec`
* `Verif.Lie.Batch.so3JUntransform_spec`
* `Verif.Lie.Batch.se3JUntransform_spec`
* `Verif.Geometry.so3_transform_jac`
* `Verif.Geometry.se3_transform_jac`
* `Verif.Geometry.spatial_group_jac`
* `Verif.Update.error_restores_partial`
* `Verif.Update.error_keeps_aux`
* `Verif.Lie.Batch.quaternionToRotation_partial`
* `Verif.Lie.Batch.quatGrad_spec`
* `Verif.Lie.Batch.quaternion_single_wrong`
* `Verif.Lie.Batch.quaternion_shape_error`
* `Verif.Lie.Batch.se3Inverse_spec`
* `Verif.Lie.Batch.se3InverseGrad_spec`
* `Verif.Lie.Batch.se3Adjoint_spec`
* `Verif.Lie.Batch.se3AdjointGrad_spec`
* `Verif.Lie.Batch.se3JInverse_spec`
* `Verif.Geometry.se3_backward`
* `Verif.Lie.Batch.so3Lift_spec`
* `Verif.Lie.Batch.so3Project_spec`
* `Verif.Lie.Batch.se3Lift_spec`
* `Verif.Lie.Batch.se3Project_spec`
* `Verif.Lie.Batch.lift_shape_error`
* `Verif.Update.update_frame`
* `Verif.Update.update_sets_named`
* `Verif.Update.update_accepts_iff`
* `Verif.Update.update_raise_prefix`
* `Verif.Update.update_masked`
* `Verif.Update.varUpdate_masked_length`
* `Verif.Update.batch_size_resolved_iff`
* `Verif.Update.batch_size_unresolved`
* `Verif.Vectorize.retract_vectorized_eq_sequential`
* `Verif.Vectorize.retract_vectorized_succeeds`
* `Verif.Vectorize.vectorized_results`
* `Verif.Vectorize.vectorized_results_need_same_code`
* `Verif.Vectorize.error_order_unvectorized`
* `Verif.Vectorize.error_order_vectorized`
* `Verif.Vectorize.error_order_vectorized_partial`
* `Verif.Vectorize.error_metric_vectorized`
* `Verif.Vectorize.jacobians_current_partial`
* `Verif.Linear.index_of_is_position_partial`
* `Verif.Linear.default_order`
* `Verif.Linear.append_accepts_iff`
* `Verif.Linear.complete_iff`
* `Verif.Linear.columns_of_variable`
* `Verif.Linear.columns_partition`
* `Verif.Linear.dense_blocks`
* `Verif.Linear.hessian_blocks`
* `Verif.Linear.consistent_of_history`
* `Verif.Linear.dense_no_variable_wrong`
* `Verif.Linear.sparse_blocks`
* `Verif.Linear.sparse_eq_dense`
* `Verif.Linear.csr_wellFormed`
* `Verif.Linear.csr_noDup`
* `Verif.Linear.dense_keeps_last`
* `Verif.Linear.matVec_eq`
* `Verif.Linear.tmatVec_eq`
* `Verif.Linear.diagonal_scaling_eq`
* `Verif.Linear.diagonal_scaling_dup_wrong`
* `Verif.Linear.mv_backward_values`
* `Verif.Linear.mv_backward_vector`
* `Verif.Linear.mtv_backward`
* `Verif.Nlopt.loop_terminates`
* `Verif.Nlopt.final_status_not_start`
* `Verif.Nlopt.final_status_exact`
* `Verif.Nlopt.converged_iter_exact`
* `Verif.Nlopt.final_status_two_phase`
* `Verif.Nlopt.failure_in_second_run_asserts`
* `Verif.Nlopt.best_is_minimum`
* `Verif.Nlopt.best_is_minimum_two_phase`
* `Verif.Nlopt.nan_error_spoils_best`
* `Verif.Nlopt.converged_frozen_partial`
* `Verif.Nlopt.truncated_moves_converged`
* `Verif.Nlopt.implicit_moves_converged`
* `Verif.Nlopt.batch_independent_partial`
* `Verif.Nlopt.mean_test_couples_batch`
* `Verif.Nlopt.rejection_couples_batch`
* `Verif.Nlopt.split_budget`
* `Verif.Nlopt.two_phase_record`
* `Verif.Nlopt.unroll_record`
* `Verif.Nlopt.implicit_zero_budget`
* `Verif.Nlopt.negative_backward_exceeds_budget`
* `Verif.Steps.lm_damping_range`
* `Verif.Steps.lm_damping_direction`
* `Verif.Steps.lm_initial_damping_unclamped`
* `Verif.Steps.lm_accept_decreases`
* `Verif.Steps.lm_accepts_nan`
* `Verif.Steps.tr_params_checked`
* `Verif.Steps.tr_radius_step`
* `Verif.Steps.tr_radius_range`
* `Verif.Steps.dogleg_in_region_partial`
* `Verif.Steps.dogleg_norm_bound`
* `Verif.Steps.dogleg_takes_gn`
* `Verif.Steps.dogleg_truncates`
* `Verif.Steps.dogleg_leaves_region`
* `Verif.Steps.dogleg_mixed_batch`
* `Verif.Steps.damping_batch_agrees`
* `Verif.Steps.damping_posDef`
* `Verif.Steps.damping_unique_solution`
* `Verif.Steps.ellipsoidal_needs_eps`
* `Verif.Steps.cholmod_zero_damping_ignored`
* `Verif.Lu.stale_backward_detected`
* `Verif.Lu.contexts_suffice`
* `Verif.Lu.contexts_needed`
* `Verif.Lu.consecutive_solves`
* `Verif.Lu.optimize_contexts_suffice`
* `Verif.Robust.welsch_valid`
* `Verif.Robust.huber_valid`
* `Verif.Robust.geman_valid`
* `Verif.Robust.hinge_valid_partial`
* `Verif.Robust.hinge_not_valid`
* `Verif.Robust.weightedError_norm`
* `Verif.Robust.weightedJacErr_irls`
* `Verif.Robust.robust_gradient`
* `Verif.Robust.weightedError_norm_flatten_partial`
* `Verif.Robust.weightedJacErr_irls_flatten_partial`
* `Verif.Robust.flatten_batched_radius_raises`
* `Verif.Masking.masking_changes_nothing`
* `Verif.Masking.masked_jacobians_rows`
* `Verif.Geometry.so2_group`
* `Verif.Geometry.so2_action`
* `Verif.Geometry.so2_exp_log`
* `Verif.Geometry.so2_normalize`
* `Verif.Geometry.so2_normalize_zero_unguarded`
* `Verif.Geometry.se2_group`
* `Verif.Geometry.se2_action`
* `Verif.Geometry.se2_adjoint`
* `Verif.Geometry.se2_log_exp`
* `Verif.Geometry.se2_exp_log`
* `Verif.Geometry.se2_log_exp_near`
* `Verif.Geometry.se2_exp_log_near`
* `Verif.Geometry.se2_log_divides_by_zero_iff`
* `Verif.Geometry.so3_exp_rotation`
* `Verif.Geometry.so3_exp_angle`
* `Verif.Geometry.so3_quaternion`
* `Verif.Geometry.so3_group`
* `Verif.Geometry.so3_action`
* `Verif.Geometry.se3_group`
* `Verif.Geometry.se3_action`
* `Verif.Geometry.se3_adjoint`
* `Verif.Geometry.se3_exp_pose`
* `Verif.Geometry.so2_hat_vee`
* `Verif.Geometry.se2_hat_vee_partial`
* `Verif.Geometry.se2_vee_accepts_bad_last_row`
* `Verif.Geometry.so3_hat_vee`
* `Verif.Geometry.so3_vee_unchecked`
* `Verif.Geometry.se3_hat_vee_partial`
* `Verif.Geometry.se3_vee_rejects_hats`
* `Verif.Geometry.se3_vee_accepts_bad_last_row`
* `Verif.Geometry.vec_local_retract`
* `Verif.Geometry.so2_local_retract`
* `Verif.Geometry.se2_local_retract`
* `Verif.Geometry.retract_local`
* `Verif.Geometry.local_retract`
* `Verif.Geometry.so3_local_retract_partial`
* `Verif.Geometry.se3_local_retract_partial`
* `Verif.Geometry.so2_between_jac`
* `Verif.Geometry.se2_between_jac_partial`
* `Verif.Geometry.vec_between_jac`
* `Verif.Geometry.local_cost_jac_partial`
* `Verif.Geometry.se2_local_jac_partial`
* `Verif.Geometry.so2_log_jac`
* `Verif.Geometry.se2_log_jac`
* `Verif.Geometry.se2_log_jac_near`
* `Verif.Geometry.vec_log_jac`
* `Verif.Geometry.moving_frame_jac_partial`
* `Verif.Geometry.so2_moving_frame_jac`
* `Verif.Geometry.se2_moving_frame_jac_wrong`
* `Verif.Geometry.se2_local_fast_wrong`
* `Verif.Geometry.so2_rotate_jac`
* `Verif.Geometry.se2_transform_jac`
* `Verif.Geometry.planar_project`
* `Verif.Geometry.se2_exp_jac_partial`
* `Verif.Geometry.se2_exp_jac_wrong`
* `Verif.Kin.fk_path`
* `Verif.Kin.path_pose_unique`
* `Verif.Kin.fk_rejects`
* `Verif.Func.registerOptimVars_iff`
* `Verif.Func.registerAuxVars_iff`
* `Verif.Func.registerVars_iff`
* `Verif.Autograd.sparse_solve_gradient`
* `Verif.Autograd.sparse_solve_gradient_detached`
* `Verif.Autograd.sparse_solve_detached_damped`
* `Verif.Dcem.split_covers`
* `Verif.Dcem.hard_step`
* `Verif.Dcem.hard_monotone_invariant`
* `Verif.Dcem.soft_one_step`
* `Verif.Dcem.soft_many_step`
* `Verif.Dcem.normCost_shift`
* `Verif.Dcem.zero_sigma_raises`
* `Verif.Dcem.too_many_elites`
* `Verif.Dcem.too_many_elites_leaves_range`
* `Verif.Gauss.local_retract_gaussian`
* `Verif.Gauss.retract_local_gaussian`
* `Verif.Gauss.local_gaussian_precision_partial`
* `Verif.Gauss.gaussian_posdef`
* `Verif.Gauss.local_gaussian_rejects`
* `Verif.Gauss.local_gaussian_precision_wrong`
* `Verif.Steps.dogleg_predicted_reduction`
* `Verif.Steps.dogleg_accept_decreases`
* `Verif.Steps.tr_accepts_nan`
* `Verif.Nlopt.never_increases_truncated`
* `Verif.Steps.lm_monotone`
* `Verif.Steps.lm_never_increases`
* `Verif.Steps.dogleg_monotone`
* `Verif.Steps.dogleg_never_increases`
* `Verif.Vectorize.vectorized_covers_objective_partial`
* `Verif.Geometry.so3_log_exp_partial`
* `Verif.Geometry.so3_exp_log_partial`
* `Verif.Geometry.so3_log_divides_by_zero`
* `Verif.Geometry.se3_log_exp_partial`
* `Verif.Geometry.se3_exp_log_partial`
* `Verif.Geometry.SO3.log_exp_near`
* `Verif.Geometry.SO3.exp_log_near`
* `Verif.Geometry.SE3.log_exp_near`
* `Verif.Geometry.SE3.exp_log_near`
* `Verif.Geometry.so3_log_jac_partial`
* `Verif.Geometry.se3_log_jac_partial`
* `Verif.Geometry.so3_log_jac_near`
* `Verif.Geometry.se3_log_jac_near`
* `Verif.Geometry.se3_log_jac_wrong`
* `Verif.Geometry.so3_exp_jac`
* `Verif.Geometry.se3_exp_jac_partial`
* `Verif.Geometry.so3_costs_jac_partial`
* `Verif.Geometry.se3_costs_jac_partial`
* `Verif.Geometry.so3_quaternion_jac`
* `Verif.Geometry.so3_to_quaternion_partial`
* `Verif.Geometry.so3_quaternion_roundtrip_partial`
* `Verif.Geometry.so3_to_quaternion_divides_by_zero`
* `Verif.Geometry.se3_xyz_quaternion_partial`
* `Verif.Geometry.construct_spec`
* `Verif.Geometry.so2_construct_valid`
* `Verif.Geometry.se2_construct_valid`
* `Verif.Geometry.so3_construct_valid_partial`
* `Verif.Geometry.spatial_construct_unchecked`
* `Verif.Geometry.so3_normalize`
* `Verif.Geometry.so3_backward`
* `Verif.Geometry.so3_left_backward`
* `Verif.Geometry.so3_exp_backward`
* `Verif.Geometry.so3_quaternion_backward`
* `Verif.Geometry.so3_log_backward_partial`
* `Verif.Geometry.so3_sine_axis_paths`
* `Verif.Geometry.se3_left_backward`
* `Verif.Geometry.se3_exp_backward_partial`
* `Verif.Geometry.se3_log_backward_partial`
* `Verif.Geometry.so3_normalize_backward_partial`
* `Verif.Geometry.so3_normalize_backward_wrong`
* `Verif.Kin.fk_jacobians_partial`
* `Verif.Kin.fk_jacobians_exact`
* `Verif.Kin.fk_backward_partial`
* `Verif.Kin.fk_jacobian_small_angle_wrong`
* `Verif.Kin.gain_bounds`
* `Verif.Kin.gain_eq_one`
* `Verif.Kin.axis_joint_motion`
* `Verif.Gauss.State.update_ok`
* `Verif.Gauss.State.construct_spec`
* `Verif.Gauss.State.precision_invariant`
* `Verif.Gauss.State.update_fail`
* `Verif.Gauss.State.update_not_atomic`
* `Verif.Gauss.State.update_permuted`
* `Verif.Dcem.lml_forward`
* `Verif.Dcem.lml_weights`
* `Verif.Dcem.lml_default_width`
* `Verif.Dcem.lml_short`
* `Verif.Dcem.lml_optimal`
* `Verif.Dcem.lml_backward`
* `Verif.Dcem.lml_backward_const`
* `Verif.Dcem.lml_fails_large`
* `Verif.Dcem.lml_weights_long`
* `Verif.Dcem.lml_returns`
* `Verif.Dcem.dcem_record`
* `Verif.Dcem.dcem_converged_iter`
* `Verif.Dcem.dcem_converged_moves`
* `Verif.Embodied.double_integrator_jac`
* `Verif.Embodied.double_integrator_zero`
* `Verif.Embodied.double_integrator_invariant`
* `Verif.Embodied.double_integrator_jac_groups_partial`
* `Verif.Embodied.gp_info_inverse`
* `Verif.Embodied.gp_weight_total`
* `Verif.Embodied.gp_weighted_cost`
* `Verif.Embodied.gp_accepts_iff`
* `Verif.Embodied.gp_weights_batch`
* `Verif.Embodied.gp_batched_dt_raises`
* `Verif.Embodied.gp_asymmetric_accepted`
* `Verif.Embodied.cholesky_isSome_iff`
* `Verif.Embodied.sdf_total`
* `Verif.Embodied.sdf_at_node`
* `Verif.Embodied.sdf_in_cell`
* `Verif.Embodied.sdf_bounds`
* `Verif.Embodied.sdf_outside`
* `Verif.Embodied.sdf_jac`
* `Verif.Embodied.sdf_continuous`
* `Verif.Embodied.sdf_update_smaller_raises`
* `Verif.Embodied.sdf_update_larger_ignored`
* `Verif.Embodied.sdf_edge_jac`
* `Verif.Embodied.map_free_cell`
* `Verif.Embodied.map_occupied_cell`
* `Verif.Embodied.map_sign`
* `Verif.Embodied.map_empty`
* `Verif.Embodied.map_lipschitz`
* `Verif.Embodied.map_antitone`
* `Verif.Embodied.map_full`
* `Verif.Embodied.collision_error`
* `Verif.Embodied.collision_zero_iff`
* `Verif.Embodied.collision_jac`
* `Verif.Embodied.collision_jac_se2`
* `Verif.Embodied.collision_outside`
* `Verif.Embodied.contact_zero_iff`
* `Verif.Embodied.contact_invariant`
* `Verif.Embodied.contact_jac`
* `Verif.Embodied.reprojection_jac`
* `Verif.Embodied.reprojection_pinhole`
* `Verif.Embodied.reprojection_invariant`
* `Verif.Embodied.reprojection_line`
* `Verif.Embodied.reprojection_default_calib_clash`
* `Verif.Embodied.reprojection_defaults_accepted`
* `Verif.Embodied.pushing_zero_iff`
* `Verif.Embodied.pushing_invariant`
* `Verif.Embodied.pushing_rest`
* `Verif.Embodied.pushing_jac`
* `Verif.Embodied.hinge_error`
* `Verif.Embodied.hinge_jac`
* `Verif.Embodied.hinge_accepts_iff`
* `Verif.Embodied.hinge_zero_within`
* `Verif.Embodied.hinge_negative_threshold`
* `Verif.Embodied.hinge_large_threshold`
* `Verif.Embodied.nonholonomic_vector`
* `Verif.Embodied.nonholonomic_se2`
* `Verif.Autodiff.autodiff_jac_partial`
* `Verif.Autodiff.autodiff_modes_agree`
* `Verif.Autodiff.autodiff_dense_raises`
* `Verif.Autodiff.autodiff_loop_short`
* `Verif.Autodiff.autodiff_loop_raises`
* `Verif.Autodiff.vec_represents`
* `Verif.Autodiff.so2_represents`
* `Verif.Autodiff.se2_represents`
* `Verif.Autodiff.so3_represents`
* `Verif.Autodiff.se3_represents`
* `Verif.Autodiff.classes_ok`
* `Verif.Layer.solve_is_least_squares`
* `Verif.Layer.check_singular_spec`
* `Verif.Layer.check_singular_damped`
* `Verif.Layer.damped_solve`
* `Verif.Layer.check_singular_blocks_damped_step`
* `Verif.Layer.check_singular_dtype_raises`
* `Verif.Layer.check_singular_batch_damping_raises`
* `Verif.Layer.linear_optimize_outcome`
* `Verif.Layer.linear_optimize_minimizes`
* `Verif.Layer.linear_optimize_init_irrelevant`
* `Verif.Layer.linear_optimize_singular`
* `Verif.Layer.linear_optimize_check_singular`
* `Verif.Layer.converged_not_minimal`
* `Verif.Layer.gn_affine`
* `Verif.Layer.gn_affine_exact`
* `Verif.Layer.gn_affine_error`
* `Verif.Layer.implicit_step_deriv`
* `Verif.Layer.implicit_gradient_partial`
* `Verif.Layer.implicit_gradient_zero_residual`
* `Verif.Layer.implicit_gradient_affine`
* `Verif.Layer.implicit_gradient_affine_exact`
* `Verif.Layer.truncated_one_eq_implicit`
* `Verif.Layer.groups_exp`
* `Verif.Layer.group_implicit_gradient_partial`
* `Verif.Layer.group_implicit_zero_residual`
* `Verif.Layer.group_truncated_one`
* `Verif.Layer.implicit_gradient_false`
* `Verif.Layer.dlm_tends_to_implicit`
* `Verif.Layer.dlm_tends_to_gradient_partial`
* `Verif.Layer.dlm_bias`
* `Verif.Layer.dlm_default_epsilon_bias`
* `Verif.Layer.copyTask_smooth`
* `Verif.Layer.group_dlm_limit`
* `Verif.Layer.group_dlm_gradient_partial`
* `Verif.Layer.angleTask_grad`
* `Verif.Layer.compute_samples_spec`
* `Verif.Layer.compute_samples_moments`
* `Verif.Layer.compute_samples_normal`
* `Verif.Layer.compute_samples_singular`
* `Verif.Layer.compute_samples_dtype_raises`
* `Verif.Layer.compute_samples_group_raises`
* `Verif.Layer.compute_samples_shared_noise`
* `Verif.Check.check_passes_iff`
* `Verif.Check.check_frame`
* `Verif.Check.verify_success_iff`
* `Verif.Check.check_failure_corrupts`
* `Verif.Check.verify_failure_corrupts`
* `Verif.Check.check_nan_passes`
* `Verif.Forward.forward_modified_raises`
* `Verif.Forward.forward_bad_args`
* `Verif.Forward.forward_spec`
* `Verif.Forward.forward_no_inputs`
* `Verif.Forward.forward_kwargs`
* `Verif.Forward.dlm_backward_data`
* `Verif.Forward.dlm_without_inputs_raises`
* `Verif.Forward.to_breaks_dlm_backward`
* `Verif.Forward.dlm_stale_aux`
* `Verif.Forward.resolve_means`
* `Verif.Weight.weight_error_spec`
* `Verif.Weight.weight_jacobians_error_agree`
* `Verif.Weight.weighted_jacobian_correct`
* `Verif.Weight.is_zero_spec`
* `Verif.Weight.scale_sq_norm`
* `Verif.Weight.scale_constructor`
* `Verif.Weight.one_dim_tensor`
* `Verif.Weight.diagonal_enlarges_error`
* `Verif.Lie.lie_steps_stay_valid`
* `Verif.Lie.lie_step_slope`
* `Verif.Lie.lie_step_stationary`
* `Verif.Lie.lie_step_descends`
* `Verif.Lie.lie_step_vector`
* `Verif.Lie.isGrad_of_hasFDerivAt`
* `Verif.Lie.lie_step_recursion`
* `Verif.Lie.Tensor.lie_compose_acts`
* `Verif.Lie.Tensor.lie_mul_reversed`
* `Verif.Lie.Tensor.lie_mul_not_compose`
* `Verif.Lie.Tensor.lie_operators_reject`
* `Verif.Lie.Tensor.lie_local_retract_partial`
* `Verif.Lie.Dispatch.dispatch_results_checked`
* `Verif.Lie.Dispatch.dispatch_listed_only`
* `Verif.Lie.Dispatch.dispatch_mixed`
* `Verif.Lie.Dispatch.dispatch_keywords`
* `Verif.Lie.Storage.lie_tensors_sound_partial`
* `Verif.Lie.Storage.lie_constructor_copies`
* `Verif.Lie.Storage.lie_from_tensor_shares`
* `Verif.Lie.Storage.lie_step_not_in_place`
* `Verif.Ext.cuda_mat_vec`
* `Verif.Ext.cuda_tmat_vec`
* `Verif.Ext.cuda_mult_MtM`
* `Verif.Ext.cuda_apply_damping`
* `Verif.Ext.ata_pattern_fits`
* `Verif.Linear.csr_columns_stored`
* `Verif.Ext.gpu_assembles`
* `Verif.Ext.lu_forward_solves`
* `Verif.Ext.lu_forward_exists`
* `Verif.Ext.lu_forward_deterministic`
* `Verif.Ext.cuda_mat_vec_reads_outside`
* `Verif.Ext.damping_needs_columns`
* `Verif.Ext.cpu_add_MtM`
* `Verif.Ext.cuda_add_MtM`
* `Verif.Ext.cpu_add_M`
* `Verif.Ext.cuda_add_M`
* `Verif.Ext.cpu_damp`
* `Verif.Ext.cuda_damp`
* `Verif.Ext.cpu_solve`
* `Verif.Ext.cuda_solve`
* `Verif.Ext.blockPattern_stored`
* `Verif.Linear.csr_sorted`
* `Verif.Ext.linearization_fits`
* `Verif.Ext.normal_posDef`
* `Verif.Ext.bsp_forward_cpu`
* `Verif.Ext.bsp_forward_gpu`
* `Verif.Ext.bsp_devices_agree`
* `Verif.Ext.bsp_cpu_exists`
* `Verif.Ext.bsp_gpu_exists`
* `Verif.Ext.exact_solves`
* `Verif.Ext.bsp_gpu_empty_batch`
* `Verif.Ext.bsp_needs_sorted`
* `Verif.Conv.gn_quadratic`
* `Verif.Conv.lm_linear`
* `Verif.Conv.local_linear`
* `Verif.Conv.local_converges`
* `Verif.Conv.gn_repelled`
* `Verif.Conv.lm_rate_sharp`
* `Verif.Lie.Fn.jacobians_contract`
* `Verif.Lie.Fn.jacobians_unsupported`
* `Verif.Lie.Fn.jacobians_are_derivatives_partial`
* `Verif.Lie.Fn.jop_binary`
* `Verif.Lie.Fn.jop_unary_raises`
* `Verif.Lie.Fn.lietensor_jacobians`
* `Verif.Lie.Fn.compose_jacobians_rejects`
* `Verif.Params.set_exact`
* `Verif.Params.set_raises`
* `Verif.Params.set_not_atomic`
* `Verif.Params.last_set_wins`
* `Verif.Params.reset_restores_partial`
* `Verif.Params.th_reset_restores_partial`
* `Verif.Params.reset_returns`
* `Verif.Params.reset_keeps_flags`
* `Verif.Params.th_reset_keeps_norm`
* `Verif.Params.reset_broken`
* `Verif.Params.get_eps_reads`
* `Verif.Params.sites_exist`
* `Verif.Params.defaults_positive`
* `Verif.Numeric.groups_lawful`
* `Verif.Numeric.numeric_limit`
* `Verif.Numeric.numeric_compose`
* `Verif.Numeric.numeric_raises`
* `Verif.Numeric.numeric_batch`
* `Verif.Numeric.numeric_error`
* `Verif.Numeric.numeric_grad_approx`
* `Verif.Numeric.numeric_repeats_rows`
* `Verif.Numeric.numeric_grad_int`
* `Verif.Util.timer_records_partial`
* `Verif.Util.timer_fresh_bare`
* `Verif.Util.timer_bare_charged`
* `Verif.Util.timer_nested`
* `Verif.Util.timer_call_lost`
* `Verif.Util.timer_inactive`
* `Verif.Util.timer_end_raises`
* `Verif.Util.build_mlp_chain`
* `Verif.PoseGraph.read_returns`
* `Verif.PoseGraph.read_blank_raises`
* `Verif.PoseGraph.read_result`
* `Verif.PoseGraph.read_positions`
* `Verif.PoseGraph.read_shifted`
* `Verif.PoseGraph.read_ignores_offdiagonal`
* `Verif.PoseGraph.write_read`
* `Verif.PoseGraph.read2_edges_raise`
* `Verif.PoseGraph.create_returns`
* `Verif.PoseGraph.batches_partition`
* `Verif.PoseGraph.batch_minus_one`
* `Verif.PoseGraph.histogram_counts`
* `Verif.PoseGraph.histogram_no_edges`
* `Verif.PoseGraph.synthetic_edges`
* `Verif.PoseGraph.synthetic_error`
* `Verif.PoseGraph.synthetic_zero_noise`
* `Verif.Bundle.load_iff`
* `Verif.Bundle.save_load`
* `Verif.Bundle.save_load_exact_partial`
* `Verif.Bundle.save_load_near`
* `Verif.Bundle.gt_swapped`
* `Verif.Bundle.load_no_gt`
* `Verif.Bundle.gt_not_restored`
* `Verif.Bundle.save_no_gt_raises`
