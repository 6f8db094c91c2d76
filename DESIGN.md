# Formal model of facebookresearch/theseus — design

`properties.jsonl` lists the properties (C01, C02, …), `MANIFEST.json` says for each which theorems settle it and
whether it is proved in full. This file says what is modelled, how, and what the results rest on.

## Layout

The model is a set of Lean 4 modules under `lean/Verif/`, one folder per area. In each folder

* `Model.lean` (or the modules named below) has the definitions, each citing the `/repo` file and lines it models and
  naming its simplifications;
* `Spec.lean` (or the head of the `…Props` file) has a small specification that does not use the model's helpers;
* `…Lemmas.lean` and similar files have helper lemmas;
* `…Props.lean` has the property theorems and, beside them, examples that meet their hypotheses.

A theorem whose name ends in `_partial` proves a part of its property; the note in the manifest says what is missing.
Where the code violates a property, the negation is proved with a concrete witness (theorems named `…_wrong`,
`…_not_…`, `…_raises`, and so on) and the `_partial` theorem says what does hold.

## Trusted base

* Lean 4.33.0's kernel.
* Axioms: each theorem depends on a subset of `propext`, `Classical.choice` and `Quot.sound`, Lean's own three.
  `AXIOMS.md` lists the exact set for every theorem in the manifest (generated by `tools/axioms.py` from
  `#print axioms`). No axiom is added, no proof is left out and no compiled code is trusted; concrete witnesses
  evaluated in proofs use `decide`/`norm_num`, checked by the kernel.
* Mathlib's definitions that occur in statements: `ℝ`, `Matrix`, `Real.sin/cos/sqrt/exp`, `Complex.arg`, `HasDerivAt`,
  `Matrix.PosDef`, `List`, `Finset` and so on.
* The reading of the Python code. Nothing is extracted mechanically: every definition cites the lines it models so
  that it can be compared with them.

### General simplifications

* Real (or exact field / ring) arithmetic instead of IEEE floats. Rounding and overflow are not modelled. The
  numerical thresholds and epsilons of the code *are* (as parameters or as the code's constants), so small-angle
  branches, clamps and guards behave as in the code. Infinities and NaN are modelled where decisions depend on them
  (type `Fl` of `Nlopt` and `Steps`: errors, convergence tests, step acceptance, best solution). Elsewhere a division by zero in the
  code is excluded by hypothesis or shown as a finding ("divides by zero" theorems).
* Operations that act on every batch element separately are modelled on one element; batches are explicit where
  elements interact (loop control, masks, broadcasting, vectorization, constructor checks).
* Python object identity is modelled by integer ids or heap addresses; dictionaries by association lists that keep
  insertion order (re-assigning keeps the position, deleting and re-inserting moves it last).
* Exceptions are values: a method that may raise returns the state it leaves behind *and* the outcome, since Python
  keeps the side effects performed before the `raise`.
* External code enters by its contract, stated as a hypothesis or as a definition with the contract as its only
  content: `torch.linalg.cholesky` (exists iff positive definite, proved), exact linear solves, `torch.svd` (`IsSvd`),
  `argsort` (`Sorts`), scipy's distance transform (`edt`), scipy sparse products, the CUDA/C++ kernels only as far as
  cited in `Steps` (damping) and `Lu` (factor counter).
* Not modelled at all: autograd's tape (the hand-written backward passes are), devices and dtypes other than where
  they are checked, GPU kernels, file and network IO, threads, printing, the examples other than pose graph and bundle adjustment datasets, motion planning and tactile pose estimation, `easyaug.py`,
  `third_party/utils.py`, `_version.py`.

## What is modelled, by source file

| Source | Module | Not modelled |
|---|---|---|
| `core/objective.py` | `Objective` (book-keeping), `Update` (update, error, batch size, retract), `Copy`, `Vectorize` (vectorization switches), `Layer/Forward` (`to`) | devices |
| `core/theseus_function.py` | `Func`, `Copy` | |
| `core/variable.py` | `Update`, `Masking` | |
| `core/cost_function.py`, `core/cost_weight.py` | `Masking`; weights in `Weight` and `Embodied` (`GPCostWeight`); `AutoDiffCostFunction` in `Autodiff` | |
| `core/robust_loss.py`, `core/robust_cost_function.py` | `Robust` | |
| `core/vectorizer.py` | `Vectorize` | CUDA memory |
| `geometry/lie_group.py`, `manifold.py`, `lie_group_check.py`, `utils.py` | `Geometry/Lie`, `Geometry/SpatialChecks`, `Scoped`, `Geometry/Random` | |
| `geometry/so2.py`, `se2.py`, `vector.py`, `point_types.py` | `Geometry/Planar` and its lemma/property files | operator overloads that only forward |
| `geometry/so3.py`, `se3.py`, `torchlie/functional/so3_impl.py`, `se3_impl.py`, `check_contexts.py` | `Geometry/Spatial`, `Quaternion`, `SpatialChecks`, `Backward`; `functional/lie_group.py` in `Lie/Functional`; batches of `left_act`, `left_project`, `compose`, `transform` and their gradients in `Lie/Batch`, `BatchGrad`, `BatchSE3`, `BatchJac`, `BatchQuat`, `BatchUnary`, `BatchLift` | other batching of `functional/lie_group.py` |
| `geometry/utils.py` (`LieGroupTensor`) | `Lie/Step` | torch dispatch itself |
| `torchlie/lie_tensor.py`, `types.py` | `Lie/Tensor`, `Lie/Dispatch`, `Lie/Storage` | type check of the random/identity builders, views of part of a storage, propagation of the gradient marker |
| `optimizer/variable_ordering.py`, `linearization.py`, `dense_linearization.py`, `sparse_linearization.py`, `utils/sparse_matrix_utils.py` | `Linear` | |
| `optimizer/linear/*.py`, `extlib` damping kernels and LU context counter | `Steps`, `Lu`, `Layer/LinOpt` (dense solvers, `LinearOptimizer`) | factorization numerics |
| `extlib/baspacho_solver.cpp`, `extlib/baspacho_solver_cuda.cu`, the block structure of `baspacho_sparse_solver.py`, `baspacho_sparse_autograd.py` | `Ext` | the BaSpaCho library (by contract), device and dtype checks, rounding, weak memory |
| `extlib/mat_mult.cu`, the pattern of `lu_cuda_sparse_solver.py` | `Ext` | device and dtype checks, 32-bit overflow, rounding, weak memory |
| `theseus_layer.py`, `utils/utils.py` (`check_jacobians`) | `Layer` (forward, DLM, samples, Jacobian check), implicit gradients in `Layer/Implicit`, implicit and DLM gradients of rotations and poses in `Layer/Group` | the `dlm_epsilon` of several dtypes |
| `utils/utils.py` (`numeric_jacobian`, `numeric_grad`, `Timer`, `gather_from_rows_cols`, `build_mlp`) | `Util/Numeric`, `Util/Timer` | CUDA events, `Profiler` |
| `utils/examples/bundle_adjustment/{data,util}.py` | `Bundle` | decimal numbers, names, the text of `histogram`, order and dtypes of random draws |
| `utils/examples/pose_graph/dataset.py` | `PoseGraph` | decimal numbers, names, `histogram`'s bars, downloads |
| `utils/examples/motion_planning/{motion_planner,models}.py` | `Planner` | the networks, devices, `ScalarCollisionWeightModel`, `forward` (one call of C84) |
| `utils/examples/tactile_pose_estimation/{models,pose_estimator,misc}.py`, `motion_planning/misc.py` | `Tactile` | reading of files and images, networks, plots, `trainer.py` |
| `embodied/kinematics/kinematics_model.py`, `examples/inverse_kinematics.py` | `Kin/RobotModel` | the part of the example that uses an `Objective`; batches only in the loop |
| `torchkin/third_party/urdf_parser_py/xml_reflection/core.py`, `basics.py`, `urdf.py` | `Kin/Xml` | writing XML, YAML, `sdf.py`, error paths and messages, `get_chain` |
| `core/theseus_function.py` `copy`, `_copy_impl` of `core/cost_function.py`, `core/cost_weight.py`, `core/robust_cost_function.py`, `embodied/*`, `optimizer/nonlinear` DLM cost and the motion planner's | `Copy/Fn*` | `__deepcopy__`, `_supports_masking`, reshaping in constructors |
| `optimizer/autograd/*.py` | `Autograd` | dtype conversions |
| `optimizer/nonlinear/*.py` | `Nlopt` (loop, info, modes), `Steps` (LM, trust region, Dogleg, Gauss–Newton), `Conv` (local convergence), `Dcem` | verbose printing, `end_iter_callback` |
| `optimizer/manifold_gaussian.py` | `Gauss` | `ManifoldGaussian.copy`, devices |
| `third_party/lml.py` | `Dcem/Lml*` | warnings, the old-torch branches |
| `embodied/**` | `Embodied`; Between, MovingFrameBetween and Local are in `Geometry` | `UrdfRobotModel` |
| `torchlie/global_params.py`, `theseus/global_params.py` | `Params` | names with leading double underscores |
| `torchkin/torchkin/*.py` | `Kin` | batching |

## Properties: model and proof

| Id | Modelled as | Proof |
|----|-------------|-------|
| C01–C10 | state machine of `Objective`: cost functions, variable dictionaries, functions-for-variable and functions-for-weight maps, version; `add`/`erase` return state and outcome | invariant by induction over arbitrary histories; refinement to the list of present cost functions (`Objective/Spec`); concrete negations for C03 and C06 |
| C11 | `Objective.copy` as code over an allocator of fresh ids, built on `add` | isomorphism by loop invariant; three negation witnesses |
| C12–C16 | variables as batched values; `update`, `_resolve_batch_size`, `error` with save/restore, retract over column slices | case analysis and list induction; negation witnesses for C12 |
| C17 | vectorized retraction: grouping by type and dof, stacking, slicing back | grouping is a permutation; refinement to the sequential retraction |
| C18–C21, C58 | vectorizer state: schemas, shared and stacked tensors, expansion of batch-1 tensors, cached results keyed on update counters, wrappers | refinement to evaluating each cost function; invariant over histories; negations for order, stale batch size, failures and late additions |
| C22, C23 | `VariableOrdering` state machine; prefix sums | invariants; negation for `remove` |
| C24–C26 | dense and sparse assembly over lists of blocks (any commutative ring); CSR denotation | refinement of dense and sparse to the block specification |
| C27–C32 | the loop of `NonlinearLeastSquares` for an arbitrary step function, rejection and failure pattern, with NaN | induction on iterations against the record of a run (`Nlopt/Spec`); negations for the two-phase modes |
| C33–C37, C56, C57 | damping, LM, trust region, Dogleg over ℝ (errors in `Fl`); whole runs by plugging the steps into the loop of C27 | real inequalities, positive definiteness, induction over runs |
| C38 | solver contexts as heap objects with factor counters; `reset`; which solves a run performs | modular arithmetic and induction over solves |
| C39, C40 | robust losses and the robust cost function over ℝ | calculus; negations for HingeLoss and flattened batched radii |
| C41 | masking of Jacobians and variables on batches | list induction; negations for repeated or short variables |
| C42–C44, C47–C49 | `Ops` (the abstract methods of `LieGroup`), an embedding into matrices, and the derivative along curves (`Geometry/Spec`); SO2, SE2, Vector | groups via the embedding; trigonometry and Taylor bounds; `HasDerivAt`; negations for the defects |
| C45, C46, C59–C61 | SO3, SE3 as matrices with all numerical branches and thresholds as parameters | Rodrigues algebra, `Real.arccos`/`sin` analysis, Taylor bounds in the small-angle branches |
| C62 | constructors on batches with the flag and context logic; SVD by contract | case analysis; normal form of orthogonal factors |
| C63 | `backward` methods; specification: the chain rule for every incoming gradient and every curve | derivative lemmas of C60 and adjoint identities |
| C50 | nest of `with` blocks over a thread-local store with bodies that may raise | induction over programs; negations for generator-based managers |
| C51, C64, C65 | URDF as link and joint lists, mutable link/joint heap, fixed-joint simplification, BFS numbering, FK loop, Jacobian columns, backward pass | loop invariants; refinement to the pose along the path; derivative along joint curves |
| C52 | registration state machine | induction |
| C53 | backward of the sparse solves over ℝ matrices, CSR entries | implicit differentiation of the normal equations along curves |
| C54, C67, C68 | DCEM step (hard and soft elites), LML search and backward, DCEM loop on the record of C27 | sums over permutations, bracketing invariant, strict concavity of the entropy, induction on iterations |
| C55, C66 | Gaussian precision transforms on every Lie group class; `ManifoldGaussian` objects on a heap | algebra over C48/C49; invariant over histories of updates |
| C69–C76 | the cost functions and weights of `theseus/embodied`; Jacobians in the sense of `Geometry/Spec` and `Embodied/Spec` | calculus over the geometry results; block matrix inverses and Cholesky by induction on the dimension; floor/clamp arithmetic for the grid |
| C77 | error functions on lists of batch elements; the three autograd modes as derivatives of calculus on perturbed tensors; `project` of every class | row-wise functions, chain rule along group curves |
| C78, C79 | dense solvers on batches with `check_singular`, damping and data types; `LinearOptimizer`; Gauss–Newton by plugging its step into the loop of C27 | normal equations and positive definiteness; induction on the iterations |
| C80, C81 | families of errors depending on parameters, for vectors and (`Layer/Group`) for variables of all group classes; the last Gauss–Newton step as a function of the parameters; the perturbed problem of DLM | derivative of the step by implicit differentiation; limit of difference quotients; counterexamples with exact values |
| C82 | `compute_samples` as a function of the random numbers, with torch's Cholesky factor | algebra of the factor; integrals over independent standard normal numbers |
| C83 | store of tensors; the check with its context managers and exceptions | induction on the checks and on the cost functions |
| C84 | `forward` over the environment of C12 with an arbitrary optimizer; the DLM copy as a second environment | case analysis over the results of C05 and C13 |
| C85 | tensors as sizes and entry functions with torch's broadcasting | case analysis; product rule |
| C86 | rows of reals per class; `add_`, `addcdiv_`, `addcmul_` with a bound on the Python stack | induction on the sequence of steps; the step curve has the projected gradient as tangent; derivative and sign; every legal curve has a tangent vector |
| C87 | values of SO3 and SE3, arguments of any type | case analysis; linear maps are determined by their action |
| C88 | arguments as lists of leaves, torch functions arbitrary partial functions | case analysis |
| C89 | heap of storages and tensor objects | invariants over histories |
| C90 | a machine whose threads interleave accesses to one buffer; kernels as access lists | atomic additions commute (conserved sum); addresses private to a thread; binary search; invariant of the pattern |
| C91 | the bindings as access lists over a layout that the library chooses; contract of the library | addresses of the lower half do not overlap; sums over pairs; uniqueness of solutions of positive definite systems |
| C92 | errors and Jacobians of vector variables as functions; dense solver of C78; loop of C27 | the loop iterates one map per element (invariant over passes); Taylor bound by the mean value theorem; energy estimate of the damped normal equations |
| C93 | operators as functions returning a value with its gradient function, the list passed by the caller, attributes of the modules, exceptions as values; one batch element | contract proved once for unary and binary operators and checked for each; derivatives from C59–C61, C66; counterexamples by evaluation |
| C94 | the dictionaries of the two objects and of their classes, attribute lookup, calls as transitions, exceptions as values | induction over the options of a call and over histories; the set of valid names as invariant; defaults by evaluation |
| C95 | arguments with batch sizes and broadcasting, group operations of C43–C61, assignment of columns with torch's broadcasting | tangent of the curve from the perturbed to the other perturbed value; the logarithm has derivative 1 at the identity; three integrations of a bounded derivative |
| C96 | attributes of the timer, the clock as input; tensors as functions of their indices; a network as list of modules | induction over sections and over arbitrary calls; case analysis; induction over the depth |
| C97 | lines as lists of tokens, the loop over the lines with its accumulator, `read_*` and `write_3D_g2o` | independent description of what a line says (`IsEdge`, `IsVertex`, `Mentions`); induction over the file; quaternion round trip of C60 |
| C98 | poses as lists of elements, Python slices and floor division; the generator with random numbers as input | arithmetic of chunks; induction over edges and over generated poses; laws of the group |
| C99 | files as lists of lines of tokens, readers returning a value and the rest of the file; cameras with pose and intrinsics; writers returning what was written before an exception | composition of reader specifications; round trip from `SO3` exp/log (C02) |
| C100 | the generator with random numbers as input, Python's `int`, `//` and slices | Rodrigues' formula and the trace for angles; induction over cameras; arithmetic of spans |
| C101 | buckets as natural numbers, Python's `round`, list indices with negative numbers; losses on the reals | induction over observations; derivatives |
| C102 | the constructor's loop as calls of the `Objective.add` model, weights with their dtypes, exceptions as values | invariant of the objective over the loop; an independent list of entries; order of insertion by induction |
| C103 | residuals of the entries from the models of `Difference`, GP, collision and hinge costs | sums over entries by induction; positive definiteness of the GP weight (C69) |
| C104 | trajectories as tables, names as lists of characters, rounding as a parameter, copies as constructor calls | arithmetic; substring analysis of names; counterexamples by the law of the group |
| C105 | the rotation and translation of the parabola, variable order from C102, samples as input | real algebra; position of each variable in the order |
| C106 | tensors as lists of rows, `cat`, `reshape` and columns as list operations | arithmetic of indices; group laws of SE2; a counterexample |
| C107 | the constructor's loops as calls of the `Objective.add` model | invariant of the objective over the loop; an independent list of entries |
| C108 | recordings as lists of steps, Python slices, random permutations as input | induction over the loop; list permutations |
| C109 | the constructor and `forward_kinematics` on top of the `torchkin` model, dictionaries as insertion-ordered lists | case analysis over the arguments; the theorems of C51 and C64 |
| C110 | the example's step and loop; `pinverse` specified by the Penrose equations | derivative of the logarithm along the curve of poses; the logarithm is fixed by its Jacobian and adjoint; spectral theorem for the existence of the pseudo-inverse; induction over the loop |
| C111 | the generic reader of `xml_reflection` over XML trees, all the schemas of `urdf.py`; the lexer is a parameter | invariants of the three loops against a per-parameter specification (`Param.Means`), then schema by schema |
| C112 | the reader followed by the `torchkin` model | C111 and C51; counting of joints; witnesses for the two violations |
| C113 | `TheseusFunction.copy` and all `_copy_impl` over a heap of variables; the constructors' checks and `error` are parameters | every allocated address is computed (`copyAll_eq`), the specification `IsCopy` follows for every class; evaluation and independence from `IsCopy`; witnesses for the violations |
| C114 | the loop of `lml.py` over a batch with its masks, `backward` for batches | simulation of the batch by the row searches of C67 (a frozen row stays what it is); bracket invariant for acceptance; witness for the wrong mask |
| C115 | the random and identity constructors as functions of the numbers a generator gives, for any generator | unit quaternions cover the rotations (rank one of the symmetric part at half turns); arguments of complex numbers for angles; row by row |
| C116 | tensors as a shape and the entry at every index; `permute`, `view`, `@` and broadcasting as functions of them | the permutation swaps two blocks of dimensions; broadcasting ignores a common prefix and ones in front |
| C117 | the backward helpers on tensors of any shape, with the engine's sum to the shape of the input | sums over all indices of a shape by recursion; the engine's sum is the transpose of broadcasting |
| C118 | slices, concatenation, entrywise broadcast and views on tensors of any shape; the pairing of the result with the output gradient as a function of each input | the pairing along a direction is its value, the pairing of the gradient and a multiple of s² |
| C119 | `expand`, slice assignment into new tensors (uninitialised memory a parameter) and the Jacobian functions on tensors of any shape | at every index the matrices are those of the single-element model in `Geometry/Spatial` |
| C120 | the quaternion functions on tensors of any shape, with the `unsqueeze(0)` of the Jacobian function | at every index the matrices are those of the single-element model |
| C121 | `SE3.inverse` and `SE3.adjoint` and their backward passes on tensors of any shape: slices, block assignments, concatenation | at every index the result and the gradient are those of the single-pose model |
| C122 | `lift` and `project` of `SO3` and `SE3` on tensors of any shape, with the checks of the shapes | at every index the single-element model; each is the transpose of the other for the inner product of tensors |

## Checking the theorems against wrong programs

`seeded/LOG.jsonl` has one line per seeded bug: the definition edited, the edit, the claim it breaks, the theorems
that failed and any theorem that was tightened. Edits that survive are either equivalent on the domain of the claim
(noted in the record) or led to a stronger theorem.

## Defects of the code found and proved

Each is a theorem named in the manifest: `add` on a present cost function is not a no-op and a failing `add` is not atomic (C03,
C06); `Objective.copy` raises or detaches (C11); `error` leaks auxiliary inputs and raises on restore (C12); `remove` leaves stale
indices (C22); dense linearization is wrong for cost functions without variables or with a repeated variable (C24,
C25); TRUNCATED/IMPLICIT move converged elements (C30); batch elements are coupled (C31); Dogleg can leave the region
(C36); vectorization reorders errors, serves stale values after a batch-size change or an exception and ignores late
additions (C19, C21, C58); HingeLoss is not an M-estimator (C39); flattened robust costs with batched radii raise
(C40); masking leaves variables masked on error (C41); SE2 `log` divides by zero at π (C44); SE2/SE3 `vee` checks
(C47); Jacobians of SE2 `exp_map`, MovingFrameBetween and fast Local (C49); SO3 `log`/`to_quaternion` divide by zero
for rotations near π about (0, ±1, ±1) and only those (C59, C61); the sign of a series in the SE3 `log` Jacobian (C60); SO3/SE3 constructors validate nothing by default (C62); `normalize`'s gradient is zero at
rotations (C63); torchkin's small-angle Jacobian and axis joints (C64, C65); non-atomic `ManifoldGaussian.update`
(C66); LML raises for large N (C67); DCEM with more elites than samples, zero deviation, moving converged elements
(C54, C68); GPCostWeight on batched `dt` and asymmetric `Qc_inv` (C70); stale grid sizes and edge gradients of the
distance field (C71); zero collision gradient outside the map (C73); clashing default calibration names (C74);
HingeCost's threshold checks (C76); broadcasting in AutoDiffCostFunction's modes (C77);
`check_singular` blocks damped steps, raises for other data types and for damping per element, and makes LinearOptimizer report
CONVERGED (C78, C79); IMPLICIT gradients are wrong for curved problems with a residual (C80); DLM gradients are biased by the
solution (C81); `compute_samples` raises for groups and double precision and shares its noise (C82); a failing Jacobian check
leaves random values in the variables, a NaN passes it (C83); DLM's backward pass uses stale auxiliary data, breaks after `to`
and needs inputs (C84); a diagonal weight enlarges errors of dimension 1 (C85);
`LieGroupTensor.add_` recurses without end outside the tangent context (C86); `*` of LieTensors composes in the reverse order
(C87); `as_euclidean` still checks types and keyword arguments break supported functions (C88); steps are not in place and
`as_lietensor` ignores the requested type (C89); the CUDA matrix-vector product does not check the width of the vector (C90); the BaSpaCho GPU
functions never return for an empty batch (C91); `jexp`, `jlog`, `jinv` and
`jquaternion_to_rotation` of the functional interface always raise, and asking for the Jacobians of `compose` can reject legal data
(C93); `set_global_params` is not atomic and accepts method names, a
reset keeps the flags and `so2_norm_eps_float64`, which is 0 at import (C94); `numeric_jacobian` without `function_dim` repeats the gradient in every row for scalar
functions and `numeric_grad` is zero for integer arrays (C95); `Timer` charges unnamed and nested sections to the wrong name (C96); `read_2D_g2o_file` raises for every edge, blank lines raise, gaps in the numbering
shift the poses (C97); `get_batch_dataset(-1)` is an empty dataset, `histogram` raises without edges, zero noise raises (C98);
`load_from_file` swaps the cameras and points of the ground truth (C99); `random_small_quaternion` doubles the angle, one camera divides
by zero, the last points are never observed (C100);
the planner's velocity cost contradicts its boundary costs (C103); straight lines of SE2 poses are not straight for the motion cost,
`get_trajectory` rounds, `copy` drops costs (C104); samples of initial trajectories are added to the wrong steps (C105);
tactile measurements of different batch elements are mixed up (C106); episodes of one step raise, `val_ratio` 0 still sets two
episodes aside, batch -1 is empty, the fraction for validation is taken before removing maps (C108); a `UrdfRobotModel` with the default
`link_names` accepts no joint states (C109); URDF `mimic` joints move
independently and a moving joint without an `axis` raises (C112); a `parent` or `child` without a
`link` attribute is read as the link named `None` (C111); copies drop the
subclass `GPMotionModel`, the autograd options and the sharing of variables with the weight, and normalize
`SO2` and `SE2` data (C113); the warning branch of `LML` raises
for a batch whose other rows are finished (C114); `SE2.rand` and `SE2.randn` raise with
`requires_grad=True`, `SO2.rand` gives no leaf then, and `_rand_fill_` gives `SO2` variables no rotations (C115); without `dim_out`,
`left_act` raises for a tensor with fewer batch dimensions than the group (C116); the backward pass of `SE3.untransform`
raises when the poses broadcast the points (C118); the Jacobian of a single
quaternion has a dimension too many (C120).
