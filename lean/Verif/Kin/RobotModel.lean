import Verif.Kin.KinProps
import Verif.Util.Dict

/-!
# `theseus.embodied.kinematics` robot models, and the inverse kinematics example

Models `/repo/theseus/embodied/kinematics/kinematics_model.py` and the part of
`/repo/examples/inverse_kinematics.py` that uses the body or spatial Jacobian, for one element of the
batch of joint states (the loop, which stops on the norm over the batch, takes a list of elements).
-/

namespace Verif.Kin
open Verif.Geometry Matrix

/-- What the calls may raise. -/
inductive ModelErr where
  | keyError | valueError | typeError | indexError | assertion | notImplemented | badInput
  deriving DecidableEq, Repr

/-- What is passed as `joint_states`: a tensor or `Vector` with rows of joint states, of which one is
given, a tensor with one dimension, or something else that has a `shape` (kinematics_model.py
L71, L96-104). -/
inductive JointStates where
  | tensor (q : List ℝ)
  | vector (q : List ℝ)
  | tensor1 (q : List ℝ)
  | other (q : List ℝ)

/-- `joint_states.shape[-1]`. -/
def JointStates.lastDim : JointStates → ℕ
  | .tensor q | .vector q | .tensor1 q | .other q => q.length

/-- `UrdfRobotModel` (kinematics_model.py L50-64): the robot, and `link_names`. -/
structure RobotModel (u : Urdf) where
  robot : Robot u
  linkNames : Option (List String)

/-- The names `get_forward_kinematics_fns` selects: those given or all the robot's links
(torchkin/forward_kinematics.py L17-18, robot.py `get_links` L197-202). -/
def RobotModel.selected {u : Urdf} (m : RobotModel u) : List String :=
  match m.linkNames with
  | some names => names
  | none => m.robot.links

/-- `UrdfRobotModel.__init__` (kinematics_model.py L51-64): a file that is not accepted raises (here
`valueError` for every reason), an unknown link name is a `KeyError`. -/
noncomputable def RobotModel.create (u : Urdf) (linkNames : Option (List String)) :
    Except ModelErr (RobotModel u) :=
  match fromUrdf u with
  | none => .error .valueError
  | some r =>
    let m : RobotModel u := ⟨r, linkNames⟩
    match linkIds r m.selected with
    | none => .error .keyError
    | some _ => .ok m

/-- `for i, name in enumerate(self.link_names): d[name] = values[i]` (kinematics_model.py L118-119,
L124-126). -/
def fillDict {α : Type} (names : List String) (values : List α) (d : Dict String α) :
    Except ModelErr (Dict String α) :=
  match names, values with
  | [], _ => .ok d
  | _ :: _, [] => .error .indexError
  | n :: ns, v :: vs => fillDict ns vs (d.set n v)

/-- A link Jacobian, by columns. -/
abbrev LinkJac := ℕ → Fin 6 → ℝ

/-- `joint_states_input` (kinematics_model.py L95-104) and the check of the number of dimensions in
`_forward_kinematics_helper` (torchkin/forward_kinematics.py L31-32). -/
def JointStates.rows : JointStates → Except ModelErr (List ℝ)
  | .tensor q | .vector q => .ok q
  | .tensor1 _ => .error .valueError
  | .other _ => .error .badInput

/-- A result of `torchkin`'s functions, whose failures are `ValueError`s here. -/
def lift {α : Type} : Option α → Except ModelErr α
  | some a => .ok a
  | none => .error .valueError

/-- `UrdfRobotModel.forward_kinematics` (kinematics_model.py L66-128).  Returns the dictionary of poses
and the dictionary passed as `jacobians` as the call leaves it. -/
noncomputable def RobotModel.forward {u : Urdf} (m : RobotModel u) (eps : ℝ) (js : JointStates)
    (jacobians : Option (Dict String LinkJac)) (useBody : Bool) :
    Except ModelErr (Dict String SE3 × Option (Dict String LinkJac)) :=
  if (jacobians.getD []).length > 0 then .error .valueError
  else if js.lastDim ≠ m.robot.dof then .error .valueError
  else
    match js.rows with
    | .error e => .error e
    | .ok q =>
      match jacobians with
      | some d =>
        match lift (if useBody then bodyJacobian m.robot eps m.selected q
            else spatialJacobian m.robot eps m.selected q) with
        | .error e => .error e
        | .ok out =>
          match m.linkNames with
          | none => .error .typeError
          | some names =>
            match fillDict names (out.map Prod.fst) d with
            | .error e => .error e
            | .ok d' =>
              match (if (out.map Prod.snd).isEmpty then lift (forwardKinematics m.robot eps m.selected q)
                  else .ok (out.map Prod.snd)) with
              | .error e => .error e
              | .ok poses =>
                match fillDict names poses [] with
                | .error e => .error e
                | .ok p => .ok (p, some d')
      | none =>
        match lift (forwardKinematics m.robot eps m.selected q) with
        | .error e => .error e
        | .ok poses =>
          match m.linkNames with
          | none => .error .typeError
          | some names =>
            match fillDict names poses [] with
            | .error e => .error e
            | .ok p => .ok (p, none)

/-- The arguments of `IdentityModel.forward_kinematics`: a `Vector` or subclass (`Point2`, `Point3`) with
its values, a tensor, or another Lie group. -/
inductive PoseInput where
  | vector (v : List ℝ)
  | tensor (v : List ℝ)
  | group (v : List ℝ)

/-- `IdentityModel.forward_kinematics` (kinematics_model.py L40-48). -/
def identityForward : PoseInput → Except ModelErr (Dict String (List ℝ))
  | .vector v => if v.length = 2 then .ok [("state", v)] else .error .assertion
  | _ => .error .notImplemented

/-! ## Inverse kinematics -/

/-- The Jacobian returned for a link as a 6 x dof matrix. -/
def jacMatrix (n : ℕ) (cols : LinkJac) : Matrix (Fin 6) (Fin n) ℝ := fun i c => cols c i

/-- `Tensor.norm` of a vector. -/
noncomputable def vnorm {n : ℕ} (v : Fin n → ℝ) : ℝ := Real.sqrt (∑ i, v i ^ 2)

/-- The error of `compute_delta_theta` (examples/inverse_kinematics.py L61-70): the logarithm of
`pose⁻¹ target` with the body Jacobian, of `target pose⁻¹` with the spatial one. -/
noncomputable def ikError (leps epi : ℝ) (useBody : Bool) (pose target : SE3) : Fin 6 → ℝ :=
  SE3.log leps epi (if useBody then (pose.inverse).compose target else target.compose pose.inverse)

/-- `compute_delta_theta` (examples/inverse_kinematics.py L58-71) for one element of the batch: the step
`jac[-1].pinverse() @ error` and the error; `pinv` is `Tensor.pinverse`. -/
noncomputable def ikStep {u : Urdf} (r : Robot u) (eps leps epi : ℝ) (names : List String)
    (pinv : Matrix (Fin 6) (Fin r.dof) ℝ → Matrix (Fin r.dof) (Fin 6) ℝ) (useBody : Bool)
    (q : List ℝ) (target : SE3) : Option ((Fin r.dof → ℝ) × (Fin 6 → ℝ)) :=
  match (if useBody then bodyJacobian r eps names q else spatialJacobian r eps names q) with
  | none => none
  | some out =>
    match out.getLast? with
    | none => none
    | some (cols, pose) =>
      let e := ikError leps epi useBody pose target
      some (pinv (jacMatrix r.dof cols) *ᵥ e, e)

/-- `theta_opt + step_size * delta_theta` (examples/inverse_kinematics.py L95). -/
def moveBy {n : ℕ} (q : List ℝ) (s : ℝ) (δ : Fin n → ℝ) : List ℝ :=
  List.ofFn fun c : Fin n => q.getD c 0 + s * δ c

/-- The loop of `run_ik_using_body_or_spatial_jacobian` (examples/inverse_kinematics.py L87-95) on a
batch: at most `fuel` iterations (50 in the file), left when the norm of the errors of the whole batch is
below `tol` (1e-4). -/
noncomputable def ikLoop {u : Urdf} (r : Robot u) (eps leps epi : ℝ) (names : List String)
    (pinv : Matrix (Fin 6) (Fin r.dof) ℝ → Matrix (Fin r.dof) (Fin 6) ℝ) (useBody : Bool)
    (step tol : ℝ) (targets : List SE3) : ℕ → List (List ℝ) → Option (List (List ℝ))
  | 0, qs => some qs
  | fuel + 1, qs =>
    match (qs.zip targets).mapM fun x => ikStep r eps leps epi names pinv useBody x.1 x.2 with
    | none => none
    | some ds =>
      open Classical in
      if Real.sqrt ((ds.map fun d => ∑ i, d.2 i ^ 2).sum) < tol then some qs
      else ikLoop r eps leps epi names pinv useBody step tol targets fuel
        ((qs.zip ds).map fun x => moveBy x.1 step x.2.1)

end Verif.Kin
