import Verif.Util.Dict
import Mathlib.Data.List.Basic

/-!
# Copies of cost functions and cost weights

Models `TheseusFunction.copy` (`/repo/theseus/core/theseus_function.py` L76-110) and every
`_copy_impl` of the library's cost functions and cost weights.

A variable is an address of the heap, whose cell holds its name, its class and its data.  The
constructors of the copied classes are modelled as far as copying reaches them: they store their
arguments under the attributes of the class, register them, and raise a `ValueError` if a check on
classes or data fails; the checks themselves are a parameter (`World.ok`).  The reshaping that some
constructors do (`view(-1, 1)`) is left out: the data of a copy has the shape that the constructor of
the original gave it.
-/

namespace Verif.CopyFn
open Verif

/-- The classes of variables: `Variable`, the Lie groups, `Vector` and its subclasses `Point2`,
`Point3` by their dimension. -/
inductive VCls where
  | plain
  | so2
  | se2
  | so3
  | se3
  | vector (n : ℕ)
deriving DecidableEq, Repr

/-- A variable object (core/variable.py L17-26). -/
structure Cell (V : Type) where
  name : String
  cls : VCls
  val : V

/-- All variable objects; an object is its position. -/
abbrev Heap (V : Type) := List (Cell V)
abbrev Addr := ℕ

/-- The options of an `AutoDiffCostFunction` (core/cost_function.py L196-209); the error function
and its dimension, and how the Jacobians are computed. -/
structure AutoOpts where
  errFn : ℕ
  dim : ℕ
  createGraph : Bool := true
  strict : Bool := false
  vectorize : Bool := false
  strategy : String := "reverse-mode"
  mode : ℕ
deriving DecidableEq, Repr

/-- The cost functions of the library but the robust ones. -/
inductive Cls where
  | between
  | «local»
  | movingFrame
  | reprojection
  | collision
  | contact
  | hinge
  | nonholonomic
  | pushing
  | doubleIntegrator
  | gpMotion
  | dlm
  | xyDifference
  | autodiff (o : AutoOpts)
deriving DecidableEq, Repr

/-- The cost weights (core/cost_weight.py, embodied/motionmodel/double_integrator.py). -/
inductive WCls where
  | scale
  | diagonal
  | gp
deriving DecidableEq, Repr

/-- The exceptions. -/
inductive Err where
  | attribute
  | value
  | nameNotAllowed
  | reused
deriving DecidableEq, Repr

/-- What the model leaves open: `check` is the constructors' `_check_tensor` (geometry/manifold.py
L118-144), which normalizes data that is not on the group while checks are enabled; `ok` and `okW` are
the checks of the constructors; `reserved` are the names that the class uses for attributes, so that
`register_vars` refuses them (theseus_function.py L67-75).  No attribute of `AutoDiffCostFunction`
ends with `_copy`. -/
structure World (V : Type) where
  check : VCls → V → V
  ok : Cls → List (VCls × V) → Bool
  okW : WCls → List (VCls × V) → Bool
  reserved : String → Bool
  reserved_copy : ∀ s, reserved (s ++ "_copy") = false

/-- The attributes that the arguments of a constructor are stored in, in the order of the arguments
(between.py L14-27, local_cost_fn.py L16-36, moving_frame_between.py L15-36, reprojection.py L15-55,
collision.py L18-43, eff_obj_contact.py L19-45, misc.py L19-50, L98-113, quasi_static_pushing_planar.py
L20-41, double_integrator.py L15-43, theseus_layer.py L288-309, motion_planner.py L16-31). -/
def ctor : Cls → List String
  | .between => ["v0", "v1", "measurement"]
  | .local => ["var", "target"]
  | .movingFrame => ["frame1", "frame2", "pose1", "pose2", "measurement"]
  | .reprojection => ["camera_pose", "world_point", "image_feature_point", "focal_length", "calib_k1",
      "calib_k2"]
  | .collision => ["pose", "sdf_origin", "sdf_data", "sdf_cell_size", "cost_eps"]
  | .contact => ["obj", "eff", "sdf_origin", "sdf_data", "sdf_cell_size", "eff_radius"]
  | .hinge => ["vector", "down_limit", "up_limit", "threshold"]
  | .nonholonomic => ["pose", "vel"]
  | .pushing => ["obj1", "obj2", "eff1", "eff2", "c_square"]
  | .doubleIntegrator | .gpMotion => ["pose1", "vel1", "pose2", "vel2", "dt"]
  | .dlm => ["var", "epsilon", "grad"]
  | .xyDifference => ["var", "target"]
  | .autodiff _ => []

/-- The attributes registered as optimization variables, in order (the same files). -/
def optimRoles : Cls → List String
  | .between => ["v0", "v1"]
  | .local => ["var"]
  | .movingFrame => ["frame1", "frame2", "pose1", "pose2"]
  | .reprojection => ["camera_pose", "world_point"]
  | .collision => ["pose"]
  | .contact => ["obj", "eff"]
  | .hinge => ["vector"]
  | .nonholonomic => ["pose", "vel"]
  | .pushing => ["obj1", "obj2", "eff1", "eff2"]
  | .doubleIntegrator | .gpMotion => ["pose1", "vel1", "pose2", "vel2"]
  | .dlm => ["var"]
  | .xyDifference => ["var"]
  | .autodiff _ => []

/-- The attributes registered as auxiliary variables, in order (the same files). -/
def auxRoles : Cls → List String
  | .between => ["measurement"]
  | .local => ["target"]
  | .movingFrame => ["measurement"]
  | .reprojection => ["focal_length", "image_feature_point", "calib_k1", "calib_k2"]
  | .collision => ["sdf_origin", "sdf_data", "sdf_cell_size", "cost_eps"]
  | .contact => ["sdf_origin", "sdf_data", "sdf_cell_size", "eff_radius"]
  | .hinge => ["down_limit", "up_limit", "threshold"]
  | .nonholonomic => []
  | .pushing => ["c_square"]
  | .doubleIntegrator | .gpMotion => ["dt"]
  | .dlm => ["epsilon", "grad"]
  | .xyDifference => ["target"]
  | .autodiff _ => []

/-- The attributes whose copies `_copy_impl` passes, in order (between.py L50-57, local_cost_fn.py
L66-69, moving_frame_between.py L68-77, reprojection.py L102-112, collision.py L75-84,
eff_obj_contact.py L106-118, misc.py L86-94, L180-186, quasi_static_pushing_planar.py L288-297,
double_integrator.py L82-91, L201-202, theseus_layer.py L329-336, motion_planner.py L51-54). -/
def passed : Cls → List String
  | .between => ["v0", "v1", "measurement"]
  | .local => ["var", "target"]
  | .movingFrame => ["frame1", "frame2", "pose1", "pose2", "measurement"]
  | .reprojection => ["camera_pose", "world_point", "image_feature_point", "focal_length", "calib_k1",
      "calib_k2"]
  | .collision => ["pose", "sdf_origin", "sdf_data", "sdf_cell_size", "cost_eps"]
  | .contact => ["obj", "eff", "sdf_origin", "sdf_data", "sdf_cell_size", "eff_radius"]
  | .hinge => ["vector", "down_limit", "up_limit", "threshold"]
  | .nonholonomic => ["pose", "vel"]
  | .pushing => ["obj1", "obj2", "eff1", "eff2", "c_square"]
  | .doubleIntegrator | .gpMotion => ["pose1", "vel1", "pose2", "vel2", "dt"]
  | .dlm => ["var", "epsilon", "grad"]
  | .xyDifference => ["var", "target"]
  | .autodiff _ => []

/-- The class of the object that `_copy_impl` builds: that of `GPMotionModel` calls the one of
`DoubleIntegrator`, which builds a `DoubleIntegrator` (double_integrator.py L82-91, L201-202), and
`AutoDiffCostFunction`'s passes the mode only (core/cost_function.py L398-407). -/
def copyCls : Cls → Cls
  | .gpMotion => .doubleIntegrator
  | .autodiff o => .autodiff { errFn := o.errFn, dim := o.dim, mode := o.mode }
  | c => c

/-- The arguments of the constructors of weights, all registered as auxiliary variables in this order
(cost_weight.py L61-74, L98-119, double_integrator.py L97-129). -/
def ctorW : WCls → List String
  | .scale => ["scale"]
  | .diagonal => ["diagonal"]
  | .gp => ["Qc_inv", "dt"]

/-- The attributes whose copies are passed (cost_weight.py L92-93, L138-139, double_integrator.py
L172-176). -/
def passedW : WCls → List String
  | .scale => ["scale"]
  | .diagonal => ["diagonal"]
  | .gp => ["Qc_inv", "dt"]

/-- A cost weight. -/
structure Wt where
  cls : WCls
  name : String
  attrs : Dict String Addr

/-- A cost function that is not robust: its class, its attributes, the names of the attributes that are
registered, and its weight. -/
structure Base where
  cls : Cls
  name : String
  attrs : Dict String Addr
  optim : List String
  aux : List String
  weight : Wt

/-- `RobustCostFunction` and `GNCRobustCostFunction` (core/robust_cost_function.py L52-79, L172-198); the
wrapped cost function is not robust, because `log_loss_radius` would be registered twice. -/
structure Robust where
  gnc : Bool
  loss : ℕ
  flatten : Bool
  name : String
  inner : Base
  attrs : Dict String Addr
  optim : List String
  aux : List String

section
variable {V : Type} (W : World V)

/-- The data of a copy: `clone()`, and the constructors of `SO2` and `SE2` check it (geometry/so2.py
L332-333, se2.py L467-468), those of `SO3` and `SE3` do not (so3.py L279-281, se3.py L223-225); a
`Vector` has nothing to check (vector.py L262-263). -/
def copyVal (c : VCls) (v : V) : V :=
  match c with
  | .so2 => W.check .so2 v
  | .se2 => W.check .se2 v
  | _ => v

/-- `Variable.copy`, `Manifold.copy` without a name (core/variable.py L28-31, geometry/manifold.py
L163-167). -/
def copyCell (c : Cell V) : Cell V := ⟨c.name ++ "_copy", c.cls, copyVal W c.cls c.val⟩

/-- The copies of a list of variables, one after the other. -/
def copyAll (h : Heap V) : List Addr → Except Err (Heap V × List Addr)
  | [] => .ok (h, [])
  | a :: as =>
    match h[a]? with
    | none => .error .attribute
    | some c =>
      match copyAll (h ++ [copyCell W c]) as with
      | .error e => .error e
      | .ok r => .ok (r.1, h.length :: r.2)

/-- `getattr` for a list of attributes. -/
def getattrs (d : Dict String Addr) : List String → Except Err (List Addr)
  | [] => .ok []
  | r :: rs =>
    match d.get? r with
    | none => .error .attribute
    | some a =>
      match getattrs d rs with
      | .error e => .error e
      | .ok as => .ok (a :: as)

/-- The classes and data of variables. -/
def look (h : Heap V) (as : List Addr) : List (VCls × V) :=
  as.filterMap fun a => (h[a]?).map fun c => (c.cls, c.val)

/-- `if not new_name: new_name = f"{self.name}_copy"` (theseus_function.py L95-96). -/
def newName (old : String) : Option String → String
  | none => old ++ "_copy"
  | some n => if n = "" then old ++ "_copy" else n

/-- `new_var.name = old_var.name` (theseus_function.py L99-102). -/
def rename (h : Heap V) : List (Addr × Addr) → Heap V
  | [] => h
  | (o, n) :: ps =>
    match h[o]?, h[n]? with
    | some c, some d => rename (h.set n { d with name := c.name }) ps
    | _, _ => rename h ps

/-- `len(set(base) & set(vectorized)) > 0` (theseus_function.py L82-88). -/
def meet (l l' : List Addr) : Bool := l.any fun a => l'.contains a

/-- The end of `TheseusFunction.copy` (theseus_function.py L98-110): keeping the names of the variables,
and the test for reused ones.  `o`, `a` are the variables of the function, `o'`, `a'` those of the
copy. -/
def finish (keep : Bool) (h : Heap V) (o a o' a' : List Addr) : Except Err (Heap V) :=
  if meet o o' || meet a a' then .error .reused
  else .ok (if keep then rename h (o.zip o' ++ a.zip a') else h)

/-- The end of `copy` for objects with the given attributes (theseus_function.py L98-110). -/
def finishFn (keep : Bool) (h : Heap V) (d : Dict String Addr) (o a : List String)
    (d' : Dict String Addr) (o' a' : List String) : Except Err (Heap V) :=
  match getattrs d o, getattrs d a, getattrs d' o', getattrs d' a' with
  | .ok ov, .ok av, .ok ov', .ok av' => finish keep h ov av ov' av'
  | _, _, _, _ => .error .attribute

/-- `CostWeight.copy` (cost_weight.py L49-55). -/
def Wt.copy (h : Heap V) (w : Wt) (n : Option String) (keep : Bool) : Except Err (Heap V × Wt) :=
  match getattrs w.attrs (passedW w.cls) with
  | .error e => .error e
  | .ok as =>
    match copyAll W h as with
    | .error e => .error e
    | .ok (h1, as') =>
      if W.okW w.cls (look h1 as') then
        let w' : Wt := ⟨w.cls, newName w.name n, (ctorW w.cls).zip as'⟩
        match finishFn keep h1 w.attrs [] (ctorW w.cls) w'.attrs [] (ctorW w.cls) with
        | .error e => .error e
        | .ok h2 => .ok (h2, w')
      else .error .value

/-- `register_vars` (theseus_function.py L67-75) for the optimization and the auxiliary variables: a name
that is an attribute of the class or of an earlier variable is refused. -/
def namesAllowed (names : List String) : Bool :=
  decide names.Nodup && names.all fun n => !W.reserved n

/-- The names of variables. -/
def namesOf (h : Heap V) (as : List Addr) : List String := as.filterMap fun a => (h[a]?).map Cell.name

/-- `_copy_impl` of the cost functions: the copies of the variables in the order of the arguments, the copy
of the weight, and the constructor.  For an `AutoDiffCostFunction` the variables are those registered, and
the copies are stored under their names (core/cost_function.py L211-226, L398-407). -/
def Base.copyImpl (h : Heap V) (b : Base) (name : String) : Except Err (Heap V × Base) :=
  match b.cls with
  | .autodiff o =>
    match getattrs b.attrs b.optim, getattrs b.attrs b.aux with
    | .ok ov, .ok av =>
      match copyAll W h (ov ++ av) with
      | .error e => .error e
      | .ok (h1, as) =>
        match b.weight.copy W h1 none false with
        | .error e => .error e
        | .ok (h2, w) =>
          if ov.length < 1 then .error .value
          else if namesAllowed W (namesOf h2 as) then
            .ok (h2, ⟨copyCls (.autodiff o), name, (namesOf h2 as).zip as,
              (namesOf h2 as).take ov.length, (namesOf h2 as).drop ov.length, w⟩)
          else .error .nameNotAllowed
    | _, _ => .error .attribute
  | c =>
    match getattrs b.attrs (passed c) with
    | .error e => .error e
    | .ok vs =>
      match copyAll W h vs with
      | .error e => .error e
      | .ok (h1, as) =>
        match b.weight.copy W h1 none false with
        | .error e => .error e
        | .ok (h2, w) =>
          if W.ok (copyCls c) (look h2 as) then
            .ok (h2, ⟨copyCls c, name, (ctor (copyCls c)).zip as, optimRoles (copyCls c),
              auxRoles (copyCls c), w⟩)
          else .error .value

/-- `CostFunction.copy` (core/cost_function.py L130-136). -/
def Base.copy (h : Heap V) (b : Base) (n : Option String) (keep : Bool) :
    Except Err (Heap V × Base) :=
  match b.copyImpl W h (newName b.name n) with
  | .error e => .error e
  | .ok (h1, b') =>
    match finishFn keep h1 b.attrs b.optim b.aux b'.attrs b'.optim b'.aux with
    | .error e => .error e
    | .ok h2 => .ok (h2, b')

/-- The names of the auxiliary variables that a robust cost function adds. -/
def extra (gnc : Bool) : List String :=
  if gnc then ["log_loss_radius", "gnc_control_val"] else ["log_loss_radius"]

/-- `_copy_impl` of the robust cost functions and their constructors, whose last assignments are those of
their own variables (core/robust_cost_function.py
L55-79, L140-147, L175-198, L215-223). -/
def Robust.copyImpl (h : Heap V) (r : Robust) (name : String) : Except Err (Heap V × Robust) :=
  match r.inner.copy W h none false with
  | .error e => .error e
  | .ok (h1, b') =>
    match getattrs r.attrs (extra r.gnc) with
    | .error e => .error e
    | .ok es =>
      match copyAll W h1 es with
      | .error e => .error e
      | .ok (h2, es') =>
        if (extra r.gnc).any fun x => (b'.optim ++ b'.aux).contains x then .error .value
        else .ok (h2, ⟨r.gnc, r.loss, r.flatten, name, b', (extra r.gnc).zip es' ++ b'.attrs,
          b'.optim, b'.aux ++ extra r.gnc⟩)

/-- `CostFunction.copy` of a robust cost function. -/
def Robust.copy (h : Heap V) (r : Robust) (n : Option String) (keep : Bool) :
    Except Err (Heap V × Robust) :=
  match r.copyImpl W h (newName r.name n) with
  | .error e => .error e
  | .ok (h1, r') =>
    match finishFn keep h1 r.attrs r.optim r.aux r'.attrs r'.optim r'.aux with
    | .error e => .error e
    | .ok h2 => .ok (h2, r')

end

/-- The class whose `error` a cost function runs, and what of its options that reads: `GPMotionModel`
inherits it from `DoubleIntegrator` (double_integrator.py L57-69, L179-202). -/
def errorDef : Cls → Cls
  | .gpMotion => .doubleIntegrator
  | .autodiff o => .autodiff { errFn := o.errFn, dim := o.dim, mode := 0 }
  | c => c

/-- The same for `jacobians`, which reads the options of `AutoDiffCostFunction`
(core/cost_function.py L280-396). -/
def jacobiansDef : Cls → Cls
  | .gpMotion => .doubleIntegrator
  | c => c

section
variable {V : Type}

/-- Class and data of the variable under an attribute. -/
def attrVal (h : Heap V) (d : Dict String Addr) (r : String) : Option (VCls × V) :=
  (d.get? r).bind fun a => (h[a]?).map fun c => (c.cls, c.val)

/-- What the evaluation of a weight reads. -/
def Wt.inputs (h : Heap V) (w : Wt) : List (Option (VCls × V)) := (ctorW w.cls).map (attrVal h w.attrs)

/-- What the evaluation of a cost function reads of its own variables. -/
def Base.inputs (h : Heap V) (b : Base) : List (Option (VCls × V)) :=
  (b.optim ++ b.aux).map (attrVal h b.attrs)

/-- `weighted_error` (core/cost_function.py L93-95) for any meaning of `error` and `weight_error`. -/
def Base.weightedError {R S : Type} (sem : Cls → List (Option (VCls × V)) → R)
    (wsem : WCls → List (Option (VCls × V)) → R → S) (h : Heap V) (b : Base) : S :=
  wsem b.weight.cls (b.weight.inputs h) (sem (errorDef b.cls) (b.inputs h))

/-- `weighted_jacobians_error` (core/cost_function.py L97-116). -/
def Base.weightedJacobians {R S : Type} (sem : Cls → List (Option (VCls × V)) → R)
    (wsem : WCls → List (Option (VCls × V)) → R → S) (h : Heap V) (b : Base) : S :=
  wsem b.weight.cls (b.weight.inputs h) (sem (jacobiansDef b.cls) (b.inputs h))

/-- `weighted_error` of a robust cost function (core/robust_cost_function.py L88-105): the wrapped cost
function reads its own attributes, the loss those of the wrapper. -/
def Robust.weightedError {R S T : Type} (sem : Cls → List (Option (VCls × V)) → R)
    (wsem : WCls → List (Option (VCls × V)) → R → S)
    (rsem : ℕ → Bool → List (Option (VCls × V)) → S → T) (h : Heap V) (r : Robust) : T :=
  rsem r.loss r.flatten ((extra r.gnc).map (attrVal h r.attrs)) (r.inner.weightedError sem wsem h)

end

end Verif.CopyFn
