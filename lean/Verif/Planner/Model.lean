import Verif.Objective.Model
import Verif.Linear.Model
import Verif.Embodied.Motion
import Verif.Embodied.Collision
import Verif.Embodied.Sdf

/-!
# Model of `theseus/utils/examples/motion_planning/motion_planner.py`: the objective

The cost functions are added to the model of `Objective` (`Objective/Model.lean`). Names of variables and cost functions are
values of `VName` and `CName`; `code` and `cnum` are numbers for them, as the model of `Objective` needs (different names have
different numbers). Variables without a name get one of their own (`core/variable.py` L22-38).
-/

namespace Verif.Planner
open Verif.Objective

/-- Names of variables (motion_planner.py L103-115, L122-150, L160-161, L175, L193, L201, L205; core/cost_weight.py L67;
motionmodel/misc.py L29-31). -/
inductive VName where
  | pose (i : ℕ) | vel (i : ℕ)
  | start | goal | sdfOrigin | sdfData | cellSize | costEps | dt
  | qcInv | collW | collWAt (i : ℕ) | boundaryW | zeroFirst | zeroLast
  | nhScale | pvScale | down (i : ℕ) | up (i : ℕ) | thres (i : ℕ)
deriving DecidableEq, Repr

/-- A number for a name. -/
def VName.code : VName → ℕ
  | .pose i => 20 * i
  | .vel i => 20 * i + 1
  | .start => 2 | .goal => 3 | .sdfOrigin => 4 | .sdfData => 5 | .cellSize => 6 | .costEps => 7 | .dt => 8
  | .qcInv => 9 | .collW => 10 | .collWAt i => 20 * i + 11 | .boundaryW => 12 | .zeroFirst => 13 | .zeroLast => 14
  | .nhScale => 15 | .pvScale => 16 | .down i => 20 * i + 17 | .up i => 20 * i + 18 | .thres i => 20 * i + 19

/-- Names of cost functions (motion_planner.py L170, L177, L187, L195, L221, L233, L243, L254). -/
inductive CName where
  | pose0 | vel0 | poseN | velN
  | collision (i : ℕ) | gp (i : ℕ) | nonholonomic (i : ℕ) | positiveVel (i : ℕ)
deriving DecidableEq, Repr

/-- A number for a name. -/
def CName.cnum : CName → ℕ
  | .pose0 => 0 | .vel0 => 1 | .poseN => 2 | .velN => 3
  | .collision i => 8 * i + 4 | .gp i => 8 * i + 5 | .nonholonomic i => 8 * i + 6 | .positiveVel i => 8 * i + 7

/-- `pose_type`. -/
inductive PoseType where
  | point2 | se2 | other
deriving DecidableEq, Repr

/-- Exceptions. -/
inductive Exc where
  | assertion | zeroDivision | value | index | unboundLocal | attribute | key | runtime
deriving DecidableEq, Repr

/-- The arguments of `MotionPlannerObjective` (motion_planner.py L58-71). `given` says that none of the first six is `None`;
`dflt` is torch's default dtype. -/
structure Args where
  given : Bool := true
  mapSize : ℕ
  epsDist : ℝ
  totalTime : ℝ
  collisionW : ℝ
  qcSize : ℕ
  qcInv : Matrix (Fin qcSize) (Fin qcSize) ℝ
  numSteps : ℤ
  single : Bool := true
  poseType : PoseType := .point2
  dtype : ℕ
  nonholonomicW : ℝ := 0
  positiveVelW : ℝ := 0
  dflt : ℕ

namespace Args
variable (a : Args)

/-- A variable of the objective's dtype (motion_planner.py L103-115, L159-161). -/
def var (n : VName) : Var := ⟨n.code, n.code, a.dtype⟩

/-- A variable made from Python numbers: torch's default dtype (motion_planner.py L201, L205, L250-252;
core/variable.py L121). -/
def pyVar (n : VName) : Var := ⟨n.code, n.code, a.dflt⟩

/-- The cost weights (motion_planner.py L121-122, L128-146, L150, L201, L205). -/
def gpW : Weight := ⟨0, [], [a.var .qcInv, a.var .dt]⟩
@[inherit_doc gpW] def collisionWeight (i : ℕ) : Weight :=
  if a.single then ⟨1, [], [a.var .collW]⟩ else ⟨8 + i, [], [a.var (.collWAt i)]⟩
@[inherit_doc gpW] def boundaryWeight : Weight := ⟨2, [], [a.var .boundaryW]⟩
@[inherit_doc gpW] def nhWeight : Weight := ⟨3, [], [a.pyVar .nhScale]⟩
@[inherit_doc gpW] def pvWeight : Weight := ⟨4, [], [a.pyVar .pvScale]⟩

/-- Degrees of freedom of a pose. -/
def dof : ℕ := match a.poseType with | .point2 => 2 | _ => 3

/-- A cost function: the object is identified by its name. -/
def cost (n : CName) (optim aux : List Var) (w : Weight) (dim : ℕ) : CostFn := ⟨n.cnum, n.cnum, optim, aux, w, dim⟩

/-- The cost functions of the ends (motion_planner.py L169-197); `last` is the last time step. -/
def boundaryStart : List CostFn :=
  [cost .pose0 [a.var (.pose 0)] [a.var .start] a.boundaryWeight a.dof,
   cost .vel0 [a.var (.vel 0)] [a.var .zeroFirst] a.boundaryWeight a.dof]
@[inherit_doc boundaryStart] def boundaryEnd (last : ℕ) : List CostFn :=
  [cost .poseN [a.var (.pose last)] [a.var .goal] a.boundaryWeight 2,
   cost .velN [a.var (.vel last)] [a.var .zeroLast] a.boundaryWeight a.dof]

open Classical in
/-- What the loop does for time step `i` (motion_planner.py L211-256): the cost functions to add, or an exception. With a
negative `positive_vel_w` the variable `pvw` is not assigned (L203, L246). -/
noncomputable def step (i : ℕ) : List (Except Exc CostFn) :=
  [.ok (cost (.collision i) [a.var (.pose i)] [a.var .sdfOrigin, a.var .sdfData, a.var .cellSize, a.var .costEps]
      (a.collisionWeight i) 1),
   .ok (cost (.gp i) [a.var (.pose (i - 1)), a.var (.vel (i - 1)), a.var (.pose i), a.var (.vel i)] [a.var .dt] a.gpW
      (2 * a.dof))] ++
  (if 0 < a.nonholonomicW then
    [.ok (cost (.nonholonomic i) [a.var (.pose i), a.var (.vel i)] [] a.nhWeight 1)] else []) ++
  (if a.positiveVelW = 0 then []
   else if a.positiveVelW < 0 then [.error .unboundLocal]
   else [.ok (cost (.positiveVel i) [a.var (.vel (i - 1))] [a.pyVar (.down i), a.pyVar (.up i), a.pyVar (.thres i)]
      a.pvWeight 3)])

end Args

/-- A sequence of calls of `add`, up to the first exception. -/
def addAll (s : State) : List (Except Exc CostFn) → Except Exc State
  | [] => .ok s
  | .error e :: _ => .error e
  | .ok c :: cs =>
    match add s c with
    | (s, none) => addAll s cs
    | (_, some _) => .error .value

open Classical in
/-- `MotionPlannerObjective.__init__` (motion_planner.py L58-256). A matrix `Qc_inv` of the wrong size is only noticed when the
cost is computed. -/
noncomputable def build (a : Args) : Except Exc State :=
  if !a.given then .error .assertion                                                     -- 72-80
  else if a.numSteps = 0 then .error .zeroDivision                                       -- 114
  else if !Embodied.gpAccepts [a.totalTime / a.numSteps] [a.qcInv] then .error .value    -- 122
  else if a.numSteps < 0 then .error .index                                              -- 170
  else
    let n := a.numSteps.toNat
    match addAll (init a.dtype false) (a.boundaryStart.map .ok) with                     -- 169-179
    | .error e => .error e
    | .ok s =>
      if a.poseType = .other then .error .assertion                                      -- 180
      else match addAll s ((a.boundaryEnd n).map .ok) with                               -- 181-197
        | .error e => .error e
        | .ok s =>
          if 0 < a.nonholonomicW ∧ a.poseType ≠ .se2 then .error .assertion              -- 199-200
          else if 0 < a.positiveVelW ∧ a.poseType ≠ .se2 then .error .assertion          -- 203-204
          else addAll s ((List.range n).flatMap fun k => a.step (k + 1))                 -- 210-256

end Verif.Planner
