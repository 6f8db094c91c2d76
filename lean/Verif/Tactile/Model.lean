import Verif.Planner.Model
import Verif.Geometry.Planar

/-!
# Model of `theseus/utils/examples/tactile_pose_estimation/{models,pose_estimator}.py`

The windows of the measurements, the inputs computed from a batch, and the objective of `TactilePoseEstimator`. The objective is
built with the model of `Objective` (`addAll` of `Planner/Model.lean`). Window parameters are natural numbers.
-/

namespace Verif.Tactile
open Verif.Objective Verif.Geometry
open Verif.Planner (Exc addAll)

/-! ### Windows -/

/-- `range(start, stop, step)` of Python for a positive step. -/
def pyRange (start stop step : ℕ) : List ℕ := List.range' start ((stop - start + step - 1) / step) step

/-- The window parameters (pose_estimator.py L20-22; models.py L131-133). -/
structure Win where
  min : ℕ
  max : ℕ
  step : ℕ

/-- The offsets of the measurements that end at step `i` (pose_estimator.py L61-65, L141-145; models.py L150, L167, L197). -/
def Win.offsets (w : Win) (i : ℕ) : List ℕ := pyRange w.min (Min.min i w.max) w.step

/-- The pairs `(i - offset, i)` in the order of the two loops (pose_estimator.py L60-66; models.py L149-152, L166-167, L196-197). -/
def Win.pairs (w : Win) (T : ℕ) : List (ℕ × ℕ) :=
  (List.range' w.min (T - w.min)).flatMap fun i => (w.offsets i).map fun o => (i - o, i)

/-- `range` raises `ValueError` for step 0, if the loop around it is entered. -/
def Win.zeroStep (w : Win) (T : ℕ) : Bool := w.step == 0 && decide (w.min < T)

/-! ### Measurements as inputs -/

/-- `torch.cat([f(w) for w in pairs], dim=0)` with one row per batch element in every `f(w)` (models.py L151-155, L177-189). -/
def catRows {ρ : Type} (B : ℕ) (ws : List (ℕ × ℕ)) (f : ℕ → ℕ × ℕ → ρ) : List ρ :=
  ws.flatMap fun w => (List.range B).map fun b => f b w

/-- `rows.reshape(-1, m, 4)` (models.py L159-161, L189-191): torch cannot infer `-1` for a tensor without elements. -/
def reshape {ρ : Type} (rows : List ρ) (m : ℕ) : Except Exc (List (List ρ)) :=
  if m = 0 ∨ rows = [] ∨ rows.length % m ≠ 0 then .error .runtime
  else .ok ((List.range (rows.length / m)).map fun k => (rows.drop (k * m)).take m)

/-- The column `measurements[:, idx]` (models.py L198-206). -/
def column {ρ : Type} (idx : ℕ) : List (List ρ) → Except Exc (List ρ)
  | [] => .ok []
  | r :: rs =>
    match r[idx]?, column idx rs with
    | some x, .ok xs => .ok (x :: xs)
    | none, _ => .error .index
    | _, .error e => .error e

/-- The last loop of `get_tactile_nn_measurements_inputs` (models.py L194-208), from index `idx` on. An entry of the result is the
pair in the name of the variable with the tensor for it. -/
def fill {ρ : Type} (t : List (List ρ)) : ℕ → List (ℕ × ℕ) → Except Exc (List ((ℕ × ℕ) × List ρ))
  | _, [] => .ok []
  | idx, w :: ws =>
    match column idx t, fill t (idx + 1) ws with
    | .ok c, .ok r => .ok ((w, c) :: r)
    | .error e, _ => .error e
    | _, .error e => .error e

/-- `get_tactile_nn_measurements_inputs` without a network (models.py L162-210): `f b w` is the measurement of batch element `b`
for the pair `w`; `torch.cat` of an empty list raises. -/
def oracleInputs {ρ : Type} (w : Win) (T B : ℕ) (f : ℕ → ℕ × ℕ → ρ) : Except Exc (List ((ℕ × ℕ) × List ρ)) :=
  if w.zeroStep T then .error .value
  else if w.pairs T = [] then .error .runtime
  else match reshape (catRows B (w.pairs T) f) (w.pairs T).length with         -- 188-191
    | .error e => .error e
    | .ok t => fill t 0 (w.pairs T)

/-- `get_tactile_nn_measurements_inputs` with a network (models.py L139-161, L194-210): `f b w` is the network's answer to the
features of batch element `b` at the two steps. `num_measurements` is the number of rows after `torch.cat` (L156). -/
def networkInputs {ρ : Type} (w : Win) (T B : ℕ) (f : ℕ → ℕ × ℕ → ρ) : Except Exc (List ((ℕ × ℕ) × List ρ)) :=
  if w.zeroStep T then .error .value
  else if w.pairs T = [] then .error .runtime
  else match reshape (catRows B (w.pairs T) f) (catRows B (w.pairs T) f).length with
    | .error e => .error e
    | .ok t => fill t 0 (w.pairs T)

/-- The measurement of the oracle for one batch element (models.py L168-187): the relative pose of the effector, in the frame of
the object, as `(x, y, cos, sin)`. -/
noncomputable def oracleMeasurement (L : Ops 3 SE2) (obj eff : ℕ → SE2) (w : ℕ × ℕ) : SE2 :=
  let rel := L.between (L.between (obj w.1) (eff w.1)) (L.between (obj w.2) (eff w.2))
  ⟨rel.x, rel.y, Real.cos (SO2.atan2 rel.s rel.c), Real.sin (SO2.atan2 rel.s rel.c)⟩

/-- A pose from `x_y_theta` (se2.py L42-43, `update_from_x_y_theta`), as in models.py L168-174, L219-224, L241-242. -/
noncomputable def ofXYTheta (p : Fin 3 → ℝ) : SE2 := ⟨p 0, p 1, Real.cos (p 2), Real.sin (p 2)⟩

/-- `TactileMeasModel.forward` for one row (models.py L25-35): the features of both steps, times the class vector, flattened
(entry `d * cl + c`), through a linear layer. -/
def measModel {d cl o : ℕ} (W : Matrix (Fin o) (Fin ((d + d) * cl)) ℝ) (b : Fin o → ℝ) (x1 x2 : Fin d → ℝ) (k : Fin cl → ℝ) :
    Fin o → ℝ :=
  let x := Fin.append x1 x2
  let flat : Fin ((d + d) * cl) → ℝ := fun e => x e.divNat * k e.modNat
  fun r => (∑ e, W r e * flat e) + b r

/-- `get_tactile_initial_optim_vars` (models.py L232-244), the tensor of step `t`: the first pose for every step. -/
noncomputable def initialPose (poses : ℕ → Fin 3 → ℝ) (_t : ℕ) : SE2 := ofXYTheta (poses 0)

/-- `get_tactile_poses_from_values` (models.py L280-296) for one pose: stored in torch's default dtype (`rnd`). -/
noncomputable def poseFromValue (rnd : ℝ → ℝ) (v : SE2) : Fin 3 → ℝ := ![rnd v.x, rnd v.y, rnd (SO2.atan2 v.s v.c)]

/-! ### The objective of `TactilePoseEstimator` -/

/-- Names of variables (pose_estimator.py L40-41, L51, L56, L66, L68-71, L84-95, L182-184;
quasi_static_pushing_planar.py L37). -/
inductive VName where
  | obj (i : ℕ) | eff (i : ℕ)
  | start | capture (i : ℕ) | meas (s t : ℕ) | sdfData | cellSize | sdfOrigin | radius
  | qspW | mfW | intersectW | mcW | csquare (i : ℕ) | regW | identity
deriving DecidableEq, Repr

/-- A number for a name. -/
def VName.code : VName → ℕ
  | .obj i => 20 * i
  | .eff i => 20 * i + 1
  | .capture i => 20 * i + 2
  | .meas s t => 20 * Nat.pair s t + 3
  | .csquare i => 20 * i + 4
  | .start => 5 | .sdfData => 6 | .cellSize => 7 | .sdfOrigin => 8 | .radius => 9
  | .qspW => 10 | .mfW => 11 | .intersectW => 12 | .mcW => 13 | .regW => 14 | .identity => 15

/-- Names of cost functions (pose_estimator.py L124, L137, L154, L168, L177, L189). -/
inductive CName where
  | objPrior | qsp (i : ℕ) | mfBetween (s t : ℕ) | intersect (i : ℕ) | effPrior (i : ℕ) | regObj (i : ℕ) | regEff (i : ℕ)
deriving DecidableEq, Repr

/-- A number for a name. -/
def CName.cnum : CName → ℕ
  | .objPrior => 0
  | .qsp i => 8 * i + 1
  | .mfBetween s t => 8 * Nat.pair s t + 2
  | .intersect i => 8 * i + 3
  | .effPrior i => 8 * i + 4
  | .regObj i => 8 * i + 5
  | .regEff i => 8 * i + 6

/-- The arguments of the constructor (pose_estimator.py L17-31) that matter for the objective. `dflt` is torch's default dtype,
`double` is `torch.double`; the field comes from numpy, so its data is double (misc.py L165-172). -/
structure Args where
  steps : ℕ
  win : Win
  reg : ℝ
  dflt : ℕ
  double : ℕ

namespace Args
variable (a : Args)

/-- Variables with dtype double: the poses (pose_estimator.py L40-41), the data of the field, the constant of the pushing model
(quasi_static_pushing_planar.py L37) and the weight of the regularization (L183). -/
def dvar (n : VName) : Var := ⟨n.code, n.code, a.double⟩

/-- Variables with the default dtype (pose_estimator.py L51-71, L84-95, L184). -/
def fvar (n : VName) : Var := ⟨n.code, n.code, a.dflt⟩

/-- The cost weights (pose_estimator.py L84-95, L182-183). -/
def qspWeight : Weight := ⟨0, [], [a.fvar .qspW]⟩
@[inherit_doc qspWeight] def mfWeight : Weight := ⟨1, [], [a.fvar .mfW]⟩
@[inherit_doc qspWeight] def intersectWeight : Weight := ⟨2, [], [a.fvar .intersectW]⟩
@[inherit_doc qspWeight] def mcWeight : Weight := ⟨3, [], [a.fvar .mcW]⟩
@[inherit_doc qspWeight] def regWeight : Weight := ⟨4, [], [a.dvar .regW]⟩

/-- A cost function: the object is identified by its name. -/
def cost (n : CName) (optim aux : List Var) (w : Weight) (dim : ℕ) : CostFn := ⟨n.cnum, n.cnum, optim, aux, w, dim⟩

/-- The list `nn_measurements` (pose_estimator.py L59-66). -/
def measurements : List Var := (a.win.pairs a.steps).map fun p => a.fvar (.meas p.1 p.2)

/-- The inner loop at step `i` (pose_estimator.py L140-157), from measurement `idx` on. -/
def mfCosts (i : ℕ) : ℕ → List ℕ → List (Except Exc CostFn)
  | _, [] => []
  | idx, o :: os =>
    (match a.measurements[idx]? with
      | some v => .ok (cost (.mfBetween (i - o) i) [a.dvar (.obj (i - o)), a.dvar (.obj i), a.dvar (.eff (i - o)), a.dvar (.eff i)]
          [v] a.mfWeight 3)
      | none => .error .index) :: mfCosts i (idx + 1) os

/-- The offsets used at step `i` (pose_estimator.py L140-145). -/
def offsetsAt (i : ℕ) : List ℕ := if a.win.min ≤ i then a.win.offsets i else []

/-- The loop over the steps (pose_estimator.py L117-179), from measurement `idx` on. -/
def loop : ℕ → List ℕ → List (Except Exc CostFn)
  | _, [] => []
  | idx, i :: is =>
    (if i = 0 then [.ok (cost .objPrior [a.dvar (.obj i)] [a.fvar .start] a.mcWeight 3)] else []) ++
    (if i + 1 < a.steps then
      [.ok (cost (.qsp i) [a.dvar (.obj i), a.dvar (.obj (i + 1)), a.dvar (.eff i), a.dvar (.eff (i + 1))] [a.dvar (.csquare i)]
        a.qspWeight 3)] else []) ++
    a.mfCosts i idx (a.offsetsAt i) ++
    [.ok (cost (.intersect i) [a.dvar (.obj i), a.dvar (.eff i)]
       [a.fvar .sdfOrigin, a.dvar .sdfData, a.fvar .cellSize, a.fvar .radius] a.intersectWeight 1),
     .ok (cost (.effPrior i) [a.dvar (.eff i)] [a.fvar (.capture i)] a.mcWeight 3)] ++
    loop (idx + (a.offsetsAt i).length) is

open Classical in
/-- The regularization (pose_estimator.py L181-191). -/
noncomputable def regCosts : List (Except Exc CostFn) :=
  if 0 < a.reg then
    ((List.range a.steps).map fun i => .ok (cost (.regObj i) [a.dvar (.obj i)] [a.fvar .identity] a.regWeight 3)) ++
    ((List.range a.steps).map fun i => .ok (cost (.regEff i) [a.dvar (.eff i)] [a.fvar .identity] a.regWeight 3))
  else []

end Args

/-- The objective that `TactilePoseEstimator.__init__` builds (pose_estimator.py L32-191). -/
noncomputable def build (a : Args) : Except Exc State :=
  if a.win.zeroStep a.steps then .error .value                                            -- 61-65
  else addAll (init a.dflt false) (a.loop 0 (List.range a.steps) ++ a.regCosts)

end Verif.Tactile
