import Verif.Planner.ObjectiveProps

/-!
# Model of `motion_planner.py` and `models.py`: values, trajectories, copies

One batch element at a time, in real arithmetic; assigning to a tensor of torch's default dtype is an unknown function `rnd`.
-/

namespace Verif.Planner
open Verif.Geometry Verif.Embodied Matrix

/-! ### The value of the objective -/

/-- What the planner needs of the type of the poses: the Lie group, the position, the error of `Nonholonomic`
(motion_planner.py L181: `Difference` or `_XYDifference`; collision.py L48-59; motionmodel/misc.py L128-131). -/
structure Geo (n : ℕ) (G : Type) where
  ops : Ops n G
  xy : G → P2
  nh : G → (Fin n → ℝ) → List ℝ

/-- `Point2` (no nonholonomic cost) and `SE2`; `eps` and `deps` are the thresholds of `SE2`. -/
def point2 : Geo 2 (Fin 2 → ℝ) := ⟨Vec.ops 2, fun p => ⟨p 0, p 1⟩, fun _ _ => []⟩
@[inherit_doc point2] noncomputable def se2 (eps deps : ℝ) : Geo 3 SE2 :=
  ⟨SE2.ops eps deps, SE2.trans, fun p v => [nhErrorSE2 p v]⟩

/-- The values of the variables. `scale` are the values of the scale weights. -/
structure Vals (n : ℕ) (G : Type) where
  pose : ℕ → G
  vel : ℕ → Fin n → ℝ
  start : G
  goal : P2
  sdf : Sdf
  eps : ℝ
  dt : ℝ
  qcInv : Matrix (Fin n) (Fin n) ℝ
  scale : VName → ℝ

section Cost
variable {n : ℕ} {G : Type} (g : Geo n G) (x : Vals n G)

/-- `Difference.error` with a scale weight (embodied/misc/local_cost_fn.py L39-40 as `Difference`; core/cost_weight.py L82-84). -/
def differenceError (w : VName) (var target : G) : List ℝ := List.ofFn fun k => x.scale w * g.ops.local target var k

/-- The error of `HingeCost` with limits `[0, ∞] x [-∞, ∞]²` and threshold 1 (motion_planner.py L248-254; motionmodel/misc.py
L64-74): a limit that is infinite is never exceeded. -/
noncomputable def positiveVelError (v : Fin n → ℝ) : List ℝ :=
  List.ofFn fun k => if k.val = 0 then (if v k < 0 + 1 then 0 + 1 - v k else 0) else 0

/-- The weighted error of a cost function from the values of the variables it refers to; `none` is an exception. -/
noncomputable def residual : Entry → Option (List ℝ)
  | ⟨.pose0, [.pose i], [.start, w]⟩ => some (differenceError g x w (x.pose i) x.start)
  | ⟨.vel0, [.vel i], [.zeroFirst, w]⟩ => some (List.ofFn fun k => x.scale w * (x.vel i k - 0))
  | ⟨.poseN, [.pose i], [.goal, w]⟩ =>
    some [x.scale w * ((g.xy (x.pose i)).x - x.goal.x), x.scale w * ((g.xy (x.pose i)).y - x.goal.y)]
  | ⟨.velN, [.vel i], [.zeroLast, w]⟩ => some (List.ofFn fun k => x.scale w * (x.vel i k - 0))
  | ⟨.collision _, [.pose i], [.sdfOrigin, .sdfData, .cellSize, .costEps, w]⟩ =>
    (collError x.sdf x.eps (g.xy (x.pose i))).map fun e => [x.scale w * e]
  | ⟨.gp _, [.pose i, .vel i', .pose j, .vel j'], [.dt, .qcInv, .dt]⟩ =>
    (gpWeight x.dt x.qcInv).map fun W =>
      List.ofFn (gpWeightError W (diError g.ops (x.pose i) (x.vel i') (x.pose j) (x.vel j') x.dt))
  | ⟨.nonholonomic _, [.pose i, .vel i'], [w]⟩ => some ((g.nh (x.pose i) (x.vel i')).map (x.scale w * ·))
  | ⟨.positiveVel _, [.vel i], [.down _, .up _, .thres _, w]⟩ => some ((positiveVelError (x.vel i)).map (x.scale w * ·))
  | _ => none

/-- `error_metric` (core/objective.py L37-38, L150-152, L639-641: half the sum of the squares), for
a list of cost functions. -/
noncomputable def metric (es : List Entry) : Option ℝ :=
  (es.mapM (residual g x)).map fun rs => (rs.flatten.map (· ^ 2)).sum / 2

end Cost

/-! ### Trajectories -/

/-- `get_variable_values_from_straight_line` for `Point2` (motion_planner.py L358-378), `n` time steps: poses and velocities. -/
noncomputable def straight (n : ℕ) (T : ℝ) (start goal : Fin 2 → ℝ) : (ℕ → Fin 2 → ℝ) × (ℕ → Fin 2 → ℝ) :=
  let dist := goal - start
  let avg := (1 / T) • dist
  let unit := (1 / (n : ℝ)) • dist
  (fun i => start + (i : ℝ) • unit, fun _ => avg)

/-- `get_variable_values_from_straight_line` for `SE2` (motion_planner.py L364-374). -/
noncomputable def straightSE2 (n : ℕ) (T : ℝ) (start : SE2) (goal : P2) : (ℕ → SE2) × (ℕ → Fin 3 → ℝ) :=
  let dx := goal.x - start.x
  let dy := goal.y - start.y
  (fun i => ⟨start.x + dx / n * i, start.y + dy / n * i, start.c, start.s⟩, fun _ => ![dx / T, dy / T, 0])

/-- `get_variable_values_from_trajectory` (motion_planner.py L395-414) for a tensor with `k` rows and `m` columns; `p` is the
number of entries of a pose, `v` that of a velocity. `none` is the `AssertionError`. -/
def valuesOf (p v len : ℕ) (k m : ℕ) (t : ℕ → ℕ → ℝ) : Option ((ℕ → ℕ → ℝ) × (ℕ → ℕ → ℝ)) :=
  if k = p + v ∧ m = len then some (fun i r => t r i, fun i r => t (p + r) i) else none

/-- `get_trajectory` (motion_planner.py L421-445). The values of the poses and velocities that are in the dictionary; `none` is the
`KeyError`. -/
def trajectoryOf (rnd : ℝ → ℝ) (p len : ℕ) (pose vel : ℕ → Option (ℕ → ℝ)) : Option (ℕ → ℕ → ℝ) :=
  if ∀ i < len, (pose i).isSome then
    some fun r i =>
      if r < p then (match pose i with | some q => rnd (q r) | none => 0)
      else (match vel i with | some q => rnd (q (r - p)) | none => 0)
  else none

/-- The decimal digits of a number, as an f-string prints it. -/
def digits (i : ℕ) : List Char := if i < 10 then [Char.ofNat (48 + i)] else digits (i / 10) ++ [Char.ofNat (48 + i % 10)]

/-- The names of the cost functions as strings (motion_planner.py L170, L177, L187, L195, L221, L233, L243, L254). -/
def CName.chars : CName → List Char
  | .pose0 => ['p', 'o', 's', 'e', '_', '0']
  | .vel0 => ['v', 'e', 'l', '_', '0']
  | .poseN => ['p', 'o', 's', 'e', '_', 'N']
  | .velN => ['v', 'e', 'l', '_', 'N']
  | .collision i => ['c', 'o', 'l', 'l', 'i', 's', 'i', 'o', 'n', '_'] ++ digits i
  | .gp i => ['g', 'p', '_'] ++ digits i
  | .nonholonomic i => ['n', 'o', 'n', 'h', 'o', 'l', 'o', 'n', 'o', 'm', 'i', 'c', '_'] ++ digits i
  | .positiveVel i => ['p', 'o', 's', 'i', 't', 'i', 'v', 'e', '_', 'v', 'e', 'l', '_'] ++ digits i

/-- `t.square().mean()` of a list of entries (motion_planner.py L452, L454), for one batch element. -/
noncomputable def meanSquare (l : List ℝ) : ℝ := (l.map (· ^ 2)).sum / l.length

open Classical in
/-- `get_total_squared_errors` (motion_planner.py L447-455): the names and the unweighted errors (`error()`) of the cost functions of
one batch element. -/
noncomputable def totalErrors (costs : List (List Char × List ℝ)) : ℝ × ℝ :=
  costs.foldl (fun acc c =>
    (if ['g', 'p'] <:+: c.1 then acc.1 + meanSquare c.2 else acc.1,
     if ['c', 'o', 'l', 'l', 'i', 's', 'i', 'o', 'n'] <:+: c.1 then acc.2 + meanSquare c.2 else acc.2)) (0, 0)

/-! ### Copies -/

open Classical in
/-- `collision_weight or self.objective.collision_weight` (motion_planner.py L463). -/
noncomputable def orWeight (w : Option ℝ) (old : ℝ) : ℝ :=
  match w with
  | some w => if w = 0 then old else w
  | none => old

/-- The arguments with which `copy` builds the new planner (motion_planner.py L457-470; the other two weights have their default,
L276-277); `dtype` is that of the planner. -/
noncomputable def copyArgs (a : Args) (dtype : ℕ) (w : Option ℝ) : Args :=
  { a with given := true, collisionW := orWeight w a.collisionW, dtype := dtype, nonholonomicW := 0, positiveVelW := 0 }

/-! ### `InitialTrajectoryModel.forward` (models.py L148-244) -/

/-- The straight line (models.py L161-171). -/
noncomputable def meanLine (n : ℕ) (start goal : P2) : ℕ → P2
  | 0 => start
  | t + 1 =>
    let p := meanLine n start goal t
    ⟨p.x + (goal.x - start.x) / n, p.y + (goal.y - start.y) / n⟩

/-- `cur_t` (models.py L176, L187). -/
noncomputable def curT (n : ℕ) (d : ℝ) : ℕ → ℝ
  | 0 => 0 - d / 2
  | t + 1 => curT n d t + d / n

/-- The mean trajectory with the bend `b` (models.py L173-189). -/
noncomputable def meanPos (n : ℕ) (start goal : P2) (b : ℝ) (t : ℕ) : P2 :=
  let dx := goal.x - start.x
  let dy := goal.y - start.y
  let d := Real.sqrt (dx ^ 2 + dy ^ 2)
  let c := (d / 2) ^ 2
  let r := SO2.rotate (SO2.exp (1 * Real.pi / 2)) ⟨dx, dy⟩
  let nr := Real.sqrt (r.x ^ 2 + r.y ^ 2)
  let p := meanLine n start goal t
  if t = 0 then p
  else
    let add := 2 * b * ((curT n d t ^ 2 - c) / c)
    ⟨p.x + r.x / nr * add, p.y + r.y / nr * add⟩

/-- The velocities (models.py L191-196). -/
noncomputable def meanVel (n : ℕ) (dt : ℝ) (start goal : P2) (b : ℝ) (t : ℕ) : P2 :=
  if t = 0 then ⟨0, 0⟩
  else
    let p := meanPos n start goal b t
    let q := meanPos n start goal b (t - 1)
    ⟨(p.x - q.x) / dt, (p.y - q.y) / dt⟩

/-- The entries of `trajectory` (models.py L163-196), four per time step. -/
noncomputable def meanEntry (n : ℕ) (dt : ℝ) (start goal : P2) (b : ℝ) (k : ℕ) : ℝ :=
  if k % 4 = 0 then (meanPos n start goal b (k / 4)).x
  else if k % 4 = 1 then (meanPos n start goal b (k / 4)).y
  else if k % 4 = 2 then (meanVel n dt start goal b (k / 4)).x
  else (meanVel n dt start goal b (k / 4)).y

/-- `values` (models.py L235-242): `sample` is `lower_cov @ u`. -/
noncomputable def initialPose (n : ℕ) (dt : ℝ) (start goal : P2) (b : ℝ) (sample : ℕ → ℝ) (t : ℕ) : P2 :=
  ⟨meanEntry n dt start goal b (4 * t) + sample (4 * t), meanEntry n dt start goal b (4 * t + 1) + sample (4 * t + 1)⟩
@[inherit_doc initialPose] noncomputable def initialVel (n : ℕ) (dt : ℝ) (start goal : P2) (b : ℝ) (sample : ℕ → ℝ) (t : ℕ) : P2 :=
  ⟨meanEntry n dt start goal b (4 * t + 2) + sample (4 * t + 2), meanEntry n dt start goal b (4 * t + 3) + sample (4 * t + 3)⟩

end Verif.Planner
