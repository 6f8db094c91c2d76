import Verif.Geometry.Quaternion
import Verif.Geometry.Planar

/-!
# Pose graphs in g2o files (`theseus/utils/examples/pose_graph/dataset.py` L36-175, L367-399)

A file is a list of lines, a line the list of its tokens. Printing and parsing of numbers is exact; dtypes and the
names of the variables (which are made of the ids and of the positions of the edges) are not modelled. The
variables read have batch size 1.
-/

namespace Verif.PoseGraph
open Verif.Geometry

/-- Tokens: numbers without decimal point, other numbers, anything else. -/
inductive Tok where
  | int (z : ℤ)
  | real (r : ℝ)
  | word (s : String)

/-- `IndexError`, `ValueError`, `TypeError`, `RuntimeError`. `nan` is no exception in the code: the file is read,
but a pose or weight consists of NaN (a quaternion of norm 0, a negative variance). -/
inductive Exc where
  | index | value | type | runtime | nan
deriving DecidableEq, Repr

/-- Continue unless there was an exception. -/
def bind {α β : Type} (r : Except Exc α) (f : α → Except Exc β) : Except Exc β :=
  match r with
  | .ok a => f a
  | .error e => .error e

/-- `int(tokens[k])` (dataset.py L49-50, L83, L124-125, L156). -/
def intAt (l : List Tok) (k : ℕ) : Except Exc ℤ :=
  match l[k]? with
  | none => .error .index
  | some (.int z) => .ok z
  | some _ => .error .value

/-- `np.array(tokens, dtype=np.float64)` (dataset.py L54-56, L65, L85-87). -/
noncomputable def floats : List Tok → Except Exc (List ℝ)
  | [] => .ok []
  | .word _ :: _ => .error .value
  | .int z :: l => bind (floats l) fun r => .ok ((z : ℝ) :: r)
  | .real x :: l => bind (floats l) fun r => .ok (x :: r)

/-- The pose of seven numbers `x y z qx qy qz qw` (dataset.py L57-61, L88-90, L98): the quaternion is normalized
and its real part moved to the front. -/
noncomputable def poseOf : List ℝ → Except Exc SE3
  | [x, y, z, a, b, c, w] =>
    let n := Real.sqrt (a ^ 2 + b ^ 2 + c ^ 2 + w ^ 2)
    if n = 0 then .error .nan
    else .ok (SE3.ofXyzQuaternion ![x, y, z, w / n, a / n, b / n, c / n])
  | l => .error (if l.length < 7 then .index else .runtime)

/-- The weights (dataset.py L63-69): square roots of the numbers 0, 6, 11, 15, 18 and 20. -/
noncomputable def weightOf (l : List ℝ) : Except Exc (Fin 6 → ℝ) :=
  match l[0]?, l[6]?, l[11]?, l[15]?, l[18]?, l[20]? with
  | some a, some b, some c, some d, some e, some f =>
    if 0 ≤ a ∧ 0 ≤ b ∧ 0 ≤ c ∧ 0 ≤ d ∧ 0 ≤ e ∧ 0 ≤ f then
      .ok ![Real.sqrt a, Real.sqrt b, Real.sqrt c, Real.sqrt d, Real.sqrt e, Real.sqrt f]
    else .error .nan
  | _, _, _, _, _, _ => .error .index

/-- `PoseGraphEdge` (dataset.py L14-26) with a diagonal weight. -/
structure Edge (P W : Type) where
  i : ℤ
  j : ℤ
  rel : P
  weight : W

/-- `num_vertices`, `verts` (sorted by key, as in L99) and `edges`. -/
structure Acc (P W : Type) where
  num : ℤ
  verts : List (ℤ × P)
  edges : List (Edge P W)

/-- `verts[i] = pose` (dataset.py L90) in the list sorted by key. -/
def setVert {P : Type} (i : ℤ) (g : P) : List (ℤ × P) → List (ℤ × P)
  | [] => [(i, g)]
  | (k, h) :: l => if i < k then (i, g) :: (k, h) :: l else if i = k then (i, g) :: l else (k, h) :: setVert i g l

/-- One line of `read_3D_g2o_file` (dataset.py L45-92). The poses of vertices are made at once instead of in L98. -/
noncomputable def line3 (s : Acc SE3 (Fin 6 → ℝ)) (tokens : List Tok) : Except Exc (Acc SE3 (Fin 6 → ℝ)) :=
  match tokens with
  | [] => .error .index                                                                -- 48: tokens[0]
  | .word "EDGE_SE3:QUAT" :: _ =>
    bind (intAt tokens 1) fun i => bind (intAt tokens 2) fun j =>                      -- 49-50
    bind (floats ((tokens.drop 3).take 7)) fun x => bind (poseOf x) fun g =>           -- 54-61
    bind (floats (tokens.drop 10)) fun v => bind (weightOf v) fun w =>                 -- 63-69
    .ok ⟨max (max s.num i) j, s.verts, s.edges ++ [⟨i, j, g, w⟩]⟩                      -- 71-81
  | .word "VERTEX_SE3:QUAT" :: _ =>
    bind (intAt tokens 1) fun i =>                                                     -- 83
    bind (floats (tokens.drop 2)) fun x => bind (poseOf x) fun g =>                    -- 85-89
    .ok ⟨max s.num i, setVert i g s.verts, s.edges⟩                                    -- 90, 92
  | _ => .ok s

/-- The loop over the lines. -/
def loop {P W : Type} (line : Acc P W → List Tok → Except Exc (Acc P W)) :
    Acc P W → List (List Tok) → Except Exc (Acc P W)
  | s, [] => .ok s
  | s, l :: ls => bind (line s l) fun s' => loop line s' ls

/-- `read_3D_g2o_file` (dataset.py L36-104): the number of vertices, the vertices with the ids in their names, and the
edges. -/
noncomputable def read3 (file : List (List Tok)) : Except Exc (Acc SE3 (Fin 6 → ℝ)) :=
  bind (loop line3 ⟨0, [], []⟩ file) fun s => .ok ⟨s.num + 1, s.verts, s.edges⟩

/-- `SE2(x_y_theta=…)` (dataset.py L132-134, L169): `update_from_x_y_theta` needs three numbers. -/
noncomputable def pose2Of : List ℝ → Except Exc SE2
  | [x, y, th] => .ok ⟨x, y, Real.cos th, Real.sin th⟩
  | _ => .error .value

/-- One line of `read_2D_g2o_file` (dataset.py L120-163). `np.array(1, tokens[6:], dtype=np.float64)` is a call with
two values for `dtype`. -/
noncomputable def line2 (s : Acc SE2 (Fin 3 → ℝ)) (tokens : List Tok) : Except Exc (Acc SE2 (Fin 3 → ℝ)) :=
  match tokens with
  | [] => .error .index                                                                -- 123
  | .word "EDGE_SE2" :: _ =>
    bind (intAt tokens 1) fun _ => bind (intAt tokens 2) fun _ =>                      -- 124-125
    bind (floats ((tokens.drop 3).take 3)) fun x => bind (pose2Of x) fun _ =>          -- 129-134
    .error .type                                                                       -- 138
  | .word "VERTEX_SE2" :: _ =>
    bind (intAt tokens 1) fun i =>                                                     -- 156
    bind (floats (tokens.drop 2)) fun x => bind (pose2Of x) fun g =>                   -- 158-160, 169
    .ok ⟨max s.num i, setVert i g s.verts, s.edges⟩                                    -- 161-163
  | _ => .ok s

/-- `read_2D_g2o_file` (dataset.py L110-175). -/
noncomputable def read2 (file : List (List Tok)) : Except Exc (Acc SE2 (Fin 3 → ℝ)) :=
  bind (loop line2 ⟨0, [], []⟩ file) fun s => .ok ⟨s.num + 1, s.verts, s.edges⟩

/-- The thresholds of `SO3.to_quaternion` (so3.py L200-228). -/
structure Thresholds where
  nearZero : ℝ
  nearPi : ℝ
  sqrtEps : ℝ

/-- The seven numbers of a pose as written (dataset.py L371-376, L379-382, L388-396): `x y z qx qy qz qw`. -/
noncomputable def poseToks (c : Thresholds) (g : SE3) : List Tok :=
  let m := g.toXyzQuaternion c.nearZero c.nearPi c.sqrtEps
  [.real (m 0), .real (m 1), .real (m 2), .real (m 4), .real (m 5), .real (m 6), .real (m 3)]

/-- The 21 numbers of the weights (dataset.py L377, L383-384). -/
noncomputable def weightToks (w : Fin 6 → ℝ) : List Tok :=
  let z := Tok.int 0
  [.real (w 0 ^ 2), z, z, z, z, z, .real (w 1 ^ 2), z, z, z, z, .real (w 2 ^ 2), z, z, z, .real (w 3 ^ 2), z, z,
    .real (w 4 ^ 2), z, .real (w 5 ^ 2)]

/-- `write_3D_g2o` (dataset.py L367-399), the file of element `n`. The poses and measurements are batches of size
`B`, the weights batches of size `b + 1` of which the first element is written. -/
noncomputable def write3 (c : Thresholds) {B b : ℕ} (poses : List (Fin B → SE3))
    (edges : List (Edge (Fin B → SE3) (Fin (b + 1) → Fin 6 → ℝ))) (n : Fin B) : List (List Tok) :=
  edges.map (fun e => .word "EDGE_SE3:QUAT" :: .int e.i :: .int e.j :: (poseToks c (e.rel n) ++ weightToks (e.weight 0)))
  ++ poses.zipIdx.map fun p => .word "VERTEX_SE3:QUAT" :: .int (p.2 : ℤ) :: poseToks c (p.1 n)

end Verif.PoseGraph
