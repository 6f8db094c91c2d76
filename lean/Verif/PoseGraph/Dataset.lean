import Verif.PoseGraph.File
import Verif.Geometry.Lie

/-!
# Pose graph datasets (`theseus/utils/examples/pose_graph/dataset.py` L178-365, L401-439)

A pose of the dataset is the list of its elements. Names, devices and dtypes are not modelled. Random numbers are
inputs.
-/

namespace Verif.PoseGraph
open Verif.Geometry

/-- Exceptions of the dataset. -/
inductive DExc where
  | value | index | zeroDivision | assertion
deriving DecidableEq, Repr

/-- `PoseGraphDataset` (dataset.py L196-201). -/
structure Data (P W : Type) where
  poses : List (List P)
  edges : List (Edge (List P) W)
  gt : Option (List (List P))
  batchSize : ℤ
  size : ℤ
  numBatches : ℤ

variable {P W : Type}

/-- `PoseGraphDataset.__init__` (dataset.py L179-203). `//` of Python is `Int.fdiv`. -/
def create (poses : List (List P)) (edges : List (Edge (List P) W)) (gt : Option (List (List P))) (batchSize : ℤ) :
    Except DExc (Data P W) :=
  match poses.map List.length ++ ((gt.getD []).map List.length ++ edges.map fun e => e.rel.length) with   -- 187-190
  | [] => .error .value                                                                -- 193
  | n :: r =>
    if r.all (· == n) then                                                             -- 191-194
      if batchSize = 0 then .error .zeroDivision                                       -- 201
      else .ok ⟨poses, edges, gt, batchSize, n, Int.fdiv (n - 1) batchSize + 1⟩        -- 196-201
    else .error .value

/-- A bound of a slice: negative ones count from the end, all are moved into the range. -/
def bound (len : ℕ) (x : ℤ) : ℕ := if x < 0 then (x + len).toNat else min x.toNat len

/-- `t[start:end]` of Python. -/
def slice {α : Type} (start stop : ℤ) (l : List α) : List α :=
  (l.take (bound l.length stop)).drop (bound l.length start)

/-- `get_batch_dataset` (dataset.py L401-439). -/
def getBatch (d : Data P W) (idx : ℤ) : Except DExc (Data P W) :=
  if idx < d.numBatches then                                                           -- 402
    let start := idx * d.batchSize                                                     -- 403
    let stop := min (start + d.batchSize) d.size                                       -- 404
    if d.poses = [] then .error .index                                                 -- 405
    else create (d.poses.map (slice start stop))                                       -- 407-413
      (d.edges.map fun e => ⟨e.i, e.j, slice start stop e.rel, e.weight⟩)              -- 426-437
      (d.gt.map fun g => g.map (slice start stop)) d.batchSize                         -- 414-425, 439
  else .error .assertion

/-- `l[i]` of Python: negative indices count from the end. -/
def pyGet {α : Type} (l : List α) (i : ℤ) : Option α :=
  if 0 ≤ i then l[i.toNat]? else if 0 ≤ i + l.length then l[(i + l.length).toNat]? else none

/-- The errors of one edge (dataset.py L220-223), one per element. -/
noncomputable def edgeErrors {n : ℕ} {G : Type} (L : Ops n G) (d : Data G W) (e : Edge (List G) W) :
    Except DExc (List ℝ) :=
  match pyGet d.poses e.j, pyGet d.poses e.i with
  | some pj, some pi =>
    .ok (List.zipWith (fun gj g => Real.sqrt (∑ k, L.local gj g k ^ 2)) pj (List.zipWith L.compose pi e.rel))
  | _, _ => .error .index

/-- The bucket of an error (dataset.py L224-225). -/
noncomputable def bucket (x : ℝ) : ℕ := min ⌊10 * x⌋₊ 10

/-- The loop over the edges (dataset.py L219-227): all buckets, one per error. -/
noncomputable def bucketsOf {n : ℕ} {G : Type} (L : Ops n G) (d : Data G W) : List (Edge (List G) W) →
    Except DExc (List ℕ)
  | [] => .ok []
  | e :: es =>
    match edgeErrors L d e with
    | .error x => .error x
    | .ok l =>
      match bucketsOf L d es with
      | .error x => .error x
      | .ok r => .ok (l.map bucket ++ r)

/-- `histogram` (dataset.py L217-235): the counts of the 11 buckets. Without errors the largest count is 0 and the
length of a bar is `round` of NaN (L233). The lengths of the bars are not modelled. -/
noncomputable def histogram {n : ℕ} {G : Type} (L : Ops n G) (d : Data G W) : Except DExc (Fin 11 → ℕ) :=
  match bucketsOf L d d.edges with
  | .error x => .error x
  | .ok l => if l = [] then .error .value else .ok fun k => l.count k.1

/-! ### `generate_synthetic_3D` -/

/-- What is drawn for one new pose (dataset.py L273-292, L312-338): the true motion, the noise of its measurement, and
for the loop closures the index of the other pose, whether it is an inlier and the noise. -/
structure Draw (G : Type) where
  rel : G
  noise : G
  closures : List (ℕ × Bool × G)

/-- The lists of the generator. -/
structure Gen (G : Type) where
  gt : List G
  edges : List (ℕ × ℕ × G)
  inliers : List Bool

/-- One pass of the loop (dataset.py L272-351) for one element of the dataset. -/
def genStep {n : ℕ} {G : Type} (L : Ops n G) (one : G) (s : Gen G) (d : Draw G) : Gen G :=
  let k := s.gt.length                                                                 -- 272: n
  let pose := L.compose (s.gt.getLastD one) d.rel                                      -- 300
  let gt := s.gt ++ [pose]                                                             -- 305
  let closures := if k - 1 > 0 then d.closures else []                                 -- 312
  { gt := gt
    edges := s.edges ++ (k - 1, k, L.compose d.rel d.noise) ::                         -- 293, 307-309
      closures.map fun c => (c.1, k, L.compose (L.compose (L.inverse (gt.getD c.1 one)) pose) c.2.2)   -- 318-351
    inliers := s.inliers ++ true :: closures.map fun c => c.2.1 }                      -- 310, 333, 338

/-- `generate_synthetic_3D` (dataset.py L237-365) for one element: the true poses, edges and inliers, and the initial
poses, which are the true ones with noise (L353-363). `1 / noise` raises for zero noise (L268-270). -/
noncomputable def generate {n : ℕ} {G : Type} (L : Ops n G) (one : G) (transNoise rotNoise : ℝ) (draws : List (Draw G))
    (noise : List G) : Except DExc (Gen G × List G) :=
  if transNoise = 0 ∨ rotNoise = 0 then .error .zeroDivision
  else
    let s := draws.foldl (genStep L one) ⟨[one], [], []⟩
    .ok (s, List.zipWith L.compose s.gt noise)

end Verif.PoseGraph
