import Verif.Planner.Model
import Verif.PoseGraph.Dataset
import Mathlib.Algebra.Order.Floor.Ring
import Mathlib.Algebra.Order.Archimedean.Real.Basic

/-!
# Model of the example datasets

`theseus/utils/examples/tactile_pose_estimation/misc.py:TactilePushingDataset` and
`theseus/utils/examples/motion_planning/misc.py:TrajectoryDataset`. The arrays of the tactile file have one entry per recorded step;
a step is a value of `ρ` (all fields together) with the number `ep` of its episode.
-/

namespace Verif.Tactile
open Verif.Planner (Exc)
open Verif.PoseGraph (slice)

variable {ρ : Type}

/-! ### `TactilePushingDataset` -/

/-- `torch.unique`: sorted, without repetitions (tactile misc.py L107-109). -/
def insertId (x : ℤ) : List ℤ → List ℤ
  | [] => [x]
  | y :: ys => if x < y then x :: y :: ys else if x = y then y :: ys else y :: insertId x ys
@[inherit_doc insertId] def uniqueIds : List ℤ → List ℤ
  | [] => []
  | x :: xs => insertId x (uniqueIds xs)

/-- The steps of an episode (L117). -/
def stepsOf (ep : ρ → ℤ) (rows : List ρ) (e : ℤ) : List ρ := rows.filter fun r => ep r == e

/-- What is kept of an episode (L120-129, L140-153): all pieces of length `L`, or the first one. `length // 0` raises. -/
def pieces (L : ℕ) (split : Bool) (steps : List ρ) : Except Exc (List (List ρ)) :=
  if split then
    if L = 0 then .error .zeroDivision
    else .ok ((List.range (steps.length / L)).map fun k => (steps.drop (k * L)).take L)
  else .ok [steps.take L]

/-- The loop over the episodes (L114-129). An index tensor with one element becomes a number by `squeeze`, which has no length
(L117-118). -/
def readLoop (ep : ρ → ℤ) (rows : List ρ) (L maxEpisodes : ℕ) (split : Bool) :
    List (List ρ) → List ℤ → Except Exc (List (List ρ))
  | acc, [] => .ok acc
  | acc, e :: es =>
    if maxEpisodes ≤ acc.length then .ok acc                                       -- 115-116
    else if (stepsOf ep rows e).length = 1 then .error .value                      -- 117-118
    else if (stepsOf ep rows e).length < L then readLoop ep rows L maxEpisodes split acc es
    else match pieces L split (stepsOf ep rows e) with
      | .error x => .error x
      | .ok ps => readLoop ep rows L maxEpisodes split (acc ++ ps) es

/-- `_load_dataset_from_file` (L76-137); `torch.stack([])` raises. -/
def loadEpisodes (ep : ρ → ℤ) (rows : List ρ) (L maxEpisodes : ℕ) (split : Bool) : Except Exc (List (List ρ)) :=
  match readLoop ep rows L maxEpisodes split [] (uniqueIds (rows.map ep)) with
  | .error x => .error x
  | .ok [] => .error .runtime                                                      -- 134
  | .ok (e :: es) => .ok (e :: es)

/-- `data_mode`. -/
inductive Mode where
  | all | train | val
deriving DecidableEq, Repr

/-- How many episodes are set aside for validation (L53). -/
noncomputable def valCount (n : ℕ) (ratio : ℝ) : ℕ := (max ⌈n * ratio⌉ 2).toNat

/-- The episodes of a dataset (L47-60); `order` is the random permutation. -/
noncomputable def selected (n : ℕ) (order : List ℕ) (ratio : ℝ) : Mode → List ℕ
  | .all => List.range n
  | .val => order.take (valCount n ratio)
  | .train => order.drop (valCount n ratio)

/-- A dataset: the episodes, the size of the batches, their number, the number of time steps (L66-74). -/
structure Data (ρ : Type) where
  episodes : List (List ρ)
  batchSize : ℤ
  numBatches : ℤ
  timeSteps : ℤ

/-- `__init__` (L20-73) after loading: `//` of Python is `Int.fdiv`; an index out of range cannot occur for a permutation. -/
noncomputable def create (eps : List (List ρ)) (L : ℕ) (batchSize maxEpisodes maxSteps : ℤ) (mode : Mode) (order : List ℕ)
    (ratio : ℝ) : Except Exc (Data ρ) :=
  let sel := (selected eps.length order ratio mode).filterMap fun i => eps[i]?
  let b := min batchSize maxEpisodes                                               -- 36
  if b = 0 then .error .zeroDivision                                               -- 73
  else .ok ⟨sel, b, Int.fdiv (sel.length - 1) b + 1, min maxSteps L⟩

/-- `get_batch` (L183-196): the episodes of a batch, cut to `time_steps`. -/
def getBatch (d : Data ρ) (idx : ℤ) : Except Exc (List (List ρ)) :=
  if idx < d.numBatches then                                                       -- 184
    let start := idx * d.batchSize
    let stop := min (start + d.batchSize) d.episodes.length
    .ok ((slice start stop d.episodes).map (slice 0 d.timeSteps))
  else .error .assertion

/-! ### `TrajectoryDataset` -/

/-- `get_all_files` for one type of map (motion_planning/misc.py L63-82): the environments that are not listed as colliding. -/
def envsOf (collides : ℕ → Bool) (numEnvs : ℕ) : List ℕ := (List.range numEnvs).filter fun i => !collides i

/-- `num_train` (L51): `int` truncates towards zero. -/
noncomputable def numTrain (ratio : ℝ) (numEnvs : ℕ) : ℤ :=
  let x := (1 - ratio) * numEnvs
  if 0 ≤ x then ⌊x⌋ else ⌈x⌉

/-- The files before shuffling (L48-55), `train` and `val`; `use` says which types of maps are chosen (L53). -/
noncomputable def splitFiles (types : List ℕ) (use : ℕ → Bool) (collides : ℕ → ℕ → Bool) (numEnvs : ℕ) (ratio : ℝ) :
    List (ℕ × ℕ) × List (ℕ × ℕ) :=
  let k := numTrain ratio numEnvs
  ((types.filter use).flatMap fun t => (slice 0 k (envsOf (collides t) numEnvs)).map fun i => (t, i),
   (types.filter use).flatMap fun t =>
    (slice k ((envsOf (collides t) numEnvs).length : ℤ) (envsOf (collides t) numEnvs)).map fun i => (t, i))

/-- The files of a dataset (L57-61): `shuffled` is the result of `random.shuffle`. -/
def chooseFiles (shuffled : List (ℕ × ℕ)) (numImages : ℤ) : List (ℕ × ℕ) := slice 0 numImages shuffled

end Verif.Tactile
