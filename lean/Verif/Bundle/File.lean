import Verif.PoseGraph.File

/-!
# Bundle adjustment problems in files (`theseus/utils/examples/bundle_adjustment/data.py` L16-59, L142-252)

A file is a list of lines, a line the list of its tokens (`PoseGraph.Tok`). Printing and parsing of numbers is exact, and
`nan`, `inf` are no numbers; dtypes and the names of the variables are not modelled. All variables have batch size 1.
-/

namespace Verif.Bundle
open Verif.Geometry
open Verif.PoseGraph (Tok)

/-- A file. -/
abbrev File := List (List Tok)

/-- `IndexError`, `ValueError`, `TypeError`, `AttributeError`, `ZeroDivisionError`, `RuntimeError`. -/
inductive Exc where
  | index | value | type | attribute | zeroDiv | runtime
deriving DecidableEq, Repr

/-- Continue unless there was an exception. -/
def bind {α β : Type} (r : Except Exc α) (f : α → Except Exc β) : Except Exc β :=
  match r with
  | .ok a => f a
  | .error e => .error e

/-- `Camera` (data.py L16-27). -/
@[ext] structure Camera where
  pose : SE3
  f : ℝ
  k1 : ℝ
  k2 : ℝ

/-- `Observation` (data.py L142-148). -/
@[ext] structure Obs where
  cam : ℤ
  pt : ℤ
  feat : Fin 2 → ℝ

/-- `Camera.to_params` (data.py L29-40). -/
noncomputable def toParams (eps epi : ℝ) (c : Camera) : Fin 9 → ℝ :=
  let r := SO3.log eps epi c.pose.R
  ![r 0, r 1, r 2, c.pose.t 0, c.pose.t 1, c.pose.t 2, c.f, c.k1, c.k2]

/-- `Camera.from_params` (data.py L43-59). -/
noncomputable def fromParams (eps : ℝ) (p : Fin 9 → ℝ) : Camera :=
  ⟨⟨SO3.exp eps ![p 0, p 1, p 2], ![p 3, p 4, p 5]⟩, p 6, p 7, p 8⟩

/-! ### Reading -/

/-- `int` of a token (data.py L173, L185-186). -/
def intOf : Tok → Except Exc ℤ
  | .int z => .ok z
  | _ => .error .value

/-- `float` of a token (data.py L179, L194, L200). -/
noncomputable def floatOf : Tok → Except Exc ℝ
  | .int z => .ok z
  | .real x => .ok x
  | .word _ => .error .value

/-- `fields[k]`. -/
def fieldAt (l : List Tok) (k : ℕ) : Except Exc Tok :=
  match l[k]? with
  | some t => .ok t
  | none => .error .index

/-- A function that reads from a file and leaves the rest of it. At the end of the file `readline` returns an empty
line. -/
abbrev Reader (α : Type) := File → Except Exc (α × File)

/-- A line of the file, converted by `g`. -/
def line {α : Type} (g : List Tok → Except Exc α) : Reader α := fun f =>
  bind (g (f.headD [])) fun a => .ok (a, f.tail)

/-- `n` times the same. -/
def times {α : Type} (r : Reader α) : ℕ → Reader (List α)
  | 0, f => .ok ([], f)
  | n + 1, f => bind (r f) fun x => bind (times r n x.2) fun y => .ok (x.1 :: y.1, y.2)

/-- The numbers of cameras, points and observations (data.py L171-174). -/
def header : List Tok → Except Exc (ℤ × ℤ × ℤ)
  | [a, b, c] => bind (intOf a) fun i => bind (intOf b) fun j => bind (intOf c) fun k => .ok (i, j, k)
  | _ => .error .value

/-- An observation (data.py L175-189). -/
noncomputable def obsOf (l : List Tok) : Except Exc Obs :=
  bind (fieldAt l 2) fun t2 => bind (floatOf t2) fun x => bind (fieldAt l 3) fun t3 => bind (floatOf t3) fun y =>
  bind (fieldAt l 0) fun t0 => bind (intOf t0) fun i => bind (fieldAt l 1) fun t1 => bind (intOf t1) fun j =>
  .ok ⟨i, j, ![x, y]⟩

/-- `float(out.readline().rstrip())` (data.py L194, L200): the line has one number. -/
noncomputable def numOf : List Tok → Except Exc ℝ
  | [t] => floatOf t
  | _ => .error .value

/-- A camera (data.py L191-195). -/
noncomputable def cameraReader (eps : ℝ) : Reader Camera := fun f =>
  bind (times (line numOf) 9 f) fun x => .ok (fromParams eps fun k => x.1.getD k 0, x.2)

/-- A point (data.py L197-206). -/
noncomputable def pointReader : Reader V3 := fun f =>
  bind (times (line numOf) 3 f) fun x => .ok (fun k => x.1.getD k 0, x.2)

/-- `load_bal_dataset` (data.py L166-207): cameras, points and observations. -/
noncomputable def loadBal (eps : ℝ) (f : File) : Except Exc (List Camera × List V3 × List Obs) :=
  bind (line header f) fun h =>
  bind (times (line obsOf) h.1.2.2.toNat h.2) fun o =>
  bind (times (cameraReader eps) h.1.1.toNat o.2) fun c =>
  bind (times pointReader h.1.2.1.toNat c.2) fun p =>
  .ok (c.1, p.1, o.1)

/-! ### Datasets -/

/-- The elements of the lists `gt_cameras` and `gt_points`. -/
inductive Item where
  | cam (c : Camera)
  | pt (p : V3)

/-- `BundleAdjustmentDataset` (data.py L151-164). -/
structure Dataset where
  cameras : List Item
  points : List Item
  observations : List Obs
  gtCameras : Option (List Item)
  gtPoints : Option (List Item)

/-- `load_from_file` (data.py L230-243). -/
noncomputable def loadFromFile (eps : ℝ) (path : File) (gtPath : Option File) : Except Exc Dataset :=
  bind (loadBal eps path) fun d =>                                                       -- 232
  match gtPath with
  | some g =>
    bind (loadBal eps g) fun e =>
      let gtPoints := e.1.map Item.cam                                                   -- 234
      let gtCameras := e.2.1.map Item.pt
      .ok ⟨d.1.map .cam, d.2.1.map .pt, d.2.2, some gtCameras, some gtPoints⟩            -- 237-243
  | none => .ok ⟨d.1.map .cam, d.2.1.map .pt, d.2.2, none, none⟩                         -- 236

/-! ### Writing -/

/-- The lines of the observations (data.py L218-220). -/
def obsLine (o : Obs) : List Tok := [.int o.cam, .int o.pt, .real (o.feat 0), .real (o.feat 1)]

/-- The lines of a camera (data.py L221-224); a point has no `to_params`. -/
noncomputable def cameraLines (eps epi : ℝ) : Item → Except Exc File
  | .cam c => .ok ((List.finRange 9).map fun k => [.real (toParams eps epi c k)])
  | .pt _ => .error .attribute

/-- The lines of a point (data.py L225-228); a camera has no `tensor`. -/
def pointLines : Item → Except Exc File
  | .pt p => .ok ((List.finRange 3).map fun k => [.real (p k)])
  | .cam _ => .error .attribute

/-- Write the lines of all items, until there is an exception. -/
def writeAll (g : Item → Except Exc File) : List Item → File × Option Exc
  | [] => ([], none)
  | x :: xs =>
    match g x with
    | .ok l => (l ++ (writeAll g xs).1, (writeAll g xs).2)
    | .error e => ([], some e)

/-- `save_bal_dataset` (data.py L209-228): the file that it leaves, and the exception. -/
noncomputable def saveBal (eps epi : ℝ) (cams pts : Option (List Item)) (obs : List Obs) : File × Option Exc :=
  match cams, pts with
  | some c, some p =>
    let head : File := [.int c.length, .int p.length, .int obs.length] :: obs.map obsLine  -- 217-220
    match writeAll (cameraLines eps epi) c with
    | (lc, some e) => (head ++ lc, some e)
    | (lc, none) => (head ++ lc ++ (writeAll pointLines p).1, (writeAll pointLines p).2)
  | _, _ => ([], some .type)                                                             -- 217: len(None)

/-- `save_to_file` (data.py L245-252): the file, the file of the ground truth if there is one, and the exception. -/
noncomputable def saveToFile (eps epi : ℝ) (d : Dataset) (gt : Bool) : File × Option File × Option Exc :=
  match saveBal eps epi (some d.cameras) (some d.points) d.observations with
  | (f, some e) => (f, none, some e)
  | (f, none) =>
    if gt then
      let r := saveBal eps epi d.gtCameras d.gtPoints d.observations
      (f, some r.1, r.2)
    else (f, none, none)

end Verif.Bundle
