import Verif.Geometry.Planar
import Mathlib.Algebra.Order.Floor.Ring
import Mathlib.Data.Finset.Lattice.Fold

/-!
# Model of `theseus/embodied/collision/signed_distance_field.py`

`SignedDistanceField2D`: interpolation of a field sampled on a grid, and its construction from an
occupancy map.  One batch element and one point at a time (the operations are independent).  Real
arithmetic; points with a NaN coordinate are not modelled.
-/

namespace Verif.Embodied
open Verif.Geometry

/-- The fields of `SignedDistanceField2D` for one batch element (signed_distance_field.py L43-49):
`ox, oy` is `origin`, `h` is `cell_size`, `data` is `sdf_data` with its own shape `dRows x dCols`,
`numRows`, `numCols` are `_num_rows`, `_num_cols`, `bv` is `sdf_boundary_value`. -/
structure Sdf where
  ox : ℝ
  oy : ℝ
  h : ℝ
  dRows : ℕ
  dCols : ℕ
  data : ℕ → ℕ → ℝ
  numRows : ℕ
  numCols : ℕ
  bv : ℝ

namespace Sdf

/-- The constructor with `sdf_data` (signed_distance_field.py L20-49). -/
def make (ox oy h : ℝ) (dRows dCols : ℕ) (data : ℕ → ℕ → ℝ) (bv : ℝ) : Sdf :=
  ⟨ox, oy, h, dRows, dCols, data, dRows, dCols, bv⟩

/-- `update_data` (signed_distance_field.py L148-161). -/
def updateData (s : Sdf) (ox oy h : ℝ) (dRows dCols : ℕ) (data : ℕ → ℕ → ℝ) : Sdf :=
  { s with ox := ox, oy := oy, h := h, dRows := dRows, dCols := dCols, data := data }

/-- `row` of `convert_points_to_cell` (signed_distance_field.py L186-187). -/
noncomputable def row (s : Sdf) (p : P2) : ℝ := (p.y - s.oy) / s.h
/-- `col` of `convert_points_to_cell` (signed_distance_field.py L186-187). -/
noncomputable def col (s : Sdf) (p : P2) : ℝ := (p.x - s.ox) / s.h

/-- `out_of_bounds_idx` of `convert_points_to_cell` (signed_distance_field.py L179-184). -/
def Out (s : Sdf) (p : P2) : Prop :=
  p.x < s.ox ∨ p.x > s.ox + ((s.numCols : ℝ) - 1) * s.h ∨
  p.y < s.oy ∨ p.y > s.oy + ((s.numRows : ℝ) - 1) * s.h

/-- `clamp(0, hi - 1)` of an index (signed_distance_field.py L202-205). -/
def clamp (i : ℤ) (hi : ℕ) : ℤ := min (max i 0) ((hi : ℤ) - 1)

/-- `gather_from_rows_cols` for one point (utils.py L64-74); `none` is the `AssertionError`. -/
def gather (s : Sdf) (r c : ℤ) : Option ℝ :=
  if 0 ≤ r ∧ r < s.dRows ∧ 0 ≤ c ∧ c < s.dCols then some (s.data r.toNat c.toNat) else none

open Classical in
/-- `signed_distance` for one point (signed_distance_field.py L193-241): the distance and the two
entries of its Jacobian. -/
noncomputable def signedDistance (s : Sdf) (p : P2) : Option (ℝ × ℝ × ℝ) := do
  let rows := s.row p
  let cols := s.col p
  let lr : ℤ := ⌊rows⌋
  let lc : ℤ := ⌊cols⌋
  let hr := lr + 1
  let hc := lc + 1
  let lri := clamp lr s.numRows
  let lci := clamp lc s.numCols
  let hri := clamp hr s.numRows
  let hci := clamp hc s.numCols
  let hrdiff := (hr : ℝ) - rows
  let hcdiff := (hc : ℝ) - cols
  let lrdiff := rows - lr
  let lcdiff := cols - lc
  let ll ← s.gather lri lci
  let hl ← s.gather hri lci
  let lh ← s.gather lri hci
  let hh ← s.gather hri hci
  let dist := hrdiff * hcdiff * ll + lrdiff * hcdiff * hl + hrdiff * lcdiff * lh
    + lrdiff * lcdiff * hh
  let jac1 := (hrdiff * (lh - ll) + lrdiff * (hh - hl)) / s.h
  let jac2 := (hcdiff * (hl - ll) + lcdiff * (hh - lh)) / s.h
  if s.Out p then return (s.bv, 0, 0) else return (dist, jac1, jac2)

end Sdf

/-! ## From an occupancy map -/
section Map
variable {R C : ℕ}

/-- The distance between two cells of the grid, in cells (`ndimage.distance_transform_edt`,
signed_distance_field.py L89-90). -/
noncomputable def cellDist (a b : Fin R × Fin C) : ℝ :=
  Real.sqrt (((a.1 : ℝ) - b.1) ^ 2 + ((a.2 : ℝ) - b.2) ^ 2)

open Classical in
/-- `scipy.ndimage.distance_transform_edt` (signed_distance_field.py L89-90): zero on the background
(the cells where the input is zero), and the distance to the nearest background cell elsewhere.
When there is no background scipy documents no value; `junk` stands for what it returns. -/
noncomputable def edt (junk : Fin R × Fin C → ℝ) (fg : Fin R × Fin C → Prop) (a : Fin R × Fin C) :
    ℝ :=
  if fg a then
    if hne : (Finset.univ.filter fun b => ¬ fg b).Nonempty then
      (Finset.univ.filter fun b => ¬ fg b).inf' hne (cellDist a)
    else junk a
  else 0

/-- `cur_map` (signed_distance_field.py L74-75): a cell is occupied when its value is above the
threshold. -/
def occupied (thr : ℝ) (map : Fin R × Fin C → ℝ) (a : Fin R × Fin C) : Prop := map a > thr

open Classical in
/-- `_compute_sdf_data_from_map` for one map (signed_distance_field.py L71-98). -/
noncomputable def sdfOfMap (junk : Fin R × Fin C → ℝ) (thr h : ℝ) (map : Fin R × Fin C → ℝ)
    (a : Fin R × Fin C) : ℝ :=
  if ∀ b, ¬ occupied thr map b then
    2 * h * (max R C : ℕ)
  else
    (edt junk (fun b => ¬ occupied thr map b) a - edt junk (occupied thr map) a) * h

end Map

end Verif.Embodied
