import Verif.Embodied.Sdf

/-!
# What it means for the distance to be interpolated
-/

namespace Verif.Embodied
open Verif.Geometry

/-- The rectangle spanned by the nodes of an `R x C` grid with origin `(ox, oy)` and cells of side
`h`. -/
def InRect (ox oy h : ℝ) (R C : ℕ) (p : P2) : Prop :=
  ox ≤ p.x ∧ p.x ≤ ox + ((C : ℝ) - 1) * h ∧ oy ≤ p.y ∧ p.y ≤ oy + ((R : ℝ) - 1) * h

/-- The closed cell between the nodes `(r, c)` and `(r + 1, c + 1)`. -/
def InCell (ox oy h : ℝ) (r c : ℕ) (p : P2) : Prop :=
  ox + c * h ≤ p.x ∧ p.x ≤ ox + (c + 1) * h ∧ oy + r * h ≤ p.y ∧ p.y ≤ oy + (r + 1) * h

/-- Its interior. -/
def InOpenCell (ox oy h : ℝ) (r c : ℕ) (p : P2) : Prop :=
  ox + c * h < p.x ∧ p.x < ox + (c + 1) * h ∧ oy + r * h < p.y ∧ p.y < oy + (r + 1) * h

/-- Bilinear interpolation of the values at the corners of a cell; `u` along the columns and `v`
along the rows. -/
def bilinear (f : ℕ → ℕ → ℝ) (r c : ℕ) (u v : ℝ) : ℝ :=
  (1 - v) * ((1 - u) * f r c + u * f r (c + 1))
    + v * ((1 - u) * f (r + 1) c + u * f (r + 1) (c + 1))

/-- The distance alone (`0` where `signed_distance` raises). -/
noncomputable def dist (s : Sdf) (p : P2) : ℝ := ((s.signedDistance p).map (·.1)).getD 0

end Verif.Embodied
