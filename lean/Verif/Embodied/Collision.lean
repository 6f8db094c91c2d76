import Verif.Embodied.Sdf

/-!
# Model of `theseus/embodied/collision/collision.py` and `eff_obj_contact.py`

`Collision2D` and `EffectorObjectContactPlanar`, one batch element at a time.  `none` is the
`AssertionError` of `gather_from_rows_cols`.  The kinematics model of both is the identity
(kinematics_model.py L36-48).
-/

namespace Verif.Embodied
open Verif.Geometry Matrix

/-- `Collision2D.error` for a `Point2` (collision.py L44-66). -/
noncomputable def collError (s : Sdf) (eps : ℝ) (p : P2) : Option ℝ := do
  let (d, _, _) ← s.signedDistance p
  return max (eps - d) 0

open Classical in
/-- `Collision2D.jacobians` for a `Point2` (collision.py L68-73). -/
noncomputable def collJac (s : Sdf) (eps : ℝ) (p : P2) : Option (Matrix (Fin 1) (Fin 2) ℝ) := do
  let (d, j1, j2) ← s.signedDistance p
  let jac : Matrix (Fin 1) (Fin 2) ℝ := if d > eps then 0 else !![j1, j2]
  return -jac

/-- `Collision2D.error` for an `SE2` pose (collision.py L44-66). -/
noncomputable def collErrorSE2 (s : Sdf) (eps : ℝ) (g : SE2) : Option ℝ := collError s eps g.trans

open Classical in
/-- `Collision2D.jacobians` for an `SE2` pose (collision.py L48-59, L68-73). -/
noncomputable def collJacSE2 (s : Sdf) (eps : ℝ) (g : SE2) : Option (Matrix (Fin 1) (Fin 3) ℝ) := do
  let (d, j1, j2) ← s.signedDistance g.trans
  let jac : Matrix (Fin 1) (Fin 3) ℝ := if d > eps then 0 else !![j1, j2] * g.xyJac
  return -jac

/-- `EffectorObjectContactPlanar.error` (eff_obj_contact.py L55-91, without the Huber loss, which
the constructor refuses, L50-53). -/
noncomputable def contactError (s : Sdf) (rad : ℝ) (obj eff : SE2) : Option ℝ := do
  let (d, _, _) ← s.signedDistance (obj.transformTo eff.trans)
  return |d - rad|

open Classical in
/-- `EffectorObjectContactPlanar.jacobians` (eff_obj_contact.py L55-68, L93-104): with respect to
`obj` and to `eff`. -/
noncomputable def contactJac (s : Sdf) (rad : ℝ) (obj eff : SE2) :
    Option (Matrix (Fin 1) (Fin 3) ℝ × Matrix (Fin 1) (Fin 3) ℝ) := do
  let J_transf := obj.transformToJac eff.trans
  let J_transf_obj := J_transf.1
  let J_transf_eff := J_transf.2 * eff.xyJac
  let (d, j1, j2) ← s.signedDistance (obj.transformTo eff.trans)
  let J_dist : Matrix (Fin 1) (Fin 2) ℝ := !![j1, j2]
  let sgn : ℝ := if d < rad then -1 else 1
  return (sgn • (J_dist * J_transf_obj), sgn • (J_dist * J_transf_eff))

end Verif.Embodied
