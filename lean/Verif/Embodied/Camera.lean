import Verif.Geometry.Spatial
import Verif.Objective.Model

/-!
# Model of `theseus/embodied/measurements/reprojection.py`

`Reprojection`, one batch element at a time, over the reals.  Division by zero, which is a NaN or an
infinity in torch, is zero here: points in the plane `z = 0` of the camera are outside the model.
-/

namespace Verif.Embodied
open Verif.Geometry Matrix

/-- `proj` (reprojection.py L56, L71). -/
noncomputable def camProj (pc : V3) : Fin 2 → ℝ := ![-pc 0 / pc 2, -pc 1 / pc 2]

/-- `proj_sqn` (reprojection.py L57, L72). -/
def camSqn (proj : Fin 2 → ℝ) : ℝ := proj 0 * proj 0 + proj 1 * proj 1

/-- `proj_factor` (reprojection.py L58-60, L73-75). -/
def camFactor (f k1 k2 sqn : ℝ) : ℝ := f * (1 + sqn * (k1 + sqn * k2))

/-- `point_projection - image_feature_point` as a function of the point in the camera frame
(reprojection.py L56-64). -/
noncomputable def camError (pc : V3) (feat : Fin 2 → ℝ) (f k1 k2 : ℝ) : Fin 2 → ℝ := fun i =>
  let proj := camProj pc
  proj i * camFactor f k1 k2 (camSqn proj) - feat i

/-- `Reprojection.error` (reprojection.py L54-64). -/
noncomputable def reprojError (pose : SE3) (w : V3) (feat : Fin 2 → ℝ) (f k1 k2 : ℝ) : Fin 2 → ℝ :=
  camError (pose.transform w) feat f k1 k2

/-- `point_projection_jac` from the point in the camera frame and the columns `J` of its Jacobian
(reprojection.py L71-92).  The code does it once for the columns of both variables put side by
side (L69) and cuts the result (L94); the columns do not mix. -/
noncomputable def camJac {k : ℕ} (pc : V3) (J : Matrix (Fin 3) (Fin k) ℝ) (f k1 k2 : ℝ) :
    Matrix (Fin 2) (Fin k) ℝ :=
  let proj := camProj pc
  let sqn := camSqn proj
  let factor := camFactor f k1 k2 sqn
  let d_factor := f * (k1 + 2 * sqn * k2)
  let d_num : Matrix (Fin 2) (Fin k) ℝ := Matrix.of ![J 0, J 1]
  let num_dden_den : Matrix (Fin 2) (Fin k) ℝ :=
    Matrix.of fun i j => (![pc 0, pc 1] : Fin 2 → ℝ) i * (J 2 j / pc 2)
  let proj_jac : Matrix (Fin 2) (Fin k) ℝ :=
    Matrix.of fun i j => (num_dden_den i j - d_num i j) / pc 2
  let proj_sqn_jac : Matrix (Fin 2) (Fin k) ℝ :=
    Matrix.of fun i j => 2 * proj i * (proj 0 * proj_jac 0 j + proj 1 * proj_jac 1 j)
  Matrix.of fun i j => proj_jac i j * factor + proj_sqn_jac i j * d_factor

/-- `Reprojection.jacobians` (reprojection.py L66-94): with respect to the camera pose and to the
point. -/
noncomputable def reprojJac (pose : SE3) (w : V3) (f k1 k2 : ℝ) :
    Matrix (Fin 2) (Fin 6) ℝ × Matrix (Fin 2) (Fin 3) ℝ :=
  let jacs := pose.jtransform w
  let pc := pose.transform w
  (camJac pc jacs.1 f k1 k2, camJac pc jacs.2 f k1 k2)

/-- The names "calib_k1" and "calib_k2" (reprojection.py L39, L44), as numbers. -/
def calibK1Name : Nat := 1001
@[inherit_doc calibK1Name] def calibK2Name : Nat := 1002

/-- `Reprojection.__init__` (reprojection.py L14-52): a calibration variable that is not given is
made, with a fixed name; `fresh1`, `fresh2` are the identities of the objects made. -/
def mkReprojection (id name : Nat) (pose point feat focal : Objective.Var)
    (k1 k2 : Option Objective.Var) (fresh1 fresh2 : Nat) (w : Objective.Weight) :
    Objective.CostFn :=
  { id := id, name := name, optimVars := [pose, point],
    auxVars := [focal, feat, k1.getD ⟨fresh1, calibK1Name, pose.dtype⟩,
      k2.getD ⟨fresh2, calibK2Name, pose.dtype⟩],
    weight := w, dim := 2 }

end Verif.Embodied
