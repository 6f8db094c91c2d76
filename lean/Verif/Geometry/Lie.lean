import Mathlib.LinearAlgebra.Matrix.Notation
import Mathlib.Data.Real.Basic

/-!
# Model of `theseus/geometry/lie_group.py`

`LieGroup` is an abstract class: every concrete group supplies `compose`, `inverse`, `exp_map`,
`log_map`, `adjoint` (and the Jacobian of `log_map`), and the base class derives `between`,
`local`, `retract` and all the analytic Jacobians from them.  The model has the same shape: `Ops`
is the record of abstract methods, and everything below is derived from it exactly as in the
base class.

Simplifications: one batch element at a time (every method is applied independently to each row
of the batch), and real arithmetic instead of floating point.
-/

namespace Verif.Geometry
open Matrix

/-- The abstract methods of a Lie group with `n` degrees of freedom
(lie_group.py L82-107, L138-160: `exp_map`, `_log_map_impl` with its Jacobian, `_adjoint_impl`,
`_compose_impl`, `_inverse_impl`). -/
structure Ops (n : ℕ) (G : Type) where
  compose : G → G → G
  inverse : G → G
  exp : (Fin n → ℝ) → G
  log : G → Fin n → ℝ
  adjoint : G → Matrix (Fin n) (Fin n) ℝ
  dlog : G → Matrix (Fin n) (Fin n) ℝ

namespace Ops
variable {n : ℕ} {G : Type} (L : Ops n G)

/-- `LieGroup.between` (lie_group.py L125-137): `self⁻¹ ∘ variable2`. -/
def between (a b : G) : G := L.compose (L.inverse a) b

/-- `LieGroup._compose_jacobian` (lie_group.py L162-174). -/
def composeJac (_a b : G) : Matrix (Fin n) (Fin n) ℝ × Matrix (Fin n) (Fin n) ℝ :=
  (L.adjoint (L.inverse b), 1)

/-- `LieGroup._inverse_jacobian` (lie_group.py L176-178). -/
def inverseJac (a : G) : Matrix (Fin n) (Fin n) ℝ := - L.adjoint a

/-- The Jacobians of `LieGroup.between` (lie_group.py L130-136). -/
def betweenJac (a b : G) : Matrix (Fin n) (Fin n) ℝ × Matrix (Fin n) (Fin n) ℝ :=
  let jinv := L.inverseJac a
  let jcmp := L.composeJac (L.inverse a) b
  (jcmp.1 * jinv, jcmp.2)

/-- `LieGroup._local_impl`, the value (lie_group.py L180-195). -/
def «local» (a b : G) : Fin n → ℝ := L.log (L.between a b)

/-- `LieGroup._local_impl`, the Jacobians (lie_group.py L186-191). -/
def localJac (a b : G) : Matrix (Fin n) (Fin n) ℝ × Matrix (Fin n) (Fin n) ℝ :=
  let diff := L.between a b
  (- L.adjoint (L.inverse diff) * L.dlog diff, L.dlog diff)

/-- `LieGroup._retract_impl` (lie_group.py L197-198). -/
def retract (a : G) (δ : Fin n → ℝ) : G := L.compose a (L.exp δ)

/-- `Between.error` (embodied/measurements/between.py L34-36). -/
def betweenError (v0 v1 meas : G) : Fin n → ℝ := L.local meas (L.between v0 v1)

/-- `Between.jacobians` (between.py L38-45), Jacobians with respect to `v0` and `v1`. -/
def betweenCostJac (v0 v1 meas : G) : Matrix (Fin n) (Fin n) ℝ × Matrix (Fin n) (Fin n) ℝ :=
  let varDiff := L.between v0 v1
  let dlog := L.dlog (L.compose (L.inverse meas) varDiff)
  (- dlog * L.adjoint (L.inverse varDiff), dlog)

/-- The error returned by `Between.jacobians` (between.py L42). -/
def betweenJacError (v0 v1 meas : G) : Fin n → ℝ :=
  L.log (L.compose (L.inverse meas) (L.between v0 v1))

/-- `Local.error` (embodied/misc/local_cost_fn.py L39-40). -/
def localCostError (var target : G) : Fin n → ℝ := L.local target var

/-- `Local.jacobians` (local_cost_fn.py L42-61); `fast` is the global option
`fast_approx_local_jacobians`.  The cache of the identity matrix is not modelled: it always holds
the identity of the right size. -/
def localCostJac (fast : Bool) (var target : G) : Matrix (Fin n) (Fin n) ℝ :=
  if fast then 1 else (L.localJac target var).2

/-- `MovingFrameBetween.error` (moving_frame_between.py L40-44). -/
def movingFrameError (f1 f2 p1 p2 meas : G) : Fin n → ℝ :=
  L.local meas (L.between (L.between f1 p1) (L.between f2 p2))

/-- `MovingFrameBetween.jacobians` (moving_frame_between.py L46-63), in the order
`frame1, frame2, pose1, pose2`. -/
def movingFrameJac (f1 f2 p1 p2 : G) :
    Matrix (Fin n) (Fin n) ℝ × Matrix (Fin n) (Fin n) ℝ ×
      Matrix (Fin n) (Fin n) ℝ × Matrix (Fin n) (Fin n) ℝ :=
  let b1 := L.betweenJac f1 p1
  let b2 := L.betweenJac f2 p2
  let out := L.betweenJac (L.between f1 p1) (L.between f2 p2)
  (out.1 * b1.1, out.2 * b2.1, out.1 * b1.2, out.2 * b2.2)

end Ops
end Verif.Geometry
