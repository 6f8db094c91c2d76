import Verif.Lie.BatchUnary

/-!
# `lift` and `project` on batches, forwards and backwards (C122)

The public functions of `torchlie/functional/so3_impl.py` and `se3_impl.py` on whole tensors, with the checks of the
shapes. The backward pass of each calls the other.
-/

namespace Verif.Lie.Batch

/-- `_lift_impl` of `SO3` (so3_impl.py L940-950, check L94-98) and the backward pass of `Project` (L999-1002).
Simplified: for a tensor without dimensions the check itself raises, an `IndexError`, which is the same error here. -/
def so3LiftOp (t : Tns) : Except Err Tns :=
  if t.shape.drop (t.ndim - 1) ≠ [3] then .error .shape else .ok (liftLast liftEntry 3 t)

/-- `_project_impl` of `SO3` (so3_impl.py L977-986, check L101-105) and the backward pass of `Lift` (L963-966). -/
def so3ProjectOp (t : Tns) : Except Err Tns :=
  if t.shape.drop (t.ndim - 2) ≠ [3, 3] then .error .shape else .ok (projectLast projEntry 3 t)

/-- `_lift_impl` of `SE3` (se3_impl.py L876-882, check L77-81) and the backward pass of `Project` (L937-939). -/
def se3LiftOp (t : Tns) : Except Err Tns :=
  if t.shape.drop (t.ndim - 1) ≠ [6] then .error .shape else .ok (liftLast se3LiftEntry 4 t)

/-- `_project_impl` of `SE3` (se3_impl.py L911-923, check L84-88) and the backward pass of `Lift` (L896-898). -/
def se3ProjectOp (t : Tns) : Except Err Tns :=
  if t.shape.drop (t.ndim - 2) ≠ [3, 4] then .error .shape else .ok (projectLast se3ProjEntry 6 t)

end Verif.Lie.Batch
