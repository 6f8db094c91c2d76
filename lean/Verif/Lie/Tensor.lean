import Verif.Geometry.Spatial

/-!
# Model of the operators of `torchlie.LieTensor` (`torchlie/torchlie/lie_tensor.py`)

One batch element.  A `LieTensor` is its data with its `ltype`.  The dtype, the device and the
gradient history are not modelled; storage is the subject of `Verif/Lie/Storage.lean` and the
dispatch of torch functions that of `Verif/Lie/Dispatch.lean`.
-/

namespace Verif.Lie.Tensor
open Verif.Geometry Matrix

/-- `ltype` (types.py L46-48, L107-108). -/
inductive Lt where
  | se3 | so3
deriving DecidableEq

/-- A `LieTensor` (lie_tensor.py L71-80). -/
inductive LieT where
  | se3 (g : SE3)
  | so3 (R : M3)

/-- `.ltype` (lie_tensor.py L79). -/
def LieT.lt : LieT → Lt
  | .se3 _ => .se3
  | .so3 _ => .so3

/-- The values that can be passed to the operators: a `LieTensor`, a tensor of size 3 or 6, any other
tensor, and an object that is not a tensor. -/
inductive Val where
  | lie (t : LieT)
  | v3 (v : V3)
  | v6 (v : Fin 6 → ℝ)
  | tensor
  | other

/-- The exceptions (lie_tensor.py L243-245, L349-351, L356-364, L372-376, L380-384). -/
inductive Err where
  | type | value | attribute
deriving DecidableEq

/-- The thresholds `near_zero`, `d_near_zero`, `near_pi` (torchlie/global_params.py). -/
structure Eps where
  near : ℝ
  dnear : ℝ
  npi : ℝ

/-- `LieTensor.compose` (lie_tensor.py L280-284) with `_check_ltype` (L243-245), for an argument of
any type: without the attribute `ltype` there is an `AttributeError`. -/
def compose : LieT → Val → Except Err LieT
  | .se3 a, .lie (.se3 b) => .ok (.se3 (SE3.compose a b))
  | .so3 A, .lie (.so3 B) => .ok (.so3 (A * B))
  | _, .lie _ => .error .value
  | _, _ => .error .attribute

/-- `LieTensor.inv` (lie_tensor.py L277-278). -/
def inv : LieT → LieT
  | .se3 a => .se3 (SE3.inverse a)
  | .so3 A => .so3 Aᵀ

/-- `ltype.exp` (types.py L84-87): the shape of the argument is checked. -/
noncomputable def exp (e : Eps) : Lt → Val → Except Err LieT
  | .se3, .v6 v => .ok (.se3 (SE3.exp e.near v))
  | .so3, .v3 v => .ok (.so3 (SO3.exp e.near v))
  | _, .other => .error .attribute
  | _, _ => .error .value

/-- `LieTensor.log` (lie_tensor.py L271-272). -/
noncomputable def log (e : Eps) : LieT → Val
  | .se3 g => .v6 (SE3.log e.near e.npi g)
  | .so3 R => .v3 (SO3.log e.near e.npi R)

/-- `LieTensor.transform` (lie_tensor.py L286-287): a point of another size is rejected. -/
def transform : LieT → Val → Except Err V3
  | .se3 g, .v3 p => .ok (SE3.transform g p)
  | .so3 R, .v3 p => .ok (SO3.transform R p)
  | _, .other => .error .attribute
  | _, _ => .error .value

/-- `LieTensor.untransform` (lie_tensor.py L289-290). -/
def untransform : LieT → Val → Except Err V3
  | .se3 g, .v3 p => .ok (SE3.untransform g p)
  | .so3 R, .v3 p => .ok (SO3.untransform R p)
  | _, .other => .error .attribute
  | _, _ => .error .value

/-- `LieTensor.retract` (lie_tensor.py L348-353). -/
noncomputable def retract (e : Eps) (x : LieT) (delta : Val) : Except Err LieT :=
  match delta with
  | .other => .error .type
  | _ =>
    match exp e x.lt delta with
    | .error er => .error er
    | .ok y => compose x (.lie y)

/-- `LieTensor.local` (lie_tensor.py L355-366). -/
noncomputable def «local» (e : Eps) (x : LieT) (other : Val) : Except Err Val :=
  match other with
  | .lie y =>
    if y.lt = x.lt then
      match compose (inv x) (.lie y) with
      | .error er => .error er
      | .ok z => .ok (log e z)
    else .error .value
  | _ => .error .type

/-- `LieTensor.__mul__` (lie_tensor.py L371-377): `other.compose(self)`. -/
def mul (x : LieT) (other : Val) : Except Err LieT :=
  match other with
  | .lie y => compose y (.lie x)
  | _ => .error .type

/-- `LieTensor.__matmul__` (lie_tensor.py L379-385). -/
def matmul (x : LieT) (point : Val) : Except Err V3 :=
  match point with
  | .lie _ => .error .type
  | p => transform x p

end Verif.Lie.Tensor
