import Verif.Geometry.Quaternion

/-!
# Random and identity group elements (C115)

`rand`, `randn` and `identity` of torchlie's `SO3` and `SE3` and of theseus' `SO2`, `SE2`, `SO3`, `SE3`, `Vector` and
`Point2`/`Point3`, over the real numbers.  A `Source` is a `torch.Generator` with everything inside it unknown: any
state, any rule for the next numbers, except that `torch.rand` stays in `[0, 1)`.  A tensor of `k` numbers is a
function of the position in row-major order.  Devices, dtypes and warnings are not modelled.
-/

namespace Verif.Geometry.Random
open Matrix

/-- A `torch.Generator` as `torch.rand` and `torch.randn` see it: from a state, `k` numbers and the next state. -/
structure Source where
  State : Type
  rand : ℕ → State → (ℕ → ℝ) × State
  randn : ℕ → State → (ℕ → ℝ) × State
  rand_nonneg : ∀ k st i, 0 ≤ (rand k st).1 i
  rand_lt_one : ∀ k st i, (rand k st).1 i < 1

/-- What is raised: the `ValueError`s on the number of sizes and on quaternions that are not unit, and the
`RuntimeError`s of the maximum of an empty tensor and of writing into a leaf that requires gradients. -/
inductive Err
  | size
  | notUnit
  | emptyMax
  | inPlaceLeaf
  deriving DecidableEq

/-- What a tensor is to autograd: nothing, a leaf (its `grad` gets filled in), or computed from another. -/
inductive GradKind
  | none
  | leaf
  | computed
  deriving DecidableEq

/-- A result: the batch in row-major order, what it is to autograd, and the state of the generator afterwards. -/
structure Draw (S : Source) (G : Type) where
  rows : List G
  grad : GradKind
  next : S.State

/-- `ret.requires_grad_(requires_grad)` on a tensor without history (so3_impl.py L184, L202, L214). -/
def leafIf (requiresGrad : Bool) : GradKind := if requiresGrad then .leaf else .none

/-- What a function of a leaf `torch.rand(..., requires_grad=requires_grad)` is, with gradients on or off. -/
def computedIf (requiresGrad gradMode : Bool) : GradKind := if requiresGrad && gradMode then .computed else .none

/-! ### torchlie -/

/-- The quaternion of `rand` (so3_impl.py L166-180) for one batch element, from its three numbers. -/
noncomputable def so3Quat (u1 u2 u3 : ℝ) : Fin 4 → ℝ :=
  let a := Real.sqrt (1 - u1)
  let b := Real.sqrt u1
  ![a * Real.sin (u2 * 2 * Real.pi), a * Real.cos (u2 * 2 * Real.pi),
    b * Real.sin (u3 * 2 * Real.pi), b * Real.cos (u3 * 2 * Real.pi)]

/-- `check_unit_quaternion` on a batch (so3_impl.py L108-121): with the checks on, the largest distance of a norm
from 1 must be below the tolerance, and there must be one. -/
noncomputable def checkQuats (checks : Bool) (tol : ℝ) (qs : List (Fin 4 → ℝ)) : Except Err Unit :=
  open Classical in
  if !checks then .ok ()
  else if qs = [] then .error .emptyMax
  else if ∃ q ∈ qs, tol ≤ |SO3.quatNorm q - 1| then .error .notUnit
  else .ok ()

/-- torchlie `SO3.rand` (so3_impl.py L155-185) for any number of sizes; `tol` is the tolerance "so3 quat". -/
noncomputable def so3Rand (S : Source) (checks : Bool) (tol : ℝ) (size : List ℕ) (requiresGrad : Bool)
    (st : S.State) : Except Err (Draw S M3) :=
  let n := size.prod
  let u := S.rand (3 * n) st
  let qs := (List.range n).map fun i => so3Quat (u.1 i) (u.1 (n + i)) (u.1 (2 * n + i))
  match checkQuats checks tol qs with
  | .error e => .error e
  | .ok () => .ok ⟨qs.map SO3.ofQuaternion, leafIf requiresGrad, u.2⟩

/-- Three consecutive numbers: row `i` of a tensor `(n, 3)` or `(n, 3, 1)`. -/
def row3 (x : ℕ → ℝ) (i : ℕ) : V3 := ![x (3 * i), x (3 * i + 1), x (3 * i + 2)]

/-- torchlie `SO3.randn` (so3_impl.py L188-203); `eps` is the threshold "so3 near_zero" of the exponential. -/
noncomputable def so3Randn (S : Source) (eps : ℝ) (size : List ℕ) (requiresGrad : Bool) (st : S.State) :
    Draw S M3 :=
  let n := size.prod
  let x := S.randn (n * 3) st
  ⟨(List.range n).map fun i => SO3.exp eps (Real.pi • row3 x.1 i), leafIf requiresGrad, x.2⟩

/-- torchlie `SO3.identity` (so3_impl.py L206-215). -/
def so3Identity (size : List ℕ) : List M3 := List.replicate size.prod 1

/-- torchlie `SE3.rand` (se3_impl.py L122-137): the rotations first, then the translations. -/
noncomputable def se3Rand (S : Source) (checks : Bool) (tol : ℝ) (size : List ℕ) (requiresGrad : Bool)
    (st : S.State) : Except Err (Draw S SE3) :=
  let n := size.prod
  match so3Rand S checks tol size false st with
  | .error e => .error e
  | .ok rot =>
    let t := S.rand (n * 3) rot.next
    .ok ⟨(List.range n).map fun i => ⟨rot.rows.getD i 0, row3 t.1 i⟩, leafIf requiresGrad, t.2⟩

/-- torchlie `SE3.randn` (se3_impl.py L143-156). -/
noncomputable def se3Randn (S : Source) (eps : ℝ) (size : List ℕ) (requiresGrad : Bool) (st : S.State) :
    Draw S SE3 :=
  let n := size.prod
  let rot := so3Randn S eps size false st
  let t := S.randn (n * 3) rot.next
  ⟨(List.range n).map fun i => ⟨rot.rows.getD i 0, row3 t.1 i⟩, leafIf requiresGrad, t.2⟩

/-- torchlie `SE3.identity` (se3_impl.py L159-175). -/
def se3Identity (size : List ℕ) : List SE3 := List.replicate size.prod ⟨1, ![0, 0, 0]⟩

/-! ### theseus -/

/-- `SO3.rand` (theseus/geometry/so3.py L44-62): the size must be one number. -/
noncomputable def SO3.rand (S : Source) (checks : Bool) (tol : ℝ) (size : List ℕ) (requiresGrad : Bool)
    (st : S.State) : Except Err (Draw S M3) :=
  if size.length ≠ 1 then .error .size else so3Rand S checks tol size requiresGrad st

/-- `SO3.randn` (so3.py L64-81). -/
noncomputable def SO3.randn (S : Source) (eps : ℝ) (size : List ℕ) (requiresGrad : Bool) (st : S.State) :
    Except Err (Draw S M3) :=
  if size.length ≠ 1 then .error .size else .ok (so3Randn S eps size requiresGrad st)

/-- `SE3.rand` (theseus/geometry/se3.py L44-61). -/
noncomputable def SE3.rand (S : Source) (checks : Bool) (tol : ℝ) (size : List ℕ) (requiresGrad : Bool)
    (st : S.State) : Except Err (Draw S SE3) :=
  if size.length ≠ 1 then .error .size else se3Rand S checks tol size requiresGrad st

/-- `SE3.randn` (se3.py L63-80). -/
noncomputable def SE3.randn (S : Source) (eps : ℝ) (size : List ℕ) (requiresGrad : Bool) (st : S.State) :
    Except Err (Draw S SE3) :=
  if size.length ≠ 1 then .error .size else .ok (se3Randn S eps size requiresGrad st)

/-- `SO2.rand` (theseus/geometry/so2.py L49-71): an angle in `[-π, π)`. -/
noncomputable def SO2.rand (S : Source) (size : List ℕ) (requiresGrad gradMode : Bool) (st : S.State) :
    Except Err (Draw S SO2) :=
  if size.length ≠ 1 then .error .size
  else
    let u := S.rand (size.headD 0) st
    .ok ⟨(List.range (size.headD 0)).map fun i => SO2.exp (2 * Real.pi * u.1 i - Real.pi),
      computedIf requiresGrad gradMode, u.2⟩

/-- `SO2.randn` (so2.py L73-93). -/
noncomputable def SO2.randn (S : Source) (size : List ℕ) (requiresGrad gradMode : Bool) (st : S.State) :
    Except Err (Draw S SO2) :=
  if size.length ≠ 1 then .error .size
  else
    let u := S.randn (size.headD 0) st
    .ok ⟨(List.range (size.headD 0)).map fun i => SO2.exp (Real.pi * u.1 i),
      computedIf requiresGrad gradMode, u.2⟩

/-- `SE2(x_y_theta=...)` on one row: `update_from_x_y_theta`, `update_from_rot_and_trans`
(theseus/geometry/se2.py L151-163). -/
noncomputable def se2OfXYTheta (v : V3) : SE2 :=
  let rotation := SO2.exp (v 2)
  ⟨v 0, v 1, rotation.c, rotation.s⟩

/-- `SE2.rand` (se2.py L45-65); the angles are written into the tensor `torch.rand` returned, which with gradients
on must not be a leaf that requires them. -/
noncomputable def SE2.rand (S : Source) (size : List ℕ) (requiresGrad gradMode : Bool) (st : S.State) :
    Except Err (Draw S SE2) :=
  if size.length ≠ 1 then .error .size
  else
    let x := S.rand (size.headD 0 * 3) st
    if requiresGrad && gradMode then .error .inPlaceLeaf
    else .ok ⟨(List.range (size.headD 0)).map fun i =>
        se2OfXYTheta ![row3 x.1 i 0, row3 x.1 i 1, 2 * Real.pi * (row3 x.1 i 2 - 0.5)],
      computedIf requiresGrad gradMode, x.2⟩

/-- `SE2.randn` (se2.py L67-88). -/
noncomputable def SE2.randn (S : Source) (size : List ℕ) (requiresGrad gradMode : Bool) (st : S.State) :
    Except Err (Draw S SE2) :=
  if size.length ≠ 1 then .error .size
  else
    let x := S.randn (size.headD 0 * 3) st
    if requiresGrad && gradMode then .error .inPlaceLeaf
    else .ok ⟨(List.range (size.headD 0)).map fun i =>
        se2OfXYTheta ![row3 x.1 i 0, row3 x.1 i 1, row3 x.1 i 2 * Real.pi],
      computedIf requiresGrad gradMode, x.2⟩

/-- `Vector.rand` (theseus/geometry/vector.py L45-63): the size must be two numbers. -/
def Vector.rand (S : Source) (size : List ℕ) (requiresGrad : Bool) (st : S.State) :
    Except Err (Draw S (List ℝ)) :=
  match size with
  | [n, d] =>
    let x := S.rand (n * d) st
    .ok ⟨(List.range n).map fun i => (List.range d).map fun j => x.1 (i * d + j), leafIf requiresGrad, x.2⟩
  | _ => .error .size

/-- `Point2.rand` (`d = 2`) and `Point3.rand` (`d = 3`) (theseus/geometry/point_types.py L41-60, L143-162). -/
def Point.rand (S : Source) (d : ℕ) (size : List ℕ) (requiresGrad : Bool) (st : S.State) :
    Except Err (Draw S (List ℝ)) :=
  match size with
  | [n] =>
    let x := S.rand (n * d) st
    .ok ⟨(List.range n).map fun i => (List.range d).map fun j => x.1 (i * d + j), leafIf requiresGrad, x.2⟩
  | _ => .error .size

/-! ### `_rand_fill_` -/

/-- The four group classes, for the class test of `_rand_fill_`. -/
inductive GroupClass
  | so2
  | se2
  | so3
  | se3
  deriving DecidableEq

/-- The class test of `_rand_fill_` (theseus/utils/utils.py L139; `SO3` is listed twice). -/
def usesRand (c : GroupClass) : Bool :=
  [GroupClass.se2, GroupClass.so3, GroupClass.se3, GroupClass.so3].contains c

/-- `_rand_fill_` (utils.py L138-144, called by `check_jacobians` L170 under `torch.no_grad`) on an `SO2` variable:
the tensor it is updated with, which `Variable.update` stores as it is. -/
noncomputable def randFillSO2 (S : Source) (batch : ℕ) (st : S.State) : Except Err (Draw S SO2) :=
  if usesRand .so2 then SO2.rand S [batch] false false st
  else
    let u := S.rand (batch * 2) st
    .ok ⟨(List.range batch).map fun i => ⟨u.1 (2 * i), u.1 (2 * i + 1)⟩, .none, u.2⟩

/-- `_rand_fill_` (utils.py L138-144) on an `SE2` variable. -/
noncomputable def randFillSE2 (S : Source) (batch : ℕ) (st : S.State) : Except Err (Draw S SE2) :=
  if usesRand .se2 then SE2.rand S [batch] false false st
  else
    let u := S.rand (batch * 4) st
    .ok ⟨(List.range batch).map fun i => ⟨u.1 (4 * i), u.1 (4 * i + 1), u.1 (4 * i + 2), u.1 (4 * i + 3)⟩,
      .none, u.2⟩

/-- `_rand_fill_` (utils.py L138-144) on an `SO3` variable. -/
noncomputable def randFillSO3 (S : Source) (checks : Bool) (tol : ℝ) (batch : ℕ) (st : S.State) :
    Except Err (Draw S M3) :=
  if usesRand .so3 then SO3.rand S checks tol [batch] false st
  else
    let u := S.rand (batch * 9) st
    .ok ⟨(List.range batch).map fun i => Matrix.of fun r c : Fin 3 => u.1 (9 * i + 3 * r.val + c.val), .none, u.2⟩

/-- `_rand_fill_` (utils.py L138-144) on an `SE3` variable. -/
noncomputable def randFillSE3 (S : Source) (checks : Bool) (tol : ℝ) (batch : ℕ) (st : S.State) :
    Except Err (Draw S SE3) :=
  if usesRand .se3 then SE3.rand S checks tol [batch] false st
  else
    let u := S.rand (batch * 12) st
    .ok ⟨(List.range batch).map fun i =>
        ⟨Matrix.of fun r c : Fin 3 => u.1 (12 * i + 4 * r.val + c.val),
          ![u.1 (12 * i + 3), u.1 (12 * i + 7), u.1 (12 * i + 11)]⟩, .none, u.2⟩

end Verif.Geometry.Random
