import Verif.Gauss.Model
import Verif.Autodiff.Model

/-!
# Model of `LieGroupTensor` (`theseus/geometry/utils.py` L59-94)

A `LieGroupTensor` is the parameter of a `torch.optim` optimizer: the in-place operations with which
the optimizer changes its parameters (`add_`, `addcdiv_`, `addcmul_`) become retractions while
`enable_lie_tangent` is active.  A tensor is a family of `B` rows of real numbers (`torch.float`
rounding, dtypes and devices are not modelled).  The checks of shapes in `project` hold by typing:
`lie_group.py` L120 asks that the update has the shape of the parameter.  The check of the
constructor `group_cls(tensor=...)` is the subject of C62; it leaves legal values as they are.
-/

namespace Verif.Lie
open Verif.Geometry Verif.Gauss Matrix

/-- Number of entries of one row of the tensor of the class (vector.py L31, so2.py L95-97,
se2.py L109-111, so3.py L85-87, se3.py L82-84), the entries of a matrix row by row. -/
def width : Kind → ℕ
  | .vector n => n
  | .point2 => 2
  | .point3 => 3
  | .so2 => 2
  | .se2 => 4
  | .so3 => 9
  | .se3 => 12

/-- One row of the tensor (utils.py L64-65: the data of the tensor of the group). -/
abbrev Row (k : Kind) : Type := Fin (width k) → ℝ

/-- The group element in a row: `self.group_cls(tensor=self.data)` (utils.py L72). -/
def ofRow : (k : Kind) → Row k → k.Elem
  | .vector _ => fun r => r
  | .point2 => fun r => r
  | .point3 => fun r => r
  | .so2 => fun r => (⟨r (0 : Fin 2), r (1 : Fin 2)⟩ : SO2)
  | .se2 => fun r => (⟨r (0 : Fin 4), r (1 : Fin 4), r (2 : Fin 4), r (3 : Fin 4)⟩ : SE2)
  | .so3 => fun r => Autodiff.mat33 r
  | .se3 => fun r => Autodiff.mat34 r

/-- `.tensor` of a group element (utils.py L74). -/
def toRow : (k : Kind) → k.Elem → Row k
  | .vector _ => fun g => g
  | .point2 => fun g => g
  | .point3 => fun g => g
  | .so2 => fun g => ![SO2.c g, SO2.s g]
  | .se2 => fun g => ![SE2.x g, SE2.y g, SE2.c g, SE2.s g]
  | .so3 => fun (R : M3) => ![R 0 0, R 0 1, R 0 2, R 1 0, R 1 1, R 1 2, R 2 0, R 2 1, R 2 2]
  | .se3 => fun (g : SE3) => ![g.R 0 0, g.R 0 1, g.R 0 2, g.t 0, g.R 1 0, g.R 1 1, g.R 1 2, g.t 1,
      g.R 2 0, g.R 2 1, g.R 2 2, g.t 2]

/-- The dense branch of `SO3._project_impl` (so3.py L109-114). -/
def so3Project (R G : M3) : Fin 3 → ℝ :=
  let temp : M3 := Matrix.of fun i k => ∑ j, G j k * R j i
  ![temp 2 1 - temp 1 2, temp 0 2 - temp 2 0, temp 1 0 - temp 0 1]

/-- The dense branch of `SE3._project_impl` (se3.py L106-116); the 3x4 tensors are `[R | t]`. -/
def se3Project (g G : SE3) : Fin 6 → ℝ :=
  let temp : M3 := Matrix.of fun i k => ∑ j, G.R j k * g.R j i
  let last : Fin 3 → ℝ := fun i => ∑ j, G.t j * g.R j i
  ![last 0, last 1, last 2, temp 2 1 - temp 1 2, temp 0 2 - temp 2 0, temp 1 0 - temp 0 1]

/-- `group.project(update)` (utils.py L73, manifold.py L110-113 with `is_sparse=False`): vector.py
L199-203, so2.py L119-129, se2.py L341-365, `so3Project`, `se3Project`. -/
def project : (k : Kind) → k.Elem → Row k → (Fin k.dof → ℝ)
  | .vector _ => fun _ u => u
  | .point2 => fun _ u => u
  | .point3 => fun _ u => u
  | .so2 => fun g u => SO2.project g u
  | .se2 => fun g u => SE2.project g u
  | .so3 => fun R u => so3Project R (Autodiff.mat33 u)
  | .se3 => fun g u => se3Project g (Autodiff.mat34 u)

/-- A tensor with `B` rows. -/
abbrev Tens (k : Kind) (B : ℕ) : Type := Fin B → Row k

/-- How a call can fail: Python's recursion limit, or (no exception in torch) entries of the result
that are not finite numbers. -/
inductive Err where
  | recursion
  | notFinite
deriving DecidableEq

/-- The in-place operations an optimizer calls (utils.py L70, L80, L88). -/
inductive Op (k : Kind) (B : ℕ) where
  | add (update : Tens k B) (alpha : ℝ)
  | addcdiv (tensor1 tensor2 : Tens k B) (value : ℝ)
  | addcmul (tensor1 tensor2 : Tens k B) (value : ℝ)

variable (e : Eps) {k : Kind} {B : ℕ}

/-- `LieGroupTensor.add_` (utils.py L70-78) with a Python stack of `depth` frames left: in the
tangent context project, scale and retract; otherwise `self.add_(...)`, the method itself. -/
noncomputable def add (tangent : Bool) (x u : Tens k B) (alpha : ℝ) : ℕ → Except Err (Tens k B)
  | 0 => .error .recursion
  | depth + 1 =>
    if tangent then
      .ok fun b =>
        let group := ofRow k (x b)
        let grad := project k group (u b)
        toRow k ((k.ops e).retract group (alpha • grad))
    else add tangent x u alpha depth

/-- `LieGroupTensor.addcdiv_` (utils.py L80-86); outside the context `torch.Tensor.addcdiv_`.
A zero denominator gives an infinite entry, or `nan`. -/
noncomputable def addcdiv (tangent : Bool) (x t1 t2 : Tens k B) (value : ℝ) :
    ℕ → Except Err (Tens k B)
  | 0 => .error .recursion
  | depth + 1 =>
    open Classical in
    if ∃ b i, t2 b i = 0 then .error .notFinite
    else if tangent then add e tangent x (fun b i => value * t1 b i / t2 b i) 1 depth
    else .ok fun b i => x b i + value * (t1 b i / t2 b i)

/-- `LieGroupTensor.addcmul_` (utils.py L88-94); outside the context `torch.Tensor.addcmul_`. -/
noncomputable def addcmul (tangent : Bool) (x t1 t2 : Tens k B) (value : ℝ) :
    ℕ → Except Err (Tens k B)
  | 0 => .error .recursion
  | depth + 1 =>
    if tangent then add e tangent x (fun b i => value * t1 b i * t2 b i) 1 depth
    else .ok fun b i => x b i + value * (t1 b i * t2 b i)

/-- One call by the optimizer (utils.py L70-94). -/
noncomputable def apply (depth : ℕ) (tangent : Bool) (x : Tens k B) : Op k B → Except Err (Tens k B)
  | .add u a => add e tangent x u a depth
  | .addcdiv t1 t2 v => addcdiv e tangent x t1 t2 v depth
  | .addcmul t1 t2 v => addcmul e tangent x t1 t2 v depth

/-- A run of an optimizer: the sequence of its calls (utils.py L70-94). -/
noncomputable def run (depth : ℕ) (tangent : Bool) : Tens k B → List (Op k B) →
    Except Err (Tens k B)
  | x, [] => .ok x
  | x, o :: os =>
    match apply e depth tangent x o with
    | .error err => .error err
    | .ok y => run depth tangent y os

end Verif.Lie
