import Verif.Geometry.Planar
import Verif.Geometry.Spatial
import Mathlib.LinearAlgebra.Matrix.NonsingularInverse

/-!
# Model of `theseus/optimizer/manifold_gaussian.py`: `local_gaussian` and `retract_gaussian`

One batch element, real arithmetic.  The thresholds of the small-angle branches are parameters.
-/

namespace Verif.Gauss
open Verif.Geometry Matrix

/-- The Lie group classes (theseus/geometry: vector.py L16, point_types.py L31 and L133, so2.py L19,
se2.py L21, so3.py L20, se3.py L20); a `Vector` also has its dimension. -/
inductive Kind where
  | vector (n : ℕ)
  | point2
  | point3
  | so2
  | se2
  | so3
  | se3
deriving DecidableEq

/-- `__class__`: the dimension of a `Vector` is not part of it (vector.py L16). -/
inductive Cls where
  | vector | point2 | point3 | so2 | se2 | so3 | se3
deriving DecidableEq

/-- `v.__class__` (used in manifold_gaussian.py L127). -/
def Kind.cls : Kind → Cls
  | vector _ => .vector
  | point2 => .point2
  | point3 => .point3
  | so2 => .so2
  | se2 => .se2
  | so3 => .so3
  | se3 => .se3

/-- `dof()` (vector.py L42-43, so2.py L102-103, se2.py L113-114, so3.py L89-90, se3.py L86-87). -/
def Kind.dof : Kind → ℕ
  | vector n => n
  | point2 => 2
  | point3 => 3
  | so2 => 1
  | se2 => 3
  | so3 => 3
  | se3 => 6

/-- One row of the variable's tensor (vector.py L31, so2.py L95-97, se2.py L109-111, so3.py L85-87,
se3.py L82-84). -/
def Kind.Elem : Kind → Type
  | vector n => Fin n → ℝ
  | point2 => Fin 2 → ℝ
  | point3 => Fin 3 → ℝ
  | so2 => SO2
  | se2 => SE2
  | so3 => M3
  | se3 => SE3

/-- The thresholds: `near_zero`, `d_near_zero`, `near_pi` of each class
(theseus/global_params.py L48-62, torchlie/torchlie/global_params.py). -/
structure Eps where
  near : ℝ
  dnear : ℝ
  npi : ℝ

/-- The class's group operations (see `Verif/Geometry`). -/
noncomputable def Kind.ops (e : Eps) : (k : Kind) → Ops k.dof k.Elem
  | vector n => Vec.ops n
  | point2 => Vec.ops 2
  | point3 => Vec.ops 3
  | so2 => SO2.ops
  | se2 => SE2.ops e.near e.dnear
  | so3 => SO3.ops e.near e.dnear e.npi
  | se3 => SE3.ops e.near e.dnear e.npi

/-- The Jacobian that `exp_map` appends (vector.py L231-241, so2.py L173-183, se2.py L273-298,
so3.py L158-166 and se3.py L162-170 with torchlie's `_jexp_impl`). -/
noncomputable def Kind.jexp (e : Eps) : (k : Kind) → (Fin k.dof → ℝ) → Matrix (Fin k.dof) (Fin k.dof) ℝ
  | vector _ => fun _ => 1
  | point2 => fun _ => 1
  | point3 => fun _ => 1
  | so2 => fun _ => !![1]
  | se2 => SE2.dexp e.near
  | so3 => SO3.jexp e.near
  | se3 => SE3.jexp e.near

/-- A variable: its class and its value (core/variable.py L15-26). -/
structure Var where
  kind : Kind
  elem : kind.Elem

/-- A square matrix with its size: the `precision` tensor (manifold_gaussian.py L36-41, L81). -/
structure Prec where
  size : ℕ
  val : Matrix (Fin size) (Fin size) ℝ

/-- A `ManifoldGaussian` (manifold_gaussian.py L14-43). -/
structure Gaussian where
  mean : List Var
  prec : Prec

/-- The exceptions (manifold_gaussian.py L82-101, L117-132). -/
inductive Err where
  | notOneMean
  | classMismatch
  | shape
  | notSymmetric

/-- `torch.allclose(p, p.transpose(1, 2))` with the default tolerances
(manifold_gaussian.py L100). -/
def AllcloseSymm {n : ℕ} (p : Matrix (Fin n) (Fin n) ℝ) : Prop :=
  ∀ i j, |p i j - p j i| ≤ 1e-8 + 1e-5 * |p j i|

/-- The constructor with a precision (manifold_gaussian.py L17-43), which calls `update` with its
own means (L71-103); the dtype and device checks are in `Verif/Gauss/State.lean`. -/
noncomputable def construct (mean : List Var) (prec : Prec) : Except Err Gaussian :=
  if prec.size ≠ (mean.map fun v => v.kind.dof).sum then .error .shape
  else
    open Classical in
    if AllcloseSymm prec.val then .ok ⟨mean, prec⟩ else .error .notSymmetric

/-- What `local_gaussian` returns (manifold_gaussian.py L142-146): a vector and a matrix of the
variable's size. -/
structure Tangent (n : ℕ) where
  vec : Fin n → ℝ
  mat : Matrix (Fin n) (Fin n) ℝ

/-- The arithmetic of `local_gaussian` (manifold_gaussian.py L134-146). -/
noncomputable def localOf (e : Eps) (k : Kind) (v m : k.Elem) (P : Matrix (Fin k.dof) (Fin k.dof) ℝ)
    (returnMean : Bool) : Tangent k.dof :=
  let meanTp := (k.ops e).local v m
  let jac := k.jexp e meanTp
  let lamTp := (jacᵀ * P) * jac
  if returnMean then ⟨meanTp, lamTp⟩ else ⟨lamTp *ᵥ meanTp, lamTp⟩

/-- `local_gaussian` (manifold_gaussian.py L111-146).  Vectors of the same class and different
sizes, and a precision of the wrong size, are shape errors of torch. -/
noncomputable def localGaussian (e : Eps) (v : Var) (g : Gaussian) (returnMean : Bool := true) :
    Except Err (Tangent v.kind.dof) :=
  match g.mean with
  | [m] =>
    if m.kind.cls ≠ v.kind.cls then .error .classMismatch
    else if h : m.kind = v.kind then
      if hs : g.prec.size = v.kind.dof then
        .ok (localOf e v.kind v.elem (h ▸ m.elem) (hs ▸ g.prec.val) returnMean)
      else .error .shape
    else .error .shape
  | _ => .error .notOneMean

/-- `retract_gaussian` (manifold_gaussian.py L153-166). -/
noncomputable def retractGaussian (e : Eps) (v : Var) (meanTp : Fin v.kind.dof → ℝ)
    (precTp : Matrix (Fin v.kind.dof) (Fin v.kind.dof) ℝ) : Except Err Gaussian :=
  let mean := (v.kind.ops e).retract v.elem meanTp
  let invJac := (v.kind.jexp e meanTp)⁻¹
  let precision := (invJacᵀ * precTp) * invJac
  construct [⟨v.kind, mean⟩] ⟨v.kind.dof, precision⟩

end Verif.Gauss
