import Verif.Geometry.Planar
import Mathlib.Analysis.SpecialFunctions.Pow.Real
import Mathlib.LinearAlgebra.Matrix.PosDef

/-!
# Model of `theseus/embodied/motionmodel/double_integrator.py` and `misc.py`

`DoubleIntegrator`, `GPMotionModel` with `GPCostWeight`, `HingeCost` and `Nonholonomic`.  One batch
element at a time where the operations are independent; the batch shapes of `GPCostWeight` and the
checks of the `HingeCost` constructor are modelled on the whole batch.  Real arithmetic.
-/

namespace Verif.Embodied
open Verif.Geometry Matrix

/-! ## `DoubleIntegrator` -/
section DI
variable {n : ℕ} {G : Type} (L : Ops n G)

/-- Rows `:dof` and `dof:` of a `2*dof x dof` Jacobian (double_integrator.py L68-79). -/
def rows (A B : Matrix (Fin n) (Fin n) ℝ) : Matrix (Fin (n + n)) (Fin n) ℝ :=
  Matrix.of fun i j => Fin.addCases (fun i => A i j) (fun i => B i j) i

/-- `DoubleIntegrator.error` (double_integrator.py L48-61). -/
def diError (pose1 : G) (vel1 : Fin n → ℝ) (pose2 : G) (vel2 : Fin n → ℝ) (dt : ℝ) :
    Fin (n + n) → ℝ :=
  Fin.append (L.local pose1 pose2 - dt • vel1) (vel2 - vel1)

/-- `DoubleIntegrator.jacobians` (double_integrator.py L63-81), in the order pose1, vel1, pose2,
vel2. -/
def diJac (pose1 pose2 : G) (dt : ℝ) :
    Matrix (Fin (n + n)) (Fin n) ℝ × Matrix (Fin (n + n)) (Fin n) ℝ ×
      Matrix (Fin (n + n)) (Fin n) ℝ × Matrix (Fin (n + n)) (Fin n) ℝ :=
  let Jlocal := L.localJac pose1 pose2
  (rows Jlocal.1 0, rows (-dt • 1) (-1), rows Jlocal.2 0, rows 0 1)

end DI

/-! ## `GPCostWeight` -/
section GP
variable {n : ℕ}

/-- What `torch.linalg.cholesky` reads: the lower triangle, as a symmetric matrix
(double_integrator.py L119, L151). -/
def lowerSymm (M : Matrix (Fin n) (Fin n) ℝ) : Matrix (Fin n) (Fin n) ℝ :=
  Matrix.of fun i j => if j ≤ i then M i j else M j i

/-- `C` is a Cholesky factor of `S`: lower triangular, positive diagonal, `C Cᵀ = S`
(`torch.linalg.cholesky`, double_integrator.py L119, L151). -/
structure IsCholesky (S C : Matrix (Fin n) (Fin n) ℝ) : Prop where
  lower : ∀ i j, i < j → C i j = 0
  pos : ∀ i, 0 < C i i
  eq : C * Cᵀ = S

/-- `torch.linalg.cholesky` for one matrix (double_integrator.py L119, L151); `none` is the
`RuntimeError`. -/
noncomputable def cholesky (M : Matrix (Fin n) (Fin n) ℝ) : Option (Matrix (Fin n) (Fin n) ℝ) :=
  open Classical in
  if h : ∃ C, IsCholesky (lowerSymm M) C then some h.choose else none

/-- A `2*dof x 2*dof` matrix filled by blocks (double_integrator.py L138-149). -/
def fill (A B C D : Matrix (Fin n) (Fin n) ℝ) : Matrix (Fin (n + n)) (Fin (n + n)) ℝ :=
  Matrix.of fun i j =>
    Fin.addCases (fun i => Fin.addCases (fun j => A i j) (fun j => B i j) j)
      (fun i => Fin.addCases (fun j => C i j) (fun j => D i j) j) i

/-- `cost_weight` before the factorization (double_integrator.py L142-149). -/
noncomputable def gpInfo (dt : ℝ) (Q : Matrix (Fin n) (Fin n) ℝ) :
    Matrix (Fin (n + n)) (Fin (n + n)) ℝ :=
  let Q11 := (12 * dt ^ (-3 : ℝ)) • Q
  let Q12 := (-6 * dt ^ (-2 : ℝ)) • Q
  let Q22 := (4 * dt⁻¹) • Q
  fill Q11 Q12 Q12 Q22

/-- `_compute_cost_weight` for one batch element (double_integrator.py L142-154). -/
noncomputable def gpWeight (dt : ℝ) (Q : Matrix (Fin n) (Fin n) ℝ) :
    Option (Matrix (Fin (n + n)) (Fin (n + n)) ℝ) :=
  (cholesky (gpInfo dt Q)ᵀ).map Matrix.transpose

/-- A product of two tensors with a batch dimension, with broadcasting (double_integrator.py
L143-145); `none` is the `RuntimeError` of torch. -/
def bmul {α β γ : Type} (f : α → β → γ) : List α → List β → Option (List γ)
  | [a], bs => some (bs.map (f a))
  | as, [b] => some (as.map (f · b))
  | as, bs => if as.length = bs.length then some (List.zipWith f as bs) else none

/-- `_compute_cost_weight` on a batch (double_integrator.py L132-154): the result is allocated with
the batch size of `Qc_inv`, and a slice of another batch size can be assigned to it only if it has
one element. -/
noncomputable def gpWeights (dt : List ℝ) (Q : List (Matrix (Fin n) (Fin n) ℝ)) :
    Option (List (Matrix (Fin (n + n)) (Fin (n + n)) ℝ)) :=
  match bmul gpInfo dt Q with
  | none => none
  | some Ms =>
    if Ms.length = Q.length then Ms.mapM fun M => (cholesky Mᵀ).map Matrix.transpose
    else match Ms with
      | [M] => (List.replicate Q.length M).mapM fun M => (cholesky Mᵀ).map Matrix.transpose
      | _ => none

/-- The value checks of the constructor (double_integrator.py L107-121); `false` is a `ValueError`.
The shape checks hold by construction of the arguments. -/
noncomputable def gpAccepts (dt : List ℝ) (Q : List (Matrix (Fin n) (Fin n) ℝ)) : Bool :=
  open Classical in
  decide (∀ t ∈ dt, 0 < t) && Q.all fun q => (cholesky q).isSome

/-- `weight_error` (double_integrator.py L156-158) and `weight_jacobians_and_error` (L160-173) for
one batch element. -/
def gpWeightError (W : Matrix (Fin (n + n)) (Fin (n + n)) ℝ) (e : Fin (n + n) → ℝ) :
    Fin (n + n) → ℝ := W *ᵥ e
@[inherit_doc gpWeightError] def gpWeightJac {k : ℕ} (W : Matrix (Fin (n + n)) (Fin (n + n)) ℝ)
    (J : Matrix (Fin (n + n)) (Fin k) ℝ) : Matrix (Fin (n + n)) (Fin k) ℝ := W * J

end GP

/-! ## `HingeCost` -/
section Hinge
variable {n : ℕ}

/-- The value checks of the constructor (motionmodel/misc.py L39-51) for limits and thresholds of
batch size 1 (a larger batch is checked as a whole: all the limits, and the maximum of all the
thresholds); `false` is a `ValueError`. -/
noncomputable def hingeAccepts (down up thr : Fin n → ℝ) : Bool :=
  open Classical in
  decide (∀ i, down i ≤ up i) && !decide (∀ i, thr i < 0)

/-- `HingeCost._compute_error` (motionmodel/misc.py L64-74), the error. -/
noncomputable def hingeError (down up thr v : Fin n → ℝ) : Fin n → ℝ := fun i =>
  let lo := down i + thr i
  let hi := up i - thr i
  let e := if v i < lo then lo - v i else 0
  if v i > hi then v i - hi else e

/-- `HingeCost.jacobians` (motionmodel/misc.py L79-86). -/
noncomputable def hingeJac (down up thr v : Fin n → ℝ) : Matrix (Fin n) (Fin n) ℝ :=
  Matrix.of fun i j =>
    if i = j then
      if v i > up i - thr i then 1 else if v i < down i + thr i then -1 else 0
    else 0

end Hinge

/-! ## `Nonholonomic` -/

/-- `_compute_error_vector_impl` (motionmodel/misc.py L133-139). -/
noncomputable def nhError (pose vel : Fin 3 → ℝ) : ℝ :=
  vel 1 * Real.cos (pose 2) - vel 0 * Real.sin (pose 2)

/-- `_compute_jacobians_vector` (motionmodel/misc.py L161-172). -/
noncomputable def nhJac (pose vel : Fin 3 → ℝ) :
    Matrix (Fin 1) (Fin 3) ℝ × Matrix (Fin 1) (Fin 3) ℝ :=
  (!![0, 0, -(vel 1 * Real.sin (pose 2) + vel 0 * Real.cos (pose 2))],
   !![-Real.sin (pose 2), Real.cos (pose 2), 0])

/-- `_compute_error_se2_impl` and `_compute_jacobians_se2` (motionmodel/misc.py L128-131,
L150-159). -/
def nhErrorSE2 (_pose : SE2) (vel : Fin 3 → ℝ) : ℝ := vel 1
@[inherit_doc nhErrorSE2] def nhJacSE2 : Matrix (Fin 1) (Fin 3) ℝ × Matrix (Fin 1) (Fin 3) ℝ :=
  (!![0, 0, 0], !![0, 1, 0])

end Verif.Embodied
