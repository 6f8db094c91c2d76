import Verif.Geometry.Lie
import Verif.Autodiff.Model
import Mathlib.Data.Matrix.Block
import Mathlib.Analysis.SpecialFunctions.Pow.Real
import Mathlib.LinearAlgebra.Matrix.NonsingularInverse
/-!
# The gradients of modes `IMPLICIT` and `DLM` for variables in Lie groups (C80, C81)

Sources: `/repo/theseus/optimizer/nonlinear/nonlinear_least_squares.py:114-178` (the last step of mode
`IMPLICIT`), `/repo/theseus/optimizer/dense_linearization.py:58-62` and `/repo/theseus/theseus_layer.py:164-363`.

One batch element is modelled, with any number of optimization variables of any group classes. The columns of the
Jacobian are numbered by variable and degree of freedom.
-/
namespace Verif.Layer
open Matrix Verif.Geometry Verif.Autodiff

variable {p a : ℕ} {n : Fin a → ℕ} {G : Fin a → Type} {Θ : Type}

/-- The columns of the Jacobian (`variable_ordering.py`): degree of freedom `k` of variable `i`. -/
abbrev Cols (n : Fin a → ℕ) := (i : Fin a) × Fin (n i)

/-- The errors of an objective with optimization variables in the groups `G i`, and their Jacobians as returned by the
cost functions. -/
structure GroupFamily (p : ℕ) (n : Fin a → ℕ) (G : Fin a → Type) (Θ : Type) where
  e : (∀ i, G i) → Θ → Fin p → ℝ
  J : (∀ i, G i) → Θ → Matrix (Fin p) (Cols n) ℝ

namespace GroupFamily

/-- Minus `Atb` (`dense_linearization.py:55, 62`). -/
def grad (F : GroupFamily p n G Θ) (x : ∀ i, G i) (θ : Θ) : Cols n → ℝ := (F.J x θ)ᵀ *ᵥ F.e x θ

/-- `AtA` (`dense_linearization.py:61`). -/
def hess (F : GroupFamily p n G Θ) (x : ∀ i, G i) (θ : Θ) : Matrix (Cols n) (Cols n) ℝ := (F.J x θ)ᵀ * F.J x θ

/-- The error metric (`objective.py:34-38`). -/
noncomputable def metric (F : GroupFamily p n G Θ) (x : ∀ i, G i) (θ : Θ) : ℝ := (∑ r, F.e x θ r ^ 2) / 2

end GroupFamily

/-- The slice of a step that belongs to variable `i` (`objective.py:858-914`). -/
def part (v : Cols n → ℝ) (i : Fin a) : Fin (n i) → ℝ := fun k => v ⟨i, k⟩

/-- All variables retracted by a step (`objective.py:858-914`). -/
def retractAll (L : ∀ i, Ops (n i) (G i)) (x : ∀ i, G i) (v : Cols n → ℝ) : ∀ i, G i :=
  fun i => (L i).retract (x i) (part v i)

/-- The step with autograd of mode `IMPLICIT` (`nonlinear_least_squares.py:117-119, 131, 162`) as a function of the
parameters: the matrix is detached, with its value at `θ0`. -/
noncomputable def GroupFamily.implicitStep (L : ∀ i, Ops (n i) (G i)) (F : GroupFamily p n G Θ) (x0 : ∀ i, G i)
    (θ0 θ : Θ) : ∀ i, G i :=
  retractAll L x0 ((F.hess x0 θ0)⁻¹ *ᵥ (-F.grad x0 θ))

/-- A Gauss–Newton step of step size 1 with autograd as in modes `UNROLL` and `TRUNCATED`: the matrix depends on the
parameters as well (`nonlinear_least_squares.py:117-119, 136`). -/
noncomputable def GroupFamily.truncatedStep (L : ∀ i, Ops (n i) (G i)) (F : GroupFamily p n G Θ) (x0 : ∀ i, G i) (θ : Θ) :
    ∀ i, G i :=
  retractAll L x0 ((F.hess x0 θ)⁻¹ *ᵥ (-F.grad x0 θ))

/-! ### Mode `DLM` -/

section
variable {cls : Fin a → Cls}

/-- `_DLMPerturbation.error` of all variables (`theseus_layer.py:305-313`), with `τ` the entries of their tensors and `g`
the incoming gradients. -/
noncomputable def perturbErr (τ g : ∀ i, Fin (cls i).d → ℝ) (ε : ℝ) : (i : Fin a) × Fin (cls i).d → ℝ :=
  fun q => √2 * (ε * τ q.1 q.2 - 1 / 2 * g q.1 q.2)

/-- `_DLMPerturbation.jacobians` (`theseus_layer.py:315-324`): `project` of `epsilon * sqrt(2) * eye`, one block for each
variable. -/
noncomputable def perturbJac (τ : ∀ i, Fin (cls i).d → ℝ) (ε : ℝ) :
    Matrix ((i : Fin a) × Fin (cls i).d) (Cols fun i => (cls i).dof) ℝ :=
  Matrix.blockDiagonal' fun i => Matrix.of fun q =>
    (cls i).proj (τ i) fun q' => ε * (√2 * (1 : Matrix (Fin (cls i).d) (Fin (cls i).d) ℝ) q q')

/-- The Gauss–Newton step of the backward pass (`theseus_layer.py:258-265, 339-363`): the original cost functions and the
perturbations. -/
noncomputable def GroupFamily.dlmDelta (F : GroupFamily p (fun i => (cls i).dof) G Θ)
    (tensor : ∀ i, G i → Fin (cls i).d → ℝ) (x : ∀ i, G i) (θ : Θ) (ε : ℝ) (g : ∀ i, Fin (cls i).d → ℝ) :
    Cols (fun i => (cls i).dof) → ℝ :=
  let P := perturbJac (fun i => tensor i (x i)) ε
  (F.hess x θ + Pᵀ * P)⁻¹ *ᵥ (-(F.grad x θ + Pᵀ *ᵥ perturbErr (fun i => tensor i (x i)) g ε))

/-- The point at which the perturbed error is evaluated (`theseus_layer.py:262-264`). -/
noncomputable def GroupFamily.dlmPoint (L : ∀ i, Ops (cls i).dof (G i)) (F : GroupFamily p (fun i => (cls i).dof) G Θ)
    (tensor : ∀ i, G i → Fin (cls i).d → ℝ) (x : ∀ i, G i) (θ : Θ) (ε : ℝ) (g : ∀ i, Fin (cls i).d → ℝ) : ∀ i, G i :=
  retractAll L x (F.dlmDelta tensor x θ ε g)

/-- The error metric of the backward objective. -/
noncomputable def GroupFamily.bwdMetric (F : GroupFamily p (fun i => (cls i).dof) G Θ)
    (tensor : ∀ i, G i → Fin (cls i).d → ℝ) (ε : ℝ) (g : ∀ i, Fin (cls i).d → ℝ) (x : ∀ i, G i) (θ : Θ) : ℝ :=
  (∑ r, F.e x θ r ^ 2 + ∑ q, perturbErr (fun i => tensor i (x i)) g ε q ^ 2) / 2

/-- The gradient returned by the backward pass (`theseus_layer.py:214-221, 267-279`), along a curve `c` of parameters:
`(grad_sol - grad_perturbed) / epsilon`. -/
noncomputable def GroupFamily.dlmGrad (L : ∀ i, Ops (cls i).dof (G i)) (F : GroupFamily p (fun i => (cls i).dof) G Θ)
    (tensor : ∀ i, G i → Fin (cls i).d → ℝ) (x : ∀ i, G i) (c : ℝ → Θ) (ε : ℝ) (g : ∀ i, Fin (cls i).d → ℝ) : ℝ :=
  (deriv (fun t => F.metric x (c t)) 0 -
    deriv (fun t => F.bwdMetric tensor ε g (F.dlmPoint L tensor x (c 0) ε g) (c t)) 0) / ε

end
end Verif.Layer
