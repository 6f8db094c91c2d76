import Verif.Geometry.Lie
import Mathlib.Analysis.Calculus.Deriv.Basic

/-!
# What "the Jacobian is the derivative" means

Nothing here refers to the code of any particular group.  `M` embeds the group in the matrices
(`to_matrix`), `hat` embeds the tangent space; a curve `x` through a group element has tangent
vector `ξ` when its matrix has derivative `M(x 0) * hat ξ` (the right-trivialised derivative,
theseus's convention).  The curves `t ↦ retract g (t δ)` are exactly the perturbations used by
the optimizer.
-/

namespace Verif.Geometry
open Matrix

/-- Entrywise derivative of a matrix-valued function at `0`. -/
def MatDeriv {m k : ℕ} (F : ℝ → Matrix (Fin m) (Fin k) ℝ) (F' : Matrix (Fin m) (Fin k) ℝ) : Prop :=
  ∀ i j, HasDerivAt (fun t => F t i j) (F' i j) 0

/-- Componentwise derivative of a vector-valued function at `0`. -/
def VecDeriv {m : ℕ} (F : ℝ → Fin m → ℝ) (F' : Fin m → ℝ) : Prop :=
  ∀ i, HasDerivAt (fun t => F t i) (F' i) 0

/-- An embedding of a group and of its tangent space in matrices, and which representations are
legal (e.g. unit cosine/sine pairs). -/
structure Embedding (n m : ℕ) (G : Type) where
  valid : G → Prop
  toMatrix : G → Matrix (Fin m) (Fin m) ℝ
  hat : (Fin n → ℝ) → Matrix (Fin m) (Fin m) ℝ

variable {n m k : ℕ} {G : Type}

/-- The curve `x` of group elements has tangent vector `ξ` at `t = 0`. -/
def Embedding.Tangent (E : Embedding n m G) (x : ℝ → G) (ξ : Fin n → ℝ) : Prop :=
  (∀ t, E.valid (x t)) ∧ MatDeriv (fun t => E.toMatrix (x t)) (E.toMatrix (x 0) * E.hat ξ)

/-- `J` is the Jacobian at `g` of a vector-valued function `f` on the group: along every smooth
curve through `g` with tangent `ξ`, `f` has derivative `J ξ`. -/
def Embedding.HasJac (E : Embedding n m G) (f : G → Fin k → ℝ) (g : G)
    (J : Matrix (Fin k) (Fin n) ℝ) : Prop :=
  ∀ (x : ℝ → G) (ξ : Fin n → ℝ), x 0 = g → E.Tangent x ξ →
    VecDeriv (fun t => f (x t)) (J *ᵥ ξ)

/-- `J` is the Jacobian at `g` of a group-valued function `f` on the group. -/
def Embedding.HasGroupJac (E : Embedding n m G) (f : G → G) (g : G)
    (J : Matrix (Fin n) (Fin n) ℝ) : Prop :=
  ∀ (x : ℝ → G) (ξ : Fin n → ℝ), x 0 = g → E.Tangent x ξ →
    E.Tangent (fun t => f (x t)) (J *ᵥ ξ)

/-- `J` is the Jacobian at `v` of a group-valued function of a tangent vector (`exp_map`). -/
def Embedding.HasTangentJac (E : Embedding n m G) (f : (Fin n → ℝ) → G) (v : Fin n → ℝ)
    (J : Matrix (Fin n) (Fin n) ℝ) : Prop :=
  ∀ δ : Fin n → ℝ, E.Tangent (fun t => f (v + t • δ)) (J *ᵥ δ)

/-- The group operations are those of a matrix group: `compose` and `inverse` are the matrix
product and inverse, `adjoint` is conjugation of the tangent space, and `exp` leaves the identity
in the direction of its argument. -/
structure Embedding.Lawful (E : Embedding n m G) (L : Ops n G) : Prop where
  toMatrix_inj : ∀ a b, E.toMatrix a = E.toMatrix b → a = b
  hat_add : ∀ u v, E.hat (u + v) = E.hat u + E.hat v
  hat_smul : ∀ (c : ℝ) v, E.hat (c • v) = c • E.hat v
  compose_valid : ∀ a b, E.valid a → E.valid b → E.valid (L.compose a b)
  inverse_valid : ∀ a, E.valid a → E.valid (L.inverse a)
  exp_valid : ∀ v, E.valid (L.exp v)
  toMatrix_compose : ∀ a b, E.toMatrix (L.compose a b) = E.toMatrix a * E.toMatrix b
  toMatrix_inverse : ∀ a, E.valid a → E.toMatrix (L.inverse a) * E.toMatrix a = 1
  adjoint_hat : ∀ a v, E.valid a →
    E.toMatrix a * E.hat v = E.hat (L.adjoint a *ᵥ v) * E.toMatrix a
  exp_zero : E.toMatrix (L.exp 0) = 1
  exp_deriv : ∀ v, MatDeriv (fun t => E.toMatrix (L.exp (t • v))) (E.hat v)

end Verif.Geometry
