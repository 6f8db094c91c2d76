import Verif.Conv.Model
import Mathlib.Analysis.InnerProductSpace.PiL2
import Mathlib.Analysis.Calculus.FDeriv.Basic
/-!
# Specification of local convergence
-/
namespace Verif.Conv
open Matrix
variable {p d : Nat}

/-- Euclidean norm. -/
noncomputable def nrm {k : Nat} (v : Fin k → ℝ) : ℝ := Real.sqrt (∑ i, v i ^ 2)

/-- In a ball about `xs`, `J` is the derivative of `r`, and it is Lipschitz continuous with constant `L`
(in the operator norm of the Euclidean norms). -/
structure Smooth (pr : Prob p d) (xs : Fin d → ℝ) (L ρ : ℝ) : Prop where
  deriv : ∀ x, nrm (x - xs) < ρ → HasFDerivAt pr.r (Matrix.mulVecLin (pr.J x)).toContinuousLinearMap x
  lip : ∀ x y, nrm (x - xs) < ρ → nrm (y - xs) < ρ → ∀ v, nrm ((pr.J x - pr.J y) *ᵥ v) ≤ L * nrm (x - y) * nrm v

/-- `xs` is a stationary point of the error metric: the gradient `Jᵀ r` vanishes. -/
def Stationary (pr : Prob p d) (xs : Fin d → ℝ) : Prop := (pr.J xs)ᵀ *ᵥ pr.r xs = 0

/-- The Jacobian at `xs` does not shrink any vector by more than the factor `m`. -/
def Lower (pr : Prob p d) (xs : Fin d → ℝ) (m : ℝ) : Prop := ∀ v, m * nrm v ≤ nrm (pr.J xs *ᵥ v)

end Verif.Conv
