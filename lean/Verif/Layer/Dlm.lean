import Verif.Layer.ImplicitProps
import Mathlib.Analysis.Calculus.ContDiff.Basic
import Mathlib.Analysis.Calculus.FDeriv.Symmetric
import Mathlib.Analysis.Calculus.ContDiff.Operations
/-!
# The gradient computed in mode `DLM` (C81)

Source: `/repo/theseus/theseus_layer.py:164-363`.

In mode `DLM` the forward pass runs without autograd and saves the derivative of the error metric with
respect to the parameters, at the solution. The backward pass adds, for every optimization variable, a cost
function `√2 (ε x - g / 2)` (with `g` the incoming gradient), does one Gauss–Newton step from the solution,
takes the derivative of the error metric with respect to the parameters there, and returns the difference
divided by `ε`.

One batch element is modelled, with vector variables (for which the projection of the Euclidean Jacobian is
the identity); `e x θ` is the stacked weighted error of the original objective and `J x θ` its Jacobian.
-/
namespace Verif.Layer
open Matrix Verif.Steps
open scoped Classical Topology
variable {p d n : Nat} {Θ : Type} [NormedAddCommGroup Θ] [NormedSpace ℝ Θ]

/-- `_DLMPerturbation.error` (`theseus_layer.py:305-313`). -/
noncomputable def dlmError (ε : ℝ) (g x : Fin d → ℝ) : Fin d → ℝ :=
  fun j => √2 * (ε * x j - 1 / 2 * g j)

/-- `_DLMPerturbation.jacobians` (`theseus_layer.py:315-324`). -/
noncomputable def dlmJacobian (d : Nat) (ε : ℝ) : Matrix (Fin d) (Fin d) ℝ :=
  ε • (√2 • (1 : Matrix (Fin d) (Fin d) ℝ))

/-- Linearization of the backward objective (`theseus_layer.py:339-363`): the original cost functions,
then the perturbation (unit weight). -/
noncomputable def Family.bwdLin (F : Family p d Θ) (x : Fin d → ℝ) (θ : Θ) (ε : ℝ) (g : Fin d → ℝ) :
    Lin ℝ (p + d) d where
  A := Matrix.of fun r j => Fin.addCases (fun r => F.J x θ r j) (fun r => dlmJacobian d ε r j) r
  b := fun r => -(Fin.addCases (fun r => F.e x θ r) (fun r => dlmError ε g x r) r)

/-- The error metric of the original objective (`objective.py:34-38`). -/
noncomputable def Family.metric (F : Family p d Θ) (x : Fin d → ℝ) (θ : Θ) : ℝ := (∑ r, F.e x θ r ^ 2) / 2

/-- The error metric of the backward objective. -/
noncomputable def Family.bwdMetric (F : Family p d Θ) (ε : ℝ) (g x : Fin d → ℝ) (θ : Θ) : ℝ :=
  (∑ r : Fin (p + d), (Fin.addCases (fun r => F.e x θ r) (fun r => dlmError ε g x r) r : ℝ) ^ 2) / 2

/-- The point at which the backward pass evaluates the perturbed error (`theseus_layer.py:258-265`). -/
noncomputable def Family.dlmPoint (F : Family p d Θ) (x : Fin d → ℝ) (θ : Θ) (ε : ℝ) (g : Fin d → ℝ) : Fin d → ℝ :=
  x + (F.bwdLin x θ ε g).AtA⁻¹ *ᵥ (F.bwdLin x θ ε g).Atb

/-- The gradient returned by the backward pass (`theseus_layer.py:214-221, 267-279`), as a linear map on changes of
the parameters: `(grad_sol - grad_perturbed) / epsilon`. -/
noncomputable def Family.dlmGrad (F : Family p d Θ) (x : Fin d → ℝ) (θ0 : Θ) (ε : ℝ) (g : Fin d → ℝ) : Θ →L[ℝ] ℝ :=
  ε⁻¹ • (fderiv ℝ (fun θ => F.metric x θ) θ0 -
    fderiv ℝ (fun θ => F.bwdMetric ε g (F.dlmPoint x θ0 ε g) θ) θ0)

end Verif.Layer
