import Verif.Geometry.Spec

/-!
# Jacobians of functions of vectors

Together with `Verif.Geometry.Spec` this is the whole meaning of "the Jacobian is the derivative"
for the cost functions of `theseus/embodied`.
-/

namespace Verif.Embodied
open Verif.Geometry Matrix

/-- `J` is the Jacobian at `p` of a function of a vector: along every curve through `p` with
velocity `δ`, `f` has derivative `J δ`. -/
def HasVJac {n k : ℕ} (f : (Fin n → ℝ) → Fin k → ℝ) (p : Fin n → ℝ)
    (J : Matrix (Fin k) (Fin n) ℝ) : Prop :=
  ∀ (x : ℝ → Fin n → ℝ) (δ : Fin n → ℝ), x 0 = p → VecDeriv x δ →
    VecDeriv (fun t => f (x t)) (J *ᵥ δ)

end Verif.Embodied
