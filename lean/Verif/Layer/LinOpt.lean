import Verif.Steps.Model
import Verif.Embodied.Motion
import Mathlib.LinearAlgebra.Matrix.NonsingularInverse
/-!
# Model of the dense linear solvers and of `LinearOptimizer`

Sources: `/repo/theseus/optimizer/linear/dense_solver.py`, `linear_optimizer.py`.

Simplifications: exact real arithmetic, so the `info` flag of `torch.lu` (a zero pivot) is set exactly for
matrices of determinant zero; a batch is a function of the batch index; data types are seen only through
the question whether the data type of the linearization is torch's default.
-/
namespace Verif.Layer
open Matrix Verif.Steps Verif.Embodied
open scoped Classical

/-- Exceptions: `RuntimeError` (which the optimizers catch; also the class of torch's linear algebra and
shape errors), or anything else. -/
inductive Exc where
  | runtime | other
deriving DecidableEq, Repr

variable {p d n : Nat}

/-- A batch of square systems. -/
structure Sys (n d : Nat) where
  AtA : Fin n → Matrix (Fin d) (Fin d) ℝ
  Atb : Fin n → Fin d → ℝ

/-- The normal equations of a batch of linearizations (`linearization.py:66-72`). -/
noncomputable def sysOf (L : Fin n → Lin ℝ p d) : Sys n d := ⟨fun i => (L i).AtA, fun i => (L i).Atb⟩

/-- The two dense solvers. -/
inductive Kind where
  | lu | cholesky
deriving DecidableEq, Repr

/-- `_solve_sytem`: `LUDenseSolver` (`dense_solver.py:147-148`) raises if a matrix of the batch is
singular; `CholeskyDenseSolver` (`dense_solver.py:166-168`) raises if one has no Cholesky factor. -/
noncomputable def solveSystem (k : Kind) (s : Sys n d) : Except Exc (Fin n → Fin d → ℝ) :=
  match k with
  | .lu =>
    if ∀ i, (s.AtA i).det ≠ 0 then .ok fun i => (s.AtA i)⁻¹ *ᵥ s.Atb i else .error .runtime
  | .cholesky =>
    if ∀ i, (cholesky (s.AtA i)).isSome then
      .ok fun i => match cholesky (s.AtA i) with
        | some C => (C * Cᵀ)⁻¹ *ᵥ s.Atb i
        | none => 0
    else .error .runtime

/-- `_apply_damping_and_solve` (`dense_solver.py:66-78`); a damping tensor whose length fits neither the
batch nor 1 is a shape error. -/
noncomputable def dampAndSolve (k : Kind) (s : Sys n d) (damping : Option (DampArg ℝ)) (ell : Bool) (eps : ℝ) :
    Except Exc (Fin n → Fin d → ℝ) :=
  match damping with
  | none => solveSystem k s
  | some a => match denseDamping n a with
    | none => .error .runtime
    | some v => solveSystem k { s with AtA := fun i => applyDamping (s.AtA i) (v i) ell eps }

/-- `good_idx` (`dense_solver.py:96-97`): the batch elements whose matrix is not singular. -/
noncomputable def goodIdx (s : Sys n d) : List (Fin n) :=
  (List.finRange n).filter fun i => decide ((s.AtA i).det ≠ 0)

/-- `DenseSolver.solve` (`dense_solver.py:84-127`); `isDefault`: the data type of the linearization is
torch's default data type, in which `output` is allocated (assigning a tensor of another data type at an
index raises). -/
noncomputable def denseSolve (k : Kind) (checkSingular isDefault : Bool) (s : Sys n d)
    (damping : Option (DampArg ℝ)) (ell : Bool) (eps : ℝ) : Except Exc (Fin n → Fin d → ℝ) :=
  if checkSingular then
    let g := goodIdx s                                                                -- 96-97
    let sub : Sys g.length d := ⟨fun j => s.AtA (g.get j), fun j => s.Atb (g.get j)⟩  -- 104-105
    match dampAndSolve k sub damping ell eps with                                     -- 106-112
    | .error e => .error e
    | .ok sol =>
      if isDefault then                                                               -- 95, 113
        .ok fun i => if h : i ∈ g then sol ⟨g.idxOf i, List.idxOf_lt_length_iff.2 h⟩ else 0
      else .error .runtime
  else dampAndSolve k s damping ell eps                                               -- 116-122

/-- `LinearOptimizerStatus` (`linear_optimizer.py:19-22`). -/
inductive LStatus where
  | start | converged | fail
deriving DecidableEq, Repr

/-- How `optimize()` ends: with an exception, or with the variables, the statuses and `best_solution`
(`none`: the empty dictionary). -/
inductive LResult (n : Nat) (X : Type) where
  | raised (e : Exc)
  | done (x : Fin n → X) (status : Fin n → LStatus) (best : Option (Fin n → X))

/-- `LinearOptimizer._optimize_impl` (`linear_optimizer.py:47-80`). `linearize` and `solve` may raise;
`retract` is `retract_vars_sequence` for one batch element. -/
def linearOptimize {X : Type} (grad : Bool) (linearize : (Fin n → X) → Except Exc (Fin n → Lin ℝ p d))
    (solve : (Fin n → Lin ℝ p d) → Except Exc (Fin n → Fin d → ℝ)) (retract : X → (Fin d → ℝ) → X)
    (x : Fin n → X) : LResult n X :=
  match linearize x >>= solve with                                                    -- 55-57
  | .error .runtime =>
    if grad then .raised .runtime                                                     -- 63-67
    else .done x (fun _ => .fail) none                                                -- 68-71
  | .error e => .raised e
  | .ok delta =>
    let y := fun i => retract (x i) (delta i)                                         -- 72-74
    .done y (fun _ => .converged) (some y)                                            -- 75-78

/-- A least-squares problem with cost functions that are affine in vector variables: for element `i` of
the batch the stacked weighted error is `A i *ᵥ x - c i`. -/
structure Affine (n p d : Nat) where
  A : Fin n → Matrix (Fin p) (Fin d) ℝ
  c : Fin n → Fin p → ℝ

/-- The stacked weighted error vector. -/
noncomputable def Affine.error (P : Affine n p d) (i : Fin n) (x : Fin d → ℝ) : Fin p → ℝ := P.A i *ᵥ x - P.c i

/-- Its linearization (`dense_linearization.py:29-56`): the Jacobian, and minus the error. -/
noncomputable def Affine.linearize (P : Affine n p d) (x : Fin n → Fin d → ℝ) : Fin n → Lin ℝ p d :=
  fun i => ⟨P.A i, -P.error i (x i)⟩

/-- The error metric (`objective.py:34-38`): half the squared norm of the stacked weighted error. -/
noncomputable def Affine.metric (P : Affine n p d) (i : Fin n) (x : Fin d → ℝ) : ℝ :=
  (∑ r, P.error i x r ^ 2) / 2

/-- `LinearOptimizer` with a dense solver on an affine problem (vector variables: retraction is
addition). -/
noncomputable def linearOptimizeAffine (P : Affine n p d) (k : Kind) (checkSingular isDefault grad : Bool)
    (x : Fin n → Fin d → ℝ) : LResult n (Fin d → ℝ) :=
  linearOptimize grad (fun x => .ok (P.linearize x))
    (fun L => denseSolve k checkSingular isDefault (sysOf L) none true (1 / 100000000)) (· + ·) x

end Verif.Layer
