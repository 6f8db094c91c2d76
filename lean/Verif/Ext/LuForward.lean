import Verif.Ext.MatMult
import Verif.Autograd.Model

/-!
# Model of `LUCudaSolveFunction.forward` with its kernels
-/

namespace Verif.Ext
open Verif.Linear Verif.Autograd

/-- The square matrix of batch element `b` in a buffer of values with pattern `P`. -/
def valueMatrix (P : CsrArr) (n : ℕ) (val : ℕ → ℝ) (b : ℕ) : Matrix (Fin n) (Fin n) ℝ :=
  fun i j => ∑ p ∈ Finset.Ico (at' P.rowPtr i) (at' P.rowPtr (i + 1)),
    if at' P.colInd p = j then val (b * P.nnz + p) else 0

/-- `solver_context.factor(AtA)`, `solver_context.solve(x)` (lu_cuda_sparse_autograd.py L63, L68): an
exact solve for every batch element (the cuSolver library is not modelled). -/
noncomputable def batchSolve (P : CsrArr) (n : ℕ) (val x : ℕ → ℝ) : ℕ → ℝ :=
  fun a => solveWith (valueMatrix P n val (a / n)) (fun k => x (a / n * n + k)) (a % n)

/-- The damping step of `LUCudaSolveFunction.forward` (lu_cuda_sparse_autograd.py L55-62), from the
buffer `AtA` to the buffer that is factored: nothing without `damping_alpha_beta`, else the launch of
`apply_damping`. -/
inductive Damped (B : ℕ) (P : CsrArr) (AtA : ℕ → ℝ) : Option ((ℕ → ℝ) × (ℕ → ℝ)) → (ℕ → ℝ) → Prop
  | none : Damped B P AtA none AtA
  | some {alpha beta : ℕ → ℝ} (sched : List Tid) {m : Machine ℝ}
      (call : applyDamping B P ⟨B, P.nnz, AtA⟩ B B alpha beta sched = .ok m) (done : m.Done) :
      Damped B P AtA (some (alpha, beta)) m.mem

/-- `LUCudaSolveFunction.forward` (lu_cuda_sparse_autograd.py L46-68): the possible results.  Every
kernel ends before the next one starts (they are launched on one stream); inside a kernel the
threads are scheduled in any order. -/
inductive LuForward (B : ℕ) (M : CsrArr) (nc : ℕ) (val b : Ten ℝ)
    (damping : Option ((ℕ → ℝ) × (ℕ → ℝ))) : (ℕ → ℝ) → Prop
  | mk (sched sched' : List Tid) {m m' : Machine ℝ} {F : ℕ → ℝ}
      (mult : multMtM B M val (ataPattern M nc) sched = .ok m) (mdone : m.Done)
      (damp : Damped B (ataPattern M nc) m.mem damping F)
      (tmat : cudaTmatVec B nc M val b sched' = .ok m') (tdone : m'.Done) :
      LuForward B M nc val b damping (batchSolve (ataPattern M nc) nc F m'.mem)

end Verif.Ext
