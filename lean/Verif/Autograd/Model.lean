import Verif.Linear.Model
import Mathlib.LinearAlgebra.Matrix.NonsingularInverse
import Mathlib.Data.Real.Basic

/-!
# Model of the sparse solvers' autograd functions

`theseus/optimizer/autograd/`: `CholmodSolveFunction`, `LUCudaSolveFunction`,
`BaspachoSolveFunction` and `compute_A_grad`.  The factorizations are exact solves with the damped
normal matrix; arithmetic is over the reals; the dtype conversions are not modelled.
-/

namespace Verif.Autograd
open Verif.Linear Matrix

/-- `SparseStructure`: sizes and CSR arrays (theseus/optimizer/linear_system.py L13-27). -/
structure Pattern where
  nr : ℕ
  nc : ℕ
  rowPtr : List ℕ
  colInd : List ℕ

/-- The matrix that the CSR arrays and values stand for (`csr_straight`,
theseus/optimizer/linear_system.py L29-34). -/
noncomputable def Pattern.mat (s : Pattern) (val : ℕ → ℝ) : Matrix (Fin s.nr) (Fin s.nc) ℝ :=
  fun i j => ∑ p ∈ Finset.Ico (at' s.rowPtr i) (at' s.rowPtr (i + 1)),
    if at' s.colInd p = j then val p else 0

/-- The matrix that is factored: `mult_MtM` then `apply_damping` (lu_cuda_sparse_autograd.py L51-61,
mat_mult.cu L297-323: `val += alpha * val + beta` on the diagonal), `add_MtM` then `damp`
(baspacho_sparse_autograd.py L42-47), `cholesky_AAt(At_i, damping)`
(cholmod_sparse_autograd.py L46, `alpha = 0`, `beta = damping`). -/
noncomputable def Pattern.normal (s : Pattern) (alpha beta : ℝ) (val : ℕ → ℝ) :
    Matrix (Fin s.nc) (Fin s.nc) ℝ :=
  let AtA := (s.mat val)ᵀ * s.mat val
  fun j k => AtA j k + if j = k then alpha * AtA j k + beta else 0

/-- The solve with the factors, in place (lu_cuda_sparse_autograd.py L68, L161;
baspacho_sparse_autograd.py L53, L124; cholmod_sparse_autograd.py L49-50): exact. -/
noncomputable def solveWith {n : ℕ} (M : Matrix (Fin n) (Fin n) ℝ) (v : ℕ → ℝ) : ℕ → ℝ :=
  fun j => if h : j < n then (M⁻¹ *ᵥ fun k => v k) ⟨j, h⟩ else 0

/-- `forward` for one batch element: the solution (lu_cuda_sparse_autograd.py L51-68,
baspacho_sparse_autograd.py L37-54, cholmod_sparse_autograd.py L43-51). -/
noncomputable def forward (s : Pattern) (alpha beta : ℝ) (val b : ℕ → ℝ) : ℕ → ℝ :=
  solveWith (s.normal alpha beta val) (tmatVec s.rowPtr s.colInd val b)

/-- The loop over rows of `compute_A_grad` (common.py L25-37): row `r` writes its slice of the
uninitialised result. -/
def gradRows (s : Pattern) (detach : Bool) (junk b x bAx H AH : ℕ → ℝ) : ℕ → ℕ → ℝ
  | 0 => junk
  | r + 1 => fun p =>
    if at' s.rowPtr r ≤ p ∧ p < at' s.rowPtr (r + 1) then
      if detach then b r * H (at' s.colInd p)
      else bAx r * H (at' s.colInd p) - AH r * x (at' s.colInd p)
    else gradRows s detach junk b x bAx H AH r p

/-- What `forward` saves for one batch element. -/
structure Saved where
  val : ℕ → ℝ
  b : ℕ → ℝ
  alpha : ℝ
  beta : ℝ

/-- `backward` (lu_cuda_sparse_autograd.py L130-199, baspacho_sparse_autograd.py L113-168,
cholmod_sparse_autograd.py L104-147) with `compute_A_grad` (common.py L11-48), for a batch: the
gradients for `A_val` and `b`.  `damped` is whether `damping_alpha_beta` was passed (never for
Cholmod, whose `damping` is `beta`); the correction is applied to all the batch elements if any of
them has a positive `alpha`; `none` is the failed assertion. -/
noncomputable def backward {B : ℕ} (s : Pattern) (damped detach : Bool) (junk : ℕ → ℝ)
    (saved : Fin B → Saved) (g : Fin B → ℕ → ℝ) : Option (Fin B → (ℕ → ℝ) × (ℕ → ℝ)) :=
  let run := fun i =>
    let c := saved i
    let x := forward s c.alpha c.beta c.val c.b
    let H := solveWith (s.normal c.alpha c.beta c.val) (g i)
    let AH := matVec s.rowPtr s.colInd c.val H
    let bAx := fun r => c.b r - matVec s.rowPtr s.colInd c.val x r
    (gradRows s detach junk c.b x bAx H AH s.nr, AH, fun j => c.alpha * 2 * H j * x j)
  open Classical in
  if damped = true ∧ ∃ i, (saved i).alpha > 0 then
    if detach then none
    else some fun i =>
      (fun p => (run i).1 p - (saved i).val p * (run i).2.2 (at' s.colInd p), (run i).2.1)
  else some fun i => ((run i).1, (run i).2.1)

end Verif.Autograd
