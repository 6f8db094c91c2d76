import Mathlib.Data.List.Nodup
/-!
# Model of the contexts of `LUCudaSparseSolver`

Sources: `/repo/theseus/optimizer/linear/lu_cuda_sparse_solver.py`,
`/repo/theseus/optimizer/autograd/lu_cuda_sparse_autograd.py`, `/repo/theseus/extlib/cusolver_lu_solver.cpp`
(the factor counter) and `NonlinearLeastSquares.reset`.

A solver context is a CUDA object that holds the factors of the matrix given to the last call of `factor`
and counts these calls.  `α` is the type of matrices; numerics are not modelled.  Contexts of a previous
`reset` stay alive (the autograd graph refers to them): they are objects of a heap.
-/
namespace Verif.Lu

/-- A `CusolverLUSolver` object: batch size, `factor_id`, the factored matrix
(`cusolver_lu_solver.cpp:20-60`). -/
structure Obj (α : Type) where
  batch : Nat
  factorId : Nat
  mat : Option α

/-- The solver (`lu_cuda_sparse_solver.py:45-73`): heap of context objects, `_solver_contexts`,
`_last_solver_context`, `_last_reset_ctx`, `_auto_reset`. -/
structure Solver (α : Type) where
  objs : Nat → Obj α
  nobj : Nat
  contexts : List Nat
  last : Nat
  lastReset : Option Nat × Option Nat
  autoReset : Bool

/-- What autograd saves for the backward pass (`lu_cuda_sparse_autograd.py:70-81`). -/
structure Token (α : Type) where
  obj : Nat
  factorId : Nat
  mat : α

/-- `fill_defaults` (`lu_cuda_sparse_solver.py:30-43`), one field. -/
def fill (mine other : Option Nat) (dflt : Nat) : Nat :=
  match mine with
  | some v => v
  | none => other.getD dflt

variable {α : Type}

/-- `reset` (`lu_cuda_sparse_solver.py:75-129`). -/
def reset (s : Solver α) (batch num : Option Nat) : Solver α :=
  let b := fill batch s.lastReset.1 16                                                -- 85-87, 25
  let n := fill num s.lastReset.2 1
  if (some b, some n) = s.lastReset then s                                            -- 91-92
  else
    { s with
      objs := fun i => if s.nobj ≤ i ∧ i < s.nobj + n then ⟨b, 0, none⟩ else s.objs i,
      nobj := s.nobj + n,
      contexts := List.range' s.nobj n,                                               -- 119-127
      last := n - 1,                                                                  -- 128
      lastReset := (some b, some n) }                                                 -- 129

/-- A solver created by `__init__` (`lu_cuda_sparse_solver.py:68-73`). -/
def init (batch num : Option Nat) (auto : Bool) : Solver α :=
  reset ⟨fun _ => ⟨0, 0, none⟩, 0, [], 0, (none, none), auto⟩ batch num

/-- `solve` with the matrix `A` for `batch` problems (`lu_cuda_sparse_solver.py:131-172`,
`lu_cuda_sparse_autograd.py:45-81`); `none`: IndexError (no context) or a failed `TORCH_CHECK` on the
batch size. -/
def solve (s : Solver α) (batch : Nat) (A : α) : Option (Solver α × Token α) :=
  match s.contexts with
  | [] => none                                                                        -- 139
  | c :: _ =>
    let s := if s.autoReset && decide ((s.objs c).batch ≠ batch) then reset s (some batch) none else s  -- 138-140
    let last := (s.last + 1) % (s.lastReset.2.getD 0)                                 -- 146-148
    match s.contexts[last]? with
    | none => none
    | some o =>
      if (s.objs o).batch ≠ batch then none                                           -- cusolver_lu_solver.cpp:254
      else
        let fid := (s.objs o).factorId + 1                                            -- cusolver_lu_solver.cpp:257
        some ({ s with last := last, objs := fun i => if i = o then ⟨batch, fid, some A⟩ else s.objs i },
          ⟨o, fid, A⟩)

/-- Result of `backward`: the matrix whose factors are used, or the RuntimeError
(`lu_cuda_sparse_autograd.py:151-161`). -/
inductive Bwd (α : Type) where
  | solvedWith (A : Option α)
  | overwritten

/-- `backward` (`lu_cuda_sparse_autograd.py:135-161`). -/
def backward (s : Solver α) (t : Token α) : Bwd α :=
  if (s.objs t.obj).factorId ≠ t.factorId then .overwritten
  else .solvedWith (s.objs t.obj).mat

/-- An interaction with the solver. -/
inductive Ev (α : Type) where
  | reset (batch num : Option Nat)
  | solve (batch : Nat) (A : α)

/-- One interaction; `none` if it raises. -/
def act (s : Solver α) : Ev α → Option (Solver α × List (Token α))
  | .reset b n => some (reset s b n, [])
  | .solve b A => (solve s b A).map fun x => (x.1, [x.2])

/-- A history of interactions, with the tokens of its solves in order; `none` if one raises. -/
def run (s : Solver α) : List (Ev α) → Option (Solver α × List (Token α))
  | [] => some (s, [])
  | e :: t => match act s e with
    | none => none
    | some (s', l) => (run s' t).map fun x => (x.1, l ++ x.2)

/-- Number of contexts requested by `NonlinearLeastSquares.reset` for `nb` iterations with gradients
(`nonlinear_least_squares.py:370-380`, `_MAX_ALL_REJECT_ATTEMPTS = 3`). -/
def autoContexts (nb : Nat) : Nat := nb * 3

end Verif.Lu
