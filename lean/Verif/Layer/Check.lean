import Mathlib.Analysis.SpecialFunctions.Pow.Real
/-!
# Model of `check_jacobians` and `TheseusLayer.verify_jacobians`

Sources: `/repo/theseus/utils/utils.py:137-189`, `/repo/theseus/core/cost_function.py:183-188`,
`/repo/theseus/theseus_layer.py:151-161`.

Simplifications: variables are numbers and tensors values of a type `ρ`; the random tensors are an
argument; an entry of a Jacobian is a real number or NaN (`none`); shapes, data types and the text of
messages are left out.
-/
namespace Verif.Check

/-- Exceptions: `RuntimeError` (caught by `verify_jacobians`) or another one. -/
inductive Exc where
  | runtime | other
deriving DecidableEq, Repr

/-- The tensors of all variables. -/
abbrev Store (ρ : Type) := Nat → ρ

/-- A cost function: its optimization and auxiliary variables, and a function that evaluates, for the current
tensors, the entries of `j1 - j2_sparse_manifold` for every optimization variable (first batch element), or
raises. -/
structure Cost (ρ : Type) where
  optim : List Nat
  aux : List Nat
  diff : Store ρ → Except Exc (List (List (Option ℝ)))

variable {ρ : Type}

/-- `v.update(tensor)` (`variable.py:42-72`), for tensors of the right shape. -/
def put (s : Store ρ) (v : Nat) (t : ρ) : Store ρ := fun w => if w = v then t else s w

/-- The loop that fills variables (`utils.py:138-144, 169-170`); `draw` gives the tensor for each variable. -/
def fill (draw : Nat → ρ) : List Nat → Store ρ → Store ρ
  | [], s => s
  | v :: vs, s => fill draw vs (put s v (draw v))

/-- Exit of the context `_tmp_tensors` when the body ended without exception (`cost_function.py:187-188`);
the tensors stored at entry are those of `s₀`. -/
def restore (s₀ : Store ρ) : List Nat → Store ρ → Store ρ
  | [], s => s
  | v :: vs, s => restore s₀ vs (put s v (s₀ v))

/-- `x.abs().max()` (`utils.py:185`): NaN if an entry is NaN. -/
noncomputable def absMax : List (Option ℝ) → Option ℝ
  | [] => some 0
  | x :: xs => do
    let a ← x
    let m ← absMax xs
    some (max |a| m)

/-- The test `... > tol` (`utils.py:185`): false for NaN. -/
noncomputable def exceeds (tol : ℝ) (d : List (Option ℝ)) : Bool :=
  match absMax d with
  | some m => decide (tol < m)
  | none => false

/-- The body of the two contexts (`utils.py:168-189`): `k` checks are left, `n` is the number of the next
one. The tensors at the end, and the exception if one is raised. -/
noncomputable def checks (cf : Cost ρ) (tol : ℝ) (draw : Nat → Nat → ρ) : Nat → Nat → Store ρ → Store ρ × Option Exc
  | 0, _, s => (s, none)
  | k + 1, n, s =>
    let s' := fill (draw n) (cf.optim ++ cf.aux) s                                    -- 169-170
    match cf.diff s' with                                                             -- 172-184
    | .error e => (s', some e)
    | .ok ds =>
      if ds.any (exceeds tol) then (s', some .runtime)                                -- 185-189
      else checks cf tol draw k (n + 1) s'

/-- `check_jacobians` (`utils.py:155-189`). `_tmp_tensors` has no `try ... finally`: nothing is restored when
the body raises (`cost_function.py:184-188`). -/
noncomputable def checkJacobians (cf : Cost ρ) (numChecks : Nat) (tol : ℝ) (draw : Nat → Nat → ρ) (s : Store ρ) :
    Store ρ × Option Exc :=
  match checks cf tol draw numChecks 0 s with
  | (s', some e) => (s', some e)
  | (s', none) => (restore s cf.optim (restore s cf.aux s'), none)

/-- `verify_jacobians` (`theseus_layer.py:151-161`): the tensors at the end, and whether it printed that the
check was successful, or the exception. `draw i` are the random tensors for the `i`-th cost function. -/
noncomputable def verifyJacobians (numChecks : Nat) (tol : ℝ) :
    List (Cost ρ × (Nat → Nat → ρ)) → Store ρ → Store ρ × Except Exc Bool
  | [], s => (s, .ok true)
  | (cf, draw) :: rest, s =>
    match checkJacobians cf numChecks tol draw s with
    | (s', none) => verifyJacobians numChecks tol rest s'
    | (s', some .runtime) =>
      match verifyJacobians numChecks tol rest s' with
      | (s'', .ok _) => (s'', .ok false)
      | (s'', .error e) => (s'', .error e)
    | (s', some e) => (s', .error e)

end Verif.Check
