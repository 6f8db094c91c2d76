import Verif.Linear.Model
/-!
# Specification of linearization
-/
namespace Verif.Linear
open Verif Verif.Objective
open scoped BigOperators

variable {R : Type}

/-- What `index_of` is documented to do: the position at which iteration yields the name. -/
def Consistent (o : Ordering) : Prop :=
  ∀ n i, o.indexOf n = .ok i ↔ ∃ v, o.order[i]? = some v ∧ v.name = n

/-- The Jacobian a cost function has for a variable, if it uses it. -/
def LCost.jacOf (c : LCost R) (v : Var) : Option (Jac R) :=
  ((c.vars.zip c.jacs).find? (fun p => decide (p.1 = v))).map Prod.snd

/-- The entry of the stacked Jacobian for row `r` of cost function `c` and component `t` of variable
`v`: the entry of the Jacobian of `c` for `v`, or zero if `c` does not use `v`. -/
def entry [Zero R] (c : LCost R) (r : Nat) (v : Var) (t : Nat) : R :=
  match c.jacOf v with
  | some J => J.val r t
  | none => 0

/-- A cost function that can be linearized with the variables `order`: it has at least one
optimization variable, each of them is in the ordering and occurs once, and there is one Jacobian per
variable with as many columns as the variable's degrees of freedom. -/
structure GoodCost (dof : Var → Nat) (order : List Var) (c : LCost R) : Prop where
  nonempty : c.vars ≠ []
  nodup : c.vars.Nodup
  mem : ∀ v ∈ c.vars, v ∈ order
  jacs : List.Forall₂ (fun v J => J.cols = dof v) c.vars c.jacs

/-- The matrix denoted by CSR arrays. -/
def denote [CommRing R] (rowPtr colInd : List Nat) (val : Nat → R) (i j : Nat) : R :=
  ∑ p ∈ Finset.Ico (at' rowPtr i) (at' rowPtr (i + 1)), if at' colInd p = j then val p else 0

/-- Well-formed CSR arrays for an `nr x nc` matrix. -/
structure WellFormed (rowPtr colInd : List Nat) (nr nc : Nat) : Prop where
  len : rowPtr.length = nr + 1
  zero : at' rowPtr 0 = 0
  mono : ∀ i < nr, at' rowPtr i ≤ at' rowPtr (i + 1)
  last : at' rowPtr nr = colInd.length
  range : ∀ c ∈ colInd, c < nc

/-- No column occurs twice in a row. -/
def NoDupCols (rowPtr colInd : List Nat) (nr : Nat) : Prop :=
  ∀ i < nr, ∀ p q, at' rowPtr i ≤ p → p < at' rowPtr (i + 1) → at' rowPtr i ≤ q →
    q < at' rowPtr (i + 1) → at' colInd p = at' colInd q → p = q

end Verif.Linear
