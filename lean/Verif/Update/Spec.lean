import Verif.Update.Model
import Verif.Objective.Spec
/-!
# Specification of updates

What `update` should do, said without the update loop.
-/
namespace Verif.Update
open Verif Verif.Objective

/-- `v` is a variable of the objective: looking its name up gives back that object. -/
def IsVar (s : State) (v : Var) : Prop :=
  getOptimVar s v.name = some v ∨ getAuxVar s v.name = some v

/-- The batch sizes agree on `B`: there is a variable, each one has `B` or `1` elements, and `B` is
the largest. -/
def Agree (sizes : List Nat) (B : Nat) : Prop :=
  B ∈ sizes ∧ (∀ n ∈ sizes, n = 1 ∨ n = B) ∧ ∀ n ∈ sizes, n ≤ B

/-- Element `i` of a tensor, seen as a batch in which size-1 tensors are repeated. -/
def Tensor.elem {ρ : Type} (t : Tensor ρ) (i : Nat) : Option ρ :=
  if t.rows.length = 1 then t.rows[0]? else t.rows[i]?

/-- Whether batch element `i` is masked. -/
def masked (mask : List Bool) (i : Nat) : Prop :=
  (if mask.length = 1 then mask[0]? else mask[i]?) = some true

/-- An input tensor that may be stored in a variable whose tensor is now `cur`. -/
structure Fits {ρ : Type} (e : Env ρ) (cur t : Tensor ρ) : Prop where
  ndim : t.trail ≠ []
  device : t.device = e.device
  dtype : t.dtype = e.obj.dtype ∧ t.dtype = cur.dtype
  shape : t.trail = cur.trail

end Verif.Update
