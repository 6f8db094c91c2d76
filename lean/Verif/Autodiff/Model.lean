import Verif.Geometry.Backward
import Verif.Geometry.Planar
import Mathlib.Analysis.Calculus.Deriv.Basic

/-!
# Model of `AutoDiffCostFunction` (`theseus/core/cost_function.py` L151-423)

A tensor is the list of its batch elements; a batch element of an optimization variable is the
vector of its entries.  The error function of the user is an arbitrary function of whole tensors
(`none`: it raises).  `torch.autograd.functional.jacobian` and `jacrev` are the derivatives of
calculus.  The dimension check of the error (L265-268) holds by typing.  The temporary variables
are containers that are overwritten before every use, so only their contents occur here.
-/

namespace Verif.Autodiff
open Verif.Geometry Matrix

/-- What `AutoDiffCostFunction` needs to know about the class of an optimization variable: the
number `d` of entries of its tensor, its `dof`, and `project(..., is_sparse=True)` for one batch
element and one row of the Euclidean Jacobian (`geometry/manifold.py` L110-113).  `clones` is for
`Vector`, whose `project` returns a clone (vector.py L199-203); the others combine the Jacobian with
the tensor, with broadcasting. -/
structure Cls where
  d : ℕ
  dof : ℕ
  clones : Bool
  proj : (Fin d → ℝ) → (Fin d → ℝ) → (Fin dof → ℝ)

variable {N M dim : ℕ} (c : Fin (N + 1) → Cls) (A : Fin M → Type)

/-- The tensors of the optimization variables, and of the auxiliary variables. -/
abbrev Optim := ∀ i, List (Fin (c i).d → ℝ)
@[inherit_doc Optim] abbrev Aux := ∀ j, List (A j)

/-- `err_fn` (cost_function.py L154-158). -/
abbrev ErrFn (dim : ℕ) := Optim c → Aux A → Option (List (Fin dim → ℝ))

variable {c A}

/-- The tensor with `t` added to entry `e` of batch element `b` (a perturbation of the input of
`autogradF.jacobian`, cost_function.py L286-296). -/
def pert {d : ℕ} (l : List (Fin d → ℝ)) (b : ℕ) (e : Fin d) (t : ℝ) : List (Fin d → ℝ) :=
  l.modify b fun r => Function.update r e (r e + t)

/-- Entry `[b, o, b', e]` of the Jacobian of the error with respect to the tensor of variable `k`
(`autogradF.jacobian`, cost_function.py L286-296; `jacrev`, L341). -/
noncomputable def rawJac (F : ErrFn c A dim) (x : Optim c) (a : Aux A) (k : Fin (N + 1)) (b : ℕ)
    (o : Fin dim) (b' : ℕ) (e : Fin (c k).d) : ℝ :=
  deriv (fun t => (((F (Function.update x k (pert (x k) b' e t)) a).getD []).getD b 0) o) 0

/-- The Jacobians with respect to the tensors, for every variable and batch element. -/
abbrev Full (c : Fin (N + 1) → Cls) (dim : ℕ) := ∀ k, List (Matrix (Fin dim) (Fin (c k).d) ℝ)

/-- Mode `DENSE` (cost_function.py L381-387): the blocks `[b, :, b, :]`; an index out of range
raises. -/
noncomputable def denseFull (F : ErrFn c A dim) (x : Optim c) (a : Aux A) (err : List (Fin dim → ℝ)) :
    Option (Full c dim) :=
  if ∀ k, err.length ≤ (x k).length then
    some fun k => (List.range err.length).map fun b => Matrix.of fun o e => rawJac F x a k b o b e
  else none

/-- `tensor[n : n + 1]` (cost_function.py L364, L367). -/
def slice {α : Type} (l : List α) (n : ℕ) : List α := (l.drop n).take 1

/-- Mode `LOOP_BATCH` (cost_function.py L360-380): one Jacobian per element of the first variable,
concatenated; `[:, :, 0, :]` raises on an empty tensor, and so does `torch.cat` of nothing. -/
noncomputable def loopFull (F : ErrFn c A dim) (x : Optim c) (a : Aux A) : Option (Full c dim) :=
  open Classical in
  let xs n : Optim c := fun i => slice (x i) n
  let as n : Aux A := fun j => slice (a j) n
  if 0 < (x 0).length ∧
      ∀ n < (x 0).length, (F (xs n) (as n)).isSome ∧ ∀ k, xs n k ≠ [] then
    some fun k => (List.range (x 0).length).flatMap fun n =>
      (List.range ((F (xs n) (as n)).getD []).length).map fun b =>
        Matrix.of fun o e => rawJac F (xs n) (as n) k b o 0 e
  else none

/-- All batch sizes (cost_function.py L332). -/
def sizes (x : Optim c) (a : Aux A) : List ℕ :=
  (List.ofFn fun i => (x i).length) ++ List.ofFn fun j => (a j).length

/-- Row `b` of a tensor after `_expand_all` (cost_function.py L324-330); a tensor of batch size 1
is repeated. -/
def pick {α : Type} [Inhabited α] (l : List α) (b : ℕ) : α :=
  if l.length = 1 then l.getD 0 default else l.getD b default

/-- Mode `VMAP` (cost_function.py L318-341): the Jacobian at each row separately.  Empty batches
are not modelled. -/
noncomputable def vmapFull [∀ j, Inhabited (A j)] (F : ErrFn c A dim) (x : Optim c) (a : Aux A) :
    Option (Full c dim) :=
  open Classical in
  let S := sizes x a
  let batch := S.foldr max 0
  if S.toFinset.card = 1 ∨ (S.toFinset.card = 2 ∧ S.foldr min batch = 1) then
    let xs b : Optim c := fun i => [pick (x i) b]
    let as b : Aux A := fun j => [pick (a j) b]
    if ∀ b < batch, ∃ e es, F (xs b) (as b) = some (e :: es) then
      some fun k => (List.range batch).map fun b =>
        Matrix.of fun o e => rawJac F (xs b) (as b) k 0 o 0 e
    else none
  else none

/-- Element-wise operation on two tensors with broadcasting of the batch dimension; `none` is the
`RuntimeError` of torch. -/
def broadcast2 {α β γ : Type} (f : α → β → γ) : List α → List β → Option (List γ)
  | [a], bs => some (bs.map (f a))
  | as, [b] => some (as.map (f · b))
  | as, bs => if as.length = bs.length then some (List.zipWith f as bs) else none

/-- `v.project(jac, is_sparse=True)` (cost_function.py L389-391). -/
def project (cl : Cls) (tensor : List (Fin cl.d → ℝ)) (jac : List (Matrix (Fin dim) (Fin cl.d) ℝ)) :
    Option (List (Matrix (Fin dim) (Fin cl.dof) ℝ)) :=
  if cl.clones then some (jac.map fun J => Matrix.of fun o => cl.proj 0 (J o))
  else broadcast2 (fun r J => Matrix.of fun o => cl.proj r (J o)) tensor jac

/-- `AutogradMode` (cost_function.py L161-164). -/
inductive Mode | dense | loopBatch | vmap
  deriving DecidableEq

/-- The Jacobians and the error that `jacobians()` returns (cost_function.py L343-393). -/
noncomputable def jacobians [∀ j, Inhabited (A j)] (mode : Mode) (F : ErrFn c A dim) (x : Optim c)
    (a : Aux A) :
    Option ((∀ k, List (Matrix (Fin dim) (Fin (c k).dof) ℝ)) × List (Fin dim → ℝ)) :=
  match F x a with
  | none => none
  | some err =>
    let full := match mode with
      | .dense => denseFull F x a err
      | .loopBatch => loopFull F x a
      | .vmap => vmapFull F x a
    match full with
    | none => none
    | some full =>
      if ∀ k, (project (c k) (x k) (full k)).isSome then
        some (fun k => (project (c k) (x k) (full k)).getD [], err)
      else none

/-! ## The classes -/

/-- `Vector` and the point classes (vector.py L199-203). -/
abbrev vecCls (n : ℕ) : Cls := ⟨n, n, true, fun _ g => g⟩

/-- `SO2` (so2.py L119-129): the tensor is `[cos, sin]`. -/
abbrev so2Cls : Cls := ⟨2, 1, false, fun r g => (⟨r 0, r 1⟩ : SO2).project g⟩

/-- `SE2` (se2.py L341-365): the tensor is `[x, y, cos, sin]`. -/
abbrev se2Cls : Cls := ⟨4, 3, false, fun r g => (⟨r 0, r 1, r 2, r 3⟩ : SE2).project g⟩

/-- The 3x3 matrix with the given entries, row by row (the layout of a tensor of `SO3`,
so3_impl.py L977-986). -/
def mat33 (r : Fin 9 → ℝ) : M3 := !![r 0, r 1, r 2; r 3, r 4, r 5; r 6, r 7, r 8]

/-- `SO3` (so3.py L102-107): `left_project` of the 3x3 tensor, here with its entries row by
row. -/
abbrev so3Cls : Cls := ⟨9, 3, false, fun r g => SO3.leftProject (mat33 r) (fun _ : Unit => mat33 g) ()⟩

/-- The 3x4 matrix with the given entries, row by row (se3_impl.py L909-921). -/
def mat34 (r : Fin 12 → ℝ) : SE3 :=
  ⟨!![r 0, r 1, r 2; r 4, r 5, r 6; r 8, r 9, r 10], ![r 3, r 7, r 11]⟩

/-- `SE3` (se3.py L99-104): `left_project` of the 3x4 tensor, here with its entries row by row. -/
abbrev se3Cls : Cls :=
  ⟨12, 6, false, fun r g => SE3.leftProject (mat34 r) (fun _ : Unit => mat34 g) ()⟩

end Verif.Autodiff
