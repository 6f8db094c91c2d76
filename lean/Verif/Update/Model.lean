import Verif.Objective.Model
/-!
# Model of variable tensors: `Variable.update`, `Objective.update`, `error`, retraction

Source: `/repo/theseus/core/variable.py`, `/repo/theseus/core/objective.py`.

Simplifications (all of this file):
* a tensor is its dtype, device, trailing shape and the list of its batch rows; a row is an opaque
  value of type `ρ` (nothing here looks inside a row).  A tensor with `ndim = 1` has `trail = []`; a
  0-dimensional tensor is not representable (the code rejects it with the same `ValueError` as
  `ndim = 1`);
* the heap maps each variable object to its current tensor and its update counter;
* the vectorization cache is modelled in `Verif/Vectorize`; warnings are not modelled.
-/
namespace Verif.Update
open Verif Verif.Objective

/-- A `torch.Tensor` (see the header). -/
structure Tensor (ρ : Type) where
  dtype : Nat := 0
  device : Nat := 0
  trail : List Nat := [1]
  rows : List ρ
deriving DecidableEq, Repr

/-- The mutable part of a `Variable` (`core/variable.py:19-26`). -/
structure VarSt (ρ : Type) where
  tensor : Tensor ρ
  numUpdates : Nat := 0
deriving DecidableEq, Repr

/-- Broadcast of two batch sizes, as done by `torch.where` (`core/variable.py:67-69`). -/
def bcast (m n : Nat) : Option Nat :=
  if m = n then some m else if m = 1 then some n else if n = 1 then some m else none

/-- Element `i` of a batch that may be broadcast. -/
def bget {α : Type} (l : List α) (i : Nat) : Option α :=
  if l.length = 1 then l[0]? else l[i]?

/-- Collect a list of optional values. -/
def collect {α : Type} : List (Option α) → Option (List α)
  | [] => some []
  | none :: _ => none
  | some a :: l => (collect l).map (a :: ·)

/-- `torch.where(mask.view(-1, 1, ..), old, new)` on batch rows (`core/variable.py:66-69`);
`none` when the batch sizes cannot be broadcast together (torch raises `RuntimeError`). -/
def whereRows {ρ : Type} (mask : List Bool) (old new : List ρ) : Option (List ρ) :=
  match bcast mask.length old.length with
  | none => none
  | some m => match bcast m new.length with
    | none => none
    | some n => collect ((List.range n).map fun i =>
        if bget mask i = some true then bget old i else bget new i)

/-- `Variable.update` (`core/variable.py:42-72`). -/
def varUpdate {ρ : Type} (st : VarSt ρ) (t : Tensor ρ) (mask : Option (List Bool)) :
    Except Err (VarSt ρ) :=
  if t.trail ≠ st.tensor.trail then .error .valueError                    -- 51-59
  else if t.dtype ≠ st.tensor.dtype then .error .valueError               -- 60-64
  else match mask with
    | none => .ok { tensor := t, numUpdates := st.numUpdates + 1 }        -- 70-72
    | some m =>
      if m.any id then                                                    -- 65
        match whereRows m st.tensor.rows t.rows with
        | none => .error .runtimeError
        | some rows => .ok { tensor := { t with rows := rows }, numUpdates := st.numUpdates + 1 }
      else .ok { tensor := t, numUpdates := st.numUpdates + 1 }

/-- Tensors of all variable objects. -/
abbrev Heap (ρ : Type) := Var → VarSt ρ

/-- Assignment to one variable object. -/
def Heap.put {ρ : Type} (h : Heap ρ) (v : Var) (st : VarSt ρ) : Heap ρ :=
  fun u => if u = v then st else h u

/-- An objective together with the tensors of its variables (`objective.py:66-156`). -/
structure Env (ρ : Type) where
  obj : State
  device : Nat := 0
  heap : Heap ρ
  batchSize : Option Nat := none

/-- The variable that `update` selects for a name: optimization, then auxiliary, then cost-weight
(`objective.py:784-801`). -/
def lookup (s : State) (n : Nat) : Option Var :=
  match s.optimVars.get? n with
  | some v => some v
  | none => match s.auxVars.get? n with
    | some v => some v
    | none => s.cwOptimVars.get? n

/-- The loop of `Objective.update` (`objective.py:770-806`). -/
def updLoop {ρ : Type} (e : Env ρ) (mask : Option (List Bool)) :
    List (Nat × Tensor ρ) → Env ρ × Option Err
  | [] => (e, none)
  | (n, t) :: rest =>
    if t.trail = [] then (e, some .valueError)                            -- 772-777
    else if t.device ≠ e.device ∨ t.dtype ≠ e.obj.dtype then (e, some .valueError)  -- 778-783
    else match lookup e.obj n with
      | none => updLoop e mask rest                                       -- 802-806 (warning)
      | some v => match varUpdate (e.heap v) t mask with                  -- 784-801
        | .error x => (e, some x)
        | .ok st => updLoop { e with heap := e.heap.put v st } mask rest

/-- `_get_batch_size` (`objective.py:711-720`); the unique sizes of a Python `set`. -/
def getBatchSize (sizes : List Nat) : Except Err Nat :=
  let uniq := sizes.eraseDups
  match uniq with
  | [a] => .ok a
  | [a, b] => if min a b = 1 then .ok (max a b) else .error .valueError
  | _ => .error .valueError

/-- The batch sizes of the registered optimization and auxiliary variables (`objective.py:722-723`). -/
def batchSizes {ρ : Type} (e : Env ρ) : List Nat :=
  (e.obj.optimVars.vals ++ e.obj.auxVars.vals).map fun v => (e.heap v).tensor.rows.length

/-- `_resolve_batch_size` (`objective.py:708-724`). -/
def resolveBatchSize {ρ : Type} (e : Env ρ) : Env ρ × Option Err :=
  let e := { e with batchSize := none }                                   -- 709
  match getBatchSize (batchSizes e) with
  | .error x => (e, some x)
  | .ok b => ({ e with batchSize := some b }, none)                       -- 724

/-- `Objective.update` (`objective.py:729-811`), without the vectorization refresh. -/
def update {ρ : Type} (e : Env ρ) (inputs : List (Nat × Tensor ρ)) (mask : Option (List Bool)) :
    Env ρ × Option Err :=
  match updLoop e mask inputs with
  | (e, some x) => (e, some x)
  | (e, none) => resolveBatchSize e

/-- The tensors saved by `error` (`objective.py:587-591`): optimization variables only. -/
def savedTensors {ρ : Type} (e : Env ρ) : List (Nat × Tensor ρ) :=
  e.obj.optimVars.map fun p => (p.1, (e.heap p.2).tensor)

/-- `Objective.error` (`objective.py:562-613`). `ev` is the evaluation of all the cost functions
(lines 603-605), any function of the variables' tensors, possibly raising. -/
def error {ρ ε : Type} (ev : Env ρ → Except Err ε) (e : Env ρ)
    (inputs : Option (List (Nat × Tensor ρ))) (alsoUpdate : Bool) : Env ρ × Except Err ε :=
  match inputs with
  | none => (e, ev e)
  | some inp =>
    let old := savedTensors e                                             -- 589-591
    match update e inp none with                                          -- 594
    | (e, some x) => (e, .error x)
    | (e, none) => match ev e with                                        -- 603-605
      | .error x => (e, .error x)
      | .ok r =>
        if alsoUpdate then (e, .ok r)
        else match update e old none with                                 -- 607-612
          | (e, some x) => (e, .error x)
          | (e, none) => (e, .ok r)

/-- `delta[:, a : a + d]` (`objective.py:866`). -/
def slice {δ : Type} (delta : List (List δ)) (a d : Nat) : List (List δ) :=
  delta.map fun r => (r.drop a).take d

/-- A manifold's `retract` on tensors (`geometry/manifold.py:155-156`): any function of the
variable object, its tensor and the step; it may raise. -/
abbrev RetractFn (ρ δ : Type) := Var → Tensor ρ → List (List δ) → Except Err (Tensor ρ)

/-- `_retract_base` (`objective.py:858-871`), for an `ordering` of variables with their `dof()`,
starting at column `idx`. -/
def retractFrom {ρ δ : Type} (rf : RetractFn ρ δ) (mask : Option (List Bool)) (force : Bool)
    (delta : List (List δ)) : Nat → List (Var × Nat) → Heap ρ → Heap ρ × Option Err
  | _, [], h => (h, none)
  | idx, (v, d) :: rest, h =>
    match rf v (h v).tensor (slice delta idx d) with                      -- 866
    | .error x => (h, some x)
    | .ok t =>
      match varUpdate (h v) t (if force then none else mask) with         -- 867-870
      | .error x => (h, some x)
      | .ok st => retractFrom rf mask force delta (idx + d) rest (h.put v st)  -- 871

/-- `retract_vars_sequence` without vectorization (`objective.py:873-914`). -/
def retractVars {ρ δ : Type} (rf : RetractFn ρ δ) (h : Heap ρ) (delta : List (List δ))
    (ordering : List (Var × Nat)) (mask : Option (List Bool)) (force : Bool) : Heap ρ × Option Err :=
  retractFrom rf mask force delta 0 ordering h

end Verif.Update
