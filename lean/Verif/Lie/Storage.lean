import Verif.Lie.Tensor

/-!
# Model of the creation of `LieTensor`s and of their storage
(`torchlie/torchlie/lie_tensor.py` L57-80, L203-205, L247-268, L387-405, L435-478)

Python objects that are tensors, and the storages they point to.  `D` is the type of the contents of
a storage (a view of a part of a storage is not modelled), `ok` is `check_group_tensor`.
-/

namespace Verif.Lie.Storage
open Verif.Lie.Tensor (Lt)

variable {D : Type}

/-- A tensor object: its `ltype` if it is a `LieTensor`, and its storage. -/
structure Obj where
  lt : Option Lt
  sid : ℕ

/-- All storages and all tensor objects. -/
structure St (D : Type) where
  stores : List D
  objs : List Obj

/-- The exceptions: no such object in the model, invalid data (L80), missing `ltype` (L447-448), an
operation that `LieTensor` does not support (L229-233), `add_` with a tensor that is not a gradient
(L404-405). -/
inductive Err where
  | noObject | value | notImplemented | runtime
deriving DecidableEq

/-- What a user can do (see `step`). -/
inductive Op (D : Type) where
  /-- create a torch tensor -/
  | raw (d : D)
  /-- `g._t`, or another alias of object `i` -/
  | view (i : ℕ)
  /-- `LieTensor(t, ltype)`, `SO3(t)`, `SE3(t)` -/
  | construct (i : ℕ) (lt : Lt)
  /-- `from_tensor(t, ltype)` -/
  | fromTensor (i : ℕ) (lt : Lt)
  /-- `as_lietensor(t, ltype)`; `same`: dtype and device agree -/
  | asLie (i : ℕ) (lt : Option Lt) (same : Bool)
  /-- `g.new_lietensor(t)` -/
  | newLie (g i : ℕ)
  /-- an in-place torch operation on object `i` that leaves `d` in it -/
  | inplace (i : ℕ) (d : D)
  /-- `g.add_(u)`; `marked`: `u` stems from a gradient; `d` is the value of the retraction -/
  | add (g : ℕ) (marked : Bool) (d : D)

/-- The contents of an object. -/
def St.val (s : St D) (o : Obj) : Option D := s.stores[o.sid]?

/-- A new object with its own storage (`data.clone()`, lie_tensor.py L64-66). -/
def St.fresh (s : St D) (lt : Option Lt) (d : D) : St D :=
  ⟨s.stores ++ [d], s.objs ++ [⟨lt, s.stores.length⟩]⟩

/-- A new object on an existing storage (`_shared_memory=True`, lie_tensor.py L482-486). -/
def St.shared (s : St D) (lt : Option Lt) (sid : ℕ) : St D := ⟨s.stores, s.objs ++ [⟨lt, sid⟩]⟩

/-- One operation; `.inl i` is the index of the object that is returned.  An exception leaves the
state as it is.
`construct`: lie_tensor.py L57-80; `fromTensor`: L203-205, L480-486; `asLie`: L435-453 (a `LieTensor`
is returned as it is, or converted; the `ltype` that is passed is not looked at); `newLie`: L247-268;
`inplace`: on a `LieTensor` L229-233; `add`: L387-405 (`self.set_(res)` makes the object point to the
storage of the result). -/
def step (ok : Lt → D → Bool) (s : St D) : Op D → Except Err (St D × ℕ)
  | .raw d => .ok (s.fresh none d, s.objs.length)
  | .view i =>
    match s.objs[i]? with
    | none => .error .noObject
    | some o => .ok (s.shared none o.sid, s.objs.length)
  | .construct i lt =>
    match s.objs[i]? with
    | none => .error .noObject
    | some o =>
      match s.val o with
      | none => .error .noObject
      | some d => if ok lt d then .ok (s.fresh (some lt) d, s.objs.length) else .error .value
  | .fromTensor i lt =>
    match s.objs[i]? with
    | none => .error .noObject
    | some o =>
      match s.val o with
      | none => .error .noObject
      | some d => if ok lt d then .ok (s.shared (some lt) o.sid, s.objs.length) else .error .value
  | .asLie i lt same =>
    match s.objs[i]? with
    | none => .error .noObject
    | some o =>
      match s.val o with
      | none => .error .noObject
      | some d =>
        match o.lt, lt with
        | some l, _ =>
          if same then .ok (s, i)
          else if ok l d then .ok (s.fresh (some l) d, s.objs.length) else .error .value
        | none, none => .error .value
        | none, some l =>
          if ok l d then
            .ok (if same then s.shared (some l) o.sid else s.fresh (some l) d, s.objs.length)
          else .error .value
  | .newLie g i =>
    match s.objs[g]?, s.objs[i]? with
    | some og, some o =>
      match og.lt, s.val o with
      | some l, some d => if ok l d then .ok (s.fresh (some l) d, s.objs.length) else .error .value
      | _, _ => .error .noObject
    | _, _ => .error .noObject
  | .inplace i d =>
    match s.objs[i]? with
    | none => .error .noObject
    | some o =>
      match o.lt with
      | some _ => .error .notImplemented
      | none => .ok (⟨s.stores.set o.sid d, s.objs⟩, i)
  | .add g marked d =>
    match s.objs[g]? with
    | none => .error .noObject
    | some o =>
      match o.lt with
      | none => .error .noObject
      | some _ =>
        if marked then .ok (⟨s.stores ++ [d], s.objs.set g { o with sid := s.stores.length }⟩, g)
        else .error .runtime

/-- A history: the operations one after the other; failed ones change nothing. -/
def run (ok : Lt → D → Bool) : St D → List (Op D) → St D
  | s, [] => s
  | s, o :: os =>
    match step ok s o with
    | .error _ => run ok s os
    | .ok (s', _) => run ok s' os

end Verif.Lie.Storage
