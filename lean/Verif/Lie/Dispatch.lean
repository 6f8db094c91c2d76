import Verif.Lie.Tensor
import Mathlib.Data.List.Basic

/-!
# Model of `LieTensor.__torch_function__` (`torchlie/torchlie/lie_tensor.py` L86-113, L207-241)

The data of a tensor is any type `D`, a torch function is any partial function on the raw arguments
(`none`: it raises) that returns a list of tensors, and `ok` is `check_group_tensor`.
-/

namespace Verif.Lie.Dispatch
open Verif.Lie.Tensor (Lt)

variable {D : Type}

/-- A leaf of the arguments (after `tree_flatten`): a `LieTensor`, another tensor, another object. -/
inductive Leaf (D : Type) where
  | lie (lt : Lt) (d : D)
  | tensor (d : D)
  | other

/-- `resolve_ltype` (lie_tensor.py L91-93). -/
def Leaf.lt : Leaf D → Option Lt
  | .lie lt _ => some lt
  | _ => none

/-- `to_torch` (lie_tensor.py L86-88): `x._t` for the `LieTensor`s. -/
def Leaf.raw : Leaf D → Leaf D
  | .lie _ d => .tensor d
  | x => x

/-- Where a torch function is listed: `_SAFE_AS_EUCL_OPS` (lie_tensor.py L177-187),
`_SAFE_SUPER_OPS` (L151-172; `grad.__get__` and `__getitem__`, with or without a tuple as index, are
treated specially), or nowhere. -/
inductive Cat where
  | safeEucl | safeSuper | gradGet | getitem (tuple : Bool) | unlisted
deriving DecidableEq

/-- The exceptions (lie_tensor.py L100-103, L223-226, L229-233; the error of the torch function
itself; `AttributeError` from `None._fn_lib`, L80). -/
inductive Err where
  | value | notImplemented | torch | attribute
deriving DecidableEq

/-- What is returned: raw tensors, `LieTensor`s, or a marked Euclidean gradient. -/
inductive Ret (D : Type) where
  | raw (ts : List D)
  | lie (ts : List (Lt × D))
  | grad (ts : List D)
deriving DecidableEq

/-- `get_ltype` (lie_tensor.py L95-104). -/
def getLtype (args : List (Leaf D)) : Except Err (Option Lt) :=
  match (args.filterMap Leaf.lt).dedup with
  | [] => .ok none
  | [l] => .ok (some l)
  | _ => .error .value

/-- `_torch_func_impl_eucl` with `raw_tensor=True` (lie_tensor.py L106-113). -/
def eucl (f : List (Leaf D) → Option (List D)) (args kwargs : List (Leaf D)) : Except Err (Ret D) :=
  match getLtype args with
  | .error e => .error e
  | .ok _ =>
    match f (args.map Leaf.raw ++ kwargs.map Leaf.raw) with
    | none => .error .torch
    | some ts => .ok (.raw ts)

/-- `from_tensor` on every tensor that is returned (lie_tensor.py L228 with L204-205, L71-80): the
data are checked; without an `ltype` there is an `AttributeError`. -/
def wrap (ok : Lt → D → Bool) (l : Option Lt) : List D → Except Err (List (Lt × D))
  | [] => .ok []
  | d :: ds =>
    match l with
    | none => .error .attribute
    | some lt =>
      if ok lt d then
        match wrap ok l ds with
        | .error e => .error e
        | .ok r => .ok ((lt, d) :: r)
      else .error .value

/-- `_torch_function_impl_lie` (lie_tensor.py L207-233). -/
def lieImpl (ok : Lt → D → Bool) (c : Cat) (f : List (Leaf D) → Option (List D))
    (args kwargs : List (Leaf D)) : Except Err (Ret D) :=
  match c with
  | .safeEucl => eucl f args kwargs
  | .unlisted => .error .notImplemented
  | c =>
    match getLtype args with
    | .error e => .error e
    | .ok l =>
      match f (args.map Leaf.raw ++ kwargs.map Leaf.raw) with
      | none => .error .torch
      | some ts =>
        match c with
        | .gradGet => .ok (.grad ts)
        | .getitem true => .error .notImplemented
        | _ =>
          match wrap ok l ts with
          | .error e => .error e
          | .ok r => .ok (.lie r)

/-- `__torch_function__` (lie_tensor.py L234-241); `ctx` is `euclidean_enabled()`. -/
def torchFunction (ctx : Bool) (ok : Lt → D → Bool) (c : Cat) (f : List (Leaf D) → Option (List D))
    (args kwargs : List (Leaf D)) : Except Err (Ret D) :=
  if ctx then eucl f args kwargs else lieImpl ok c f args kwargs

end Verif.Lie.Dispatch
