import Verif.Update.Model
import Mathlib.Algebra.Field.Basic
import Mathlib.Algebra.BigOperators.Group.List.Basic
/-!
# Model of cost-function vectorization

Source: `/repo/theseus/core/vectorizer.py` and the vectorization callbacks of
`/repo/theseus/core/objective.py`.

Simplifications (all of this file):
* a vectorized variable holds only its batch rows: within one schema all tensors at one position have
  the same class and trailing shape (the schema contains them, `vectorizer.py:34-35`) and one dtype
  (the objective's, C02), so the shape/dtype checks of `var.update` (`vectorizer.py:287,300`) pass;
* a cost function's code is a parameter `ev c`: from the batch rows of `c.vars` (in the order of
  `_get_all_vars`) to the batch rows of its result, or an exception.  A result row is opaque: the
  weighted error row, or the weighted error row with its Jacobian rows, according to the mode
  (`vectorizer.py:303-311`).  The vectorized copy of `c` runs the code of `c` (`vectorizer.py:135-139`);
* `_to`, CUDA cache handling and warnings are not modelled.
-/
namespace Verif.Vectorize
open Verif Verif.Objective Verif.Update

/-- A string in a schema: a function's full name, or the class and shape of a variable
(`vectorizer.py:22-43`). -/
inductive Item where
  | fn (n : Nat)
  | var (n : Nat)
deriving DecidableEq, Repr

/-- What `_fullname` and `_varinfo` see of each object (`vectorizer.py:23-35`). -/
structure Naming where
  fnName : CostFn → Nat
  weightName : Weight → Nat
  varInfo : Var → Nat

/-- `_get_cost_function_schema` (`vectorizer.py:22-43`). -/
def schema (N : Naming) (c : CostFn) : List Item :=
  [.fn (N.fnName c)] ++ c.optimVars.map (fun v => .var (N.varInfo v))
    ++ c.auxVars.map (fun v => .var (N.varInfo v))
    ++ [.fn (N.weightName c.weight)] ++ c.weight.auxVars.map (fun v => .var (N.varInfo v))

/-- `_get_all_vars` (`vectorizer.py:198-204`). -/
def allVars (c : CostFn) : List Var := c.optimVars ++ c.auxVars ++ c.weight.auxVars

/-- One iteration of `self._schema_dict[schema].append(wrapper)` on a `defaultdict(list)`
(`vectorizer.py:126-130`). -/
def schemaAdd (N : Naming) (d : Dict (List Item) (List CostFn)) (c : CostFn) :
    Dict (List Item) (List CostFn) :=
  d.set (schema N c) ((d.get? (schema N c)).getD [] ++ [c])

/-- `_schema_dict` (`vectorizer.py:121-130`). -/
def schemaDict (N : Naming) (cs : List CostFn) : Dict (List Item) (List CostFn) :=
  cs.foldl (schemaAdd N) []

/-- A name given by `_get_var_names`: `__shared__<name>` or `var_<idx>` (`vectorizer.py:188-191`). -/
inductive Key where
  | shared (name : Nat)
  | pos (idx : Nat)
deriving DecidableEq, Repr

/-- `Vectorize._SHARED_TOKEN in name` (`vectorizer.py:247,264,291`). -/
def Key.isShared : Key → Bool
  | .shared _ => true
  | .pos _ => false

/-- `_get_name` on the set of names at one position (`vectorizer.py:188-191`). -/
def keyAt (p : Nat) (names : List Nat) : Key :=
  match names.eraseDups with
  | [a] => .shared a
  | _ => .pos p

/-- `_get_var_names` for one schema with `n` variables (`vectorizer.py:168-196`). -/
def varKeys (cs : List CostFn) (n : Nat) : List Key :=
  (List.range n).map fun p => keyAt p (cs.filterMap fun c => ((allVars c)[p]?).map Var.name)

variable {ρ ε : Type}

/-- The batch rows of a variable. -/
def rowsOf (h : Heap ρ) (v : Var) : List ρ := (h v).tensor.rows

/-- `_expand` (`vectorizer.py:206-208`): a batch of one element repeated. (`torch.expand` leaves a
tensor of the right size as it is and raises for any other size.) -/
def expand (t : List ρ) (size : Nat) : List ρ :=
  match t with
  | [a] => List.replicate size a
  | t => t

/-- The tensor appended for a variable (`vectorizer.py:244,259-267`). -/
def tensorFor (h : Heap ρ) (B : Nat) (k : Key) (v : Var) : List ρ :=
  let t := rowsOf h v
  if t.length > 1 ∨ B = 1 ∨ k.isShared = true then t else expand t B

/-- Inner loop of `_update_all_cost_fns_var_tensors`, over the variables of one cost function
(`vectorizer.py:235-269`). -/
def gatherCf (h : Heap ρ) (B : Nat) :
    List (Key × Var) → List Key → Dict Key (List (List ρ)) → Dict Key (List (List ρ))
  | [], _, d => d
  | (k, v) :: rest, seen, d =>
    if k ∈ seen then gatherCf h B rest seen d                                    -- 238-239
    else if d.has k = true ∧ k.isShared = true ∧ (rowsOf h v).length = 1 then    -- 244-250
      gatherCf h B rest seen d
    else gatherCf h B rest (k :: seen)                                           -- 259-269
      (d.set k ((d.get? k).getD [] ++ [tensorFor h B k v]))

/-- `_update_all_cost_fns_var_tensors` (`vectorizer.py:221-269`). -/
def gather (h : Heap ρ) (B : Nat) (keys : List Key) (cs : List CostFn) :
    Dict Key (List (List ρ)) :=
  cs.foldl (fun d c => gatherCf h B (keys.zip (allVars c)) [] d) []

/-- `_update_vectorized_vars` for one variable (`vectorizer.py:283-300`). -/
def vecTensor (d : Dict Key (List (List ρ))) (B n : Nat) (k : Key) : List ρ :=
  let ts := (d.get? k).getD []
  if n = 1 then ts.headD []                                                      -- 286-288
  else if k.isShared = true ∧ (ts.headD []).length = 1 then                      -- 291-297
    expand (ts.headD []) (B * n)
  else ts.flatten                                                                -- 299

/-- The code of a cost function: rows of its variables to rows of its result. -/
abbrev Code (ρ ε : Type) := CostFn → List (List ρ) → Except Err (List ε)

/-- What a cost function itself computes from the current tensors. -/
def own (ev : Code ρ ε) (h : Heap ρ) (c : CostFn) : Except Err (List ε) :=
  ev c ((allVars c).map (rowsOf h))

/-- The slices of `_compute_error_and_replace_wrapper_caches` (`vectorizer.py:324-332`). -/
def slices (B : Nat) (r : List ε) : Nat → List CostFn → List (CostFn × List ε)
  | _, [] => []
  | start, c :: cs => (c, (r.drop start).take B) :: slices B r (start + B) cs

/-- `_handle_singleton_wrapper` / `_handle_schema_vectorization` on the wrappers of one schema
(`vectorizer.py:343-380,400-403`). -/
def runGroup (ev : Code ρ ε) (h : Heap ρ) (B : Nat) : List CostFn → Except Err (List (CostFn × List ε))
  | [] => .ok []
  | [c] => match own ev h c with                                                 -- 343-353
    | .error x => .error x
    | .ok r => .ok [(c, r)]
  | c :: cs =>
    let keys := varKeys (c :: cs) (allVars c).length
    let d := gather h B keys (c :: cs)
    match ev c (keys.map (vecTensor d B (c :: cs).length)) with                  -- 323
    | .error x => .error x
    | .ok r => .ok (slices B r 0 (c :: cs))

/-- The loop of `_vectorize` over the schemas (`vectorizer.py:399-403`): the caches filled so far,
and the exception that stopped it, if any. -/
def runGroups (ev : Code ρ ε) (h : Heap ρ) (B : Nat) :
    List (List CostFn) → List (CostFn × List ε) × Option Err
  | [] => ([], none)
  | g :: gs => match runGroup ev h B g with
    | .error x => ([], some x)
    | .ok r => let (rs, x) := runGroups ev h B gs; (r ++ rs, x)

/-- `_vectorize` (`vectorizer.py:382-404`) for the wrappers `cs`: the results, grouped by schema. -/
def vectorize (N : Naming) (ev : Code ρ ε) (h : Heap ρ) (B : Nat) (cs : List CostFn) :
    List (CostFn × List ε) × Option Err :=
  runGroups ev h B (schemaDict N cs).vals

/-- Full mode returns the wrappers in their original order (`vectorizer.py:385-390,404`): for each, the
cached result.  An uncached wrapper falls back to `fb` (`vectorizer.py:84-95`). -/
def serve (cache : Dict CostFn (List ε)) (fb : CostFn → Except Err (List ε)) (c : CostFn) :
    Except Err (List ε) :=
  match cache.get? c with
  | some r => .ok r
  | none => fb c

/-! ### `error()` -/

/-- `torch.cat(..., dim=1)` of batches of rows (`objective.py:603-605`): the batch sizes must be
equal, otherwise torch raises `RuntimeError`; so it does for an empty list. -/
def catCols {R : Type} : List (List (List R)) → Except Err (List (List R))
  | [] => .error .runtimeError
  | [b] => .ok b
  | b :: bs => match catCols bs with
    | .error x => .error x
    | .ok r => if b.length = r.length then .ok (List.zipWith (· ++ ·) b r) else .error .runtimeError

/-- Evaluate a list of computations in order. -/
def sequence {α : Type} : List (Except Err α) → Except Err (List α)
  | [] => .ok []
  | .error x :: _ => .error x
  | .ok a :: l => match sequence l with
    | .error x => .error x
    | .ok as => .ok (a :: as)

/-- `error()` without vectorization (`objective.py:603-605, 836-837`). -/
def errorSeq {R : Type} (ev : Code ρ (List R)) (h : Heap ρ) (cs : List CostFn) :
    Except Err (List (List R)) :=
  match sequence (cs.map (own ev h)) with
  | .error x => .error x
  | .ok bs => catCols bs

/-- `error()` with vectorization (`objective.py:603-605`, `vectorizer.py:391-407`). -/
def errorVec {R : Type} (N : Naming) (ev : Code ρ (List R)) (h : Heap ρ) (B : Nat)
    (cs : List CostFn) : Except Err (List (List R)) :=
  match vectorize N ev h B cs with
  | (_, some x) => .error x
  | (rs, none) => catCols (rs.map Prod.snd)

/-- `error_squared_norm_fn` (`objective.py:37-38`). -/
def sqNorm {R : Type} [Field R] (e : List (List R)) : List R :=
  e.map fun row => (row.map fun a => a ^ 2).sum / 2

/-! ### Retraction -/

/-- The class and the `dof()` of each variable object. -/
structure Geo where
  cls : Var → Nat
  dof : Var → Nat

/-- A class's `retract` (`geometry/manifold.py:155-156`), on batch rows. -/
abbrev ClsRetract (ρ δ : Type) := Nat → Nat → Tensor ρ → List (List δ) → Except Err (Tensor ρ)

/-- `torch.cat(tensors, dim=0)` (`vectorizer.py:449`); trailing shapes must agree. (Different dtypes
are taken to raise as well; torch promotes them and `update` raises later.) -/
def catRows : List (Tensor ρ) → Except Err (Tensor ρ)
  | [] => .error .runtimeError
  | [t] => .ok t
  | t :: ts => match catRows ts with
    | .error x => .error x
    | .ok r => if t.trail = r.trail ∧ t.dtype = r.dtype ∧ t.device = r.device then
        .ok { t with rows := t.rows ++ r.rows } else .error .runtimeError

/-- The grouping loop of `_vectorized_retract_optim_vars` (`vectorizer.py:425-441`). `B` is
`batch_size`, `none` for -1. -/
def groupVars {δ : Type} (G : Geo) (h : Heap ρ) (delta : List (List δ)) :
    Nat → Option Nat → List Var → Dict (Nat × Nat) (List (Var × List (List δ))) →
    Except Err (Option Nat × Dict (Nat × Nat) (List (Var × List (List δ))))
  | _, B, [], d => .ok (B, d)
  | idx, B, v :: rest, d =>
    if B ≠ none ∧ B ≠ some (rowsOf h v).length then .error .assertionError        -- 430-433
    else groupVars G h delta (idx + G.dof v) (some (rowsOf h v).length) rest
        (d.set (G.cls v, G.dof v)                                                 -- 435-441
          ((d.get? (G.cls v, G.dof v)).getD [] ++ [(v, slice delta idx (G.dof v))]))

/-- Redistribution of the retracted rows (`vectorizer.py:462-469`). -/
def scatter (B : Nat) (mask : Option (List Bool)) (force : Bool) (new : Tensor ρ) :
    Nat → List Var → Heap ρ → Heap ρ × Option Err
  | _, [], h => (h, none)
  | start, v :: vs, h =>
    match varUpdate (h v) { new with rows := (new.rows.drop start).take B }       -- 464-468
        (if force then none else mask) with
    | .error x => (h, some x)
    | .ok st => scatter B mask force new (start + B) vs (h.put v st)              -- 469

/-- One group (`vectorizer.py:443-469`). -/
def retractGroup {δ : Type} (rf : ClsRetract ρ δ) (B : Nat) (mask : Option (List Bool)) (force : Bool)
    (k : Nat × Nat) (g : List (Var × List (List δ))) (h : Heap ρ) : Heap ρ × Option Err :=
  match catRows (g.map fun p => (h p.1).tensor) with                              -- 449
  | .error x => (h, some x)
  | .ok t =>
    let dl := (g.map Prod.snd).flatten                                            -- 456
    if dl.length ≠ g.length * B ∨ ¬ (∀ r ∈ dl, r.length = k.2) then
      (h, some .assertionError)                                                   -- 457
    else match rf k.1 k.2 t dl with                                               -- 460-461
      | .error x => (h, some x)
      | .ok new => scatter B mask force new 0 (g.map Prod.fst) h

/-- All groups, in order (`vectorizer.py:443`). -/
def retractGroups {δ : Type} (rf : ClsRetract ρ δ) (B : Nat) (mask : Option (List Bool))
    (force : Bool) : List ((Nat × Nat) × List (Var × List (List δ))) → Heap ρ → Heap ρ × Option Err
  | [], h => (h, none)
  | (k, g) :: gs, h => match retractGroup rf B mask force k g h with
    | (h, some x) => (h, some x)
    | (h, none) => retractGroups rf B mask force gs h

/-- `_vectorized_retract_optim_vars` (`vectorizer.py:409-469`). -/
def retractVec {δ : Type} (rf : ClsRetract ρ δ) (G : Geo) (h : Heap ρ) (delta : List (List δ))
    (ord : List Var) (mask : Option (List Bool)) (force : Bool) : Heap ρ × Option Err :=
  match groupVars G h delta 0 none ord [] with
  | .error x => (h, some x)
  | .ok (B, d) => retractGroups rf (B.getD 0) mask force d h

end Verif.Vectorize
