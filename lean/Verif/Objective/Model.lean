import Verif.Util.Dict
/-!
# Model of `theseus.Objective` book-keeping

Source: `/repo/theseus/core/objective.py`.

Simplifications (all of this file):
* names and dtypes are natural numbers (only equality of names/dtypes is used by the code);
* a Python object is a Lean value carrying an `id`; `is` / dictionary-key identity is equality of
  the values (two distinct objects differ at least in `id`);
* attributes of a variable / cost function / weight (name, registered variables, weight) do not
  change between calls; the `variable.name is None` check (`objective.py:177-181`) is not modelled
  because `Variable.__init__` always assigns a name;
* tensors, devices and vectorization are modelled elsewhere.
-/
namespace Verif.Objective
open Verif

/-- A `theseus.Variable` object (`core/variable.py:14-38`): identity, name, dtype. -/
structure Var where
  id : Nat
  name : Nat
  dtype : Nat := 0
deriving DecidableEq, Repr

/-- A `theseus.CostWeight` object (`core/cost_weight.py`, `core/theseus_function.py:21-34,119-125`). -/
structure Weight where
  id : Nat
  optimVars : List Var := []
  auxVars : List Var := []
deriving DecidableEq, Repr

/-- A `theseus.CostFunction` object (`core/cost_function.py`, `core/theseus_function.py:21-34,119-125`). -/
structure CostFn where
  id : Nat
  name : Nat
  optimVars : List Var
  auxVars : List Var
  weight : Weight
  dim : Nat := 1
deriving DecidableEq, Repr

/-- A `TheseusFunction`: a cost function or a cost weight (`core/theseus_function.py:21`). -/
inductive Fn where
  | cost (c : CostFn)
  | weight (w : Weight)
deriving DecidableEq, Repr

/-- Python exceptions that `add`/`erase` can raise. -/
inductive Err where
  | valueError | runtimeError | keyError | assertionError | typeError
deriving DecidableEq, Repr

/-- Which variable container is being updated: the flags `optim_vars`, `is_cost_weight` of
`_add_function_variables` / `_erase_function_variables` (`objective.py:158-173, 390-405`). -/
inductive Kind where
  | optim | cwOptim | aux
deriving DecidableEq, Repr

/-- The book-keeping fields of `Objective` (`objective.py:72-154`). -/
structure State where
  mixed : Bool
  dtype : Nat
  costFns : Dict Nat CostFn
  optimVars : Dict Nat Var
  cwOptimVars : Dict Nat Var
  auxVars : Dict Nat Var
  allVars : Dict Nat Var
  cfForWeights : Dict Weight (List CostFn)
  fnsForOptim : Dict Var (List Fn)
  fnsForAux : Dict Var (List Fn)
  version : Nat
deriving DecidableEq, Repr

/-- `Objective.__init__` (`objective.py:66-156`). -/
def init (dtype : Nat) (mixed : Bool) : State :=
  { mixed, dtype, costFns := [], optimVars := [], cwOptimVars := [], auxVars := [], allVars := [],
    cfForWeights := [], fnsForOptim := [], fnsForAux := [], version := 0 }

/-- Result of a method: the state it leaves behind (Python keeps side effects made before a
`raise`) and the exception, if any. -/
abbrev Res := State × Option Err

/-- Sequencing of statements: stop at the first exception. -/
def Res.andThen (r : Res) (k : State → Res) : Res :=
  match r with
  | (s, none) => k s
  | (s, some e) => (s, some e)

/-- `self_var_to_fn_map` (`objective.py:166,172,401,405`). -/
def State.fnMap (s : State) : Kind → Dict Var (List Fn)
  | .optim => s.fnsForOptim
  | .cwOptim => s.fnsForOptim
  | .aux => s.fnsForAux

/-- Assignment to `self_var_to_fn_map`. -/
def State.setFnMap (s : State) (k : Kind) (m : Dict Var (List Fn)) : State :=
  match k with
  | .optim => { s with fnsForOptim := m }
  | .cwOptim => { s with fnsForOptim := m }
  | .aux => { s with fnsForAux := m }

/-- `self_vars_of_this_type` (`objective.py:167-169,173,398-400,404`). -/
def State.typed (s : State) : Kind → Dict Nat Var
  | .optim => s.optimVars
  | .cwOptim => s.cwOptimVars
  | .aux => s.auxVars

/-- Assignment to `self_vars_of_this_type`. -/
def State.setTyped (s : State) (k : Kind) (m : Dict Nat Var) : State :=
  match k with
  | .optim => { s with optimVars := m }
  | .cwOptim => { s with cwOptimVars := m }
  | .aux => { s with auxVars := m }

/-- Tail of the loop body of `_add_function_variables` (`objective.py:200-208`). -/
def addVarTail (s : State) (f : Fn) (k : Kind) (v : Var) : Res :=
  let s := s.setTyped k ((s.typed k).set v.name v)                       -- 202
  let s := if s.mixed && !(s.fnMap k).has v                              -- 204-205
           then s.setFnMap k ((s.fnMap k).set v []) else s
  match (s.fnMap k).get? v with                                          -- 208
  | none => (s, some .keyError)
  | some l => (s.setFnMap k ((s.fnMap k).set v (l ++ [f])), none)

/-- Loop body of `_add_function_variables` (`objective.py:175-208`). -/
def addVar (s : State) (f : Fn) (k : Kind) (v : Var) : Res :=
  if v.dtype ≠ s.dtype then (s, some .valueError)                        -- 182-186
  else match s.allVars.get? v.name with
    | some w =>                                                          -- 188-194
      if w ≠ v then (s, some .valueError) else addVarTail s f k v
    | none =>                                                            -- 195-198
      let s := { s with allVars := s.allVars.set v.name v }
      if (s.fnMap k).has v then (s, some .assertionError)
      else addVarTail (s.setFnMap k ((s.fnMap k).set v [])) f k v

/-- `_add_function_variables` (`objective.py:158-208`). -/
def addFnVars (s : State) (f : Fn) (k : Kind) : List Var → Res
  | [] => (s, none)
  | v :: vs => (addVar s f k v).andThen (fun s => addFnVars s f k vs)

/-- Check of `objective.py:300-310`, over the two name lists of `objective.py:288-299`. -/
def dualCheck (s : State) (c : CostFn) : Res :=
  if s.mixed then (s, none)
  else if (c.optimVars ++ c.weight.optimVars).any (fun v => s.auxVars.has v.name) then
    (s, some .valueError)
  else if (c.auxVars ++ c.weight.auxVars).any (fun v => s.optimVars.has v.name) then
    (s, some .valueError)
  else (s, none)

/-- Registration of the cost weight (`objective.py:262-284`). -/
def addWeight (s : State) (c : CostFn) : Res :=
  if s.cfForWeights.has c.weight then (s, none)
  else
    (addFnVars s (.weight c.weight) .cwOptim c.weight.optimVars).andThen fun s =>
    (addFnVars s (.weight c.weight) .aux c.weight.auxVars).andThen fun s =>
    let s := { s with cfForWeights := s.cfForWeights.set c.weight [] }
    if c.weight.optimVars.length > 0 then (s, some .runtimeError) else (s, none)

/-- `self.cost_functions_for_weights[cost_function.weight].append(cost_function)`
(`objective.py:286`). -/
def linkWeight (s : State) (c : CostFn) : Res :=
  match s.cfForWeights.get? c.weight with
  | none => (s, some .keyError)
  | some l => ({ s with cfForWeights := s.cfForWeights.set c.weight (l ++ [c]) }, none)

/-- Body of `add` after the duplicate-name check (`objective.py:254-310`). -/
def addBody (s : State) (c : CostFn) : Res :=
  let s := { s with version := s.version + 1 }                            -- 254
  (addFnVars s (.cost c) .optim c.optimVars).andThen fun s =>             -- 257
  (addFnVars s (.cost c) .aux c.auxVars).andThen fun s =>                 -- 260
  (addWeight s c).andThen fun s =>                                        -- 262-284
  (linkWeight s c).andThen fun s =>                                       -- 286
  dualCheck s c                                                           -- 288-310

/-- `Objective.add` (`objective.py:210-310`). Re-adding only warns, and goes on. -/
def add (s : State) (c : CostFn) : Res :=
  match s.costFns.get? c.name with
  | some c' => if c ≠ c' then (s, some .valueError) else addBody s c      -- 239-250
  | none => addBody { s with costFns := s.costFns.set c.name c } c        -- 251-252

/-- Loop body of `_erase_function_variables` (`objective.py:407-415`). -/
def eraseVar (s : State) (f : Fn) (k : Kind) (v : Var) : Res :=
  match (s.fnMap k).get? v with
  | none => (s, some .keyError)                                           -- 408
  | some l =>
    if f ∉ l then (s, some .valueError)                                   -- 408 (list.index)
    else
      let l' := l.erase f                                                 -- 410
      let s := s.setFnMap k ((s.fnMap k).set v l')
      if l' ≠ [] then (s, none)                                           -- 412
      else if !s.allVars.has v.name then (s, some .keyError)              -- 413
      else
        let s := { s with allVars := s.allVars.del v.name }
        let s := s.setFnMap k ((s.fnMap k).del v)                         -- 414
        if !(s.typed k).has v.name then (s, some .keyError)               -- 415
        else (s.setTyped k ((s.typed k).del v.name), none)

/-- `_erase_function_variables` (`objective.py:390-415`). -/
def eraseFnVars (s : State) (f : Fn) (k : Kind) : List Var → Res
  | [] => (s, none)
  | v :: vs => (eraseVar s f k v).andThen (fun s => eraseFnVars s f k vs)

/-- Removal of the cost weight link (`objective.py:436-451`). -/
def eraseWeight (s : State) (c : CostFn) : Res :=
  match s.cfForWeights.get? c.weight with
  | none => (s, some .keyError)                                           -- 437
  | some l =>
    if c ∉ l then (s, some .valueError)                                   -- 437 (list.index)
    else
      let l' := l.erase c                                                 -- 440
      let s := { s with cfForWeights := s.cfForWeights.set c.weight l' }
      if l'.length = 0 then                                               -- 443
        (eraseFnVars s (.weight c.weight) .cwOptim c.weight.optimVars).andThen fun s =>
        (eraseFnVars s (.weight c.weight) .aux c.weight.auxVars).andThen fun s =>
        ({ s with cfForWeights := s.cfForWeights.del c.weight }, none)    -- 451
      else (s, none)

/-- `Objective.erase` (`objective.py:417-458`). Erasing an absent name only warns. -/
def erase (s : State) (name : Nat) : Res :=
  let s := { s with version := s.version + 1 }                            -- 428
  match s.costFns.get? name with
  | none => (s, none)                                                     -- 455-458
  | some c =>
    (eraseFnVars s (.cost c) .optim c.optimVars).andThen fun s =>         -- 432
    (eraseFnVars s (.cost c) .aux c.auxVars).andThen fun s =>             -- 433
    (eraseWeight s c).andThen fun s =>                                    -- 436-451
    ({ s with costFns := s.costFns.del name }, none)                      -- 454

/-- `has_optim_var` (`objective.py:336-347`). -/
def hasOptimVar (s : State) (n : Nat) : Bool := s.optimVars.has n
/-- `has_aux_var` (`objective.py:361-372`). -/
def hasAuxVar (s : State) (n : Nat) : Bool := s.auxVars.has n
/-- `has_cost_function` (`objective.py:324-334`). -/
def hasCostFunction (s : State) (n : Nat) : Bool := s.costFns.has n
/-- `get_cost_function` (`objective.py:312-322`). -/
def getCostFunction (s : State) (n : Nat) : Option CostFn := s.costFns.get? n
/-- `get_optim_var` (`objective.py:349-359`). -/
def getOptimVar (s : State) (n : Nat) : Option Var := s.optimVars.get? n
/-- `get_aux_var` (`objective.py:374-384`). -/
def getAuxVar (s : State) (n : Nat) : Option Var := s.auxVars.get? n

/-- `_get_functions_connected_to_var` with a variable object (`objective.py:473-477`). -/
def connectedToVar (m : Dict Var (List Fn)) (v : Var) : Except Err (List Fn) :=
  match m.get? v with
  | none => .error .valueError
  | some l => .ok l

/-- `_get_functions_connected_to_var` with a name (`objective.py:467-477`). -/
def connectedToName (d : Dict Nat Var) (m : Dict Var (List Fn)) (n : Nat) : Except Err (List Fn) :=
  match d.get? n with
  | none => .error .valueError
  | some v => connectedToVar m v

/-- `dim` (`objective.py:516-527`). -/
def dim (s : State) : Nat := (s.costFns.vals).foldl (fun a c => a + c.dim) 0
/-- `size` (`objective.py:529-536`). -/
def size (s : State) : Nat × Nat := (s.costFns.length, s.optimVars.length)
/-- `size_cost_functions` (`objective.py:538-544`). -/
def sizeCostFunctions (s : State) : Nat := s.costFns.length
/-- `size_variables` (`objective.py:546-552`). -/
def sizeVariables (s : State) : Nat := s.optimVars.length
/-- `size_aux_vars` (`objective.py:554-560`). -/
def sizeAuxVars (s : State) : Nat := s.auxVars.length
/-- `__iter__` (`objective.py:833-834`). -/
def iter (s : State) : List CostFn := s.costFns.vals

/-- A call a user can make on an objective. -/
inductive Call where
  | add (c : CostFn)
  | erase (name : Nat)
deriving DecidableEq, Repr

/-- One call. -/
def call (s : State) : Call → Res
  | .add c => add s c
  | .erase n => erase s n

/-- A history of calls, where the caller catches exceptions and continues. -/
def run (s : State) : List Call → State
  | [] => s
  | c :: cs => run (call s c).1 cs

end Verif.Objective

namespace Verif.Objective

/-- An `Optimizer` / `TheseusLayer` remembers the objective's version at construction
(`optimizer/optimizer.py:28-34`, `theseus_layer.py:30-43`). -/
structure Runner where
  version : Nat
deriving DecidableEq, Repr

/-- `Optimizer.__init__` / `TheseusLayer.__init__` (same lines). -/
def buildRunner (s : State) : Runner := ⟨s.version⟩

/-- The guard at the top of `Optimizer.optimize` (`optimizer/optimizer.py:47-51`) and
`TheseusLayer.forward` (`theseus_layer.py:50-54`): `some .runtimeError` if it raises. -/
def runGuard (r : Runner) (s : State) : Option Err :=
  if r.version ≠ s.version then some .runtimeError else none

end Verif.Objective
