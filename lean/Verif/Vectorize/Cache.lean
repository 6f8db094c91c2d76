import Verif.Vectorize.Model
/-!
# Model of the vectorization cache of an objective

Source: `/repo/theseus/core/objective.py` (`update`, `error`, `retract_vars_sequence`,
`update_vectorization_if_needed`, `_get_jacobians_iter`, `_enable_vectorization`,
`disable_vectorization`) and `/repo/theseus/core/vectorizer.py`.

Simplifications: as in `Vectorize/Model.lean` and `Update/Model.lean`.  Moreover
* whether a tensor carries gradient history is one flag, the grad mode in which it was computed;
* tensors change only through `Variable.update` (an in-place edit of a tensor does not increment
  the counter, so the code cannot see it);
* with an unresolved batch size, vectorized evaluation of a schema with several cost functions raises
  `TypeError` (arithmetic on `None`, `vectorizer.py:294-299,328-332`); when several things would raise,
  which one comes first is not modelled.
-/
namespace Verif.Vectorize
open Verif Verif.Objective Verif.Update

variable {ρ ε R δ : Type}

/-- An objective with its vectorization state (`objective.py:66-156`, `vectorizer.py:75-76,118-161`). -/
structure VEnv (ρ ε : Type) where
  env : Env ρ
  /-- the cost functions wrapped by the enabled `Vectorize`; `none`: vectorization is off -/
  wrappers : Option (List CostFn) := none
  /-- `_cached_jacobians`/`_cached_error` of the wrappers -/
  cache : List (CostFn × List ε) := []
  /-- grad mode in which the cache was computed -/
  cacheGrad : Bool := false
  /-- `_num_updates_variables` -/
  seen : Dict Nat Nat := []
  /-- `_last_vectorization_has_grad` -/
  lastGrad : Bool := false
  /-- `torch.is_grad_enabled()` -/
  grad : Bool := true

/-- `{name: v._num_updates for name, v in self._all_variables.items()}` (`objective.py:814`). -/
def counts (e : Env ρ) : Dict Nat Nat :=
  e.obj.allVars.map fun p => (p.1, (e.heap p.2).numUpdates)

/-- Python's `==` on dictionaries, which ignores the order (`objective.py:816`). -/
def dictEq (d d' : Dict Nat Nat) : Bool :=
  d.all (fun p => decide (d'.get? p.1 = some p.2)) && d'.all (fun p => decide (d.get? p.1 = some p.2))

/-- Everything that a theorem ranges over: names, code, error code, fallback of an uncached wrapper,
retractions. -/
structure Sys (ρ ε R δ : Type) where
  N : Naming
  /-- `weighted_jacobians_error` of each cost function -/
  ev : Code ρ ε
  /-- `weighted_error` of each cost function -/
  evE : Code ρ (List R)
  /-- `super().weighted_jacobians_error()` of the wrapper (`vectorizer.py:92-93`) -/
  fb : Heap ρ → CostFn → Except Err (List ε)
  G : Geo
  rf : ClsRetract ρ δ

/-- `_vectorize` with the objective's batch size (`vectorizer.py:365,382-404`). -/
def runVec {ε' : Type} (N : Naming) (ev : Code ρ ε') (e : Env ρ) (cs : List CostFn) :
    List (CostFn × List ε') × Option Err :=
  match e.batchSize with
  | some B => vectorize N ev e.heap B cs
  | none => if (schemaDict N cs).vals.any (fun g => decide (g.length ≠ 1)) then ([], some .typeError)
      else vectorize N ev e.heap 0 cs

/-- The body of `update_vectorization_if_needed` (`objective.py:827-830`). -/
def recompute (S : Sys ρ ε R δ) (s : VEnv ρ ε) (cs : List CostFn) : VEnv ρ ε × Option Err :=
  match (if s.env.batchSize = none then resolveBatchSize s.env else (s.env, none)) with -- 827-828
  | (e, some x) => ({ s with env := e }, some x)
  | (e, none) =>
    match runVec S.N S.ev e cs with                                               -- 829
    | (rs, some x) => ({ s with env := e, cache := rs, cacheGrad := s.grad }, some x)
    | (rs, none) =>
      ({ s with env := e, cache := rs, cacheGrad := s.grad, lastGrad := s.grad }, none) -- 830

/-- `update_vectorization_if_needed` (`objective.py:813-830`). -/
def refresh (S : Sys ρ ε R δ) (s : VEnv ρ ε) : VEnv ρ ε × Option Err :=
  match s.wrappers with
  | none => (s, none)                                                             -- 826
  | some cs =>
    if dictEq (counts s.env) s.seen = false then                                  -- 814-816
      recompute S { s with seen := counts s.env } cs                              -- 817
    else if s.grad = true ∧ s.lastGrad = false then recompute S s cs              -- 820-822
    else (s, none)

/-- The evaluation inside `error()` (`objective.py:603-605`): over the objective's cost functions, or
over the wrapped ones with vectorization on (`vectorizer.py:391-407`). The permanent caches are not
touched. -/
def evalError (S : Sys ρ ε R δ) (wr : Option (List CostFn)) (e : Env ρ) : Except Err (List (List R)) :=
  match wr with
  | none => errorSeq S.evE e.heap (iter e.obj)
  | some cs => match runVec S.N S.evE e cs with
    | (_, some x) => .error x
    | (rs, none) => catCols (rs.map Prod.snd)

/-- The calls a user makes. -/
inductive Op (ρ δ : Type) where
  | update (inputs : List (Nat × Tensor ρ)) (mask : Option (List Bool))
  | error (inputs : Option (List (Nat × Tensor ρ))) (alsoUpdate : Bool)
  | retract (delta : List (List δ)) (ord : List Var) (mask : Option (List Bool)) (force : Bool)
  /-- `Variable.update` called by the user on a variable -/
  | setVar (v : Var) (t : Tensor ρ) (mask : Option (List Bool))
  /-- evaluation of Jacobians (`_get_jacobians_iter`) -/
  | jacobians
  | setGrad (b : Bool)
  | enable
  | disable
  | edit (c : Call)

/-- Retraction by the method in force (`objective.py:905-914,932,942`). -/
def doRetract (S : Sys ρ ε R δ) (wr : Option (List CostFn)) (h : Heap ρ) (delta : List (List δ))
    (ord : List Var) (mask : Option (List Bool)) (force : Bool) : Heap ρ × Option Err :=
  match wr with
  | some _ => retractVec S.rf S.G h delta ord mask force
  | none => retractVars (fun v => S.rf (S.G.cls v) (S.G.dof v)) h delta
      (ord.map fun v => (v, S.G.dof v)) mask force

/-- One call: the state left behind, and the exception, if any. -/
def step (S : Sys ρ ε R δ) (s : VEnv ρ ε) : Op ρ δ → VEnv ρ ε × Option Err
  | .update inputs mask => match update s.env inputs mask with                    -- 770-809
    | (e, some x) => ({ s with env := e }, some x)
    | (e, none) => refresh S { s with env := e }                                  -- 810-811
  | .error none _ => match evalError S s.wrappers s.env with
    | .error x => (s, some x)
    | .ok _ => (s, none)
  | .error (some inputs) true => match update s.env inputs none with              -- 594
    | (e, some x) => ({ s with env := e }, some x)
    | (e, none) => match refresh S { s with env := e } with
      | (s, some x) => (s, some x)
      | (s, none) => match evalError S s.wrappers s.env with                      -- 603-605
        | .error x => (s, some x)
        | .ok _ => (s, none)
  | .error (some inputs) false =>                                                 -- 589-612
    match Update.error (evalError S s.wrappers) s.env (some inputs) false with
    | (e, .error x) => ({ s with env := e }, some x)
    | (e, .ok _) => ({ s with env := e }, none)
  | .retract delta ord mask force =>                                              -- 905-914
    match doRetract S s.wrappers s.env.heap delta ord mask force with
    | (h, some x) => ({ s with env := { s.env with heap := h } }, some x)
    | (h, none) => refresh S { s with env := { s.env with heap := h } }
  | .setVar v t mask => match varUpdate (s.env.heap v) t mask with                -- variable.py:42-72
    | .error x => (s, some x)
    | .ok st => ({ s with env := { s.env with heap := s.env.heap.put v st } }, none)
  | .jacobians => refresh S s                                                     -- 839-840
  | .setGrad b => ({ s with grad := b }, none)
  | .enable => ({ s with wrappers := some (iter s.env.obj), cache := [] }, none)  -- vectorizer.py:118-161
  | .disable => ({ s with wrappers := none }, none)                               -- 938-944
  | .edit c => match call s.env.obj c with                                        -- 210-458
    | (o, x) => ({ s with env := { s.env with obj := o } }, x)

/-- A result served to the optimizer, and whether it carries gradient history. -/
structure Served (ε : Type) where
  cf : CostFn
  val : Except Err (List ε)
  grad : Bool

/-- `_get_jacobians_iter` and the wrappers' `weighted_jacobians_error` (`objective.py:839-844`,
`vectorizer.py:89-95`). -/
def jacobians (S : Sys ρ ε R δ) (s : VEnv ρ ε) : VEnv ρ ε × Except Err (List (Served ε)) :=
  match refresh S s with
  | (s, some x) => (s, .error x)
  | (s, none) => match s.wrappers with
    | some cs => (s, .ok (cs.map fun c => match Dict.get? s.cache c with
        | some r => ⟨c, .ok r, s.cacheGrad⟩
        | none => ⟨c, S.fb s.env.heap c, s.grad⟩))
    | none => (s, .ok ((iter s.env.obj).map fun c => ⟨c, own S.ev s.env.heap c, s.grad⟩))

/-- A new objective in which the cost functions of `o` have been put, with any tensors. -/
def fresh (o : State) (h : Heap ρ) (dev : Nat) : VEnv ρ ε :=
  { env := { obj := o, heap := h, device := dev } }

/-- A history of calls; exceptions are caught by the caller. -/
def exec (S : Sys ρ ε R δ) (s : VEnv ρ ε) : List (Op ρ δ) → VEnv ρ ε
  | [] => s
  | o :: os => exec S (step S s o).1 os

end Verif.Vectorize
