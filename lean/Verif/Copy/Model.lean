import Verif.Objective.Model
/-!
# Model of `Objective.copy`

Source: `/repo/theseus/core/objective.py:643-699`, `/repo/theseus/core/theseus_function.py:90-158`.

Simplifications: objects are values with an `id` (as in `Verif/Objective`); `next` is the allocator of
fresh ids.  Every `_copy_impl` in the library copies the variable of each attribute separately
(`self.v0.copy()`, `[v.copy() for v in self.optim_vars]`, ...), so two attributes that hold one
variable get two copies; that is what `copyVars` does.  Tensors are not modelled (`clone()`).
The copy of the weight made inside a cost function's `_copy_impl` is dropped by the code
(`objective.py:670`), so it is not modelled.
-/
namespace Verif.Copy
open Verif Verif.Objective

/-- `Variable.copy` of every attribute, then `new_var.name = old_var.name`
(`core/variable.py:28-31`, `core/theseus_function.py:96-100`). -/
def copyVars (next : Nat) : List Var → List Var × Nat
  | [] => ([], next)
  | v :: vs => ({ v with id := next } :: (copyVars (next + 1) vs).1, (copyVars (next + 1) vs).2)

/-- `cost_weight.copy(new_name=.., keep_variable_names=True)` (`core/cost_weight.py:49-55`). -/
def copyWeight (next : Nat) (w : Weight) : Weight × Nat :=
  let o := copyVars (next + 1) w.optimVars
  let a := copyVars o.2 w.auxVars
  ({ id := next, optimVars := o.1, auxVars := a.1 }, a.2)

/-- The map `old_to_new_cost_weight_map` (`objective.py:656-661`). -/
def copyWeights (next : Nat) : List Weight → Dict Weight Weight × Nat
  | [] => ([], next)
  | w :: ws =>
    let c := copyWeight next w
    let r := copyWeights c.2 ws
    ((w, c.1) :: r.1, r.2)

/-- A copied cost function: the registered attributes, and the variables its evaluation reads.
They are the same, except for a robust cost function, whose evaluation goes through the wrapped cost
function's own attributes (`core/robust_cost_function.py:63-78,88-89,140-147`). -/
structure NewFn where
  fn : CostFn
  reads : List Var
deriving DecidableEq, Repr

/-- `cost_function.copy(new_name=.., keep_variable_names=True)` (`core/theseus_function.py:90-110`).
`weight` is filled in later. -/
def copyFn (next : Nat) (c : CostFn) : CostFn × Nat :=
  let o := copyVars (next + 1) c.optimVars
  let a := copyVars o.2 c.auxVars
  ({ c with id := next, optimVars := o.1, auxVars := a.1 }, a.2)

/-- The list `new_cost_functions`, with the old function each one comes from (`objective.py:664-671`). -/
def copyFns (next : Nat) : List CostFn → List (CostFn × CostFn)
  | [] => []
  | c :: cs =>
    let r := copyFn next c
    (c, r.1) :: copyFns r.2 cs

/-- `set_optim_var_at(i, d[name])` if the name is in `d`, for one attribute (`objective.py:677-697`,
`core/theseus_function.py:137-158`). -/
def swap (d : Dict Nat Var) (v : Var) : Var := (d.get? v.name).getD v

/-- Re-pointing a cost weight's attributes (`objective.py:688-697`). -/
def swapWeight (s : State) (w : Weight) : Weight :=
  { w with optimVars := w.optimVars.map (swap s.cwOptimVars), auxVars := w.auxVars.map (swap s.auxVars) }

/-- Re-pointing a cost function's attributes (`objective.py:677-686`). -/
def swapFn (s : State) (c : CostFn) (w : Weight) : CostFn :=
  { c with optimVars := c.optimVars.map (swap s.optimVars), auxVars := c.auxVars.map (swap s.auxVars),
           weight := w }

/-- The variables read when evaluating the copy `c'` of `c`, re-pointed from the fresh copy `f`.
`inner c = some k` says that `c` is a robust cost function whose wrapped function has `k` auxiliary
variables: the wrapped function keeps the variables of `f`, because `set_optim_var_at` /
`set_aux_var_at` assign to the wrapper's attributes only; the remaining auxiliary variables
(`log_loss_radius`, `gnc_control_val`) are read from the wrapper. -/
def readsOf (inner : CostFn → Option Nat) (c f c' : CostFn) : List Var :=
  match inner c with
  | none => c'.optimVars ++ c'.auxVars
  | some k => f.optimVars ++ f.auxVars.take k ++ c'.auxVars.drop k

/-- The last loop of `copy` (`objective.py:675-698`).  `W` holds the current value of each copied
weight. Returns the new objective, the exception if any, and the new cost functions. -/
def copyLoop (inner : CostFn → Option Nat) (s : State) (W : Dict Weight Weight) :
    List (CostFn × CostFn) → State × Option Err × List NewFn
  | [] => (s, none, [])
  | (c, f) :: rest =>
    match W.get? c.weight with
    | none => (s, some .keyError, [])                                     -- 670
    | some w =>
      let w' := swapWeight s w
      let c' := swapFn s f w'
      match add s c' with                                                 -- 698
      | (s', some x) => (s', some x, [])
      | (s', none) =>
        let r := copyLoop inner s' (W.set c.weight w') rest
        (r.1, r.2.1, ⟨c', readsOf inner c f c'⟩ :: r.2.2)

/-- `Objective.copy` (`objective.py:643-699`).  The experimental mixed flag is not passed on
(`objective.py:651-653`). -/
def objCopy (inner : CostFn → Option Nat) (s : State) (next : Nat) : State × Option Err × List NewFn :=
  let W := copyWeights next s.cfForWeights.keys
  copyLoop inner (init s.dtype false) W.1 (copyFns W.2 s.costFns.vals)

end Verif.Copy
