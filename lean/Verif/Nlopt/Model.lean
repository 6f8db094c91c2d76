import Mathlib.Algebra.Order.Field.Basic
import Mathlib.Data.Fintype.Basic
import Mathlib.Data.Fin.VecNotation
import Mathlib.Algebra.Order.Field.Rat
/-!
# Model of the nonlinear optimization loop

Sources: `/repo/theseus/optimizer/nonlinear/nonlinear_optimizer.py` and `nonlinear_least_squares.py`.

Simplifications:
* numbers are exact elements of an ordered field, extended with `nan` and the infinities
  (`Fl`); signed zeros are not modelled (only absolute values are compared);
* the objective is seen through a per-element error metric and a per-element retraction: this is what
  batched cost functions and variables compute (a batched tensor is a function of the batch index);
* `track_best_solution`, `track_err_history` and `track_state_history` are all on: with them off the
  same values are simply not stored; histories are functions of the column, `none` for a column that
  still holds its initial value `inf`;
* `verbose` printing and `end_iter_callback` are omitted (a callback that changes variables is out of
  scope).
-/
namespace Verif.Nlopt

/-- Floating point numbers, with exact finite values. -/
inductive Fl (K : Type) where
  | nan
  | inf (neg : Bool)
  | fin (q : K)
deriving DecidableEq, Repr

namespace Fl
variable {K : Type} [Field K] [LinearOrder K]

/-- IEEE addition. -/
def add : Fl K → Fl K → Fl K
  | nan, _ => nan
  | _, nan => nan
  | inf s, inf t => if s = t then inf s else nan
  | inf s, fin _ => inf s
  | fin _, inf s => inf s
  | fin a, fin b => fin (a + b)

/-- IEEE subtraction. -/
def sub : Fl K → Fl K → Fl K
  | nan, _ => nan
  | _, nan => nan
  | inf s, inf t => if s = t then nan else inf s
  | inf s, fin _ => inf s
  | fin _, inf s => inf !s
  | fin a, fin b => fin (a - b)

/-- IEEE absolute value. -/
def abs : Fl K → Fl K
  | nan => nan
  | inf _ => inf false
  | fin a => fin |a|

/-- IEEE division (zeros unsigned). -/
def div : Fl K → Fl K → Fl K
  | nan, _ => nan
  | _, nan => nan
  | inf _, inf _ => nan
  | inf s, fin b => inf (s != decide (b < 0))
  | fin _, inf _ => fin 0
  | fin a, fin b => if b = 0 then (if a = 0 then nan else inf (decide (a < 0))) else fin (a / b)

/-- IEEE comparison `<`. -/
def lt : Fl K → Fl K → Bool
  | nan, _ => false
  | _, nan => false
  | inf s, inf t => s && !t
  | inf s, fin _ => s
  | fin _, inf s => !s
  | fin a, fin b => decide (a < b)

/-- `torch.minimum` (propagates `nan`). -/
def minimum : Fl K → Fl K → Fl K
  | nan, _ => nan
  | _, nan => nan
  | a, b => if lt b a then b else a

end Fl

/-- A batched quantity. -/
abbrev B (n : Nat) (α : Type) := Fin n → α

/-- `NonlinearOptimizerStatus` (`nonlinear_optimizer.py:59-63`). -/
inductive Status where
  | start | converged | maxIterations | fail
deriving DecidableEq, Repr

/-- `NonlinearOptimizerParams` (`nonlinear_optimizer.py:44-49`). -/
structure Params (K : Type) where
  absTol : K
  relTol : K
  maxIter : Int
  stepSize : K

/-- `BackwardMode` (`nonlinear_optimizer.py:20-24`). -/
inductive Mode where
  | unroll | implicit | truncated | dlm
deriving DecidableEq, Repr

/-- What a concrete optimizer and objective provide: `compute_delta`, `linear_solver.solve()`
(`none`: RuntimeError), `_complete_step`, retraction, scaling of a step and the error metric; `M` is the
optimizer's memory (damping, trust region). -/
structure Method (K : Type) (n : Nat) (X D M : Type) where
  delta : M → B n X → Option (B n D)
  gn : B n X → Option (B n D)
  complete : M → B n X → B n D → B n (Fl K) → B n (Fl K) → M × Option (B n Bool)
  retract : X → D → X
  scale : K → D → D
  metric : X → Fl K

section
variable {K : Type} [Field K] [LinearOrder K] {n : Nat} {X D M : Type}

/-- `err.abs().mean()` (`nonlinear_optimizer.py:111`). -/
def meanAbs (e : B n (Fl K)) : Fl K :=
  Fl.div ((List.ofFn fun i => (e i).abs).foldl Fl.add (.fin 0)) (.fin (n : K))

/-- `_check_convergence` (`nonlinear_optimizer.py:109-119`). -/
def checkConv (P : Params K) (err last : B n (Fl K)) : B n Bool :=
  if Fl.lt (meanAbs err) (.fin P.absTol) then fun _ => true                          -- 111-112
  else fun i =>
    let change := (last i).sub (err i)                                                -- 114
    Fl.lt change.abs (.fin P.absTol) || Fl.lt (change.div (last i)).abs (.fin P.relTol)  -- 115-119

/-- `NonlinearOptimizerInfo` (`nonlinear_optimizer.py:66-74`), with everything tracked. -/
structure Info (K : Type) (n : Nat) (X : Type) where
  convIter : B n Int
  bestIter : B n Nat
  errHist : Nat → Option (B n (Fl K))
  lastErr : B n (Fl K)
  bestErr : B n (Fl K)
  bestSol : B n X
  stateHist : Nat → Option (B n X)
  status : B n Status

/-- `_init_info` (`nonlinear_optimizer.py:131-176`). -/
def initInfo (A : Method K n X D M) (x : B n X) : Info K n X where
  lastErr := fun i => A.metric (x i)
  bestErr := fun i => A.metric (x i)
  errHist := fun k => if k = 0 then some (fun i => A.metric (x i)) else none
  stateHist := fun k => if k = 0 then some x else none
  bestSol := x
  status := fun _ => .start
  convIter := fun _ => 0
  bestIter := fun _ => 0

/-- `_update_info` (`nonlinear_optimizer.py:184-213`); `x` are the current variables. -/
def updateInfo (P : Params K) (info : Info K n X) (x : B n X) (it : Nat) (err : B n (Fl K))
    (conv : B n Bool) : Info K n X :=
  { info with
    convIter := fun i => info.convIter i + (1 - (if conv i then 1 else 0)),           -- 191
    errHist := fun k => if k = it + 1 then some err else info.errHist k,              -- 194
    stateHist := fun k => if k = it + 1 then some x else info.stateHist k,            -- 196
    bestIter := fun i => if (err i).lt (info.bestErr i) then it else info.bestIter i, -- 201-202
    bestSol := fun i => if (err i).lt (info.bestErr i) then x i else info.bestSol i,  -- 203-206
    bestErr := fun i => Fl.minimum (info.bestErr i) (err i),                          -- 208
    status := fun i => if checkConv P err info.lastErr i then .converged else info.status i }  -- 210-213

/-- State of `_optimize_loop`: the variables, the optimizer's memory, the info and the local variables;
`solves` and `updates` are ghost counters of loop passes and of `_update_info` calls. -/
structure LS (K : Type) (n : Nat) (X M : Type) where
  x : B n X
  mem : M
  info : Info K n X
  conv : B n Bool
  it : Nat
  done : Nat
  attempts : Nat
  solves : Nat
  updates : Nat

/-- How one pass of the loop ends. -/
inductive Out (S : Type) where
  | cont (s : S) | brk (s : S) | failed (s : S) | raised

/-- Options of the loop: `_last_implicit_diff_step`, the two hidden keyword arguments, and whether
autograd is enabled. -/
structure Opts where
  implicit : Bool := false
  strictGn : Bool := false
  keepStep : Bool := false
  grad : Bool := true

/-- `compute_delta` with the fallback (`nonlinear_least_squares.py:120-137`). -/
def computeDelta (A : Method K n X D M) (o : Opts) (mem : M) (x : B n X) : Option (B n D) :=
  if o.implicit then
    match A.gn x with
    | some d => some d
    | none => if o.strictGn then none else A.delta mem x
  else A.delta mem x

/-- Steps size tensor (`nonlinear_least_squares.py:154-169`). -/
def stepOf (P : Params K) (o : Opts) : K := if o.implicit && !o.keepStep then 1 else P.stepSize

/-- `_compute_retracted_tensors_and_error`, tensors (`nonlinear_least_squares.py:308-325`): converged
elements are not moved unless `force_update`. -/
def retracted (A : Method K n X D M) (force : Bool) (x : B n X) (d : B n D) (conv : B n Bool) : B n X :=
  fun i => if !force && conv i then x i else A.retract (x i) (d i)

/-- All entries are true. -/
def all {n : Nat} (f : B n Bool) : Bool := decide (∀ i, f i = true)

/-- Some entry is true. -/
def any {n : Nat} (f : B n Bool) : Bool := decide (∃ i, f i = true)

/-- `_step` (`nonlinear_least_squares.py:338-365`): new variables, memory, error, and whether all steps
were rejected. -/
def step (A : Method K n X D M) (o : Opts) (s : LS K n X M) (d : B n D) :
    B n X × M × B n (Fl K) × Bool :=
  let y := retracted A o.implicit s.x d s.conv                                        -- 347-349
  let err := fun i => A.metric (y i)
  let cr := if o.implicit then (s.mem, none) else A.complete s.mem s.x d err s.info.lastErr  -- 350-356
  match cr.2 with
  | none => (y, cr.1, err, false)                                                     -- 361, 365
  | some rej =>
    if all rej then (s.x, cr.1, s.info.lastErr, true)                                 -- 358-359
    else
      let y' := fun i => if rej i then s.x i else y i                                 -- 361
      (y', cr.1, if any rej then (fun i => A.metric (y' i)) else err, false)          -- 362-365

/-- End of a pass (`nonlinear_least_squares.py:188-210`). -/
def finish (P : Params K) (s : LS K n X M) (y : B n X) (mem : M) (err : B n (Fl K)) : Out (LS K n X M) :=
  let info := updateInfo P s.info y s.it err s.conv                                   -- 192
  let conv := checkConv P err s.info.lastErr                                          -- 198
  let info := { info with status := fun i => if conv i then .converged else info.status i }  -- 199-201
  let s := { s with x := y, mem := mem, info := info, conv := conv, attempts := 0,
                    solves := s.solves + 1, updates := s.updates + 1 }
  if all conv then .brk s                                                             -- 202-203
  else .cont { s with info := { info with lastErr := err }, it := s.it + 1, done := s.done + 1 }  -- 204-210

/-- One pass of the `while` loop (`nonlinear_least_squares.py:115-210`). -/
def pass (P : Params K) (A : Method K n X D M) (o : Opts) (s : LS K n X M) : Out (LS K n X M) :=
  match computeDelta A o s.mem s.x with
  | none =>
    if o.grad then .raised                                                            -- 143-148
    else .failed { s with info := { s.info with status := fun _ => .fail }, solves := s.solves + 1 }  -- 149-152
  | some d =>
    match step A o s (fun i => A.scale (stepOf P o) (d i)) with
    | (y, mem, err, true) =>
      if s.attempts + 1 < 3 then                                                      -- 181-187
        .cont { s with mem := mem, attempts := s.attempts + 1, solves := s.solves + 1 }
      else finish P s y mem err
    | (y, mem, err, false) => finish P s y mem err

/-- How the loop ends: normally, with a linear solver failure under `no_grad`, with an exception, or (a
case excluded by `loop_fuel`) out of fuel. -/
inductive Res (S : Type) where
  | finished (s : S) | failed (s : S) | raised | outOfFuel

/-- `nonlinear_least_squares.py:212-214`. -/
def markMax (s : LS K n X M) : LS K n X M :=
  { s with
    info := { s.info with
      status := fun i => if s.info.status i = .start then .maxIterations else s.info.status i } }

/-- The `while` loop (`nonlinear_least_squares.py:114-215`); the fuel is shown never to run out. -/
def loop (P : Params K) (A : Method K n X D M) (o : Opts) (num : Nat) : Nat → LS K n X M → Res (LS K n X M)
  | fuel, s =>
    if num ≤ s.it then .finished (markMax s)
    else match fuel with
      | 0 => .outOfFuel
      | f + 1 => match pass P A o s with
        | .cont s => loop P A o num f s
        | .brk s => .finished (markMax s)
        | .failed s => .failed s
        | .raised => .raised

/-- Local variables at the start of `_optimize_loop` (`nonlinear_least_squares.py:109-113`). -/
def startLS (x : B n X) (mem : M) (info : Info K n X) : LS K n X M :=
  ⟨x, mem, info, fun _ => false, 0, 0, 0, 0, 0⟩

/-- `_optimize_loop` (`nonlinear_least_squares.py:100-215`). -/
def optimizeLoop (P : Params K) (A : Method K n X D M) (o : Opts) (num : Int) (x : B n X) (mem : M)
    (info : Info K n X) : Res (LS K n X M) :=
  loop P A o num.toNat (3 * num.toNat) (startLS x mem info)

/-- `_split_backward_iters` (`nonlinear_optimizer.py:274-294`): iterations with and without autograd;
`none` is the ValueError for a missing `backward_num_iterations`. -/
def splitIters (maxIter : Int) (m : Mode) (bwd : Option Int) : Option (Int × Int) :=
  match m with
  | .truncated => match bwd with
    | none => none
    | some b => some (min b maxIter, maxIter - min b maxIter)
  | .unroll => some (maxIter, maxIter - maxIter)
  | .dlm => some (maxIter, maxIter - maxIter)
  | .implicit => some (1, maxIter - 1)

/-- `info.converged_iter[info.status == MAX_ITERATIONS] = -1`
(`nonlinear_least_squares.py:260-263`). -/
def clearConvIter (info : Info K n X) : Info K n X :=
  { info with convIter := fun i => if info.status i = .maxIterations then -1 else info.convIter i }

/-- `_merge_infos` (`nonlinear_optimizer.py:220-271`); `none` is the AssertionError.
`best_iter` and `last_err` are not merged. -/
def mergeInfos (g : Info K n X) (nNoGrad nGrad : Nat) (info : Info K n X) : Option (Info K n X) :=
  let m : B n Bool := fun i => decide (info.status i = .maxIterations)                -- 259
  if (∀ i, m i = true → g.status i = .maxIterations ∨ g.status i = .converged) then   -- 260-263
    some { info with
      errHist := fun k => if nNoGrad + 1 ≤ k ∧ k < nNoGrad + nGrad + 1 then g.errHist (k - nNoGrad)
        else info.errHist k,                                                          -- 227-233
      stateHist := fun k => if nNoGrad + 1 ≤ k ∧ k < nNoGrad + nGrad + 1 then g.stateHist (k - nNoGrad)
        else info.stateHist k,                                                        -- 234-238
      bestSol := fun i => if (info.bestErr i).lt (g.bestErr i) then info.bestSol i else g.bestSol i,  -- 241-255
      bestErr := fun i => Fl.minimum (info.bestErr i) (g.bestErr i),                  -- 246, 256
      status := fun i => if m i then g.status i else info.status i,                   -- 264
      convIter := fun i =>                                                            -- 265-271
        if m i && decide (g.status i = .maxIterations) then -1
        else if m i then info.convIter i + g.convIter i else info.convIter i }
  else none

/-- Result of `optimize()`: the final variables and the info, or an exception. -/
inductive OptRes (K : Type) (n : Nat) (X : Type) where
  | ok (x : B n X) (info : Info K n X)
  | valueError | runtimeError | assertionError

/-- `_optimize_impl` (`nonlinear_least_squares.py:223-294`); `mem0` is the memory set by `reset`; `grad`
tells whether autograd is enabled by the caller. -/
def optimizeImpl (P : Params K) (A : Method K n X D M) (m : Mode) (bwd : Option Int) (grad : Bool)
    (x : B n X) (mem0 : M) : OptRes K n X :=
  match splitIters P.maxIter m bwd with                                               -- 247-249
  | none => .valueError
  | some (nb, nn) =>
    if m = .unroll ∨ m = .dlm then
      match optimizeLoop P A { grad := grad } nb x mem0 (initInfo A x) with           -- 250-264
      | .finished s => .ok s.x (clearConvIter s.info)
      | .failed s => .ok s.x (clearConvIter s.info)
      | .raised => .runtimeError
      | .outOfFuel => .runtimeError
    else
      let second := fun (s : LS K n X M) =>
        let o : Opts := { implicit := decide (m = .implicit), grad := grad }
        let fin := fun (t : LS K n X M) =>
          match mergeInfos t.info s.done t.done s.info with                           -- 290
          | some info => .ok t.x info
          | none => .assertionError
        match optimizeLoop P A o nb s.x s.mem (initInfo A s.x) with                   -- 277-287
        | .finished t => fin t
        | .failed t => fin t
        | .raised => .runtimeError
        | .outOfFuel => .runtimeError
      match optimizeLoop P A { grad := false } nn x mem0 (initInfo A x) with          -- 266-275
      | .finished s => second s
      | .failed s => second s
      | .raised => .runtimeError
      | .outOfFuel => .runtimeError

end
end Verif.Nlopt
