import Verif.Vectorize.Spec
import Mathlib.Algebra.Ring.Basic
/-!
Model of zero-weight masking: `masked_variables` (`core/variable.py:127-148`), `masked_jacobians`
(`core/cost_function.py:29-55`), `CostFunction.weighted_jacobians_error`
(`core/cost_function.py:107-122`) and the two cost weights (`core/cost_weight.py:60-139`).
One row `ε` of a result stands for the Jacobian blocks and the error of one batch element together.
-/
namespace Verif.Masking
open Verif Verif.Objective Verif.Update

variable {ρ ε ω α : Type}

/-- `tensor[mask]` for a boolean mask over the batch (`variable.py:144`). -/
def select (mask : List Bool) (rows : List ρ) : List ρ :=
  ((rows.zip mask).filter fun p => p.2).map Prod.fst

/-- `masked_variables.__enter__` (`variable.py:141-144`). -/
def enter (mask : List Bool) : List Var → Heap ρ → Heap ρ × Option Err
  | [], h => (h, none)
  | v :: vs, h =>
    if (h v).tensor.rows.length ≠ mask.length then (h, some .assertionError)            -- 143
    else match varUpdate (h v) { (h v).tensor with rows := select mask (h v).tensor.rows } none with
      | .error x => (h, some x)
      | .ok st => enter mask vs (h.put v st)                                            -- 144

/-- `masked_variables.__exit__` (`variable.py:146-148`). -/
def exit : List (Var × Tensor ρ) → Heap ρ → Heap ρ × Option Err
  | [], h => (h, none)
  | (v, t) :: rest, h => match varUpdate (h v) t none with
    | .error x => (h, some x)
    | .ok st => exit rest (h.put v st)

/-- `with masked_variables(vs, mask): body` (`variable.py:134-148`). An exception of the body still
runs `__exit__`; an exception of `__enter__` does not. -/
def withMasked (vs : List Var) (mask : List Bool) (body : Heap ρ → Except Err α) (h : Heap ρ) :
    Heap ρ × Except Err α :=
  let orig := vs.map fun v => (v, (h v).tensor)                                         -- 138
  match enter mask vs h with
  | (h', some x) => (h', .error x)
  | (h', none) => match exit orig h' with
    | (h'', some x) => (h'', .error x)
    | (h'', none) => (h'', body h')

/-- `out[mask] = rows` for a zero-initialised `out` (`cost_function.py:47-54`); the number of rows is
that of the true entries of the mask, otherwise torch raises (a single row is broadcast). -/
def put [Zero ε] : List Bool → List ε → List ε
  | [], _ => []
  | true :: m, e :: es => e :: put m es
  | true :: m, [] => 0 :: put m []
  | false :: m, es => 0 :: put m es

/-- The number of true entries of a mask. -/
def count (mask : List Bool) : Nat := (mask.filter id).length

/-- Assignment `out[mask] = rows` with its shape check (`cost_function.py:52,54`). -/
def assign [Zero ε] (B : Nat) (mask : List Bool) (rows : List ε) : Except Err (List ε) :=
  if mask.length ≠ B then .error .runtimeError
  else if rows.length = count mask then .ok (put mask rows)
  else match rows with
    | [e] => .ok (put mask (List.replicate (count mask) e))
    | _ => .error .runtimeError

/-- `masked_jacobians` (`cost_function.py:37-55`); `vs` are the optimization and auxiliary variables of
the cost function, `code` its `jacobians()` as a function of their tensors. -/
def maskedJacobians [Zero ε] (code : List (List ρ) → Except Err (List ε)) (vs : List Var)
    (mask : List Bool) (h : Heap ρ) : Heap ρ × Except Err (List ε) :=
  match vs with
  | [] => (h, .error .valueError)                                                       -- 43 max() of nothing
  | v :: vs =>
    let B := ((v :: vs).map fun u => (h u).tensor.rows.length).foldl max 0              -- 43
    withMasked (v :: vs) mask (fun h' =>
      match code ((v :: vs).map fun u => (h' u).tensor.rows) with                       -- 52
      | .error x => .error x
      | .ok r => assign B mask r) h

/-- A kind of cost weight: which rows count as zero, and how a row weights the Jacobians and error of
one batch element (`cost_weight.py:27-42`). -/
structure WeightKind (ω ε : Type) where
  isZero : ω → Bool
  app : ω → ε → ε

/-- `weight_jacobians_and_error`, with broadcasting of single rows (`cost_weight.py:79-89,124-136`). -/
def applyWeight (W : WeightKind ω ε) (ws : List ω) (rs : List ε) : Except Err (List ε) :=
  match ws, rs with
  | [w], rs => .ok (rs.map (W.app w))
  | ws, [r] => .ok (ws.map (W.app · r))
  | ws, rs => if ws.length = rs.length then .ok (List.zipWith W.app ws rs) else .error .runtimeError

/-- `CostFunction.weighted_jacobians_error` (`cost_function.py:107-122`); `masking` is the flag set by
the vectorizer (`vectorizer.py:140`, `cost_function.py:143-149`). The `NotImplementedError` fallback is
not modelled: both weights here implement `is_zero`. -/
def weightedJacobians [Zero ε] (masking : Bool) (W : WeightKind ω ε)
    (code : List (List ρ) → Except Err (List ε)) (vs : List Var) (ws : List ω) (h : Heap ρ) :
    Heap ρ × Except Err (List ε) :=
  let mask := ws.map fun w => !W.isZero w                                               -- 114
  let r := if masking && decide (mask.length > 1) then maskedJacobians code vs mask h   -- 115-117
    else (h, code (vs.map fun u => (h u).tensor.rows))                                  -- 120-121
  (r.1, match r.2 with
    | .error x => .error x
    | .ok rs => applyWeight W ws rs)                                                    -- 122

/-- The rows of one batch element: every Jacobian block stacked next to the error, `d` rows of `k`
numbers. -/
abbrev Block (R : Type) (d k : Nat) := Fin d → Fin k → R

/-- `ScaleCostWeight` (`cost_weight.py:74-89`). -/
def scaleKind (R : Type) [CommRing R] [DecidableEq R] (d k : Nat) : WeightKind R (Block R d k) where
  isZero w := decide (w = 0)
  app w J := fun i j => J i j * w

/-- `DiagonalCostWeight` (`cost_weight.py:116-136`). -/
def diagKind (R : Type) [CommRing R] [DecidableEq R] (d k : Nat) :
    WeightKind (Fin d → R) (Block R d k) where
  isZero w := decide (∀ i, w i = 0)
  app w J := fun i j => J i j * w i

end Verif.Masking
