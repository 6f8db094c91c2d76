import Mathlib.Data.Rat.Defs
import Mathlib.Algebra.Order.Ring.Rat
import Mathlib.Data.Fin.Basic
import Mathlib.Data.Fintype.Basic

/-!
# `Timer`, `gather_from_rows_cols` and `build_mlp` (`theseus/utils/utils.py` L17-74, L188-277)

The clock of the CPU is an input of every call that reads it, in nanoseconds; the events of CUDA devices are not
modelled. Tensors of wrong rank are not modelled.
-/

namespace Verif.Util

/-! ### `Timer` -/

/-- The attributes of a `Timer` (utils.py L225-232); `startTime` is absent until `start` sets it. -/
structure Timer where
  active : Bool
  elapsed : ℚ
  stats : String → List ℚ
  caller : Option String
  tmpDeactivated : Bool
  startTime : Option ℤ

/-- `AttributeError`, raised by `end` if there is no start time. -/
inductive TimerExc where
  | attribute
deriving DecidableEq, Repr

namespace Timer

/-- `__init__` (utils.py L225-232). -/
def init (active : Bool) : Timer := ⟨active, 0, fun _ => [], none, false, none⟩

/-- `start` (utils.py L233-244). -/
def start (t : Timer) (caller : Option String) (deactivate : Bool) (now : ℤ) : Timer :=
  if !t.active || deactivate then { t with tmpDeactivated := deactivate }              -- 234-236
  else { t with startTime := some now, caller := caller }                              -- 241-243

/-- `end` (utils.py L246-257). -/
def «end» (t : Timer) (now : ℤ) : Except TimerExc Timer :=
  if !t.active || t.tmpDeactivated then .ok { t with tmpDeactivated := false }         -- 247-249
  else
    match t.startTime with
    | none => .error .attribute                                                        -- 255
    | some t0 =>
      let e : ℚ := ((now - t0 : ℤ) : ℚ) / 1000000000                                   -- 255
      match t.caller with
      | none => .ok { t with elapsed := e }
      | some c => .ok { t with elapsed := e,
                               stats := fun d => if d = c then t.stats d ++ [e] else t.stats d }  -- 256-257

/-- `__call__` (utils.py L259-264). -/
def call (t : Timer) (caller : Option String) (deactivate : Bool) : Timer :=
  { t with caller := caller, tmpDeactivated := deactivate }

/-- `__enter__` (utils.py L266-268). -/
def enter (t : Timer) (now : ℤ) : Timer := t.start t.caller t.tmpDeactivated now

/-- `__exit__` (utils.py L270-271): also called if the body raises, whose exception goes on. -/
def exit (t : Timer) (now : ℤ) : Except TimerExc Timer := t.end now

/-- The calls a program can make. -/
inductive Op where
  | start (caller : Option String) (deactivate : Bool) (now : ℤ)
  | end (now : ℤ)
  | call (caller : Option String) (deactivate : Bool)
  | enter (now : ℤ)
  | exit (now : ℤ)

/-- One call. -/
def step (t : Timer) : Op → Except TimerExc Timer
  | .start c d now => .ok (t.start c d now)
  | .end now => t.end now
  | .call c d => .ok (t.call c d)
  | .enter now => .ok (t.enter now)
  | .exit now => t.exit now

/-- A sequence of calls. -/
def run (t : Timer) : List Op → Except TimerExc Timer
  | [] => .ok t
  | o :: os =>
    match t.step o with
    | .ok t' => run t' os
    | .error e => .error e

end Timer

/-! ### `gather_from_rows_cols` -/

/-- `AssertionError` and `RuntimeError` (`min` of an empty tensor). -/
inductive GatherExc where
  | assertion | runtime
deriving DecidableEq, Repr

/-- `gather_from_rows_cols` (utils.py L64-74), for three tensors of the documented ranks. -/
def gather {α : Type} {B R C B₁ P₁ B₂ P₂ : ℕ} (m : Fin B → Fin R → Fin C → α) (rows : Fin B₁ → Fin P₁ → ℤ)
    (cols : Fin B₂ → Fin P₂ → ℤ) : Except GatherExc (Fin B₁ → Fin P₁ → α) :=
  if hB : (B = 1 ∨ B = B₁) ∧ B₁ = B₂ then                                              -- 65-66, 68
    if hP : P₁ = P₂ then                                                               -- 69
      if B₁ * P₁ = 0 then .error .runtime                                              -- 70: min of no elements
      else if hr : ∀ i j, 0 ≤ rows i j ∧ rows i j < R then                             -- 70
        if hc : ∀ i j, 0 ≤ cols i j ∧ cols i j < C then                                -- 71
          .ok fun i j =>                                                               -- 73-74
            let i' : Fin B := if h : B = B₁ then Fin.cast h.symm i else ⟨0, by have := hB.1; omega⟩
            let i₂ : Fin B₂ := Fin.cast hB.2 i
            let j₂ : Fin P₂ := Fin.cast hP j
            m i' ⟨(rows i j).toNat, by have := hr i j; omega⟩ ⟨(cols i₂ j₂).toNat, by have := hc i₂ j₂; omega⟩
        else .error .assertion
      else .error .assertion
    else .error .assertion
  else .error .assertion

/-! ### `build_mlp` -/

/-- A module of the sequence: a linear layer with its input and output dimension, or an activation. -/
inductive Mod where
  | linear (i o : ℤ)
  | act (name : String)
deriving DecidableEq, Repr

/-- `NotImplementedError`. -/
inductive MlpExc where
  | notImplemented
deriving DecidableEq, Repr

/-- `build_mlp` (utils.py L17-47). -/
def buildMlp (input hidden output depth : ℤ) (act : String) : Except MlpExc (List Mod) :=
  if act = "relu" ∨ act = "elu" ∨ act = "tanh" then                                    -- 29-36
    if depth = 0 then .ok [.linear input output]                                       -- 39-40
    else .ok ([.linear input hidden, .act act] ++                                      -- 42
      (List.replicate (depth - 1).toNat [Mod.linear hidden hidden, .act act]).flatten ++  -- 43-44
      [.linear hidden output])                                                         -- 45
  else .error .notImplemented

end Verif.Util
