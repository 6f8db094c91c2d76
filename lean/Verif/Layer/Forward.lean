import Verif.Update.Model
/-!
# Model of `TheseusLayer.forward`, `TheseusLayer.to` and the start of the DLM backward pass

Source: `/repo/theseus/theseus_layer.py`.

Simplifications: the optimizer is a parameter `opt` (any function of the objective's variables, possibly
raising); `dlmCheck` says whether the objective of the DLM backward pass can be built (it cannot if a
variable is no Lie group or a name is taken); of the optimizer's keyword arguments only those that `forward`
looks at are modelled; the objective of the DLM backward pass is the copy of the objective, without the
perturbation terms.
-/
namespace Verif.Forward
open Verif Verif.Objective Verif.Update

/-- Exceptions: those of the objective, or `AttributeError`. -/
inductive FErr where
  | base (e : Err)
  | attributeError
deriving DecidableEq, Repr

/-- `BackwardMode` (`nonlinear_optimizer.py:20-24`). -/
inductive Mode where
  | unroll | implicit | truncated | dlm
deriving DecidableEq, Repr

/-- What a caller can pass as `backward_mode`. -/
inductive ModeArg where
  | absent | enum (m : Mode) | str (s : String) | other
deriving DecidableEq, Repr

/-- `BackwardMode.resolve` (`nonlinear_optimizer.py:26-41`), with the default of `theseus_layer.py:57-59`. -/
def resolve : ModeArg → Except Err Mode
  | .absent => .ok .unroll
  | .enum m => .ok m
  | .other => .error .valueError
  | .str s =>
    if s.toUpper = "UNROLL" then .ok .unroll
    else if s.toUpper = "IMPLICIT" then .ok .implicit
    else if s.toUpper = "TRUNCATED" then .ok .truncated
    else if s.toUpper = "DLM" then .ok .dlm
    else .error .valueError

/-- What a caller can pass as `dlm_epsilon`: nothing, a Python float, or another object. -/
inductive EpsArg where
  | absent | float | other
deriving DecidableEq, Repr

/-- The dictionary `optimizer_kwargs`; `rest`: it has other entries; `token`: it has the entry that marks
calls from a layer. -/
structure Kwargs where
  mode : ModeArg := .absent
  eps : EpsArg := .absent
  rest : Bool := false
  token : Bool := false
deriving DecidableEq, Repr

/-- The dictionary has no entry. -/
def Kwargs.isEmpty (k : Kwargs) : Bool := k = {}

/-- The state of a layer: the version of the objective at construction, and the objective of the DLM
backward pass once it exists (`theseus_layer.py:41-43`). -/
structure Layer (ρ : Type) where
  runner : Runner
  dlm : Option (Env ρ) := none

variable {ρ ι : Type}

/-- `TheseusLayer.__init__` (`theseus_layer.py:30-43`). -/
def build (e : Env ρ) : Layer ρ := { runner := buildRunner e.obj }

/-- Everything that a call leaves behind, and its outcome. -/
structure Out (ρ ι : Type) where
  layer : Layer ρ
  env : Env ρ
  kwargs : Option Kwargs
  res : Except FErr (List (Nat × Tensor ρ) × ι)

/-- `_forward` (`theseus_layer.py:164-174`) and the dictionary of results (`theseus_layer.py:96-97`). The
dictionary `optimizer_kwargs` is the caller's, unless the caller passed none or an empty one
(`theseus_layer.py:55`). -/
def inner (opt : Env ρ → Env ρ × Except Err ι) (l : Layer ρ) (e : Env ρ) (inputs : List (Nat × Tensor ρ))
    (kw : Option Kwargs) : Out ρ ι :=
  match update e inputs none with                                                     -- 170
  | (e1, some x) => ⟨l, e1, kw, .error (.base x)⟩
  | (e1, none) =>
    let kw' := kw.map fun k => if k.isEmpty then k else { k with token := true }      -- 171
    match opt e1 with                                                                 -- 172
    | (e2, .error x) => ⟨l, e2, kw', .error (.base x)⟩
    | (e2, .ok info) =>
      ⟨l, e2, kw', .ok (e2.obj.optimVars.map (fun p => (p.1, (e2.heap p.2).tensor)), info)⟩  -- 173, 96

/-- `TheseusLayer.forward` (`theseus_layer.py:45-97`). -/
def forward (opt : Env ρ → Env ρ × Except Err ι) (dlmCheck : Env ρ → Option Err) (l : Layer ρ) (e : Env ρ)
    (inputs : Option (List (Nat × Tensor ρ))) (kw : Option Kwargs) : Out ρ ι :=
  match runGuard l.runner e.obj with                                                  -- 50-54
  | some x => ⟨l, e, kw, .error (.base x)⟩
  | none =>
    match resolve (kw.getD {}).mode with                                              -- 55-59
    | .error x => ⟨l, e, kw, .error (.base x)⟩
    | .ok .dlm =>
      if (kw.getD {}).eps = .other then ⟨l, e, kw, .error (.base .valueError)⟩        -- 61-68
      else
        match (match l.dlm with                                                       -- 70-74
          | some _ => Except.ok l
          | none => match dlmCheck e with
            | some x => .error x
            | none => .ok { l with dlm := some e }) with
        | .error x => ⟨l, e, kw, .error (.base x)⟩
        | .ok l' =>
          match inputs with                                                           -- 77
          | none => ⟨l', e, kw, .error .attributeError⟩
          | some [] => ⟨l', e, kw, .error (.base .valueError)⟩
          | some (i :: is) => inner opt l' e (i :: is) kw                             -- 80-91
    | .ok _ => inner opt l e (inputs.getD []) kw                                      -- 92-95

/-- `Objective.to` (`objective.py:846-855`): data type and device of the objective and of the tensors of its
variables. -/
def envTo (e : Env ρ) (dtype device : Nat) : Env ρ :=
  { e with
    obj := { e.obj with dtype := dtype }
    device := device
    heap := fun v =>
      if v ∈ e.obj.optimVars.vals ∨ v ∈ e.obj.auxVars.vals ∨ v ∈ e.obj.cwOptimVars.vals then
        { e.heap v with tensor := { (e.heap v).tensor with dtype := dtype, device := device } }
      else e.heap v }

/-- `TheseusLayer.to` (`theseus_layer.py:138-141`): the objective only. -/
def layerTo (l : Layer ρ) (e : Env ρ) (dtype device : Nat) : Layer ρ × Env ρ := (l, envTo e dtype device)

/-- The data written to the objective of the DLM backward pass (`theseus_layer.py:243-256`): the inputs of the
forward pass, with those of optimization variables replaced by the solutions. The gradients and `epsilon`
belong to the perturbation terms, which are not modelled; the order of the dictionary (which matters only
when the update raises half way) is simplified. -/
def backwardData (inputs sols : List (Nat × Tensor ρ)) : List (Nat × Tensor ρ) :=
  inputs.filter (fun p => decide (p.1 ∉ sols.map Prod.fst)) ++ sols

/-- The update at the start of the DLM backward pass (`theseus_layer.py:259`), on the layer's copy of the
objective; `some`: it raises. -/
def backwardUpdate (l : Layer ρ) (inputs sols : List (Nat × Tensor ρ)) : Layer ρ × Option Err :=
  match l.dlm with
  | none => (l, none)
  | some b => ({ l with dlm := some (update b (backwardData inputs sols) none).1 },
      (update b (backwardData inputs sols) none).2)

end Verif.Forward
