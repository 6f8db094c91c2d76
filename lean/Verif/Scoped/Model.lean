/-!
# Model of the scoped settings

Sources: `/repo/theseus/geometry/lie_group_check.py`, `/repo/theseus/geometry/utils.py`,
`/repo/torchlie/torchlie/functional/check_contexts.py`, `/repo/torchlie/torchlie/lie_tensor.py:28-51`.

The settings are thread-local: the model is of one thread.  A user program is a nest of `with` blocks,
sequences, `raise` and `try`; an exception is a flag.  A manager written as a generator without
`try/finally` does not run the code after `yield` if the body raises (`contextlib` throws the exception
into the generator at the `yield`); the class based ones restore in `__exit__`, which always runs.
-/
namespace Verif.Scoped

/-- All scoped settings, with their defaults: Lie group checks of theseus (`lie_group_check.py:15-18`),
of torchlie (`check_contexts.py:17-18`), tangent mode (`utils.py:19-20`), euclidean mode
(`lie_tensor.py:33-34`). -/
structure Settings where
  check : Bool := true
  silent : Bool := false
  silence : Bool := false
  tlCheck : Bool := false
  tangent : Bool := false
  euclid : Bool := false
deriving DecidableEq, Repr

/-- The managers of `lie_group_check.py`, which are generators. -/
inductive Gen where
  | setEnabled (mode silent silence : Bool)   -- 39-54
  | enable (silent silence : Bool)            -- 57-69
  | disable (silent silence : Bool)           -- 72-82 `no_lie_group_check`
  | silenceWarnings                           -- 85-98

/-- The class based managers. -/
inductive Cls where
  | enableChecks                  -- check_contexts.py:26-35
  | setTangent (mode : Bool)      -- utils.py:28-37
  | enableTangent                 -- utils.py:40-46
  | noTangent                     -- utils.py:49-56
  | asEuclidean                   -- lie_tensor.py:42-51

/-- User programs.  `withCls i k body` uses the manager object number `i` of class `k`; a fresh number
models a manager created in the `with` statement itself. -/
inductive Prog where
  | skip
  | fail
  | seq (p q : Prog)
  | attempt (p q : Prog)          -- `try: p` / `except: q`
  | withGen (k : Gen) (body : Prog)
  | withCls (i : Nat) (k : Cls) (body : Prog)

/-- State: the settings, the attribute `prev` of each manager object, and a ghost flag recording that the
body of a generator based manager raised. -/
structure State where
  set : Settings
  prev : Nat → Bool
  interrupted : Bool

/-- What a generator based manager sets on entry. -/
def Gen.enter (k : Gen) (s : Settings) : Settings :=
  match k with
  | .setEnabled m a b => { s with check := m, silent := a, silence := b }             -- 52
  | .enable a b => { s with check := true, silent := a, silence := b }                -- 68
  | .disable a b => { s with check := false, silent := a, silence := b }              -- 81
  | .silenceWarnings => { s with silence := true }                                    -- 96

/-- What it sets on a normal exit: the values read on entry from `s0` (54, 98). -/
def Gen.exit (s0 s : Settings) : Settings :=
  { s with check := s0.check, silent := s0.silent, silence := s0.silence }

/-- The setting a class based manager changes. -/
def Cls.get (k : Cls) (s : Settings) : Bool :=
  match k with
  | .enableChecks => s.tlCheck
  | .asEuclidean => s.euclid
  | _ => s.tangent

/-- Writing that setting. -/
def Cls.put (k : Cls) (s : Settings) (v : Bool) : Settings :=
  match k with
  | .enableChecks => { s with tlCheck := v }
  | .asEuclidean => { s with euclid := v }
  | _ => { s with tangent := v }

/-- The value it sets on entry. -/
def Cls.value : Cls → Bool
  | .setTangent m => m
  | .noTangent => false
  | _ => true

/-- Execution: the final state and whether an exception escapes. -/
def exec : Prog → State → State × Bool
  | .skip, s => (s, false)
  | .fail, s => (s, true)
  | .seq p q, s =>
    match exec p s with
    | (s', true) => (s', true)
    | (s', false) => exec q s'
  | .attempt p q, s =>
    match exec p s with
    | (s', true) => exec q s'
    | (s', false) => (s', false)
  | .withGen k body, s =>
    match exec body { s with set := k.enter s.set } with
    | (s', true) => ({ s' with interrupted := true }, true)                           -- no try/finally
    | (s', false) => ({ s' with set := Gen.exit s.set s'.set }, false)
  | .withCls i k body, s =>
    let s1 := { s with prev := fun j => if j = i then k.get s.set else s.prev j, set := k.put s.set k.value }
    match exec body s1 with
    | (s', r) => ({ s' with set := k.put s'.set (s'.prev i) }, r)

/-- The manager objects used by a program. -/
def uses : Prog → List Nat
  | .skip => []
  | .fail => []
  | .seq p q => uses p ++ uses q
  | .attempt p q => uses p ++ uses q
  | .withGen _ b => uses b
  | .withCls i _ b => i :: uses b

/-- No manager object is entered again inside its own block. -/
def nonReentrant : Prog → Bool
  | .skip => true
  | .fail => true
  | .seq p q => nonReentrant p && nonReentrant q
  | .attempt p q => nonReentrant p && nonReentrant q
  | .withGen _ b => nonReentrant b
  | .withCls i _ b => decide (i ∉ uses b) && nonReentrant b

/-- State of a thread that never changed a setting. -/
def fresh (s : Settings) : State := ⟨s, fun _ => false, false⟩

end Verif.Scoped
