import Mathlib.Data.Rat.Defs
import Mathlib.Data.List.Basic

/-!
# Global parameter stores (`torchlie/torchlie/global_params.py`, `theseus/global_params.py`)

Two module-level objects with numeric tolerances and flags. Python's attribute lookup is modelled as it is:
first the dictionary of the object, then that of its class, where the declared defaults and the methods are.
Not modelled: names with two leading underscores, values that are callable apart from the two methods, and
`__repr__`/`__eq__`, which `dataclass` generates.
-/

namespace Verif.Params

/-- The methods of the two classes (torchlie L36-59, theseus L38-62). -/
inductive Meth where
  | getEps | reset
deriving DecidableEq, Repr

/-- A Python value. `obj` stands for any object that is neither a number nor a flag and not callable. -/
inductive Val where
  | num (q : ℚ)
  | flag (b : Bool)
  | meth (m : Meth)
  | obj (n : ℕ)
deriving DecidableEq, Repr

/-- The exceptions. -/
inductive Exc where
  | value | runtime | attribute | type
deriving DecidableEq, Repr

/-- The dictionary of an object. -/
abbrev Dict := String → Option Val

/-- The two objects `_TORCHLIE_GLOBAL_PARAMS` (torchlie L62) and `_THESEUS_GLOBAL_PARAMS` (theseus L65). -/
structure State where
  lie : Dict
  th : Dict

/-- The declared fields of `_TorchLieGlobalParams` with their defaults (torchlie L19-34). -/
def lieFields : List (String × Val) :=
  [("so3_near_pi_eps_float32", .num 0), ("so3_near_zero_eps_float32", .num 0), ("so3_matrix_eps_float32", .num 0),
   ("so3_quat_eps_float32", .num 0), ("so3_hat_eps_float32", .num 0), ("se3_hat_eps_float32", .num 0),
   ("so3_near_pi_eps_float64", .num 0), ("so3_near_zero_eps_float64", .num 0), ("so3_matrix_eps_float64", .num 0),
   ("so3_quat_eps_float64", .num 0), ("so3_hat_eps_float64", .num 0), ("se3_hat_eps_float64", .num 0),
   ("_allow_passthrough_ops", .flag false), ("_faster_log_maps", .flag false)]

/-- The attributes of both classes that are methods. -/
def methods : List (String × Val) := [("get_eps", .meth .getEps), ("reset", .meth .reset)]

/-- The class attributes (torchlie L19-59). -/
def lieClass : List (String × Val) := lieFields ++ methods

/-- The assignments of `reset` (torchlie L44-59). -/
def lieDefaults : List (String × Val) :=
  [("so3_near_pi_eps_float32", .num (1 / 100)), ("so3_near_zero_eps_float32", .num (1 / 100)),
   ("so3_d_near_zero_eps_float32", .num (2 / 10)), ("so3_matrix_eps_float32", .num (4 / 10000)),
   ("so3_quat_eps_float32", .num (2 / 10000)), ("so3_hat_eps_float32", .num (5 / 1000000)),
   ("se3_hat_eps_float32", .num (5 / 1000000)),
   ("so3_near_pi_eps_float64", .num (1 / 10000000)), ("so3_near_zero_eps_float64", .num (5 / 1000)),
   ("so3_d_near_zero_eps_float64", .num (1 / 100)), ("so3_matrix_eps_float64", .num (1 / 1000000)),
   ("so3_quat_eps_float64", .num (5 / 10000000)), ("so3_hat_eps_float64", .num (5 / 10000000)),
   ("se3_hat_eps_float64", .num (5 / 10000000))]

/-- The declared fields of `_TheseusGlobalParams` (theseus L23-33). -/
def thFields : List (String × Val) :=
  [("so2_norm_eps_float32", .num 0), ("so2_matrix_eps_float32", .num 0), ("se2_near_zero_eps_float32", .num 0),
   ("so3_to_quaternion_sqrt_eps_float32", .num 0), ("so2_norm_eps_float64", .num 0),
   ("so2_matrix_eps_float64", .num 0), ("se2_near_zero_eps_float64", .num 0),
   ("so3_to_quaternion_sqrt_eps_float64", .num 0), ("fast_approx_local_jacobians", .flag false)]

/-- The class attributes (theseus L23-62). -/
def thClass : List (String × Val) := thFields ++ methods

/-- The assignments of `reset` (theseus L46-62). -/
def thDefaults : List (String × Val) :=
  [("so2_norm_eps_float32", .num (1 / 1000000000000)), ("so2_matrix_eps_float32", .num (1 / 100000)),
   ("se2_near_zero_eps_float32", .num (3 / 100)), ("se2_d_near_zero_eps_float32", .num (1 / 10)),
   ("so3_to_quaternion_sqrt_eps_float32", .num (1 / 1000000)), ("so2_norm_eps_float32", .num (1 / 1000000000000)),
   ("so2_matrix_eps_float64", .num (4 / 10000000)), ("se2_near_zero_eps_float64", .num (1 / 1000000)),
   ("se2_d_near_zero_eps_float64", .num (1 / 1000)), ("so3_to_quaternion_sqrt_eps_float64", .num (1 / 1000000)),
   ("fast_approx_local_jacobians", .flag false)]

/-- Attribute lookup: the object, then its class. -/
def attr (cls : List (String × Val)) (d : Dict) (k : String) : Option Val :=
  match d k with
  | some v => some v
  | none => cls.lookup k

/-- `setattr` stores in the object. -/
def setattr (d : Dict) (k : String) (v : Val) : Dict := fun k' => if k' = k then some v else d k'

/-- A sequence of assignments. -/
def assign (d : Dict) : List (String × Val) → Dict
  | [] => d
  | (k, v) :: l => assign (setattr d k v) l

/-- The objects after the import: `__init__` calls `reset` (torchlie L36-37, L62; theseus L35-36, L65). -/
def init : State := ⟨assign (fun _ => none) lieDefaults, assign (fun _ => none) thDefaults⟩

/-- The loop of `set_global_params` (torchlie L66-69, theseus L82-85). -/
def setLoop (cls : List (String × Val)) (d : Dict) : List (String × Val) → Dict × Option Exc
  | [] => (d, none)
  | (k, v) :: o =>
    match attr cls d k with
    | none => (d, some .value)
    | some _ => setLoop cls (setattr d k v) o

/-- `obj.reset()`: the attribute is looked up and called without arguments (torchlie L72-73). -/
def callReset (cls defaults : List (String × Val)) (d : Dict) : Dict × Option Exc :=
  match attr cls d "reset" with
  | none => (d, some .attribute)
  | some (.meth .reset) => (assign d defaults, none)
  | some _ => (d, some .type)

/-- `torchlie.set_global_params` (torchlie L65-69). -/
def lieSet (s : State) (o : List (String × Val)) : State × Option Exc :=
  let r := setLoop lieClass s.lie o
  ({ s with lie := r.1 }, r.2)

/-- `torchlie.reset_global_params` (torchlie L72-73). -/
def lieReset (s : State) : State × Option Exc :=
  let r := callReset lieClass lieDefaults s.lie
  ({ s with lie := r.1 }, r.2)

/-- `theseus.set_global_params` (theseus L68-85); `_LIE_GP_FIELD_NAMES` are the declared fields (L12). -/
def thSet (s : State) (o : List (String × Val)) : State × Option Exc :=
  if o.any fun kv => (lieFields.map Prod.fst).contains kv.1 then (s, some .runtime)     -- 69-81
  else
    let r := setLoop thClass s.th o
    ({ s with th := r.1 }, r.2)

/-- `_THESEUS_GLOBAL_PARAMS.reset()` (theseus L46-62); not exported by the package. -/
def thReset (s : State) : State × Option Exc :=
  let r := callReset thClass thDefaults s.th
  ({ s with th := r.1 }, r.2)

/-- A call. -/
inductive Op where
  | lieSet (o : List (String × Val))
  | lieReset
  | thSet (o : List (String × Val))
  | thReset
deriving Repr

/-- The state after a call and the exception, if it raised one. -/
def exec (s : State) : Op → State × Option Exc
  | .lieSet o => lieSet s o
  | .lieReset => lieReset s
  | .thSet o => thSet s o
  | .thReset => thReset s

/-- The state after a history of calls; the caller goes on after an exception. -/
def run (s : State) : List Op → State
  | [] => s
  | o :: h => run (exec s o).1 h

/-- The dtypes: `float32`, `float64` and the others. -/
inductive DType where
  | f32 | f64 | other (name : String)
deriving DecidableEq, Repr

/-- `str(dtype)[6:]`, which drops `"torch."` (torchlie L41, theseus L43). -/
def DType.suffix : DType → String
  | .f32 => "float32"
  | .f64 => "float64"
  | .other n => n

/-- `_CHECK_DTYPE_SUPPORTED` (torchlie L11-16, theseus L15-20). -/
def DType.supported : DType → Bool
  | .f32 => true
  | .f64 => true
  | .other _ => false

/-- The name of a tolerance (torchlie L41, theseus L43). -/
def epsName (ltype at' : String) (t : DType) : String := ltype ++ "_" ++ at' ++ "_eps_" ++ t.suffix

/-- `getattr(self, name)`. -/
def getattr (cls : List (String × Val)) (d : Dict) (k : String) : Except Exc Val :=
  match attr cls d k with
  | some v => .ok v
  | none => .error .attribute

/-- `_TORCHLIE_GLOBAL_PARAMS.get_eps(ltype, attr, dtype)` (torchlie L39-42). -/
def lieGetEps (s : State) (ltype at' : String) (t : DType) : Except Exc Val :=
  match attr lieClass s.lie "get_eps" with
  | none => .error .attribute
  | some (.meth .getEps) =>
    if t.supported then getattr lieClass s.lie (epsName ltype at' t) else .error .value
  | some _ => .error .type

/-- `_THESEUS_GLOBAL_PARAMS.get_eps(ltype, attr, dtype)` (theseus L38-44). -/
def thGetEps (s : State) (ltype at' : String) (t : DType) : Except Exc Val :=
  match attr thClass s.th "get_eps" with
  | none => .error .attribute
  | some (.meth .getEps) =>
    match lieGetEps s ltype at' t with                                                  -- 39-40
    | .ok v => .ok v
    | .error .attribute =>                                                              -- 41
      if t.supported then getattr thClass s.th (epsName ltype at' t) else .error .value -- 42-44
    | .error e => .error e
  | some _ => .error .type

end Verif.Params
