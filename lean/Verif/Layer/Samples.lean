import Verif.Layer.LinOptProps
/-!
# `TheseusLayer.compute_samples` (C82)

Source: `/repo/theseus/theseus_layer.py:99-135`.

Simplifications: exact arithmetic; the normal random numbers are an argument (`y`, one vector per sample,
shared by the whole batch as in the code); `isDefault`: the data type of the linearization is torch's default
data type, in which the random numbers are drawn (`solve_triangular` raises for mixed data types).
-/
namespace Verif.Layer
open Matrix Verif.Steps Verif.Embodied
open scoped Classical
variable {p d n : Nat}

/-- An optimization variable for `compute_samples`: its degrees of freedom and, if it is a vector variable
(whose tensor has `dof` entries), its value; `none`: a variable whose tensor has another shape (the
rotation and pose groups). -/
structure SVar where
  dof : Nat
  val : Option (Nat → ℝ)

/-- The loop over variables for one sample and one batch element (`theseus_layer.py:127-133`): the slice
of the step is retracted (addition, for vector variables) and written to the slice of the result; a tensor
of another shape cannot be written to the slice. -/
noncomputable def assemble : List SVar → Nat → (Nat → ℝ) → (Nat → ℝ) → Except Exc (Nat → ℝ)
  | [], _, _, out => .ok out
  | v :: vs, start, delta, out =>
    match v.val with
    | none => .error .runtime
    | some x => assemble vs (start + v.dof) delta
        (fun k => if start ≤ k ∧ k < start + v.dof then x (k - start) + delta k else out k)

/-- `delta_samples` of one batch element and one sample (`theseus_layer.py:113-123`): `R` with
`RᵀR = AtA / temperature`, then `R⁻¹ y + delta`; an error if the Cholesky factorization fails. -/
noncomputable def deltaSample (L : Lin ℝ p d) (delta : Fin d → ℝ) (temperature : ℝ) (y : Fin d → ℝ) :
    Except Exc (Fin d → ℝ) :=
  match cholesky ((1 / temperature) • L.AtA) with                                     -- 113-114
  | none => .error .runtime
  | some C => .ok ((Cᵀ)⁻¹ *ᵥ y + delta)                                               -- 121-123

/-- Run an operation that may raise for every index; raise the first exception. -/
def allOk {α : Type} : {n : Nat} → (Fin n → Except Exc α) → Except Exc (Fin n → α)
  | 0, _ => .ok Fin.elim0
  | _ + 1, f => do
    let a ← f 0
    let r ← allOk fun i => f i.succ
    .ok (Fin.cons a r)

/-- A step as a function of the column (columns beyond the last hold 0). -/
def ext0 (v : Fin d → ℝ) : Nat → ℝ := fun k => if h : k < d then v ⟨k, h⟩ else 0

/-- `compute_samples` (`theseus_layer.py:99-135`): `vars i` are the variables of batch element `i` in the
order of the linearization, `y s` the random vector of sample `s`. -/
noncomputable def computeSamples {m : Nat} (k : Kind) (isDefault : Bool) (L : Fin n → Lin ℝ p d)
    (vars : Fin n → List SVar) (temperature : ℝ) (y : Fin m → Fin d → ℝ) : Except Exc (Fin n → Fin m → Nat → ℝ) := do
  let delta ← denseSolve k false isDefault (sysOf L) none true (1 / 100000000)        -- 112
  let ds ← allOk fun i => allOk fun s => deltaSample (L i) (delta i) temperature (y s)  -- 113-123
  if isDefault then                                                                   -- 117-121
    allOk fun i => allOk fun s => assemble (vars i) 0 (ext0 (ds i s)) (fun _ => 0)    -- 125-133
  else .error .runtime

end Verif.Layer
