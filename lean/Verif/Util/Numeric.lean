import Verif.Geometry.Lie
import Mathlib.Algebra.Order.Floor.Ring
import Mathlib.Algebra.Order.Archimedean.Real.Basic
import Mathlib.Data.Finset.Lattice.Fold
import Mathlib.Data.Fintype.Basic

/-!
# Finite differences (`theseus/utils/utils.py` L77-131)

Exact real numbers. `numeric_jacobian` is modelled with batches and torch's broadcasting of the assigned columns;
the result of the function has a batch size that depends only on those of its arguments. Devices and dtypes of
the tensors are not modelled; for `numeric_grad` the difference between integer and floating-point arrays is.
-/

namespace Verif.Numeric
open Verif.Geometry

/-- `ValueError` (`max` of an empty list) and `RuntimeError` (shapes that do not fit). -/
inductive Exc where
  | value | runtime
deriving DecidableEq, Repr

/-- A dimension of size `len` can be assigned to one of size `B`: torch's broadcasting in `jac[:, :, d] = …`
(utils.py L111). -/
def Fits (len B : ℕ) : Prop := len = B ∨ len = 1

instance (len B : ℕ) : Decidable (Fits len B) := by unfold Fits; infer_instance

/-- The entry of the broadcast dimension. -/
def bcast {α : Type} {len B : ℕ} (h : Fits len B) (v : Fin len → α) (j : Fin B) : α :=
  if h' : len = B then v (Fin.cast h'.symm j) else v ⟨0, by rcases h with h | h <;> omega⟩

variable {a : ℕ} {n b : Fin a → ℕ} {G : Fin a → Type} {k b' : ℕ} {H : Type}

/-- The arguments with one replaced (utils.py L104-107). -/
def replaced (x : ∀ i, Fin (b i) → G i) (i : Fin a) (y : Fin (b i) → G i) : ∀ j, Fin (b j) → G j :=
  Function.update x i y

/-- One column before the assignment: `diff / (2 * delta_mag)` (utils.py L97-111). -/
noncomputable def column (L : ∀ i, Ops (n i) (G i)) (L' : Ops k H) (F : (∀ i, Fin (b i) → G i) → Fin b' → H)
    (x : ∀ i, Fin (b i) → G i) (δ : ℝ) (i : Fin a) (d : Fin (n i)) : Fin b' → Fin k → ℝ :=
  let delta : Fin (n i) → ℝ := fun j => if j = d then δ else 0                          -- 97-100
  let plus := F (replaced x i fun r => (L i).retract (x i r) delta)                    -- 102, 104-105
  let minus := F (replaced x i fun r => (L i).retract (x i r) (-delta))                -- 103, 106-107
  fun r c => L'.local (minus r) (plus r) c / (2 * δ)                                   -- 109-110

/-- `function_dim or dof` (utils.py L92). -/
def rows (fdim : Option ℕ) (dof : ℕ) : ℕ :=
  match fdim with
  | none => dof
  | some m => if m = 0 then dof else m

/-- `batch_size` (utils.py L88). -/
def batch (b : Fin a → ℕ) : ℕ := Finset.univ.sup b

/-- `_compute` (utils.py L90-112). -/
noncomputable def compute (L : ∀ i, Ops (n i) (G i)) (L' : Ops k H) (F : (∀ i, Fin (b i) → G i) → Fin b' → H)
    (x : ∀ i, Fin (b i) → G i) (fdim : Option ℕ) (δ : ℝ) (i : Fin a) :
    Except Exc (Fin (batch b) → Matrix (Fin (rows fdim (n i))) (Fin (n i)) ℝ) :=
  if h : ∀ _ : Fin (n i), Fits b' (batch b) ∧ Fits k (rows fdim (n i)) then
    .ok fun r => Matrix.of fun c d => bcast (h d).2 (bcast (h d).1 (column L L' F x δ i d) r) c
  else .error .runtime

/-- `numeric_jacobian` (utils.py L82-117): the Jacobians with respect to all arguments, or an exception if one
of them cannot be computed. -/
noncomputable def numericJacobian (L : ∀ i, Ops (n i) (G i)) (L' : Ops k H)
    (F : (∀ i, Fin (b i) → G i) → Fin b' → H) (x : ∀ i, Fin (b i) → G i) (fdim : Option ℕ) (δ : ℝ) :
    Except Exc (∀ i, Fin (batch b) → Matrix (Fin (rows fdim (n i))) (Fin (n i)) ℝ) :=
  if a = 0 then .error .value                                                          -- 88
  else if h : ∀ i, (compute L L' F x fdim δ i).isOk then                               -- 114-117
    .ok fun i => match e : compute L L' F x fdim δ i with
      | .ok J => J
      | .error _ => absurd (h i) (by rw [e]; simp [Except.isOk, Except.toBool])
  else .error .runtime

/-- Assignment to an element of an array: integer arrays truncate towards zero. -/
noncomputable def store (int : Bool) (v : ℝ) : ℝ :=
  if int then (if 0 ≤ v then (⌊v⌋ : ℝ) else (⌈v⌉ : ℝ)) else v

/-- `numeric_grad` (utils.py L121-134). -/
noncomputable def numericGrad {m : ℕ} (int : Bool) (f : (Fin m → ℝ) → ℝ) (h : ℝ) (x : Fin m → ℝ) : Fin m → ℝ :=
  fun i =>
    let hi : Fin m → ℝ := fun j => if j = i then store int h else 0                    -- 129-130
    store int ((f (x + hi) - f (x - hi)) / (2 * h))                                    -- 131

end Verif.Numeric
