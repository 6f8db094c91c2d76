import Mathlib.Analysis.SpecialFunctions.Sigmoid
import Mathlib.Data.List.Sort
import Mathlib.Tactic

/-!
# Model of `theseus/third_party/lml.py`: the limited multi-label projection

One row of the batch: `LML` computes weights `sigmoid(x + nu)` that sum to (about) `N`, finding
`nu` with a bracketing search.  Real arithmetic; `LmlBatch` models whole batches.
-/

namespace Verif.Dcem
open Real

/-- `fs` for one `nu` (lml.py L106-107). -/
noncomputable def lmlF (x : List ℝ) (N : ℕ) (nu : ℝ) : ℝ :=
  (x.map fun u => sigmoid (u + nu)).sum - N

/-- `nus` (lml.py L94, L105): `branch` evenly spaced points from `lo` to `lo + r`. -/
noncomputable def lmlGrid (branch : ℕ) (lo r : ℝ) (j : ℕ) : ℝ := r * (j / (branch - 1 : ℝ)) + lo

/-- One iteration of the search (lml.py L105-122); `none` is the out-of-range `gather`. -/
noncomputable def lmlStep (x : List ℝ) (N branch : ℕ) (lo hi : ℝ) : Option (ℝ × ℝ) :=
  open Classical in
  let r := hi - lo
  let nus := lmlGrid branch lo r
  let count := ((List.range branch).filter fun j => decide (lmlF x N (nus j) < 0)).length
  if count = 0 then some (nus 0 - 7, nus 1)
  else if count < branch then some (nus (count - 1), nus count)
  else none

/-- The loop (lml.py L96-122) and the final `nu` (L128): `r` is the one computed at the last
entry of the loop body. -/
noncomputable def lmlLoop (x : List ℝ) (N branch : ℕ) (eps : ℝ) : ℕ → ℝ → ℝ → ℝ → Option ℝ
  | 0, lo, _, r => some (lo + r / 2)
  | n + 1, lo, hi, _ =>
    if hi - lo > eps then
      match lmlStep x N branch lo hi with
      | none => none
      | some (lo', hi') => lmlLoop x N branch eps n lo' hi' (hi - lo)
    else some (lo + (hi - lo) / 2)

/-- `x_sorted` (lml.py L88). -/
noncomputable def sortDesc (x : List ℝ) : List ℝ :=
  open Classical in x.mergeSort fun a b => decide (b ≤ a)

/-- `LML_Function.forward` for one row (lml.py L55-140: `branch` is 10 or 100, L62-67). -/
noncomputable def lml (N branch n_iter : ℕ) (eps : ℝ) (x : List ℝ) : Option (List ℝ) :=
  if x.length ≤ N then some (x.map fun _ => (1 - 1e-5) * 1)
  else
    let xs := sortDesc x
    let lo := -xs.getD (N - 1) 0 - 7
    let hi := -xs.getD N 0 + 7
    match lmlLoop x N branch eps n_iter lo hi (hi - lo) with
    | none => none
    | some nu => some (x.map fun u => sigmoid (u + nu))

/-- `LML_Function.backward` for one row with more than `N` entries (lml.py L169-171), from the
saved `y` and the incoming gradient. -/
noncomputable def lmlBackward {n : ℕ} (y g : Fin n → ℝ) : Fin n → ℝ :=
  let H := fun i => 1 / (1 / y i + 1 / (1 - y i))
  let dnu := (∑ i, H i * g i) / ∑ i, H i
  fun i => -H i * (-g i + dnu)

end Verif.Dcem
