import Verif.Dcem.LmlLong

/-!
# Model of `theseus/third_party/lml.py`: whole batches

`LML_Function.forward` and `backward` for a batch (or a single vector).  `Lml` models what happens to one
row; here the rows are those of the tensors, with the mask `I` of the rows that are still searched.
-/

namespace Verif.Dcem
open Real

/-- The exceptions: the `AssertionError` for a wrong number of dimensions is left out. -/
inductive LmlErr where
  /-- `gather` with an index that is out of range (lml.py L118). -/
  | gather
  /-- `nu_lower[J] -= 7.0` with a mask of the wrong length (lml.py L121). -/
  | mask
  /-- `r` is not bound, because `n_iter = 0` (lml.py L128). -/
  | unbound
deriving DecidableEq

/-- A row of the search: `x`, `nu_lower`, `nu_upper`. -/
structure LmlRow where
  x : List ℝ
  lo : ℝ
  hi : ℝ

/-- The number of negative values on the grid of a row: `(fs < 0).sum(dim=1)` (lml.py L105-110). -/
noncomputable def LmlRow.count (N branch : ℕ) (w : LmlRow) : ℕ :=
  open Classical in
  ((List.range branch).filter fun j => decide (lmlF w.x N (lmlGrid branch w.lo (w.hi - w.lo) j) < 0)).length

/-- `I` (lml.py L97-98). -/
noncomputable def LmlRow.active (eps : ℝ) (w : LmlRow) : Bool := open Classical in decide (w.hi - w.lo > eps)

/-- The assignments to a row with index in `I` (lml.py L111-118), before L121. -/
noncomputable def LmlRow.update (N branch : ℕ) (w : LmlRow) : LmlRow :=
  let c := w.count N branch
  let i := if c = 0 then 0 else c - 1
  { w with lo := lmlGrid branch w.lo (w.hi - w.lo) i, hi := lmlGrid branch w.lo (w.hi - w.lo) (i + 1) }

/-- The body of the loop when a row is active (lml.py L105-122): the active rows are updated; if one of them
has only positive iterates, the mask `J`, which has one entry for each active row, is used on all rows, which
works only if all are active. -/
noncomputable def lmlBatchStep (N branch : ℕ) (eps : ℝ) (ws : List LmlRow) : Except LmlErr (List LmlRow) :=
  let act := ws.filter (LmlRow.active eps)
  if act.any fun w => decide (branch ≤ (if w.count N branch = 0 then 0 else w.count N branch - 1) + 1) then
    .error .gather
  else
    let upd := ws.map fun w => if w.active eps then w.update N branch else w
    if act.any fun w => decide (w.count N branch = 0) then
      if act.length = ws.length then
        .ok (List.zipWith (fun w w' => if w.count N branch = 0 then { w' with lo := w'.lo - 7 } else w') ws upd)
      else .error .mask
    else .ok upd

/-- The loop (lml.py L96-122): `n` iterations remain; the result is the rows and the widths `r` of the last
iteration that was begun. -/
noncomputable def lmlBatchLoop (N branch : ℕ) (eps : ℝ) :
    ℕ → List LmlRow → Option (List ℝ) → Except LmlErr (List LmlRow × List ℝ)
  | 0, _, none => .error .unbound
  | 0, ws, some r => .ok (ws, r)
  | n + 1, ws, _ =>
    let r := ws.map fun w => w.hi - w.lo
    if (ws.filter (LmlRow.active eps)).length = 0 then .ok (ws, r)
    else match lmlBatchStep N branch eps ws with
      | .error e => .error e
      | .ok ws' => lmlBatchLoop N branch eps n ws' (some r)

/-- The initial interval of a row (lml.py L88-92). -/
noncomputable def lmlRow (N : ℕ) (x : List ℝ) : LmlRow :=
  ⟨x, -(sortDesc x).getD (N - 1) 0 - 7, -(sortDesc x).getD N 0 + 7⟩

/-- `LML_Function.forward` for a tensor with rows `xs` of length `nx` (lml.py L55-140; `branch` is 10, or
100 on CUDA). -/
noncomputable def lmlBatch (N branch n_iter : ℕ) (eps : ℝ) (nx : ℕ) (xs : List (List ℝ)) :
    Except LmlErr (List (List ℝ)) :=
  if nx ≤ N then .ok (xs.map fun x => x.map fun _ => (1 - 1e-5) * 1)
  else match lmlBatchLoop N branch eps n_iter (xs.map (lmlRow N)) none with
    | .error e => .error e
    | .ok (ws, r) => .ok (List.zipWith (fun w r => w.x.map fun u => sigmoid (u + (w.lo + r / 2))) ws r)

/-- A single vector: `unsqueeze(0)`, `squeeze(0)` (lml.py L69-73, L129-130). -/
noncomputable def lmlSingle (N branch n_iter : ℕ) (eps : ℝ) (x : List ℝ) : Except LmlErr (Option (List ℝ)) :=
  (lmlBatch N branch n_iter eps x.length [x]).map List.head?

/-- `LML_Function.backward` (lml.py L143-181): `y` and the incoming gradient, row by row. -/
noncomputable def lmlBatchBackward {b n : ℕ} (N : ℕ) (y g : Fin b → Fin n → ℝ) : Fin b → Fin n → ℝ :=
  if n ≤ N then fun _ _ => 0
  else
    let H := fun r i => 1 / (1 / y r i + 1 / (1 - y r i))
    let dnu := fun r => (∑ i, H r i * g r i) / ∑ i, H r i
    fun r i => -H r i * (-g r i + dnu r)

end Verif.Dcem
