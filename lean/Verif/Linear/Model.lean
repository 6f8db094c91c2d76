import Verif.Objective.Model
import Mathlib.Algebra.BigOperators.Group.Finset.Basic
import Mathlib.Algebra.BigOperators.Ring.Finset
import Mathlib.Algebra.BigOperators.Intervals
/-!
# Model of variable orderings and of dense and sparse linearization

Sources: `/repo/theseus/optimizer/variable_ordering.py`, `linearization.py`,
`dense_linearization.py`, `sparse_linearization.py`, `/repo/theseus/utils/sparse_matrix_utils.py`.

Simplifications (all of this file):
* one batch element: the code treats the batch dimension pointwise;
* numbers are elements of an arbitrary commutative ring `R` (exact arithmetic);
* a tensor is a function of its indices, and a slice assignment replaces the entries in the slice
  (`writeBlock`); an allocation with `torch.empty` is an arbitrary function;
* `scipy.sparse` products are modelled by their definition (sums over the stored entries);
* a slice assignment whose shapes do not match raises in torch; the model takes shapes as given by
  the Jacobian's number of columns and the cost function's `dim()`.
-/
namespace Verif.Linear
open Verif Verif.Objective
open scoped BigOperators

/-- Exceptions. -/
inductive LErr where
  | keyError | indexError | valueError | unboundLocal
deriving DecidableEq, Repr

/-! ## Variable orderings -/

/-- `VariableOrdering` (`variable_ordering.py:11-17`). -/
structure Ordering where
  order : List Var
  index : Dict Nat Nat
deriving DecidableEq, Repr

/-- `_compute_default_order` (`variable_ordering.py:19-27`), loop. -/
def defaultLoop : List (Nat × Var) → Nat → Ordering → Ordering
  | [], _, o => o
  | (n, v) :: rest, cur, o =>
    if o.index.has n then defaultLoop rest cur o                          -- 23-24
    else defaultLoop rest (cur + 1) ⟨o.order ++ [v], o.index.set n cur⟩   -- 25-27

/-- `VariableOrdering(objective, default_order)` (`variable_ordering.py:12-17`). -/
def mkOrdering (s : State) (default : Bool) : Ordering :=
  if default then defaultLoop s.optimVars 0 ⟨[], []⟩ else ⟨[], []⟩

/-- `index_of` (`variable_ordering.py:29-30`). -/
def Ordering.indexOf (o : Ordering) (n : Nat) : Except LErr Nat :=
  match o.index.get? n with
  | none => .error .keyError
  | some i => .ok i

/-- `append` (`variable_ordering.py:38-48`). -/
def Ordering.append (s : State) (o : Ordering) (v : Var) : Ordering × Option LErr :=
  if o.index.has v.name then (o, some .valueError)                        -- 39-42
  else if !s.optimVars.has v.name then (o, some .valueError)              -- 43-46
  else (⟨o.order ++ [v], o.index.set v.name ((o.order ++ [v]).length - 1)⟩, none)  -- 47-48

/-- `remove` (`variable_ordering.py:50-52`); variables compare by identity. -/
def Ordering.remove (o : Ordering) (v : Var) : Ordering × Option LErr :=
  if v ∉ o.order then (o, some .valueError)                               -- 51
  else if !o.index.has v.name then (⟨o.order.erase v, o.index⟩, some .keyError)
  else (⟨o.order.erase v, o.index.del v.name⟩, none)                      -- 52

/-- `extend` (`variable_ordering.py:54-56`). -/
def Ordering.extend (s : State) (o : Ordering) : List Var → Ordering × Option LErr
  | [] => (o, none)
  | v :: vs => match o.append s v with
    | (o, some e) => (o, some e)
    | (o, none) => Ordering.extend s o vs

/-- `complete` (`variable_ordering.py:58-60`). -/
def Ordering.complete (s : State) (o : Ordering) : Bool :=
  decide (o.order.length = sizeVariables s)

/-- Calls on an ordering. -/
inductive OCall where
  | append (v : Var) | remove (v : Var) | extend (vs : List Var)
deriving DecidableEq, Repr

/-- One call. -/
def Ordering.call (s : State) (o : Ordering) : OCall → Ordering × Option LErr
  | .append v => o.append s v
  | .remove v => o.remove v
  | .extend vs => o.extend s vs

/-- A history (the caller catches exceptions). -/
def Ordering.run (s : State) (o : Ordering) : List OCall → Ordering
  | [] => o
  | c :: cs => Ordering.run s (o.call s c).1 cs

/-! ## Layout of the columns -/

/-- `var_dims`, `var_start_cols`, `num_cols` (`linearization.py:31-40`). -/
structure Layout where
  starts : List Nat
  dims : List Nat
  numCols : Nat
deriving DecidableEq, Repr

/-- The loop of `linearization.py:31-38`. -/
def layoutLoop (dof : Var → Nat) : List Var → Layout → Layout
  | [], L => L
  | v :: vs, L => layoutLoop dof vs ⟨L.starts ++ [L.numCols], L.dims ++ [dof v], L.numCols + dof v⟩

/-- Column layout of an ordering (`linearization.py:31-40`). -/
def layout (dof : Var → Nat) (order : List Var) : Layout := layoutLoop dof order ⟨[], [], 0⟩

/-! ## Dense linearization -/

/-- A weighted Jacobian: `shape[2]` and the entries. -/
structure Jac (R : Type) where
  cols : Nat
  val : Nat → Nat → R

/-- What linearization sees of a cost function: `dim()`, `optim_vars`, and the result of
`weighted_jacobians_error()`. -/
structure LCost (R : Type) where
  dim : Nat
  vars : List Var
  jacs : List (Jac R)
  err : Nat → R

variable {R : Type}

/-- `A[r0:r0+nr, c0:c0+nc] = J`. -/
def writeBlock (A : Nat → Nat → R) (r0 nr c0 nc : Nat) (J : Nat → Nat → R) : Nat → Nat → R :=
  fun i j => if r0 ≤ i ∧ i < r0 + nr ∧ c0 ≤ j ∧ j < c0 + nc then J (i - r0) (j - c0) else A i j

/-- `b[r0:r0+nr] = e`. -/
def writeSlice (b : Nat → R) (r0 nr : Nat) (e : Nat → R) : Nat → R :=
  fun i => if r0 ≤ i ∧ i < r0 + nr then e (i - r0) else b i

/-- `self.var_start_cols[self.ordering.index_of(var.name)]`
(`dense_linearization.py:45-48`, `sparse_linearization.py:48-51`). -/
def startCol (o : Ordering) (L : Layout) (v : Var) : Except LErr Nat :=
  match o.indexOf v.name with
  | .error e => .error e
  | .ok i => match L.starts[i]? with
    | none => .error .indexError
    | some c => .ok c

/-- Local state of `DenseLinearization._linearize_jacobian_impl`: `A`, `b`, `err_row_idx` and the
Python variable `row_slice` (unbound before its first assignment). -/
structure Dense (R : Type) where
  A : Nat → Nat → R
  b : Nat → R
  row : Nat
  slice : Option (Nat × Nat)

/-- The inner loop (`dense_linearization.py:44-53`), from Jacobian index `k`. -/
def denseVars (o : Ordering) (L : Layout) (c : LCost R) : Nat → List (Jac R) → Dense R → Except LErr (Dense R)
  | _, [], d => .ok d
  | k, J :: Js, d =>
    match c.vars[k]? with
    | none => .error .indexError                                          -- 46
    | some v => match startCol o L v with
      | .error e => .error e
      | .ok c0 => denseVars o L c (k + 1) Js
          { d with A := writeBlock d.A d.row c.dim c0 J.cols J.val,
                   slice := some (d.row, c.dim) }                         -- 50-53

/-- One cost function (`dense_linearization.py:42-56`). -/
def denseCost [Neg R] (o : Ordering) (L : Layout) (d : Dense R) (c : LCost R) : Except LErr (Dense R) :=
  match denseVars o L c 0 c.jacs d with
  | .error e => .error e
  | .ok d => match d.slice with
    | none => .error .unboundLocal                                        -- 55
    | some (r0, nr) =>
      .ok { d with b := writeSlice d.b r0 nr (fun r => - c.err r), row := d.row + c.dim }  -- 55-56

/-- The loop over cost functions (`dense_linearization.py:41-56`). -/
def denseLoop [Neg R] (o : Ordering) (L : Layout) : List (LCost R) → Dense R → Except LErr (Dense R)
  | [], d => .ok d
  | c :: cs, d => match denseCost o L d c with
    | .error e => .error e
    | .ok d => denseLoop o L cs d

/-- `DenseLinearization._linearize_jacobian_impl` (`dense_linearization.py:29-56`). -/
def dense [Neg R] [Zero R] (o : Ordering) (L : Layout) (cs : List (LCost R)) : Except LErr (Dense R) :=
  denseLoop o L cs ⟨fun _ _ => 0, fun _ => 0, 0, none⟩

/-- `num_rows = objective.dim()` (`linearization.py:41`). -/
def numRows (cs : List (LCost R)) : Nat := (cs.map LCost.dim).sum

/-- `AtA = At.bmm(A)` (`dense_linearization.py:60-61`). -/
def ata [CommRing R] (nr : Nat) (A : Nat → Nat → R) (i j : Nat) : R :=
  ∑ r ∈ Finset.range nr, A r i * A r j

/-- `Atb = At.bmm(b)` (`dense_linearization.py:62`). -/
def atb [CommRing R] (nr : Nat) (A : Nat → Nat → R) (b : Nat → R) (i : Nat) : R :=
  ∑ r ∈ Finset.range nr, A r i * b r

/-- `DenseLinearization.Av` (`dense_linearization.py:73-74`). -/
def denseAv [CommRing R] (nc : Nat) (A : Nat → Nat → R) (v : Nat → R) (i : Nat) : R :=
  ∑ j ∈ Finset.range nc, A i j * v j

/-- `DenseLinearization.diagonal_scaling` (`dense_linearization.py:76-77`). -/
def denseDiagScale [CommRing R] (nr : Nat) (A : Nat → Nat → R) (v : Nat → R) (j : Nat) : R :=
  v j * ata nr A j j

/-! ## Sparse linearization -/

/-- The structure arrays of `SparseLinearization` (`sparse_linearization.py:34-40`), while they are
being built. -/
structure Csr where
  colInd : List Nat
  rowPtr : List Nat
  blockPtrs : List (List Nat)
  blockStarts : List Nat
  strides : List Nat
deriving DecidableEq, Repr

/-- Comparison of `(slice(start, stop), idx)` tuples, as used by `.sort()`
(`sparse_linearization.py:57`). -/
def leEntry (a b : Nat × Nat × Nat) : Bool :=
  decide (a.1 < b.1) || (decide (a.1 = b.1) && (decide (a.2.1 < b.2.1) ||
    (decide (a.2.1 = b.2.1) && decide (a.2.2 ≤ b.2.2))))

/-- `col_slices_indices` before sorting (`sparse_linearization.py:44-54`): (start, stop, index). -/
def slicesOf (o : Ordering) (L : Layout) (dof : Var → Nat) : Nat → List Var →
    Except LErr (List (Nat × Nat × Nat))
  | _, [] => .ok []
  | k, v :: vs => match startCol o L v with
    | .error e => .error e
    | .ok c0 => match slicesOf o L dof (k + 1) vs with
      | .error e => .error e
      | .ok l => .ok ((c0, c0 + dof v, k) :: l)

/-- `[0] + cumsum` without the last element: `np.cumsum([0] + sizes)[:-1]`
(`sparse_linearization.py:59`), from a running total. -/
def cumStarts : Nat → List Nat → List Nat
  | _, [] => []
  | acc, d :: ds => acc :: cumStarts (acc + d) ds

/-- `block_pointers[sorted_indices] = sorted_block_pointers` (`sparse_linearization.py:60-64`): the
pointer written for index `k`. -/
def pointerOf (sorted : List (Nat × Nat × Nat)) (k : Nat) : Nat :=
  match (sorted.zip (cumStarts 0 (sorted.map fun s => s.2.1 - s.1))).reverse.find? (fun p => decide (p.1.2.2 = k)) with
  | some p => p.2
  | none => 0

/-- `col_ind` (`sparse_linearization.py:68`). -/
def colIndOf (sorted : List (Nat × Nat × Nat)) : List Nat :=
  (sorted.map fun s => (List.range (s.2.1 - s.1)).map (s.1 + ·)).flatten

/-- `for _ in range(num_rows): A_col_ind += col_ind; A_row_ptr.append(len(A_col_ind))`
(`sparse_linearization.py:71-73`). -/
def addRows (cols : List Nat) : Nat → List Nat × List Nat → List Nat × List Nat
  | 0, p => p
  | n + 1, p => addRows cols n (p.1 ++ cols, p.2 ++ [(p.1 ++ cols).length])

/-- One cost function of the constructor (`sparse_linearization.py:42-73`). -/
def csrCost (o : Ordering) (L : Layout) (dof : Var → Nat) (m : Csr) (c : LCost R) : Except LErr Csr :=
  match slicesOf o L dof 0 c.vars with
  | .error e => .error e
  | .ok l =>
    let sorted := l.mergeSort leEntry
    let cols := colIndOf sorted
    let p := addRows cols c.dim (m.colInd, m.rowPtr)
    .ok { colInd := p.1, rowPtr := p.2,
          blockPtrs := m.blockPtrs ++ [(List.range c.vars.length).map (pointerOf sorted)],
          blockStarts := m.blockStarts ++ [m.colInd.length],
          strides := m.strides ++ [cols.length] }

/-- `SparseLinearization.__init__` (`sparse_linearization.py:34-84`). -/
def csrLoop (o : Ordering) (L : Layout) (dof : Var → Nat) : List (LCost R) → Csr → Except LErr Csr
  | [], m => .ok m
  | c :: cs, m => match csrCost o L dof m c with
    | .error e => .error e
    | .ok m => csrLoop o L dof cs m

/-- `SparseLinearization.__init__` from the empty lists. -/
def csr (o : Ordering) (L : Layout) (dof : Var → Nat) (cs : List (LCost R)) : Except LErr Csr :=
  csrLoop o L dof cs ⟨[], [0], [], [], []⟩

/-- `block[:, :, pointer : pointer + num_cols] = J` where `block` views
`A_val[start : start + stride * num_rows]` as a `num_rows x stride` matrix
(`sparse_linearization.py:126-137`). -/
def writeVals (A : Nat → R) (start stride nr pointer : Nat) (J : Jac R) : Nat → R :=
  fun p => if start ≤ p ∧ p < start + stride * nr ∧ pointer ≤ (p - start) % stride ∧
      (p - start) % stride < pointer + J.cols
    then J.val ((p - start) / stride) ((p - start) % stride - pointer) else A p

/-- Inner loop (`sparse_linearization.py:133-137`). -/
def sparseVars (start stride nr : Nat) (ptrs : List Nat) : Nat → List (Jac R) → (Nat → R) →
    Except LErr (Nat → R)
  | _, [], A => .ok A
  | k, J :: Js, A => match ptrs[k]? with
    | none => .error .indexError
    | some p => sparseVars start stride nr ptrs (k + 1) Js (writeVals A start stride nr p J)

/-- Loop over cost functions (`sparse_linearization.py:119-140`), from index `f` and row `row`. -/
def sparseLoop [Neg R] (m : Csr) : Nat → Nat → List (LCost R) → (Nat → R) × (Nat → R) →
    Except LErr ((Nat → R) × (Nat → R))
  | _, _, [], ab => .ok ab
  | f, row, c :: cs, (A, b) =>
    match m.blockStarts[f]?, m.strides[f]?, m.blockPtrs[f]? with
    | some st, some sd, some ptrs =>
      match sparseVars st sd c.dim ptrs 0 c.jacs A with
      | .error e => .error e
      | .ok A => sparseLoop m (f + 1) (row + c.dim) cs
          (A, writeSlice b row c.dim (fun r => - c.err r))
    | _, _, _ => .error .indexError

/-- `SparseLinearization._linearize_jacobian_impl` (`sparse_linearization.py:102-140`); `junkA`,
`junkB` are the contents of the uninitialised buffers. -/
def sparse [Neg R] (m : Csr) (cs : List (LCost R)) (junkA junkB : Nat → R) :
    Except LErr ((Nat → R) × (Nat → R)) :=
  sparseLoop m 0 0 cs (junkA, junkB)

/-- Element of an integer array. -/
def at' (l : List Nat) (i : Nat) : Nat := l.getD i 0

/-- `_mat_vec_cpu` (`sparse_matrix_utils.py:14-32`): scipy's CSR matrix–vector product, row `i`. -/
def matVec [CommRing R] (rowPtr colInd : List Nat) (val v : Nat → R) (i : Nat) : R :=
  ∑ p ∈ Finset.Ico (at' rowPtr i) (at' rowPtr (i + 1)), val p * v (at' colInd p)

/-- `_tmat_vec_cpu` (`sparse_matrix_utils.py:58-76`): scipy's CSC matrix–vector product on the same
arrays, entry `j`. -/
def tmatVec [CommRing R] (rowPtr colInd : List Nat) (val v : Nat → R) (j : Nat) : R :=
  ∑ i ∈ Finset.range (rowPtr.length - 1),
    ∑ p ∈ Finset.Ico (at' rowPtr i) (at' rowPtr (i + 1)), if at' colInd p = j then val p * v i else 0

/-- `D[columns] += w` with an index tensor: for a repeated index only the last write is kept
(torch documents that indexed in-place addition does not accumulate). -/
def indexAdd [Add R] (D : Nat → R) (cols : List (Nat × R)) : Nat → R :=
  cols.foldl (fun E c => fun j => if j = c.1 then D j + c.2 else E j) D

/-- `SparseLinearization.diagonal_scaling`, the loop (`sparse_linearization.py:190-197`). -/
def diagLoop [CommRing R] (rowPtr colInd : List Nat) (val : Nat → R) : Nat → Nat → R
  | 0 => fun _ => 0
  | n + 1 =>
    indexAdd (diagLoop rowPtr colInd val n)
      ((List.range' (at' rowPtr n) (at' rowPtr (n + 1) - at' rowPtr n)).map fun p =>
        (at' colInd p, val p ^ 2))

/-- `SparseLinearization.diagonal_scaling` (`sparse_linearization.py:187-198`). -/
def sparseDiagScale [CommRing R] (nr : Nat) (rowPtr colInd : List Nat) (val v : Nat → R) (j : Nat) : R :=
  diagLoop rowPtr colInd val nr j * v j

/-- `_sparse_mat_vec_bwd_backend` with `is_tmat = False` (`sparse_matrix_utils.py:123-140`): gradient
for stored entry `p` of row `i`. -/
def mvGradA [CommRing R] (colInd : List Nat) (v g : Nat → R) (i p : Nat) : R :=
  v (at' colInd p) * g i

/-- The same, gradient for the vector: `v_grad[:, columns] += g[row] * A_val[start:end]`. -/
def mvGradV [CommRing R] (rowPtr colInd : List Nat) (val g : Nat → R) : Nat → Nat → R
  | 0 => fun _ => 0
  | n + 1 =>
    indexAdd (mvGradV rowPtr colInd val g n)
      ((List.range' (at' rowPtr n) (at' rowPtr (n + 1) - at' rowPtr n)).map fun p =>
        (at' colInd p, g n * val p))

/-- `_sparse_mat_vec_bwd_backend` with `is_tmat = True` (`sparse_matrix_utils.py:134-136`): gradient for
stored entry `p` of row `i`. -/
def mtvGradA [CommRing R] (colInd : List Nat) (v g : Nat → R) (i p : Nat) : R :=
  v i * g (at' colInd p)

/-- The same, gradient for entry `i` of the vector. -/
def mtvGradV [CommRing R] (rowPtr colInd : List Nat) (val g : Nat → R) (i : Nat) : R :=
  ∑ p ∈ Finset.Ico (at' rowPtr i) (at' rowPtr (i + 1)), g (at' colInd p) * val p

end Verif.Linear
