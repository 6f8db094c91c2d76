import Verif.Ext.Cuda
import Verif.Linear.Model

/-!
# Model of the CUDA kernels of `theseus/extlib/mat_mult.cu`

The pointers of the kernels are functions from addresses to contents; the batched values of a sparse
matrix with `nnz` stored entries are the flat array `batch * nnz + position`.  The checks of devices
and data types are not modelled.
-/

namespace Verif.Ext
open Verif.Linear

variable {R : Type}

/-- The CSR arrays of a matrix (`M_rowPtr`, `M_colInd`). -/
structure CsrArr where
  rowPtr : List ℕ
  colInd : List ℕ
deriving DecidableEq

/-- `M_numRows` (mat_mult.cu L88). -/
def CsrArr.numRows (M : CsrArr) : ℕ := M.rowPtr.length - 1

/-- `M_nnz` (mat_mult.cu L89). -/
def CsrArr.nnz (M : CsrArr) : ℕ := M.colInd.length

/-- The loop of `bisect_index` (mat_mult.cu L21-29). -/
def bisectLoop (values : ℕ → ℕ) (needle a b : ℕ) : ℕ :=
  if a + 1 < b then
    if needle < values ((a + b) / 2) then bisectLoop values needle a ((a + b) / 2)
    else bisectLoop values needle ((a + b) / 2) b
  else a
termination_by b - a
decreasing_by all_goals omega

/-- `bisect_index` (mat_mult.cu L19-34).  If the needle is not there, an error is printed and the
position is returned all the same. -/
def bisectIndex (values : ℕ → ℕ) (len needle : ℕ) : ℕ := bisectLoop values needle 0 len

/-- `mult_MtM_kernel` (mat_mult.cu L36-79). -/
def multKernel [Mul R] (B : ℕ) (M P : CsrArr) (val : ℕ → R) (row batch : ℕ) : List (Ins R) :=
  if B ≤ batch ∨ M.numRows ≤ row then []
  else
    let off := at' M.rowPtr row
    let len := at' M.rowPtr (row + 1) - off
    (List.range len).flatMap fun i =>
      let dstRow := at' M.colInd (off + i)
      let dstOff := at' P.rowPtr dstRow
      let dstLen := at' P.rowPtr (dstRow + 1) - at' P.rowPtr dstRow
      (List.range len).map fun j =>
        let v := val (batch * M.nnz + (off + i)) * val (batch * M.nnz + (off + j))
        let dstCol := at' M.colInd (off + j)
        .atomicAdd (batch * P.nnz + (dstOff + bisectIndex (fun q => at' P.colInd (dstOff + q)) dstLen dstCol)) v

/-- The number of work groups and their size, `wgs(1, 16)` (mat_mult.cu L109, L188, L269, L345). -/
def wgs : ℕ × ℕ := (1, 16)

/-- `numBlocks` (mat_mult.cu L110, L189, L270, L346). -/
def numBlocks (nr B : ℕ) : ℕ × ℕ := ((nr + wgs.1 - 1) / wgs.1, (B + wgs.2 - 1) / wgs.2)

/-- A tensor of two dimensions: its shape and its memory, with whatever follows it in memory. -/
structure Ten (R : Type) where
  rows : ℕ
  cols : ℕ
  data : ℕ → R

/-- `TORCH_CHECK` failed. -/
inductive ExtErr where
  | check
deriving DecidableEq

variable [CommRing R]

/-- `mult_MtM` (mat_mult.cu L81-132); `sched` is the schedule of the threads, and the result is the
launch at the end of the schedule (the buffer is `MtMs_val`). -/
def multMtM (B : ℕ) (M : CsrArr) (val : Ten R) (P : CsrArr) (sched : List Tid) :
    Except ExtErr (Machine R) :=
  if val.rows ≠ B ∨ val.cols ≠ M.nnz then .error .check
  else .ok ((launch (numBlocks M.numRows B) wgs (multKernel B M P val.data) fun _ => 0).run sched)

/-- `mat_vec_kernel` (mat_mult.cu L134-163). -/
def matVecKernel (B : ℕ) (M : CsrArr) (nc : ℕ) (val vec : ℕ → R) (row batch : ℕ) : List (Ins R) :=
  if B ≤ batch ∨ M.numRows ≤ row then []
  else
    let off := at' M.rowPtr row
    let len := at' M.rowPtr (row + 1) - off
    let value := (List.range len).foldl (fun value i =>
      value + val (batch * M.nnz + (off + i)) * vec (batch * nc + at' M.colInd (off + i))) 0
    [Ins.set (batch * M.numRows + row) value]

/-- `mat_vec` (mat_mult.cu L165-213); the result is allocated with `torch::empty`. -/
def cudaMatVec (B nc : ℕ) (M : CsrArr) (val vec : Ten R) (junk : ℕ → R) (sched : List Tid) :
    Except ExtErr (Machine R) :=
  if val.rows ≠ B ∨ val.cols ≠ M.nnz ∨ vec.rows ≠ B then .error .check
  else .ok ((launch (numBlocks M.numRows B) wgs (matVecKernel B M nc val.data vec.data) junk).run sched)

/-- `tmat_vec_kernel` (mat_mult.cu L216-243). -/
def tmatVecKernel (B : ℕ) (M : CsrArr) (nc : ℕ) (val vec : ℕ → R) (row batch : ℕ) : List (Ins R) :=
  if B ≤ batch ∨ M.numRows ≤ row then []
  else
    let off := at' M.rowPtr row
    let len := at' M.rowPtr (row + 1) - off
    let vecVal := vec (batch * M.numRows + row)
    (List.range len).map fun i =>
      .atomicAdd (batch * nc + at' M.colInd (off + i)) (vecVal * val (batch * M.nnz + (off + i)))

/-- `tmat_vec` (mat_mult.cu L245-294). -/
def cudaTmatVec (B nc : ℕ) (M : CsrArr) (val vec : Ten R) (sched : List Tid) :
    Except ExtErr (Machine R) :=
  if val.rows ≠ B ∨ val.cols ≠ M.nnz ∨ vec.rows ≠ B ∨ vec.cols ≠ M.numRows then .error .check
  else .ok ((launch (numBlocks M.numRows B) wgs (tmatVecKernel B M nc val.data vec.data)
    fun _ => 0).run sched)

/-- `apply_damping_kernel` (mat_mult.cu L297-323). -/
def dampKernel (B : ℕ) (M : CsrArr) (alpha beta : ℕ → R) (row batch : ℕ) : List (Ins R) :=
  if B ≤ batch ∨ M.numRows ≤ row then []
  else
    let off := at' M.rowPtr row
    let len := at' M.rowPtr (row + 1) - off
    (List.range len).flatMap fun i =>
      if at' M.colInd (off + i) = row then
        modify (batch * M.nnz + (off + i)) fun v => v + (alpha batch * v + beta batch)
      else []

/-- `apply_damping` (mat_mult.cu L325-357), in place on `val`; `na`, `nb` are the lengths of `alpha`
and `beta`. -/
def applyDamping (B : ℕ) (M : CsrArr) (val : Ten R) (na nb : ℕ) (alpha beta : ℕ → R)
    (sched : List Tid) : Except ExtErr (Machine R) :=
  if val.rows ≠ B ∨ val.cols ≠ M.nnz ∨ na ≠ B ∨ nb ≠ B then .error .check
  else .ok ((launch (numBlocks M.numRows B) wgs (dampKernel B M alpha beta) val.data).run sched)

/-- Whether row `i` of the `nc` columns of `M` has stored entries in the columns `i` and `j` of a
common row. -/
def meets (M : CsrArr) (i j : ℕ) : Bool :=
  (List.range M.numRows).any fun r =>
    ((List.range' (at' M.rowPtr r) (at' M.rowPtr (r + 1) - at' M.rowPtr r)).any fun p =>
      at' M.colInd p == i) &&
    ((List.range' (at' M.rowPtr r) (at' M.rowPtr (r + 1) - at' M.rowPtr r)).any fun p =>
      at' M.colInd p == j)

/-- The rows of a pattern of `nc` columns with the entries `meet`, from row `i` on, `n` rows. -/
def patRows (meet : ℕ → ℕ → Bool) (nc : ℕ) : ℕ → ℕ → CsrArr → CsrArr
  | 0, _, P => P
  | n + 1, i, P =>
    let cols := (List.range nc).filter (meet i)
    patRows meet nc n (i + 1) ⟨P.rowPtr ++ [P.colInd.length + cols.length], P.colInd ++ cols⟩

/-- `AtA_mock = (At_mock @ At_mock.T).tocsr()` (lu_cuda_sparse_solver.py L111-125): the pattern of the
product of matrices of ones, with sorted columns (`tocsr` of a CSC matrix sorts). -/
def ataPattern (M : CsrArr) (nc : ℕ) : CsrArr := patRows (meets M) nc nc 0 ⟨[0], []⟩

end Verif.Ext
