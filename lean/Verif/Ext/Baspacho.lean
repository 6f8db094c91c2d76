import Verif.Ext.MatMult
import Verif.Autograd.Model

/-!
# Model of the BaSpaCho bindings

`theseus/extlib/baspacho_solver.cpp` (CPU), `theseus/extlib/baspacho_solver_cuda.cu` (GPU) and the
block structure of `theseus/optimizer/linear/baspacho_sparse_solver.py`.  The BaSpaCho library itself
(ordering, layout of the factor, factorization, triangular solves) enters as an `Accessor` and a
`solve` function about which only a contract is assumed (BaspachoSpec.lean).  Integers are exact;
the data type of `x` in `solve` is not modelled.
-/

namespace Verif.Ext
open Verif.Linear

variable {R : Type}

/-! ## The block structure computed in Python -/

/-- `to_blocks`: row `u` has ones in the columns of variable `u`
(baspacho_sparse_solver.py L96-103). -/
def toBlocks (starts : List ℕ) (nc : ℕ) : CsrArr := ⟨starts ++ [nc], List.range nc⟩

/-- Whether `block_At_mock = to_blocks @ At_mock` has an entry in row `u` (block) and column `r` (row
of the Jacobian) (baspacho_sparse_solver.py L104). -/
def blockAt (T M : CsrArr) (u r : ℕ) : Bool :=
  (List.range' (at' T.rowPtr u) (at' T.rowPtr (u + 1) - at' T.rowPtr u)).any fun p =>
    (List.range' (at' M.rowPtr r) (at' M.rowPtr (r + 1) - at' M.rowPtr r)).any fun q =>
      at' M.colInd q == at' T.colInd p

/-- `block_AtA_mock` with sorted indices (baspacho_sparse_solver.py L105-106). -/
def blockPattern (starts : List ℕ) (nc : ℕ) (M : CsrArr) : CsrArr :=
  patRows (fun u v => (List.range M.numRows).any fun r =>
    blockAt (toBlocks starts nc) M u r && blockAt (toBlocks starts nc) M v r)
    starts.length starts.length 0 ⟨[0], []⟩

/-! ## The symbolic decomposition -/

/-- The loop of `SymbolicDecomposition::SymbolicDecomposition` over the parameters: `toParamIndex` and
`paramStart` (baspacho_solver.cpp L302-310). -/
def paramLoop : List ℕ → ℕ → ℕ → List ℕ × List ℕ → List ℕ × List ℕ
  | [], _, _, acc => acc
  | p :: ps, i, start, acc =>
    paramLoop ps (i + 1) (start + p) (acc.1 ++ List.replicate p i, acc.2 ++ [start])

/-- What the bindings use of `BaSpaCho::Solver`: the size of the factor and of the system, and the
(permuted) accessor: `blockOffset` (offset, stride, flip), `diagBlock` (offset, stride) and
`paramStart` (baspacho_solver.cpp L27, L45, L75, L138, L181, L235). -/
structure Accessor where
  dataSize : ℕ
  order : ℕ
  blockOffset : ℕ → ℕ → ℕ × ℕ × Bool
  diagBlock : ℕ → ℕ × ℕ
  paramStart : ℕ → ℕ

/-- `SymbolicDecompositionData` (baspacho_solver.h L16-25). -/
structure Symbolic where
  acc : Accessor
  toParam : List ℕ
  start : List ℕ
  size : List ℕ

/-- `SymbolicDecomposition::SymbolicDecomposition` (baspacho_solver.cpp L259-319); `create` is
`createSolver`. -/
def symbolic (create : List ℕ → CsrArr → Accessor) (sizes : List ℕ) (P : CsrArr) :
    Except ExtErr Symbolic :=
  if sizes.length ≠ P.rowPtr.length - 1 then .error .check
  else
    let t := paramLoop sizes 0 0 ([], [])
    .ok ⟨create sizes P, t.1, t.2, sizes⟩

/-- `offsetInFactor` of row `r` and column `c` (baspacho_solver.cpp L61-82, L126-145,
baspacho_solver_cuda.cu L34-53, L110-130). -/
def Symbolic.address (S : Symbolic) (r c : ℕ) : ℕ :=
  let rParam := at' S.toParam r
  let rowInBlock := r - at' S.start rParam
  let cParam := at' S.toParam c
  let colInBlock := c - at' S.start cParam
  let o := S.acc.blockOffset rParam cParam
  o.1 + if o.2.2 then o.2.1 * colInBlock + rowInBlock else o.2.1 * rowInBlock + colInBlock

/-! ## Adding a matrix -/

/-- Programs run one after another. -/
def runAll [CommRing R] (progs : List (List (Ins R))) (mem : ℕ → R) : ℕ → R :=
  progs.foldl (fun m prog => runSeq prog m 0) mem

/-- `add_MtM` on the CPU (baspacho_solver.cpp L93-158): the loops over rows, pairs of entries and
batch elements; `+=` is one access of the only thread. -/
def cpuAddMtM [CommRing R] (S : Symbolic) (B : ℕ) (data : ℕ → R) (M : CsrArr) (val : Ten R) :
    Except ExtErr (ℕ → R) :=
  if val.rows ≠ B ∨ val.cols ≠ M.nnz ∨ at' M.rowPtr (M.rowPtr.length - 1) ≠ M.nnz then .error .check
  else .ok (runAll ((List.range M.numRows).flatMap fun q =>
    (List.range' (at' M.rowPtr q) (at' M.rowPtr (q + 1) - at' M.rowPtr q)).flatMap fun j =>
      (List.range' (at' M.rowPtr q) (j + 1 - at' M.rowPtr q)).map fun i =>
        (List.range B).map fun b => .atomicAdd
          (S.address (at' M.colInd j) (at' M.colInd i) + b * S.acc.dataSize)
          (val.data (j + b * val.cols) * val.data (i + b * val.cols))) data)

/-- `add_MtM_kernel` (baspacho_solver_cuda.cu L96-134). -/
def mtmKernel [Mul R] (S : Symbolic) (B : ℕ) (M : CsrArr) (stride : ℕ) (val : ℕ → R) (q batch : ℕ) :
    List (Ins R) :=
  if B ≤ batch ∨ M.numRows ≤ q then []
  else
    (List.range' (at' M.rowPtr q) (at' M.rowPtr (q + 1) - at' M.rowPtr q)).flatMap fun j =>
      (List.range' (at' M.rowPtr q) (j + 1 - at' M.rowPtr q)).map fun i => .atomicAdd
        (S.address (at' M.colInd j) (at' M.colInd i) + batch * S.acc.dataSize)
        (val (j + batch * stride) * val (i + batch * stride))

/-- `while(wgs.y / 2 >= batchSize) { wgs.y /= 2; wgs.x *= 2; }` (baspacho_solver_cuda.cu L86, L161,
L196, L273), with a bound on the number of iterations; `none` if it is not enough. -/
def wgsLoop : ℕ → ℕ → ℕ × ℕ → Option (ℕ × ℕ)
  | 0, _, _ => none
  | n + 1, B, w => if B ≤ w.2 / 2 then wgsLoop n B (w.1 * 2, w.2 / 2) else some w

/-- A launch on the GPU as in the four functions of baspacho_solver_cuda.cu (L85-93, L160-168,
L195-200, L272-277): work groups of `(8, 4)` threads, reshaped for small batches.  `none`: the loop
for the work group size does not end within `fuel` iterations. -/
def bspLaunch [CommRing R] (fuel n B : ℕ) (k : ℕ → ℕ → List (Ins R)) (mem : ℕ → R) :
    Option (Machine R) :=
  (wgsLoop fuel B (8, 4)).map fun w =>
    launch ((n + w.1 - 1) / w.1, (B + w.2 - 1) / w.2) w k mem

/-- `add_MtM_cuda` (baspacho_solver_cuda.cu L136-169). -/
def cudaAddMtM [CommRing R] (fuel : ℕ) (S : Symbolic) (B : ℕ) (data : ℕ → R) (M : CsrArr)
    (val : Ten R) : Except ExtErr (Option (Machine R)) :=
  if val.rows ≠ B ∨ val.cols ≠ M.nnz then .error .check
  else .ok (bspLaunch fuel M.numRows B (mtmKernel S B M val.cols val.data) data)

/-- The loop over the entries of row `r` of `add_M` for one batch element (baspacho_solver.cpp
L60-90, baspacho_solver_cuda.cu L34-57): entries above the diagonal are skipped. -/
def addMRow [Add R] (S : Symbolic) (M : CsrArr) (stride : ℕ) (val : ℕ → R) (r b : ℕ) : List (Ins R) :=
  (List.range' (at' M.rowPtr r) (at' M.rowPtr (r + 1) - at' M.rowPtr r)).flatMap fun i =>
    if at' M.colInd i > r then []
    else modify (S.address r (at' M.colInd i) + b * S.acc.dataSize) fun v => v + val (i + b * stride)

/-- `add_M` on the CPU (baspacho_solver.cpp L31-91).  Simplification: the loop over the batch is the
outer one. -/
def cpuAddM [CommRing R] (S : Symbolic) (B : ℕ) (data : ℕ → R) (M : CsrArr) (val : Ten R) :
    Except ExtErr (ℕ → R) :=
  if val.rows ≠ B ∨ M.rowPtr.length ≠ S.acc.order + 1 ∨ val.cols ≠ M.nnz ∨
      at' M.rowPtr (M.rowPtr.length - 1) ≠ M.nnz then .error .check
  else .ok (runAll ((List.range B).flatMap fun b =>
    (List.range M.numRows).map fun r => addMRow S M val.cols val.data r b) data)

/-- `add_M_kernel` and `add_M_cuda` (baspacho_solver_cuda.cu L19-94). -/
def cudaAddM [CommRing R] (fuel : ℕ) (S : Symbolic) (B : ℕ) (data : ℕ → R) (M : CsrArr)
    (val : Ten R) : Except ExtErr (Option (Machine R)) :=
  if val.rows ≠ B ∨ M.rowPtr.length ≠ S.acc.order + 1 ∨ val.cols ≠ M.nnz then .error .check
  else .ok (bspLaunch fuel M.numRows B (fun r b =>
    if B ≤ b ∨ M.numRows ≤ r then [] else addMRow S M val.cols val.data r b) data)

/-! ## Damping -/

/-- The two statements on the diagonal of block `p` (baspacho_solver.cpp L181-183,
baspacho_solver_cuda.cu L181-184). -/
def dampBlock [CommRing R] (S : Symbolic) (alpha beta : R) (p b : ℕ) : List (Ins R) :=
  let d := S.acc.diagBlock p
  ((List.range (at' S.size p)).flatMap fun a =>
    modify (b * S.acc.dataSize + (d.1 + d.2 * a + a)) fun v => v * (1 + alpha)) ++
  ((List.range (at' S.size p)).flatMap fun a =>
    modify (b * S.acc.dataSize + (d.1 + d.2 * a + a)) fun v => v + beta)

/-- `damp` on the CPU (baspacho_solver.cpp L160-186); `na`, `nb` are the lengths of `alpha`, `beta`. -/
def cpuDamp [CommRing R] (S : Symbolic) (B : ℕ) (data : ℕ → R) (na nb : ℕ) (alpha beta : ℕ → R) :
    Except ExtErr (ℕ → R) :=
  if na ≠ B ∨ nb ≠ B then .error .check
  else .ok (runAll ((List.range B).flatMap fun b =>
    (List.range S.size.length).map fun p => dampBlock S (alpha b) (beta b) p b) data)

/-- `damp_kernel` and `damp_cuda` (baspacho_solver_cuda.cu L171-201, baspacho_solver.cpp L161-168). -/
def cudaDamp [CommRing R] (fuel : ℕ) (S : Symbolic) (B : ℕ) (data : ℕ → R) (na nb : ℕ)
    (alpha beta : ℕ → R) : Except ExtErr (Option (Machine R)) :=
  if na ≠ B ∨ nb ≠ B then .error .check
  else .ok (bspLaunch fuel S.size.length B (fun p b =>
    if B ≤ b ∨ S.size.length ≤ p then [] else dampBlock S (alpha b) (beta b) p b) data)

/-! ## Solving -/

/-- The copy of parameter `i` of batch element `b` into the permuted vector (baspacho_solver.cpp
L231-238, baspacho_solver_cuda.cu L227-231). -/
def scramble (S : Symbolic) (x : ℕ → R) (i b : ℕ) : List (Ins R) :=
  (List.range (at' S.size i)).map fun a =>
    .set (S.acc.paramStart i + S.acc.order * b + a) (x (at' S.start i + S.acc.order * b + a))

/-- The copy back (baspacho_solver.cpp L249-256, baspacho_solver_cuda.cu L245-249). -/
def unscramble (S : Symbolic) (permX : ℕ → R) (i b : ℕ) : List (Ins R) :=
  (List.range (at' S.size i)).map fun a =>
    .set (at' S.start i + S.acc.order * b + a) (permX (S.acc.paramStart i + S.acc.order * b + a))

/-- `dec->solver->factor` and `dec->solver->solve` for every batch element (baspacho_solver.cpp
L188-204, L240-246, baspacho_solver_cuda.cu L203-214, L280-287): `solve` takes the data of one
element before the factorization and a right-hand side. -/
def solveAll (S : Symbolic) (solve : (ℕ → R) → (ℕ → R) → ℕ → R) (data permX : ℕ → R) : ℕ → R :=
  fun a => solve (fun k => data (a / S.acc.order * S.acc.dataSize + k))
    (fun k => permX (a / S.acc.order * S.acc.order + k)) (a % S.acc.order)

/-- `factor` and `solve` on the CPU, in place on `x` (baspacho_solver.cpp L188-257); `junk` is the
content of `torch::empty`. -/
def cpuSolve [CommRing R] (S : Symbolic) (B : ℕ) (solve : (ℕ → R) → (ℕ → R) → ℕ → R) (data : ℕ → R)
    (x : Ten R) (junk : ℕ → R) : Except ExtErr (ℕ → R) :=
  if x.rows ≠ B ∨ x.cols ≠ S.acc.order then .error .check
  else
    let permX := runAll ((List.range S.size.length).flatMap fun i =>
      (List.range B).map fun b => scramble S x.data i b) junk
    let permX := solveAll S solve data permX
    .ok (runAll ((List.range S.size.length).flatMap fun i =>
      (List.range B).map fun b => unscramble S permX i b) x.data)

/-- `scramble_kernel` launched by `solve_cuda` (baspacho_solver_cuda.cu L216-232, L252-277). -/
def cudaScramble [CommRing R] (fuel : ℕ) (S : Symbolic) (B : ℕ) (x junk : ℕ → R) :
    Option (Machine R) :=
  bspLaunch fuel S.size.length B (fun i b =>
    if B ≤ b ∨ S.size.length ≤ i then [] else scramble S x i b) junk

/-- `unscramble_kernel` launched by `solve_cuda` (baspacho_solver_cuda.cu L234-250, L289-292). -/
def cudaUnscramble [CommRing R] (fuel : ℕ) (S : Symbolic) (B : ℕ) (permX x : ℕ → R) :
    Option (Machine R) :=
  bspLaunch fuel S.size.length B (fun i b =>
    if B ≤ b ∨ S.size.length ≤ i then [] else unscramble S permX i b) x

end Verif.Ext
