import Verif.Ext.Baspacho
import Verif.Ext.LuForward

/-!
# Model of `BaspachoSolveFunction.forward` with the bindings
-/

namespace Verif.Ext
open Verif.Linear Verif.Autograd

/-- The batched transposed product on the CPU, `_tmat_vec_cpu` (theseus/utils/sparse_matrix_utils.py
L58-77), as a flat array. -/
def flatTmatVec (M : CsrArr) (nc : ℕ) (val b : Ten ℝ) : ℕ → ℝ := fun a =>
  tmatVec M.rowPtr M.colInd (fun p => val.data (a / nc * val.cols + p))
    (fun r => b.data (a / nc * b.cols + r)) (a % nc)

/-- `BaspachoSparseSolver.reset` (theseus/optimizer/linear/baspacho_sparse_solver.py L79-115): the
symbolic decomposition, from the arrays of the linearization, the starts of its variables and their
sizes. -/
def bspSymbolic (create : List ℕ → CsrArr → Accessor) (starts sizes : List ℕ) (nc : ℕ) (M : CsrArr) :
    Except ExtErr Symbolic :=
  symbolic create sizes (blockPattern starts nc M)

/-- The damping step on the CPU (theseus/optimizer/autograd/baspacho_sparse_autograd.py L43-46). -/
def bspDampCpu (S : Symbolic) (B : ℕ) (data : ℕ → ℝ) :
    Option ((ℕ → ℝ) × (ℕ → ℝ)) → Except ExtErr (ℕ → ℝ)
  | none => .ok data
  | some d => cpuDamp S B data B B d.1 d.2

/-- `BaspachoSolveFunction.forward` on the CPU (baspacho_sparse_autograd.py L35-54). -/
def bspForwardCpu (S : Symbolic) (solve : (ℕ → ℝ) → (ℕ → ℝ) → ℕ → ℝ) (B : ℕ) (M : CsrArr) (nc : ℕ)
    (val b : Ten ℝ) (damping : Option ((ℕ → ℝ) × (ℕ → ℝ))) (junk : ℕ → ℝ) : Except ExtErr (ℕ → ℝ) :=
  match cpuAddMtM S B (fun _ => 0) M val with
  | .error e => .error e
  | .ok data =>
    match bspDampCpu S B data damping with
    | .error e => .error e
    | .ok data => cpuSolve S B solve data ⟨B, nc, flatTmatVec M nc val b⟩ junk

/-- The damping step on the GPU (baspacho_sparse_autograd.py L43-46). -/
inductive BspDamped (S : Symbolic) (B : ℕ) (data : ℕ → ℝ) :
    Option ((ℕ → ℝ) × (ℕ → ℝ)) → (ℕ → ℝ) → Prop
  | none : BspDamped S B data none data
  | some {alpha beta : ℕ → ℝ} {fuel : ℕ} (sched : List Tid) {m : Machine ℝ}
      (call : cudaDamp fuel S B data B B alpha beta = .ok (some m)) (done : (m.run sched).Done) :
      BspDamped S B data (some (alpha, beta)) (m.run sched).mem

/-- `BaspachoSolveFunction.forward` on the GPU (baspacho_sparse_autograd.py L35-54): the possible
results, for every schedule of the threads of every kernel; one kernel ends before the next starts. -/
inductive BspForwardGpu (S : Symbolic) (solve : (ℕ → ℝ) → (ℕ → ℝ) → ℕ → ℝ) (B : ℕ) (M : CsrArr)
    (nc : ℕ) (val b : Ten ℝ) (damping : Option ((ℕ → ℝ) × (ℕ → ℝ))) : (ℕ → ℝ) → Prop
  | mk {f1 f3 f4 : ℕ} (s1 s2 s3 s4 : List Tid) {m1 m2 m3 m4 : Machine ℝ} {F junk : ℕ → ℝ}
      (mult : cudaAddMtM f1 S B (fun _ => 0) M val = .ok (some m1)) (mdone : (m1.run s1).Done)
      (damp : BspDamped S B (m1.run s1).mem damping F)
      (tmat : cudaTmatVec B nc M val b s2 = .ok m2) (tdone : m2.Done)
      (scr : cudaScramble f3 S B m2.mem junk = some m3) (sdone : (m3.run s3).Done)
      (unscr : cudaUnscramble f4 S B (solveAll S solve F (m3.run s3).mem) m2.mem = some m4)
      (udone : (m4.run s4).Done) :
      BspForwardGpu S solve B M nc val b damping (m4.run s4).mem

end Verif.Ext
