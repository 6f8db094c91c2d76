import Verif.Nlopt.Spec
import Mathlib.Data.Matrix.Mul
import Mathlib.LinearAlgebra.Matrix.Notation
import Mathlib.Analysis.Real.Sqrt
/-!
# Model of damping, Levenberg–Marquardt, trust region and Dogleg steps

Sources: `/repo/theseus/optimizer/linear/{dense_solver,utils,cholmod_sparse_solver}.py`,
`/repo/theseus/extlib/{mat_mult.cu,baspacho_solver.cpp}` (the damping kernels only) and
`/repo/theseus/optimizer/nonlinear/{levenberg_marquardt,trust_region,dogleg}.py`.

Simplifications: exact arithmetic (errors, which may overflow, are in `Fl`); quantities of one batch
element are written without the batch index, and the batch is written out only where elements interact.
-/
namespace Verif.Steps
open Matrix Verif.Nlopt

variable {K : Type} [Field K] [LinearOrder K] {p d : Nat}

/-- The linearization of one batch element: Jacobian `A` and `b = -error`
(`linearization.py`, `dense_linearization.py`). -/
structure Lin (K : Type) (p d : Nat) where
  A : Matrix (Fin p) (Fin d) K
  b : Fin p → K

/-- `linearization.Atb`. -/
def Lin.Atb (L : Lin K p d) : Fin d → K := L.Aᵀ *ᵥ L.b

/-- `linearization.AtA`. -/
def Lin.AtA (L : Lin K p d) : Matrix (Fin d) (Fin d) K := L.Aᵀ * L.A

/-! ### Damping -/

/-- `DenseSolver._apply_damping` (`dense_solver.py:37-64`). -/
def applyDamping (m : Matrix (Fin d) (Fin d) K) (damping : K) (ellipsoidal : Bool) (eps : K) :
    Matrix (Fin d) (Fin d) K :=
  if ellipsoidal then m + diagonal (fun j => damping * m j j + eps)                   -- 55-58
  else m + damping • (1 : Matrix (Fin d) (Fin d) K)                                   -- 59-64

/-- `convert_to_alpha_beta_damping_tensors`, one batch element (`linear/utils.py:29-33`). -/
def alphaBeta (damping eps : K) (ellipsoidal : Bool) : K × K :=
  if ellipsoidal then (damping, eps) else (0, damping)

/-- The CUDA kernel (`extlib/mat_mult.cu:313-321`): `diag += alpha * diag + beta`. -/
def dampCuda (m : Matrix (Fin d) (Fin d) K) (ab : K × K) : Matrix (Fin d) (Fin d) K :=
  fun i j => if j = i then m i j + (ab.1 * m i j + ab.2) else m i j

/-- The BaSpaCho damping (`extlib/baspacho_solver.cpp:160-186`): `diag *= 1 + alpha; diag += beta`. -/
def dampBaspacho (m : Matrix (Fin d) (Fin d) K) (ab : K × K) : Matrix (Fin d) (Fin d) K :=
  fun i j => if i = j then m i j * (1 + ab.1) + ab.2 else m i j

/-- How a `damping` argument is given: a float (or 0-d tensor), or a 1-d tensor. -/
inductive DampArg (K : Type) where
  | scalar (v : K)
  | vec (v : List K)

/-- The damping of each batch element in the sparse solvers (`linear/utils.py:22-28`); `none`: the tensor
has the wrong length for the kernel. -/
def sparseDamping (n : Nat) : DampArg K → Option (Fin n → K)
  | .scalar v => some fun _ => v
  | .vec [v] => some fun _ => v
  | .vec l => if h : l.length = n then some fun i => l.get (i.cast h.symm) else none

/-- The damping of each batch element in the dense solvers: `view(-1, 1, 1)` broadcast against the batch
of matrices (`dense_solver.py:54-64`), for a result with the batch size of the matrices. -/
def denseDamping (n : Nat) : DampArg K → Option (Fin n → K)
  | .scalar v => some fun _ => v
  | .vec l => if l.length = 1 then l.head?.map fun v _ => v
    else if h : l.length = n then some fun i => l.get (i.cast h.symm) else none

/-- Damping used by `CholmodSparseSolver.solve` (`cholmod_sparse_solver.py:56-61`): `damping or
self._damping` (a damping of 0.0 is falsy). -/
def cholmodDamping (own : K) (arg : Option K) : K :=
  match arg with
  | none => own
  | some v => if v = 0 then own else v

/-! ### Levenberg–Marquardt -/

/-- IEEE `<=`. -/
def Fl.le (a b : Fl K) : Bool := a.lt b || (a == b && a != .nan)

/-- `torch.clamp(min, max)`: the upper bound wins. -/
def clamp (lo hi x : K) : K := min (max x lo) hi

/-- Options of adaptive damping (`levenberg_marquardt.py:139-150`). -/
structure LMOpts (K : Type) where
  down : K
  up : K
  accept : K
  ellipsoidal : Bool
  eps : K

/-- Options of adaptive damping, with the constants `_MIN_DAMPING`, `_MAX_DAMPING`
(`levenberg_marquardt.py:52-53`). -/
def minDamping : K := 1 / 10000000
/-- `_MAX_DAMPING` (`levenberg_marquardt.py:53`). -/
def maxDamping : K := 10000000

/-- Defaults (`levenberg_marquardt.py:145-148`, `damping_eps` at 131). -/
def LMOpts.default : LMOpts K := ⟨9, 11, 1 / 10, false, 1 / 100000000⟩

/-- The denominator of the gain ratio (`levenberg_marquardt.py:185-190`); `diagonal_scaling` multiplies by
the diagonal of `AtA`. -/
def lmDen (o : LMOpts K) (L : Lin K p d) (lam : K) (delta : Fin d → K) : K :=
  (∑ j, delta j * ((if o.ellipsoidal then lam * L.AtA j j else lam) * delta j + L.Atb j)) / 2

/-- `_check_accept` for one batch element (`levenberg_marquardt.py:173-201`): new damping and whether the
step is rejected. -/
def lmCheck (o : LMOpts K) (L : Lin K p d) (lam : K) (delta : Fin d → K) (err prev : Fl K) : K × Bool :=
  let rho := (prev.sub err).div (.fin (lmDen o L lam delta))                          -- 191
  let reject := Fl.le rho (.fin o.accept)                                             -- 192
  (clamp minDamping maxDamping (if reject then lam * o.up else lam / o.down), reject) -- 193-201

/-! ### Trust region -/

/-- Options of `TrustRegion._complete_step` (`trust_region.py:118-124`). -/
structure TROpts (K : Type) where
  accept : K
  shrinkThr : K
  expandThr : K
  shrinkRatio : K
  expandRatio : K
  minTR : K
  maxTR : K

/-- Defaults (`trust_region.py:118-124`). -/
def TROpts.default : TROpts K := ⟨0, 1 / 4, 3 / 4, 1 / 4, 2, 1 / 100000, 100000⟩

/-- The parameter check (`trust_region.py:129-132`). -/
def TROpts.good (o : TROpts K) : Bool :=
  (decide (0 < o.shrinkRatio) && decide (o.shrinkRatio ≤ 1) && decide (1 ≤ o.expandRatio)) &&
  (decide (o.shrinkThr < o.expandThr) && decide (o.accept < o.shrinkThr))

/-- `_predicted_error` minus `previous_error`, negated: the reduction predicted by the model
(`trust_region.py:91-105`). -/
def predReduction (L : Lin K p d) (delta : Fin d → K) : K :=
  - ((delta ⬝ᵥ (-L.Atb)) + (1 / 2) * ((L.A *ᵥ delta) ⬝ᵥ (L.A *ᵥ delta)))

/-- `_predicted_error` (`trust_region.py:91-105`). -/
def predictedError (L : Lin K p d) (delta : Fin d → K) (prev : Fl K) : Fl K :=
  (prev.add (.fin (delta ⬝ᵥ (-L.Atb)))).add (.fin ((1 / 2) * ((L.A *ᵥ delta) ⬝ᵥ (L.A *ᵥ delta))))

/-- `_compute_rho` (`trust_region.py:107-111`). -/
def trRho (L : Lin K p d) (delta : Fin d → K) (err prev : Fl K) : Fl K :=
  (prev.sub err).div (prev.sub (predictedError L delta prev))

/-- `TrustRegion._complete_step` for one batch element: `none` is the ValueError; otherwise the new radius
and whether the step is rejected (`trust_region.py:113-151`). -/
def trCheck (o : TROpts K) (L : Lin K p d) (radius : K) (delta : Fin d → K) (err prev : Fl K) : Option (K × Bool) :=
  if o.good then
    let rho := trRho L delta err prev                                                 -- 139
    let r := if rho.lt (.fin o.shrinkThr) then radius * o.shrinkRatio else radius     -- 140-143
    let r := if Fl.lt (.fin o.expandThr) rho then r * o.expandRatio else r            -- 144-147
    some (clamp o.minTR o.maxTR r, rho.lt (.fin o.accept))                            -- 148-151
  else none

/-! ### Dogleg (real numbers, because of the square roots) -/

/-- `Dogleg.EPS` (`dogleg.py:19`). -/
noncomputable def EPS : ℝ := 1 / 10000000

/-- Squared norm (`trust_region.py:86-88`). -/
def sq {K : Type} [Field K] (v : Fin d → K) : K := v ⬝ᵥ v

/-- `cauchy_step_size` (`dogleg.py:64-68`). -/
noncomputable def cauchySize (L : Lin ℝ p d) : ℝ := sq L.Atb / (sq (L.A *ᵥ L.Atb) + EPS)

/-- `delta_c` (`dogleg.py:69`). -/
noncomputable def deltaC (L : Lin ℝ p d) : Fin d → ℝ := cauchySize L • L.Atb

/-- `delta_c_norm_2` (`dogleg.py:70`). -/
noncomputable def deltaC2 (L : Lin ℝ p d) : ℝ := sq L.Atb * cauchySize L ^ 2

/-- `tau` (`dogleg.py:89-95`). -/
noncomputable def tau (L : Lin ℝ p d) (tr : ℝ) (gn : Fin d → ℝ) : ℝ :=
  let diff := gn - deltaC L
  let a := sq diff
  let b := ∑ j, 2 * deltaC L j * diff j
  let c := deltaC2 L - tr ^ 2
  let disc := max (b ^ 2 - 4 * a * c) EPS
  min ((-b + Real.sqrt disc) / (2 * a + EPS)) 1

/-- `Dogleg._compute_delta_impl` (`dogleg.py:49-105`), for the whole batch; `gn` is the result of
`linear_solver.solve()`. -/
noncomputable def dogleg {n : Nat} (L : Fin n → Lin ℝ p d) (tr : Fin n → ℝ) (gn : Fin n → Fin d → ℝ) :
    Fin n → Fin d → ℝ :=
  open Classical in
  if ∀ i, sq (gn i) < tr i ^ 2 then gn                                                -- 54-56
  else
    let within := fun i => deltaC2 (L i) ≤ tr i ^ 2                                   -- 71
    let d1 : Fin n → Fin d → ℝ := if ¬ ∀ i, within i then
        fun i => if within i then deltaC (L i)
          else fun j => deltaC (L i) j * tr i / Real.sqrt (deltaC2 (L i) + EPS)       -- 74-79
      else fun i => deltaC (L i)                                                      -- 80-81
    if ∃ i, within i then                                                             -- 83
      fun i => if within i then deltaC (L i) + tau (L i) (tr i) (gn i) • (gn i - deltaC (L i))
        else d1 i                                                                     -- 96-100
    else d1

end Verif.Steps
