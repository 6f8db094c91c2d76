import Verif.Layer.LinOpt
import Verif.Nlopt.Model
/-!
# Gauss–Newton and Levenberg–Marquardt on problems with vector variables

Sources: `/repo/theseus/optimizer/nonlinear/gauss_newton.py`, `levenberg_marquardt.py` (without adaptive
damping), `/repo/theseus/optimizer/linear/dense_solver.py` (through `Verif.Layer.LinOpt`) and the loop of
`nonlinear_least_squares.py` (through `Verif.Nlopt.Model`).

Simplifications: those of these two models; the cost functions are seen through the stacked weighted error
and the stacked weighted Jacobian of one element of the batch as functions of the value of the
optimization variables (the auxiliary variables are fixed during a call); the optimization variables are
vectors, for which retraction is addition.
-/
namespace Verif.Conv
open Matrix Verif.Steps Verif.Nlopt Verif.Layer

/-- The cost functions of one element of the batch: the stacked weighted error and the stacked weighted
Jacobian (`dense_linearization.py:29-56`). -/
structure Prob (p d : Nat) where
  r : (Fin d → ℝ) → Fin p → ℝ
  J : (Fin d → ℝ) → Matrix (Fin p) (Fin d) ℝ

/-- One element of the batch: its cost functions and the value of its optimization variables. -/
structure Elt (p d : Nat) where
  pr : Prob p d
  x : Fin d → ℝ

/-- The error metric (`objective.py:34-38`). -/
noncomputable def Prob.cost {p d : Nat} (pr : Prob p d) (x : Fin d → ℝ) : ℝ := (∑ k, pr.r x k ^ 2) / 2

/-- `linearize()` for one element: the Jacobian and minus the error (`dense_linearization.py:29-56`). -/
noncomputable def Elt.lin {p d : Nat} (e : Elt p d) : Lin ℝ p d := ⟨e.pr.J e.x, -e.pr.r e.x⟩

/-- The damping of `LevenbergMarquardt` (`levenberg_marquardt.py:103-137`); `none` for `GaussNewton`
(`gauss_newton.py:53-54`), which calls the solver without damping. -/
structure Damp where
  lam : Option ℝ
  ell : Bool
  eps : ℝ

/-- `compute_delta` of the two optimizers with a dense solver (`gauss_newton.py:53-54`,
`levenberg_marquardt.py:112-137`); both never reject a step (`levenberg_marquardt.py:163-164`; with
adaptive damping see C33, C34, C57), and vector variables are retracted by addition
(`nonlinear_least_squares.py:308-325`). -/
noncomputable def nlls (n p d : Nat) (k : Kind) (dm : Damp) : Method ℝ n (Elt p d) (Fin d → ℝ) Unit where
  delta := fun _ e => (denseSolve k false true (sysOf fun i => (e i).lin) (dm.lam.map .scalar) dm.ell dm.eps).toOption
  gn := fun e => (denseSolve k false true (sysOf fun i => (e i).lin) none true (1 / 100000000)).toOption
  complete := fun m _ _ _ _ => (m, none)
  retract := fun e v => { e with x := e.x + v }
  scale := fun s v => s • v
  metric := fun e => .fin (e.pr.cost e.x)

end Verif.Conv
