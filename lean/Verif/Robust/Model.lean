import Mathlib.Analysis.SpecialFunctions.Exp
import Mathlib.Analysis.Real.Sqrt
import Mathlib.Algebra.BigOperators.Group.Finset.Basic
import Mathlib.Data.Matrix.Mul
/-!
Model of `theseus/core/robust_loss.py` and `theseus/core/robust_cost_function.py`, over the reals
(floating point rounding is not modelled; the `eps` constants of the code are).
A batched `B x 1` tensor is the list of its `B` numbers.
-/
namespace Verif.Robust
open scoped BigOperators

/-- `_LOSS_EPS` (`robust_loss.py:10`). -/
noncomputable def lossEps : ℝ := 1 / 10 ^ 20

/-- `RobustCostFunction._EPS` (`robust_cost_function.py:53`). -/
noncomputable def EPS : ℝ := 1 / 10 ^ 20

/-- One element of `WelschLoss._evaluate_impl` (`robust_loss.py:34-36`). -/
noncomputable def welsch (x r : ℝ) : ℝ := r - r * Real.exp (-x / (r + lossEps))

/-- One element of `WelschLoss._linearize_impl` (`robust_loss.py:38-40`). -/
noncomputable def welschLin (x r : ℝ) : ℝ := Real.exp (-x / (r + lossEps))

/-- One element of `HuberLoss._evaluate_impl` (`robust_loss.py:44-48`). -/
noncomputable def huber (x r : ℝ) : ℝ :=
  if x > r then 2 * Real.sqrt (r * max x r + lossEps) - r else x

/-- One element of `HuberLoss._linearize_impl` (`robust_loss.py:50-52`). -/
noncomputable def huberLin (x r : ℝ) : ℝ := Real.sqrt (r / max x r + lossEps)

/-- One element of `HingeLoss._evaluate_impl` (`robust_loss.py:56-58`). -/
noncomputable def hinge (x r : ℝ) : ℝ :=
  if x > r then Real.sqrt x - Real.sqrt r else lossEps

/-- One element of `HingeLoss._linearize_impl` (`robust_loss.py:60-62`). -/
noncomputable def hingeLin (x r : ℝ) : ℝ :=
  if x > r then 1 / (2 * Real.sqrt x + lossEps) else 0

/-- One element of `GemanMcClureLoss._evaluate_impl` (`robust_loss.py:96-107`). -/
noncomputable def geman (x r mu : ℝ) : ℝ := mu * r * x / (mu * r + x + lossEps)

/-- One element of `GemanMcClureLoss._linearize_impl` (`robust_loss.py:109-113`). -/
noncomputable def gemanLin (x r mu : ℝ) : ℝ := (mu * r) ^ 2 / ((mu * r + x) ^ 2 + lossEps)

/-- A robust loss class: elementwise `evaluate` and `linearize` of a squared error and a radius
(`robust_loss.py:13-30`). For a GNC loss (`robust_loss.py:65-88`) the control value is fixed. -/
structure Loss where
  eval : ℝ → ℝ → ℝ
  lin : ℝ → ℝ → ℝ

/-- `WelschLoss`, `HuberLoss`, `HingeLoss`, `GemanMcClureLoss` (`robust_loss.py:33-113`). -/
noncomputable def Welsch : Loss := ⟨welsch, welschLin⟩
@[inherit_doc Welsch] noncomputable def Huber : Loss := ⟨huber, huberLin⟩
@[inherit_doc Welsch] noncomputable def Hinge : Loss := ⟨hinge, hingeLin⟩
@[inherit_doc Welsch] noncomputable def Geman (mu : ℝ) : Loss :=
  ⟨fun x r => geman x r mu, fun x r => gemanLin x r mu⟩

/-- An elementwise tensor operation on two `n x 1` tensors, with broadcasting of a single row; `none`
where torch raises `RuntimeError` (`robust_loss.py:16,20`, called with the tensors of
`robust_cost_function.py:151-155`). -/
def bin {α β γ : Type} (f : α → β → γ) : List α → List β → Option (List γ)
  | [a], bs => some (bs.map (f a))
  | as, [b] => some (as.map (f · b))
  | as, bs => if as.length = bs.length then some (List.zipWith f as bs) else none

variable {d k : Nat}

/-- `torch.sum(weighted_error**2, dim=1, keepdim=True)` for one row (`robust_cost_function.py:91,123`). -/
def sqn (e : Fin d → ℝ) : ℝ := ∑ i, e i ^ 2

/-- `weighted_error.reshape(-1, 1)` (`robust_cost_function.py:90,121`). -/
def flat (e : List (Fin d → ℝ)) : List ℝ := (e.map List.ofFn).flatten

/-- `reshape(-1, self.dim())` (`robust_cost_function.py:95,134`), for a list of `n * d` numbers. -/
def unflat (d : Nat) (l : List ℝ) : List (Fin d → ℝ) :=
  (List.range (l.length / d)).map fun b i => l.getD (b * d + i) 0

/-- `RobustCostFunction.weighted_error` (`robust_cost_function.py:87-108`): `e` is the weighted error
of the wrapped cost function, `radius` is `log_loss_radius.exp()`. -/
noncomputable def weightedError (L : Loss) (flatten : Bool) (e : List (Fin d → ℝ)) (radius : List ℝ) :
    Option (List (Fin d → ℝ)) :=
  if flatten then
    (bin L.eval ((flat e).map (· ^ 2)) radius).map fun l =>
      unflat d (l.map fun a => Real.sqrt (a + EPS))                                   -- 94-95
  else
    (bin L.eval (e.map sqn) radius).map fun l =>
      l.map fun a _ => 1 * Real.sqrt (a / d + EPS)                                    -- 105-108

/-- `RobustCostFunction.weighted_jacobians_error` (`robust_cost_function.py:117-136`) for one of the
Jacobians: `J` are the rows of the weighted Jacobian block, one `d x k` matrix per batch element. -/
noncomputable def weightedJacErr (L : Loss) (flatten : Bool)
    (J : List (Fin d → Fin k → ℝ)) (e : List (Fin d → ℝ)) (radius : List ℝ) :
    Option (List (Fin d → Fin k → ℝ) × List (Fin d → ℝ)) :=
  if flatten then
    (bin L.lin ((flat e).map (· ^ 2)) radius).bind fun l =>                           -- 120-125
      let s := l.map fun a => Real.sqrt (a + EPS)
      let rows := (J.map List.ofFn).flatten                                           -- 123 view(-1, 1, k)
      (bin (fun a (r : Fin k → ℝ) => fun c => a * r c) s rows).bind fun js =>         -- 127-129
      (bin (fun a x => a * x) s (flat e)).map fun es =>                               -- 130
        ((List.range (js.length / d)).map fun b i => js.getD (b * d + i) 0, unflat d es)  -- 131-134
  else
    (bin L.lin (e.map sqn) radius).bind fun l =>
      let s := l.map fun a => Real.sqrt (a + EPS)                                     -- 125
      (bin (fun a (M : Fin d → Fin k → ℝ) => fun i c => a * M i c) s J).bind fun js => -- 127-129
      (bin (fun a (x : Fin d → ℝ) => fun i => a * x i) s e).map fun es => (js, es)    -- 130, 135

end Verif.Robust
