import Mathlib.Analysis.SpecialFunctions.Pow.Real
/-!
# Model of the cost weights

Source: `/repo/theseus/core/cost_weight.py`.

Simplifications: exact real arithmetic; a tensor is its sizes and a function of the indices; names, data
types and devices are left out. Sizes are at least 1 in the theorems that need it.
-/
namespace Verif.Weight

/-- Exceptions: `ValueError` of a constructor, or the shape error of a torch operation. -/
inductive Exc where
  | value | shape
deriving DecidableEq, Repr

/-- A tensor of two dimensions. -/
structure T2 where
  b : Nat
  d : Nat
  val : Nat → Nat → ℝ

/-- A tensor of three dimensions. -/
structure T3 where
  b : Nat
  d : Nat
  v : Nat
  val : Nat → Nat → Nat → ℝ

/-- Broadcasting of one dimension (semantics of torch, used by `cost_weight.py:79, 86, 89, 123, 130, 135`). -/
def bdim (m n : Nat) : Option Nat := if m = n then some m else if m = 1 then some n else if n = 1 then some m else none

/-- The index to read in a dimension of size `n`. -/
def bidx (n i : Nat) : Nat := if n = 1 then 0 else i

/-- The product of two tensors of two dimensions (`cost_weight.py:79, 86, 123, 130`). -/
noncomputable def T2.mul (x w : T2) : Except Exc T2 :=
  match bdim x.b w.b, bdim x.d w.d with
  | some b, some d => .ok ⟨b, d, fun i r => x.val (bidx x.b i) (bidx x.d r) * w.val (bidx w.b i) (bidx w.d r)⟩
  | _, _ => .error .shape

/-- The product of a batch of Jacobians with a tensor of shape `b × d × 1`: `scale.view(-1, 1, 1)` or
`diagonal.unsqueeze(2)` (`cost_weight.py:89, 135`). -/
noncomputable def T3.mul (J : T3) (w : T2) : Except Exc T3 :=
  match bdim J.b w.b, bdim J.d w.d with
  | some b, some d =>
    .ok ⟨b, d, J.v, fun i r c => J.val (bidx J.b i) (bidx J.d r) c * w.val (bidx w.b i) (bidx w.d r)⟩
  | _, _ => .error .shape

/-- A cost weight after construction: the tensor of the scale (`n × 1`) or of the diagonal (`n × d`). -/
inductive CW where
  | scale (w : T2)
  | diagonal (w : T2)

/-- The weight tensor. -/
def CW.tensor : CW → T2
  | .scale w => w
  | .diagonal w => w

/-- `ScaleCostWeight.__init__` (`cost_weight.py:61-73`) on the sizes of the given tensor and its entries in
memory order. -/
def mkScale (shape : List Nat) (data : Nat → ℝ) : Except Exc CW :=
  if (shape.filter (· ≠ 1)).length ≤ 1 then                                           -- 68
    .ok (.scale ⟨shape.prod, 1, fun i _ => data i⟩)                                   -- 72
  else .error .value

/-- `DiagonalCostWeight.__init__` (`cost_weight.py:99-116`), for tensors of at most two dimensions (tensors
of more dimensions of which at most two differ from 1 are also accepted; not modelled). -/
def mkDiagonal (shape : List Nat) (data : Nat → ℝ) : Except Exc CW :=
  match shape with
  | [] => .ok (.diagonal ⟨1, 1, fun _ _ => data 0⟩)                                   -- 108-109
  | [d] => .ok (.diagonal ⟨1, d, fun _ r => data r⟩)                                  -- 110-115
  | [b, d] => .ok (.diagonal ⟨b, d, fun i r => data (i * d + r)⟩)
  | _ => .error .value                                                                -- 106-107

/-- `is_zero` (`cost_weight.py:75-76, 118-120`): one Boolean per batch element of the weight. -/
noncomputable def CW.isZero : CW → Nat → Bool
  | .scale w, i => decide (w.val i 0 = 0)
  | .diagonal w, i => decide (∀ r < w.d, w.val i r = 0)

/-- `weight_error` (`cost_weight.py:78-79, 122-123`). -/
noncomputable def CW.weightError (c : CW) (e : T2) : Except Exc T2 :=
  match c with
  | .scale w => e.mul w
  | .diagonal w => e.mul w

/-- The loop over the Jacobians (`cost_weight.py:87-89, 131-135`). -/
noncomputable def weightJacs (w : T2) : List T3 → Except Exc (List T3)
  | [] => .ok []
  | J :: Js => do
    let J' ← J.mul w
    let r ← weightJacs w Js
    .ok (J' :: r)

/-- `weight_jacobians_and_error` (`cost_weight.py:81-90, 125-136`). -/
noncomputable def CW.weightJacobiansAndError (c : CW) (Js : List T3) (e : T2) : Except Exc (List T3 × T2) :=
  match c with
  | .scale w => do
    let e' ← e.mul w
    let r ← weightJacs w Js
    .ok (r, e')
  | .diagonal w => do
    let e' ← e.mul w
    let r ← weightJacs w Js
    .ok (r, e')

end Verif.Weight
