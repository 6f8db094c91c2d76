import Mathlib.Data.Real.Basic
import Mathlib.Algebra.BigOperators.Fin
import Mathlib.Data.List.Basic

/-!
# Batches in torchlie: `left_act` and `left_project` with their dimensions (C116)

`left_act(group, tensor, dim_out)` of `torchlie/functional/so3_impl.py` and `se3_impl.py` on whole tensors: padding,
permutations of the dimensions, broadcasting.  A tensor is its shape and its entry at every index; the entries at
indices outside of the shape mean nothing.
-/

namespace Verif.Lie.Batch

/-- A tensor. -/
structure Tns where
  shape : List ℕ
  val : List ℕ → ℝ

/-- `tensor.ndim`. -/
def Tns.ndim (t : Tns) : ℕ := t.shape.length

/-- The `ValueError` (or `IndexError`) of the shape checks, and the `RuntimeError`s of torch. -/
inductive Err
  | shape
  | torch
  deriving DecidableEq

/-! ### torch -/

/-- Two sizes broadcast if they are equal or one of them is 1. -/
def bcastDim (x y : ℕ) : Option ℕ :=
  if x = y then some x else if x = 1 then some y else if y = 1 then some x else none

/-- Broadcasting of shapes given from the last dimension to the first. -/
def bcastRev : List ℕ → List ℕ → Option (List ℕ)
  | [], ys => some ys
  | x :: xs, [] => some (x :: xs)
  | x :: xs, y :: ys =>
    match bcastDim x y, bcastRev xs ys with
    | some d, some ds => some (d :: ds)
    | _, _ => none

/-- Broadcasting of shapes, aligned at the last dimension. -/
def bcast (xs ys : List ℕ) : Option (List ℕ) := (bcastRev xs.reverse ys.reverse).map List.reverse

/-- The index into a tensor of shape `s` for the index `b` into a tensor `s` was broadcast to. -/
def bidx (s b : List ℕ) : List ℕ := List.zipWith (fun d i => if d = 1 then 0 else i) s (b.drop (b.length - s.length))

/-- `a @ b` for tensors of at least two dimensions. -/
noncomputable def matmul (a b : Tns) : Except Err Tns :=
  let na := a.ndim - 2
  let nb := b.ndim - 2
  if a.shape.getD (na + 1) 0 ≠ b.shape.getD nb 0 then .error .torch
  else
    match bcast (a.shape.take na) (b.shape.take nb) with
    | none => .error .torch
    | some n => .ok ⟨n ++ [a.shape.getD na 0, b.shape.getD (nb + 1) 0], fun idx =>
        let p := idx.take n.length
        ∑ l ∈ Finset.range (b.shape.getD nb 0),
          a.val (bidx (a.shape.take na) p ++ [idx.getD n.length 0, l]) *
            b.val (bidx (b.shape.take nb) p ++ [l, idx.getD (n.length + 1) 0])⟩

/-- A dimension given to torch: negative ones count from the end. -/
def wrapDim (n : ℕ) (d : ℤ) : ℤ := if d < 0 then d + n else d

/-- `tensor.permute(dims)`: an error unless every dimension is named exactly once. -/
def permute (t : Tns) (dims : List ℤ) : Except Err Tns :=
  let p := (dims.map (wrapDim t.ndim)).map Int.toNat
  if dims.length = t.ndim ∧ (∀ d ∈ dims, -(t.ndim : ℤ) ≤ d ∧ d < t.ndim) ∧ p.Nodup then
    .ok ⟨p.map fun d => t.shape.getD d 0,
      fun idx => t.val ((List.range t.ndim).map fun d => idx.getD (p.idxOf d) 0)⟩
  else .error .torch

/-- `list(range(a, b))`. -/
def pyRange (a b : ℤ) : List ℤ := (List.range (b - a).toNat).map fun i : ℕ => a + (i : ℤ)

/-! ### torchlie/functional/utils.py -/

/-- `fill_dims` (utils.py L29-30): dimensions of size 1 in front. -/
def fillDims (t : Tns) (dim : ℕ) : Tns :=
  ⟨List.replicate (dim - t.ndim) 1 ++ t.shape, fun idx => t.val (idx.drop (dim - t.ndim))⟩

/-- `permute_op_dim` (utils.py L33-38). -/
def permuteOpDim (dim opDim groupDim : ℤ) : List ℤ :=
  pyRange (dim - opDim - groupDim) (dim - groupDim) ++ pyRange 0 (dim - opDim - groupDim)
    ++ pyRange (dim - groupDim) dim

/-- `unpermute_op_dim` (utils.py L41-46). -/
def unpermuteOpDim (dim opDim groupDim : ℤ) : List ℤ :=
  pyRange opDim (dim - groupDim) ++ pyRange 0 opDim ++ pyRange (dim - groupDim) dim

/-! ### `left_act` -/

/-- `_left_act_impl` after the checks (so3_impl.py L1019-1027), with `dim_out` decided. -/
noncomputable def leftActCore (group tensor : Tns) (dimOut : ℤ) : Except Err Tns :=
  let tensor := if (group.ndim : ℤ) + dimOut > tensor.ndim then
      fillDims tensor ((group.ndim : ℤ) + dimOut).toNat else tensor
  match permute tensor (permuteOpDim tensor.ndim dimOut 2) with
  | .error e => .error e
  | .ok t =>
    match matmul group t with
    | .error e => .error e
    | .ok r => permute r (unpermuteOpDim tensor.ndim dimOut 2)

/-- `dim_out` with its default (so3_impl.py L1019, se3_impl.py L952). -/
def dimOutOf (group tensor : Tns) (dimOut : Option ℤ) : ℤ :=
  dimOut.getD ((tensor.ndim : ℤ) - group.ndim)

/-- `SO3.left_act` (so3_impl.py L1013-1027), the checks of the values being off. -/
noncomputable def so3LeftAct (group tensor : Tns) (dimOut : Option ℤ) : Except Err Tns :=
  if group.shape.drop (group.ndim - 2) ≠ [3, 3] then .error .shape
  else if tensor.ndim < 2 ∨ tensor.shape.getD (tensor.ndim - 2) 0 ≠ 3 then .error .shape
  else leftActCore group tensor (dimOutOf group tensor dimOut)

/-- `group[..., :3]`. -/
def rotationOf (group : Tns) : Tns := ⟨group.shape.take (group.ndim - 1) ++ [3], group.val⟩

/-- `SE3.left_act` (se3_impl.py L947-955): its own checks, then those of `SO3`. -/
noncomputable def se3LeftAct (group tensor : Tns) (dimOut : Option ℤ) : Except Err Tns :=
  if group.shape.drop (group.ndim - 2) ≠ [3, 4] then .error .shape
  else if tensor.ndim < 2 ∨ tensor.shape.getD (tensor.ndim - 2) 0 ≠ 3 then .error .shape
  else so3LeftAct (rotationOf group) tensor (some (dimOutOf group tensor dimOut))

/-! ### `left_project` -/

/-- `tensor.transpose(-1, -2)`; `_inverse_impl` of `SO3` (so3_impl.py L561-563). -/
def mT (t : Tns) : Tns :=
  let n := t.ndim - 2
  ⟨t.shape.take n ++ [t.shape.getD (n + 1) 0, t.shape.getD n 0], fun idx =>
    t.val (idx.take n ++ [idx.getD (n + 1) 0, idx.getD n 0])⟩

/-- `_inverse_impl` of `SE3` on a batch (se3_impl.py L578-581): `(Rᵀ, -Rᵀ t)`. -/
noncomputable def se3Inverse (g : Tns) : Tns :=
  let n := g.ndim - 2
  ⟨g.shape, fun idx =>
    let at' := fun i j => g.val (idx.take n ++ [i, j])
    let i := idx.getD n 0
    let j := idx.getD (n + 1) 0
    if j < 3 then at' j i else -∑ l ∈ Finset.range 3, at' l i * at' l 3⟩

/-- The entries of `_project_impl` of `SO3` (so3_impl.py L979-985). -/
def projEntry (m : ℕ → ℕ → ℝ) : ℕ → ℝ
  | 0 => m 2 1 - m 1 2
  | 1 => m 0 2 - m 2 0
  | _ => m 1 0 - m 0 1

/-- The entries of `_project_impl` of `SE3` (se3_impl.py L913-923). -/
def se3ProjEntry (m : ℕ → ℕ → ℝ) : ℕ → ℝ
  | 0 => m 0 3
  | 1 => m 1 3
  | 2 => m 2 3
  | c + 3 => projEntry m c

/-- `_project_impl` on a batch (so3_impl.py L977-986 with 3 entries, se3_impl.py L911-923 with 6). -/
def projectLast (entry : (ℕ → ℕ → ℝ) → ℕ → ℝ) (dof : ℕ) (t : Tns) : Tns :=
  let n := t.ndim - 2
  ⟨t.shape.take n ++ [dof], fun idx => entry (fun i j => t.val (idx.take n ++ [i, j])) (idx.getD n 0)⟩

/-- `SO3.left_project` (lie_group.py L36-48), the checks of the values being off; `dim_out` is given to `left_act` as
it is. -/
noncomputable def so3LeftProject (group tensor : Tns) (dimOut : Option ℤ) : Except Err Tns :=
  if group.shape.drop (group.ndim - 2) ≠ [3, 3] then .error .shape
  else if tensor.shape.drop (tensor.ndim - 2) ≠ [3, 3] then .error .shape
  else
    match so3LeftAct (mT group) tensor dimOut with
    | .error e => .error e
    | .ok r => .ok (projectLast projEntry 3 r)

/-- `SE3.left_project` (lie_group.py L36-48), likewise. -/
noncomputable def se3LeftProject (group tensor : Tns) (dimOut : Option ℤ) : Except Err Tns :=
  if group.shape.drop (group.ndim - 2) ≠ [3, 4] then .error .shape
  else if tensor.shape.drop (tensor.ndim - 2) ≠ [3, 4] then .error .shape
  else
    match se3LeftAct (se3Inverse group) tensor dimOut with
    | .error e => .error e
    | .ok r => .ok (projectLast se3ProjEntry 6 r)

/-! ### `transform` and `compose` -/

/-- `SO3.compose` on batches (so3_impl.py L669-672): `group0 @ group1`. -/
noncomputable def so3Compose (group0 group1 : Tns) : Except Err Tns :=
  if group0.shape.drop (group0.ndim - 2) ≠ [3, 3] then .error .shape
  else if group1.shape.drop (group1.ndim - 2) ≠ [3, 3] then .error .shape
  else matmul group0 group1

/-- `tensor.unsqueeze(-1)`. -/
def unsq (t : Tns) : Tns := ⟨t.shape ++ [1], fun idx => t.val (idx.take t.ndim)⟩

/-- `tensor.squeeze(-1)` for a last dimension of size 1. -/
def sq (t : Tns) : Tns := ⟨t.shape.take (t.ndim - 1), fun idx => t.val (idx ++ [0])⟩

/-- `SO3.transform` on batches (so3_impl.py L717-721): `(group @ tensor.unsqueeze(-1)).squeeze(-1)`. -/
noncomputable def so3Transform (group tensor : Tns) : Except Err Tns :=
  if group.shape.drop (group.ndim - 2) ≠ [3, 3] then .error .shape
  else if tensor.shape.drop (tensor.ndim - 1) ≠ [3] then .error .shape
  else
    match matmul group (unsq tensor) with
    | .error e => .error e
    | .ok r => .ok (sq r)

end Verif.Lie.Batch
