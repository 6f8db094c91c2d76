import Verif.Lie.BatchJac
import Mathlib.Analysis.Real.Sqrt

/-!
# Quaternions on batches (C120)

`quaternion_to_rotation` of `torchlie/functional/so3_impl.py` on whole tensors, without and with its Jacobian.
-/

namespace Verif.Lie.Batch

/-- `torch.norm` of the four entries. -/
noncomputable def norm4 (q : ℕ → ℝ) : ℝ := Real.sqrt (∑ c ∈ Finset.range 4, q c ^ 2)

/-- `quaternion / torch.norm(quaternion, dim=-1, keepdim=True)` (so3_impl.py L824). -/
noncomputable def unit4 (q : ℕ → ℝ) (c : ℕ) : ℝ := q c / norm4 q

/-- The entries of the matrix (so3_impl.py L825-851, L863-889). -/
def quatEntry (q : ℕ → ℝ) : ℕ → ℕ → ℝ
  | 0, 0 => q 0 * q 0 + q 1 * q 1 - q 2 * q 2 - q 3 * q 3
  | 0, 1 => 2 * (q 1 * q 2 - q 0 * q 3)
  | 0, 2 => 2 * (q 1 * q 3 + q 0 * q 2)
  | 1, 0 => 2 * (q 1 * q 2 + q 0 * q 3)
  | 1, 1 => q 0 * q 0 - q 1 * q 1 + q 2 * q 2 - q 3 * q 3
  | 1, 2 => 2 * (q 2 * q 3 - q 0 * q 1)
  | 2, 0 => 2 * (q 1 * q 3 - q 0 * q 2)
  | 2, 1 => 2 * (q 2 * q 3 + q 0 * q 1)
  | 2, 2 => q 0 * q 0 - q 1 * q 1 - q 2 * q 2 + q 3 * q 3
  | _, _ => 0

/-- The entries of the Jacobian (so3_impl.py L891-897): the first column and the cross product matrix of
`temp[..., 1:]`, then the three entries that overwrite its diagonal. -/
def jquatEntry (temp : ℕ → ℝ) (i j : ℕ) : ℝ :=
  if j = i + 1 then -temp 0
  else if j = 0 then temp (i + 1)
  else liftEntry (fun c => temp (c + 1)) i (j - 1)

/-- The entries of the quaternion at the batch index in front of `idx`. -/
def quatAt (q : Tns) (idx : List ℕ) : ℕ → ℝ := fun c => q.val (idx.take (q.ndim - 1) ++ [c])

/-- `_quaternion_to_rotation_impl` (so3_impl.py L821-852), the check of the norms being off. -/
noncomputable def quatToRot (q : Tns) : Except Err Tns :=
  if q.shape.drop (q.ndim - 1) ≠ [4] then .error .shape
  else
    let n := q.ndim - 1
    .ok ⟨q.shape.take n ++ [3, 3], fun idx =>
      quatEntry (unit4 (quatAt q idx)) (idx.getD n 0) (idx.getD (n + 1) 0)⟩

/-- `tensor.unsqueeze(0)`. -/
def unsq0 (t : Tns) : Tns := ⟨1 :: t.shape, fun idx => t.val (idx.drop 1)⟩

/-- `_jquaternion_to_rotation_impl` (so3_impl.py L855-900): a single quaternion becomes a batch of one. -/
noncomputable def jquatToRot (q : Tns) : Except Err (Tns × Tns) :=
  let q := if q.ndim = 1 then unsq0 q else q
  if q.shape.drop (q.ndim - 1) ≠ [4] then .error .shape
  else
    let n := q.ndim - 1
    .ok (⟨q.shape.take n ++ [3, 4], fun idx =>
        let u := unit4 (quatAt q idx)
        jquatEntry (fun c => -2 * u c / norm4 (quatAt q idx)) (idx.getD n 0) (idx.getD (n + 1) 0)⟩,
      ⟨q.shape.take n ++ [3, 3], fun idx =>
        quatEntry (unit4 (quatAt q idx)) (idx.getD n 0) (idx.getD (n + 1) 0)⟩)

/-- `quaternion_to_rotation(q)`, and `quaternion_to_rotation(q, jacobians=[])` with what the list holds afterwards, as
the factory makes them (lie_group.py L144-155; there is no passthrough function for it). -/
noncomputable def quaternionToRotation (q : Tns) (jacobians : Bool) : Except Err (Tns × List Tns) :=
  if jacobians then
    match jquatToRot q with
    | .error e => .error e
    | .ok (j, _) =>
      match quatToRot q with
      | .error e => .error e
      | .ok r => .ok (r, [j])
  else
    match quatToRot q with
    | .error e => .error e
    | .ok r => .ok (r, [])

/-- `r.view_as(q)` for an `r` with a last dimension of size 1 and perhaps more dimensions of size 1 in front than `q`;
an error unless the number of entries is kept. -/
def viewCol (r : Tns) (s : List ℕ) : Except Err Tns :=
  if r.shape.prod ≠ s.prod then .error .torch
  else .ok ⟨s, fun idx => r.val (List.replicate (r.ndim - 1 - s.length) 0 ++ idx ++ [0])⟩

/-- `QuaternionToRotation.backward` (so3_impl.py L915-930); the view of the stacked entries adds a last dimension of
size 1. -/
noncomputable def quatGrad (quaternion gradOutput : Tns) : Except Err Tns :=
  match quatToRot quaternion, jquatToRot quaternion with
  | .ok group, .ok (jacs, _) =>
    match matmul (mT group) gradOutput with
    | .error e => .error e
    | .ok dR =>
      match matmul (mT jacs) (unsq (projectLast projEntry 3 dR)) with
      | .error e => .error e
      | .ok g => viewCol g quaternion.shape
  | .error e, _ => .error e
  | _, .error e => .error e

end Verif.Lie.Batch
