import Verif.Lie.BatchJac

/-!
# `SE3.inverse` and `SE3.adjoint` on batches, forwards and backwards (C121)

`torchlie/functional/se3_impl.py` on whole tensors, with every slice, block assignment, concatenation and view.
-/

namespace Verif.Lie.Batch

/-- `t[..., a:a+n, :]`. -/
def rows (t : Tns) (a n : ℕ) : Tns :=
  let k := t.ndim - 2
  ⟨t.shape.take k ++ [n, t.shape.getD (k + 1) 0], fun idx =>
    t.val (idx.take k ++ [idx.getD k 0 + a, idx.getD (k + 1) 0])⟩

/-- `dst[..., a:a+3, b:b+3] = src`. -/
def setBlock (dst : Tns) (a b : ℕ) (src : Tns) : Except Err Tns :=
  let k := dst.ndim - 2
  match expandTo src (dst.shape.take k ++ [3, 3]) with
  | .error e => .error e
  | .ok s => .ok ⟨dst.shape, fun idx =>
      let i := idx.getD k 0
      let j := idx.getD (k + 1) 0
      if (a ≤ i ∧ i < a + 3) ∧ b ≤ j ∧ j < b + 3 then s.val (idx.take k ++ [i - a, j - b]) else dst.val idx⟩

/-- `_inverse_impl` of `SE3` (se3_impl.py L578-581). -/
noncomputable def se3InverseOp (group : Tns) : Except Err Tns :=
  if group.shape.drop (group.ndim - 2) ≠ [3, 4] then .error .shape
  else
    let R := mT (cols group 0 3)
    match matmul (negT R) (cols group 3 1) with
    | .error e => .error e
    | .ok t => catLast R t

/-- `Inverse.backward` of `SE3` (se3_impl.py L597-604). -/
noncomputable def se3InverseGrad (group gradOutput : Tns) : Except Err Tns :=
  match matmul (cols group 3 1) (mT (cols gradOutput 3 1)) with
  | .error e => .error e
  | .ok o =>
    match ewise (· - ·) (mT (cols gradOutput 0 3)) o, matmul (negT (cols group 0 3)) (cols gradOutput 3 1) with
    | .ok rot, .ok t => catLast rot t
    | .error e, _ => .error e
    | _, .error e => .error e

/-- `_adjoint_impl` of `SE3` (se3_impl.py L531-538). -/
noncomputable def se3AdjointOp (group : Tns) : Except Err Tns :=
  if group.shape.drop (group.ndim - 2) ≠ [3, 4] then .error .shape
  else
    let size := group.shape.take (group.ndim - 2)
    let R := cols group 0 3
    match setBlock ⟨size ++ [6, 6], fun _ => 0⟩ 0 0 R with
    | .error e => .error e
    | .ok ret =>
      match setBlock ret 3 3 R, so3Hat (sq (cols group 3 1)) with
      | .ok ret, .ok h =>
        match matmul h R with
        | .error e => .error e
        | .ok b => setBlock ret 0 3 b
      | .error e, _ => .error e
      | _, .error e => .error e

/-- `_jinverse_impl` of `SE3` (lie_group.py L29-33, with the functions of se3_impl.py): the list of the one Jacobian, and
the inverse. -/
noncomputable def se3JInverseOp (group : Tns) : Except Err (List Tns × Tns) :=
  match se3AdjointOp group, se3InverseOp group with
  | .ok a, .ok r => .ok ([negT a], r)
  | .error e, _ => .error e
  | _, .error e => .error e

/-- `Adjoint.backward` of `SE3` (se3_impl.py L553-567); the view of the projection adds a last dimension of size 1. -/
noncomputable def se3AdjointGrad (group gradOutput : Tns) : Except Err Tns :=
  let upper := rows (cols gradOutput 3 3) 0 3
  match ewise (· + ·) (rows (cols gradOutput 0 3) 0 3) (rows (cols gradOutput 3 3) 3 3), so3Hat (sq (cols group 3 1)) with
  | .ok s, .ok h =>
    match matmul h upper, matmul upper (mT (cols group 0 3)) with
    | .ok m, .ok p =>
      match ewise (· - ·) s m with
      | .error e => .error e
      | .ok rot => catLast rot (unsq (projectLast projEntry 3 p))
    | .error e, _ => .error e
    | _, .error e => .error e
  | .error e, _ => .error e
  | _, .error e => .error e

/-! ### What the operations do -/

theorem rows_shape {t : Tns} {A : List ℕ} {m k : ℕ} (a n : ℕ) (h : t.shape = A ++ [m, k]) :
    (rows t a n).shape = A ++ [n, k] ∧ ∀ b i j, b.length = A.length →
      (rows t a n).val (b ++ [i, j]) = t.val (b ++ [i + a, j]) := by
  have hn : t.ndim - 2 = A.length := by simp [Tns.ndim, h]
  constructor
  · simp [rows, hn, h]
  · intro b i j hb
    simp only [rows, hn, ← hb]
    simp

theorem setBlock_ok {d s : Tns} {N : List ℕ} {m k a b : ℕ} (hd : d.shape = N ++ [m, k]) (hs : s.shape = N ++ [3, 3]) :
    ∃ r, setBlock d a b s = .ok r ∧ r.shape = N ++ [m, k] ∧ ∀ c i j, In c N →
      r.val (c ++ [i, j]) = if (a ≤ i ∧ i < a + 3) ∧ b ≤ j ∧ j < b + 3 then s.val (c ++ [i - a, j - b])
        else d.val (c ++ [i, j]) := by
  have dn : d.ndim - 2 = N.length := by simp [Tns.ndim, hd]
  obtain ⟨e, ee, -, ve⟩ := expandTo_mat hs (N := N) (by simp [bcast, bcastRev_self])
  have ht : d.shape.take N.length = N := by simp [hd]
  unfold setBlock
  simp only [dn, ht, ee]
  refine ⟨_, rfl, hd, fun c i j hc => ?_⟩
  have hcl := hc.length_eq
  dsimp only
  rw [show (c ++ [i, j]).getD N.length 0 = i by simp [← hcl], show (c ++ [i, j]).getD (N.length + 1) 0 = j by simp [← hcl],
    show (c ++ [i, j]).take N.length = c by simp [← hcl]]
  split_ifs with hij
  · rw [ve c _ _ hc (by omega) (by omega), bidx_self hc]
  · rfl

theorem ewise_same {f : ℝ → ℝ → ℝ} {x y : Tns} {S : List ℕ} (hx : x.shape = S) (hy : y.shape = S) :
    ∃ r, ewise f x y = .ok r ∧ r.shape = S ∧ ∀ idx, In idx S → r.val idx = f (x.val idx) (y.val idx) := by
  unfold ewise
  rw [hx, hy, show bcast S S = some S by simp [bcast, bcastRev_self]]
  exact ⟨_, rfl, rfl, fun idx hi => by dsimp only; rw [bidx_self hi]⟩

end Verif.Lie.Batch
