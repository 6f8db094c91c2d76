import Verif.Lie.BatchSE3

/-!
# The Jacobians of `compose`, `transform` and `untransform` on batches (C119)

The `_j…_impl` functions of `torchlie/functional/so3_impl.py` and `se3_impl.py` on whole tensors, with every
`expand`, slice assignment and broadcast.
-/

namespace Verif.Lie.Batch

/-- `t.expand(*s)` with sizes in `s`: every dimension must be 1 or the one asked for, missing ones are added in
front. -/
def expandTo (t : Tns) (s : List ℕ) : Except Err Tns :=
  if bcast t.shape s = some s then .ok ⟨s, fun idx => t.val (bidx t.shape idx)⟩ else .error .torch

/-- `dst[..., a:a+n] = src`: `src` is expanded to the shape of the slice. -/
def setCols (dst : Tns) (a n : ℕ) (src : Tns) : Except Err Tns :=
  match expandTo src (dst.shape.take (dst.ndim - 1) ++ [n]) with
  | .error e => .error e
  | .ok s => .ok ⟨dst.shape, fun idx =>
      let j := idx.getD (dst.ndim - 1) 0
      if a ≤ j ∧ j < a + n then s.val (idx.take (dst.ndim - 1) ++ [j - a]) else dst.val idx⟩

/-- `_hat_impl` of `SO3` on a batch (so3_impl.py L587-599). -/
def so3Hat (t : Tns) : Except Err Tns :=
  if t.shape.drop (t.ndim - 1) ≠ [3] then .error .shape else .ok (liftLast liftEntry 3 t)

/-- `new_zeros(*size, n, n)` with ones on the diagonal (`_DIAG_3_IDX`, `_DIAG_6_IDX`). -/
def eyes (size : List ℕ) (n : ℕ) : Tns :=
  ⟨size ++ [n, n], fun idx => if idx.getD size.length 0 = idx.getD (size.length + 1) 0 then 1 else 0⟩

/-- `_jcompose_impl` of `SO3` (so3_impl.py L675-685). -/
noncomputable def so3JCompose (group0 group1 : Tns) : Except Err ((Tns × Tns) × Tns) :=
  match so3Compose group0 group1 with
  | .error e => .error e
  | .ok ret =>
    let size := ret.shape.take (ret.ndim - 2)
    match expandTo (mT group1) (size ++ [3, 3]) with
    | .error e => .error e
    | .ok jac0 => .ok ((jac0, eyes size 3), ret)

/-- `_jtransform_impl` of `SO3` (so3_impl.py L724-735). -/
noncomputable def so3JTransform (group tensor : Tns) : Except Err ((Tns × Tns) × Tns) :=
  match so3Transform group tensor with
  | .error e => .error e
  | .ok ret =>
    let size := ret.shape.take (ret.ndim - 1)
    match so3Hat tensor with
    | .error e => .error e
    | .ok h =>
      match matmul (negT group) h with
      | .error e => .error e
      | .ok jacG =>
        match expandTo jacG (size ++ [3, 3]), expandTo group (size ++ [3, 3]) with
        | .ok jacG, .ok jacP => .ok ((jacG, jacP), ret)
        | .error e, _ => .error e
        | _, .error e => .error e

/-- `_juntransform_impl` of `SO3` (so3_impl.py L776-787). -/
noncomputable def so3JUntransform (group tensor : Tns) : Except Err ((Tns × Tns) × Tns) :=
  match so3Untransform group tensor with
  | .error e => .error e
  | .ok ret =>
    let size := ret.shape.take (ret.ndim - 1)
    match so3Hat ret with
    | .error e => .error e
    | .ok jacG =>
      match expandTo jacG (size ++ [3, 3]), expandTo (mT group) (size ++ [3, 3]) with
      | .ok jacG, .ok jacP => .ok ((jacG, jacP), ret)
      | .error e, _ => .error e
      | _, .error e => .error e

/-- The entries of `_adjoint_impl` of `SE3` (se3_impl.py L534-537). -/
noncomputable def adjointEntry (m : ℕ → ℕ → ℝ) (i j : ℕ) : ℝ :=
  if i < 3 ∧ j < 3 then m i j
  else if 3 ≤ i ∧ 3 ≤ j then m (i - 3) (j - 3)
  else if i < 3 then ∑ l ∈ Finset.range 3, liftEntry (fun c => m c 3) i l * m l (j - 3)
  else 0

/-- `_adjoint_impl` of `SE3` on a batch (se3_impl.py L531-538). -/
noncomputable def se3Adjoint (group : Tns) : Except Err Tns :=
  if group.shape.drop (group.ndim - 2) ≠ [3, 4] then .error .shape
  else
    let n := group.ndim - 2
    .ok ⟨group.shape.take n ++ [6, 6], fun idx =>
      adjointEntry (fun i j => group.val (idx.take n ++ [i, j])) (idx.getD n 0) (idx.getD (n + 1) 0)⟩

/-- `_jcompose_impl` of `SE3` (se3_impl.py L711-724). -/
noncomputable def se3JCompose (group0 group1 : Tns) : Except Err ((Tns × Tns) × Tns) :=
  match se3Compose group0 group1 with
  | .error e => .error e
  | .ok ret =>
    let size := ret.shape.take (ret.ndim - 2)
    match se3Adjoint (se3Inverse group1) with
    | .error e => .error e
    | .ok a =>
      match expandTo a (size ++ [6, 6]) with
      | .error e => .error e
      | .ok jac0 => .ok ((jac0, eyes size 6), ret)

/-- `_jtransform_impl` of `SE3` (se3_impl.py L764-777); `junk` is what `new_empty` finds in memory. -/
noncomputable def se3JTransform (junk : List ℕ → ℝ) (group tensor : Tns) : Except Err ((Tns × Tns) × Tns) :=
  match se3Transform group tensor with
  | .error e => .error e
  | .ok ret =>
    let size := ret.shape.take (ret.ndim - 1)
    match setCols ⟨size ++ [3, 6], junk⟩ 0 3 (cols group 0 3), so3Hat tensor with
    | .ok jacG, .ok h =>
      match matmul (negT (cols group 0 3)) h with
      | .error e => .error e
      | .ok r =>
        match setCols jacG 3 3 r with
        | .error e => .error e
        | .ok jacG =>
          match expandTo jacG (size ++ [3, 6]), expandTo (cols group 0 3) (size ++ [3, 3]) with
          | .ok jacG, .ok jacP => .ok ((jacG, jacP), ret)
          | .error e, _ => .error e
          | _, .error e => .error e
    | .error e, _ => .error e
    | _, .error e => .error e

/-- `new_zeros(*size, 3, 6)` with `-1` at `(0, 0)`, `(1, 1)`, `(2, 2)` (se3_impl.py L827-830). -/
def minusEyes (size : List ℕ) : Tns :=
  ⟨size ++ [3, 6], fun idx => if idx.getD size.length 0 = idx.getD (size.length + 1) 0 then -1 else 0⟩

/-- `_juntransform_impl` of `SE3` (se3_impl.py L820-835). -/
noncomputable def se3JUntransform (group tensor : Tns) : Except Err ((Tns × Tns) × Tns) :=
  match se3Untransform group tensor with
  | .error e => .error e
  | .ok ret =>
    let size := ret.shape.take (ret.ndim - 1)
    match so3Hat ret with
    | .error e => .error e
    | .ok h =>
      match setCols (minusEyes size) 3 3 h with
      | .error e => .error e
      | .ok jacG =>
        match expandTo jacG (size ++ [3, 6]), expandTo (mT (cols group 0 3)) (size ++ [3, 3]) with
        | .ok jacG, .ok jacP => .ok ((jacG, jacP), ret)
        | .error e, _ => .error e
        | _, .error e => .error e

/-! ### What the operations do -/

/-- `expand` of a batch of matrices to a batch shape it broadcasts to. -/
theorem expandTo_mat {t : Tns} {A N : List ℕ} {m n : ℕ} (h : t.shape = A ++ [m, n]) (hN : bcast A N = some N) :
    ∃ r, expandTo t (N ++ [m, n]) = .ok r ∧ r.shape = N ++ [m, n] ∧ ∀ b i j, In b N → i < m → j < n →
      r.val (b ++ [i, j]) = t.val (bidx A b ++ [i, j]) := by
  unfold expandTo
  have hl := bcast_length hN
  rw [h, bcast_suffix, hN, if_pos (by rfl)]
  refine ⟨_, rfl, rfl, fun b i j hb hi hj => ?_⟩
  have hbl := hb.length_eq
  dsimp only
  rw [bidx_append_le (t := [m, n]) (b := [i, j]) (by omega) rfl, bidx_self (In.two hi hj)]

theorem setCols_mat {d s : Tns} {N : List ℕ} {m k a n : ℕ} (hd : d.shape = N ++ [m, k]) {A : List ℕ}
    (hs : s.shape = A ++ [m, n]) (hN : bcast A N = some N) :
    ∃ r, setCols d a n s = .ok r ∧ r.shape = N ++ [m, k] ∧ ∀ b i j, In b N → i < m →
      r.val (b ++ [i, j]) = if a ≤ j ∧ j < a + n then s.val (bidx A b ++ [i, j - a]) else d.val (b ++ [i, j]) := by
  have dn : d.ndim - 1 = N.length + 1 := by simp [Tns.ndim, hd]
  obtain ⟨e, ee, -, ve⟩ := expandTo_mat hs hN
  unfold setCols
  have hd1 : d.shape.take (N.length + 1) ++ [n] = N ++ [m, n] := by
    rw [hd, show N ++ [m, k] = (N ++ [m]) ++ [k] by simp, List.take_left' (by simp)]
    simp
  rw [dn, hd1, ee]
  refine ⟨_, rfl, hd, fun b i j hb hi => ?_⟩
  have hbl := hb.length_eq
  have h1 : (b ++ [i, j]).getD (N.length + 1) 0 = j := by rw [← hbl]; simp
  have h2 : (b ++ [i, j]).take (N.length + 1) = b ++ [i] := by
    rw [← hbl, show b ++ [i, j] = (b ++ [i]) ++ [j] by simp, List.take_left' (by simp)]
  dsimp only
  rw [h1, h2]
  split_ifs with hj
  · rw [List.append_assoc]
    exact ve b i (j - a) hb hi (by omega)
  · rfl

theorem so3Hat_ok {t : Tns} {A : List ℕ} (h : t.shape = A ++ [3]) :
    ∃ r, so3Hat t = .ok r ∧ r.shape = A ++ [3, 3] ∧ ∀ b i j, b.length = A.length →
      r.val (b ++ [i, j]) = liftEntry (fun c => t.val (b ++ [c])) i j := by
  have hn : t.ndim - 1 = A.length := by simp [Tns.ndim, h]
  unfold so3Hat
  rw [if_neg (by rw [hn]; simp [h])]
  refine ⟨_, rfl, ?_, fun b i j hb => ?_⟩
  · simp [liftLast, hn, h]
  · simp only [liftLast, hn, ← hb]
    simp

theorem negT_shape {t : Tns} : (negT t).shape = t.shape ∧ ∀ i, (negT t).val i = -t.val i := ⟨rfl, fun _ => rfl⟩

theorem se3Inverse_shape {t : Tns} {A : List ℕ} (h : t.shape = A ++ [3, 4]) :
    (se3Inverse t).shape = A ++ [3, 4] ∧ ∀ b i j, b.length = A.length → (se3Inverse t).val (b ++ [i, j]) =
      if j < 3 then t.val (b ++ [j, i]) else -∑ l ∈ Finset.range 3, t.val (b ++ [l, i]) * t.val (b ++ [l, 3]) := by
  have hn : t.ndim - 2 = A.length := by simp [Tns.ndim, h]
  refine ⟨h, fun b i j hb => ?_⟩
  simp only [se3Inverse, hn, ← hb]
  simp

theorem se3Adjoint_ok {t : Tns} {A : List ℕ} (h : t.shape = A ++ [3, 4]) :
    ∃ r, se3Adjoint t = .ok r ∧ r.shape = A ++ [6, 6] ∧ ∀ b i j, b.length = A.length →
      r.val (b ++ [i, j]) = adjointEntry (fun i j => t.val (b ++ [i, j])) i j := by
  have hn : t.ndim - 2 = A.length := by simp [Tns.ndim, h]
  unfold se3Adjoint
  rw [if_neg (by rw [hn]; simp [h])]
  refine ⟨_, rfl, ?_, fun b i j hb => ?_⟩
  · simp [hn, h]
  · simp only [hn, ← hb]
    simp

end Verif.Lie.Batch
