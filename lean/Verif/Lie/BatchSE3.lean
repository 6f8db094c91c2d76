import Verif.Lie.BatchGrad

/-!
# `SE3.compose`, `transform` and `untransform` on batches, forwards and backwards (C118)

`torchlie/functional/se3_impl.py` (and `SO3.untransform` of `so3_impl.py`) on whole tensors, with every slice,
concatenation, broadcast and view.
-/

namespace Verif.Lie.Batch

/-- `t[..., a:a+n]`. -/
def cols (t : Tns) (a n : ℕ) : Tns :=
  ⟨t.shape.take (t.ndim - 1) ++ [n], fun idx => t.val (idx.take (t.ndim - 1) ++ [idx.getD (t.ndim - 1) 0 + a])⟩

/-- `torch.cat((x, y), dim=-1)`. -/
noncomputable def catLast (x y : Tns) : Except Err Tns :=
  let n := x.ndim - 1
  if x.ndim = y.ndim ∧ x.shape.take n = y.shape.take n then
    .ok ⟨x.shape.take n ++ [x.shape.getD n 0 + y.shape.getD n 0], fun idx =>
      if idx.getD n 0 < x.shape.getD n 0 then x.val idx
      else y.val (idx.take n ++ [idx.getD n 0 - x.shape.getD n 0])⟩
  else .error .torch

/-- `x + y` and `x - y`: entry by entry, broadcast. -/
noncomputable def ewise (f : ℝ → ℝ → ℝ) (x y : Tns) : Except Err Tns :=
  match bcast x.shape y.shape with
  | none => .error .torch
  | some n => .ok ⟨n, fun idx => f (x.val (bidx x.shape idx)) (y.val (bidx y.shape idx))⟩

/-- `-x`. -/
noncomputable def negT (x : Tns) : Tns := ⟨x.shape, fun idx => -x.val idx⟩

/-- `SE3.compose` (se3_impl.py L703-708). -/
noncomputable def se3Compose (group0 group1 : Tns) : Except Err Tns :=
  if group0.shape.drop (group0.ndim - 2) ≠ [3, 4] then .error .shape
  else if group1.shape.drop (group1.ndim - 2) ≠ [3, 4] then .error .shape
  else
    match matmul (cols group0 0 3) (cols group1 0 3), matmul (cols group0 0 3) (cols group1 3 1) with
    | .ok rot, .ok t =>
      match ewise (· + ·) t (cols group0 3 1) with
      | .ok t => catLast rot t
      | .error e => .error e
    | .error e, _ => .error e
    | _, .error e => .error e

/-- `Compose.backward` of `SE3` (se3_impl.py L740-747), and the engine's sum. -/
noncomputable def se3ComposeGrad (group0 group1 gradOutput : Tns) : Except Err (Tns × Tns) :=
  match matmul gradOutput (mT group1), matmul (mT (cols group0 0 3)) gradOutput with
  | .ok a, .ok j1 =>
    match catLast a (cols gradOutput 3 1) with
    | .ok j0 => .ok (sumTo j0 group0.shape, sumTo j1 group1.shape)
    | .error e => .error e
  | .error e, _ => .error e
  | _, .error e => .error e

/-- `SE3.transform` (se3_impl.py L757-761). -/
noncomputable def se3Transform (group tensor : Tns) : Except Err Tns :=
  if group.shape.drop (group.ndim - 2) ≠ [3, 4] then .error .shape
  else if tensor.shape.drop (tensor.ndim - 1) ≠ [3] then .error .shape
  else
    match matmul (cols group 0 3) (unsq tensor) with
    | .error e => .error e
    | .ok r =>
      match ewise (· + ·) (cols group 3 1) r with
      | .error e => .error e
      | .ok r => .ok (sq r)

/-- `TransformFrom.backward` of `SE3` (se3_impl.py L794-804), and the engine's sum; the view of `tensor` as rows is its
transpose as a column. -/
noncomputable def se3TransformGrad (group tensor gradOutput : Tns) : Except Err (Tns × Tns) :=
  match matmul (unsq gradOutput) (mT (unsq tensor)), matmul (mT (cols group 0 3)) (unsq gradOutput) with
  | .ok a, .ok j1 =>
    match catLast a (unsq gradOutput) with
    | .ok j0 => .ok (sumTo j0 group.shape, sumTo (sq j1) tensor.shape)
    | .error e => .error e
  | .error e, _ => .error e
  | _, .error e => .error e

/-- `SO3.untransform` (so3_impl.py L769-773). -/
noncomputable def so3Untransform (group tensor : Tns) : Except Err Tns :=
  if group.shape.drop (group.ndim - 2) ≠ [3, 3] then .error .shape
  else if tensor.shape.drop (tensor.ndim - 1) ≠ [3] then .error .shape
  else
    match matmul (mT group) (unsq tensor) with
    | .error e => .error e
    | .ok r => .ok (sq r)

/-- `Untransform.backward` of `SO3` (so3_impl.py L804-811), and the engine's sum. -/
noncomputable def so3UntransformGrad (group tensor gradOutput : Tns) : Except Err (Tns × Tns) :=
  match matmul (unsq tensor) (mT (unsq gradOutput)), matmul (cols group 0 3) (unsq gradOutput) with
  | .ok j0, .ok j1 => .ok (sumTo j0 group.shape, sumTo (sq j1) tensor.shape)
  | .error e, _ => .error e
  | _, .error e => .error e

/-- `SE3.untransform` (se3_impl.py L813-817); `-1:` is the fourth column. -/
noncomputable def se3Untransform (group tensor : Tns) : Except Err Tns :=
  if group.shape.drop (group.ndim - 2) ≠ [3, 4] then .error .shape
  else if tensor.shape.drop (tensor.ndim - 1) ≠ [3] then .error .shape
  else
    match ewise (· - ·) (unsq tensor) (cols group 3 1) with
    | .error e => .error e
    | .ok d =>
      match matmul (mT (cols group 0 3)) d with
      | .error e => .error e
      | .ok r => .ok (sq r)

/-- `tensor.view(*size, 3, 1)` of a contiguous tensor of shape `(…, 3, 1)`: an error unless the number of entries is
kept.  Only the views that add or drop dimensions of size 1 in front keep the indices; `drop` is how many are
dropped. -/
noncomputable def viewAs (t : Tns) (s : List ℕ) : Except Err Tns :=
  if t.shape.prod ≠ s.prod then .error .torch
  else .ok ⟨s, fun idx => t.val (List.replicate (t.shape.length - s.length) 0 ++ idx)⟩

/-- `Untransform.backward` of `SE3` (se3_impl.py L852-867), and the engine's sum. -/
noncomputable def se3UntransformGrad (group tensor gradOutput : Tns) : Except Err (Tns × Tns) :=
  match ewise (· - ·) (unsq tensor) (cols group 3 1) with
  | .error e => .error e
  | .ok tmp =>
    match matmul (cols group 0 3) (unsq gradOutput), viewAs tmp (tensor.shape ++ [1]) with
    | .ok j1, .ok v =>
      match matmul v (mT (unsq gradOutput)) with
      | .error e => .error e
      | .ok a =>
        match catLast a (negT j1) with
        | .error e => .error e
        | .ok j0 => .ok (sumTo j0 group.shape, sumTo (sq j1) tensor.shape)
    | .error e, _ => .error e
    | _, .error e => .error e

/-! ### What the operations do -/

theorem cols_shape {t : Tns} {A : List ℕ} {m k : ℕ} (a n : ℕ) (h : t.shape = A ++ [m, k]) :
    (cols t a n).shape = A ++ [m, n] ∧ ∀ b i j, b.length = A.length → (cols t a n).val (b ++ [i, j])
      = t.val (b ++ [i, j + a]) := by
  have hn : t.ndim - 1 = A.length + 1 := by simp [Tns.ndim, h]
  constructor
  · simp only [cols, hn]
    rw [h, show A ++ [m, k] = (A ++ [m]) ++ [k] by simp, List.take_left' (by simp)]
    simp
  · intro b i j hb
    simp only [cols, hn, ← hb]
    rw [show b ++ [i, j] = (b ++ [i]) ++ [j] by simp, List.take_left' (by simp)]
    simp

theorem unsq_shape {t : Tns} {A : List ℕ} {m : ℕ} (h : t.shape = A ++ [m]) :
    (unsq t).shape = A ++ [m, 1] ∧ ∀ b i j, b.length = A.length → (unsq t).val (b ++ [i, j]) = t.val (b ++ [i]) := by
  have hn : t.ndim = A.length + 1 := by simp [Tns.ndim, h]
  constructor
  · simp [unsq, h]
  · intro b i j hb
    simp only [unsq, hn, ← hb]
    rw [show b ++ [i, j] = (b ++ [i]) ++ [j] by simp, List.take_left' (by simp)]

theorem sq_shape {t : Tns} {A : List ℕ} {m : ℕ} (h : t.shape = A ++ [m, 1]) :
    (sq t).shape = A ++ [m] ∧ ∀ b i, (sq t).val (b ++ [i]) = t.val (b ++ [i, 0]) := by
  have hn : t.ndim - 1 = A.length + 1 := by simp [Tns.ndim, h]
  constructor
  · simp only [sq, hn]
    rw [h, show A ++ [m, 1] = (A ++ [m]) ++ [1] by simp, List.take_left' (by simp)]
  · intro b i
    simp [sq]

theorem catLast_ok {x y : Tns} {A : List ℕ} {m k l : ℕ} (hx : x.shape = A ++ [m, k]) (hy : y.shape = A ++ [m, l]) :
    ∃ r, catLast x y = .ok r ∧ r.shape = A ++ [m, k + l] ∧ ∀ b i j, b.length = A.length →
      r.val (b ++ [i, j]) = if j < k then x.val (b ++ [i, j]) else y.val (b ++ [i, j - k]) := by
  have xn : x.ndim - 1 = A.length + 1 := by simp [Tns.ndim, hx]
  have hx0 : x.shape.getD (A.length + 1) 0 = k := by simp [hx]
  have hy0 : y.shape.getD (A.length + 1) 0 = l := by simp [hy]
  have hx1 : x.shape.take (A.length + 1) = A ++ [m] := by
    rw [hx, show A ++ [m, k] = (A ++ [m]) ++ [k] by simp, List.take_left' (by simp)]
  have hy1 : y.shape.take (A.length + 1) = A ++ [m] := by
    rw [hy, show A ++ [m, l] = (A ++ [m]) ++ [l] by simp, List.take_left' (by simp)]
  refine ⟨_, by
    unfold catLast
    simp only [xn, hx0, hy0, hx1, hy1]
    rw [if_pos]
    · simp [Tns.ndim, hx, hy], by simp, fun b i j hb => ?_⟩
  dsimp only
  have h1 : (b ++ [i, j]).getD (A.length + 1) 0 = j := by rw [← hb]; simp
  have h2 : (b ++ [i, j]).take (A.length + 1) = b ++ [i] := by
    rw [← hb, show b ++ [i, j] = (b ++ [i]) ++ [j] by simp, List.take_left' (by simp)]
  rw [h1, h2]
  simp

theorem bcast_suffix (A B : List ℕ) (x y : ℕ) : bcast (A ++ [x, y]) (B ++ [x, y]) = (bcast A B).map (· ++ [x, y]) := by
  simp only [bcast, List.reverse_append, List.reverse_cons, List.reverse_nil, List.nil_append, List.cons_append]
  simp only [bcastRev, bcastDim_same]
  cases bcastRev A.reverse B.reverse <;> simp

/-- Entry by entry on columns of 3. -/
theorem ewise_cols {f : ℝ → ℝ → ℝ} {x y : Tns} {A B : List ℕ} (hx : x.shape = A ++ [3, 1]) (hy : y.shape = B ++ [3, 1]) :
    (bcast A B = none → ewise f x y = .error .torch) ∧
    ∀ N, bcast A B = some N → ∃ r, ewise f x y = .ok r ∧ r.shape = N ++ [3, 1] ∧
      ∀ b i, b.length = N.length → r.val (b ++ [i, 0]) = f (x.val (bidx A b ++ [i, 0])) (y.val (bidx B b ++ [i, 0])) := by
  have hs := bcast_suffix A B 3 1
  unfold ewise
  rw [hx, hy, hs]
  constructor
  · intro h
    rw [h]; rfl
  · intro N hN
    have hl := bcast_length hN
    rw [hN]
    refine ⟨_, rfl, rfl, fun b i hb => ?_⟩
    dsimp only
    have e : ∀ S : List ℕ, S.length ≤ b.length → bidx (S ++ [3, 1]) (b ++ [i, 0]) = bidx S b ++ [i, 0] := by
      intro S hS
      rw [bidx_append_le (t := [3, 1]) (b := [i, 0]) hS rfl]
      simp [bidx]
    rw [e A (by omega), e B (by omega)]

end Verif.Lie.Batch
