import Verif.Lie.BatchLemmas

/-!
# The backward pass of `left_act` on batches (C117)

`_left_act_backward_helper` of `so3_impl.py` and `se3_impl.py` with its permutations and sums, and what the autograd
engine does with the gradients it returns: a gradient of a broadcast shape is summed to the shape of the input.
-/

namespace Verif.Lie.Batch

/-- The sum over all indices within a shape. -/
noncomputable def sumOver : List ℕ → (List ℕ → ℝ) → ℝ
  | [], f => f []
  | d :: s, f => ∑ i ∈ Finset.range d, sumOver s fun r => f (i :: r)

/-- `tensor.sum(list(range(a, a + n)))` for a non-empty range. -/
noncomputable def sumDims (t : Tns) (a n : ℕ) : Tns :=
  ⟨t.shape.take a ++ t.shape.drop (a + n), fun idx =>
    sumOver ((t.shape.drop a).take n) fun o => t.val (idx.take a ++ o ++ idx.drop a)⟩

/-- The autograd engine's `sum_to`: the gradient `t` of a broadcast input of shape `s`. -/
noncomputable def sumTo (t : Tns) (s : List ℕ) : Tns :=
  ⟨s, fun idx => sumOver t.shape fun b => if bidx s b = idx then t.val b else 0⟩

/-- `_left_act_backward_helper` (so3_impl.py L1030-1046). -/
noncomputable def leftActBackward (group tensor : Tns) (dimOut : ℤ) (gradOutput : Tns) : Except Err (Tns × Tns) :=
  let tensor := if (group.ndim : ℤ) + dimOut > tensor.ndim then
      fillDims tensor ((group.ndim : ℤ) + dimOut).toNat else tensor
  let permuted := permuteOpDim tensor.ndim dimOut 2
  let unpermuted := unpermuteOpDim tensor.ndim dimOut 2
  match permute tensor permuted, permute gradOutput permuted with
  | .ok t, .ok grad =>
    match matmul grad (mT t), matmul (mT group) grad with
    | .ok jg, .ok jt =>
      match permute jg unpermuted, permute jt unpermuted with
      | .ok jg, .ok jt =>
        .ok (if dimOut > 0 then sumDims jg ((tensor.ndim : ℤ) - 2 - dimOut).toNat dimOut.toNat else jg, jt)
      | .error e, _ => .error e
      | _, .error e => .error e
    | .error e, _ => .error e
    | _, .error e => .error e
  | .error e, _ => .error e
  | _, .error e => .error e

/-- `LeftAct.backward` of `SO3` (so3_impl.py L1063-1068), and the engine's sum to the shapes of the inputs. -/
noncomputable def so3LeftActGrad (group tensor : Tns) (dimOut : Option ℤ) (gradOutput : Tns) :
    Except Err (Tns × Tns) :=
  match leftActBackward group tensor (dimOutOf group tensor dimOut) gradOutput with
  | .ok (jg, jt) => .ok (sumTo jg group.shape, sumTo jt tensor.shape)
  | .error e => .error e

/-- `torch.cat((jac_rot, zeros(…, 3, 1)), dim=-1)`. -/
def catZero (t : Tns) : Tns :=
  ⟨t.shape.take (t.ndim - 1) ++ [t.shape.getD (t.ndim - 1) 0 + 1], fun idx =>
    if idx.getD (t.ndim - 1) 0 < t.shape.getD (t.ndim - 1) 0 then t.val idx else 0⟩

/-- `LeftAct.backward` of `SE3` (se3_impl.py L962-972, L989-993), and the engine's sum. -/
noncomputable def se3LeftActGrad (group tensor : Tns) (dimOut : Option ℤ) (gradOutput : Tns) :
    Except Err (Tns × Tns) :=
  match leftActBackward (rotationOf group) tensor (dimOutOf group tensor dimOut) gradOutput with
  | .ok (jg, jt) => .ok (sumTo (catZero jg) group.shape, sumTo jt tensor.shape)
  | .error e => .error e

/-- The entries of `_lift_impl` of `SO3` (so3_impl.py L942-948). -/
def liftEntry (w : ℕ → ℝ) : ℕ → ℕ → ℝ
  | 0, 1 => -w 2
  | 0, 2 => w 1
  | 1, 2 => -w 0
  | 1, 0 => w 2
  | 2, 0 => -w 1
  | 2, 1 => w 0
  | _, _ => 0

/-- The entries of `_lift_impl` of `SE3` (se3_impl.py L878-880). -/
def se3LiftEntry (w : ℕ → ℝ) (i j : ℕ) : ℝ := if j < 3 then liftEntry (fun c => w (c + 3)) i j else w i

/-- `_lift_impl` on a batch (so3_impl.py L940-950, se3_impl.py L876-882). -/
def liftLast (entry : (ℕ → ℝ) → ℕ → ℕ → ℝ) (cols : ℕ) (t : Tns) : Tns :=
  let n := t.ndim - 1
  ⟨t.shape.take n ++ [3, cols], fun idx => entry (fun c => t.val (idx.take n ++ [c])) (idx.getD n 0)
    (idx.getD (n + 1) 0)⟩

/-- `_left_project_backward_helper` (so3_impl.py L1087-1096). -/
noncomputable def leftProjectBackward (group tensor : Tns) (dimOut : ℤ) (lifted : Tns) : Except Err (Tns × Tns) :=
  match leftActBackward (mT group) tensor dimOut lifted with
  | .ok (jg, jt) => .ok (mT jg, jt)
  | .error e => .error e

/-- `LeftProject.backward` of `SO3` (so3_impl.py L1114-1119), and the engine's sum. -/
noncomputable def so3LeftProjectGrad (group tensor : Tns) (dimOut : Option ℤ) (gradOutput : Tns) :
    Except Err (Tns × Tns) :=
  match leftProjectBackward group tensor (dimOutOf group tensor dimOut) (liftLast liftEntry 3 gradOutput) with
  | .ok (jg, jt) => .ok (sumTo jg group.shape, sumTo jt tensor.shape)
  | .error e => .error e

/-- `LeftProject.backward` of `SE3` (se3_impl.py L1012-1025, L1042-1047), and the engine's sum. -/
noncomputable def se3LeftProjectGrad (group tensor : Tns) (dimOut : Option ℤ) (gradOutput : Tns) :
    Except Err (Tns × Tns) :=
  match leftProjectBackward (rotationOf group) tensor (dimOutOf group tensor dimOut)
      (liftLast se3LiftEntry 4 gradOutput) with
  | .ok (jg, jt) => .ok (sumTo (catZero jg) group.shape, sumTo jt tensor.shape)
  | .error e => .error e

/-- `Compose.backward` of `SO3` (so3_impl.py L706-711), and the engine's sum; also torch's own backward of `@`. -/
noncomputable def matmulGrad (a b gradOutput : Tns) : Except Err (Tns × Tns) :=
  match matmul gradOutput (mT b), matmul (mT a) gradOutput with
  | .ok ja, .ok jb => .ok (sumTo ja a.shape, sumTo jb b.shape)
  | .error e, _ => .error e
  | _, .error e => .error e

/-- `TransformFrom.backward` of `SO3` (so3_impl.py L752-759), and the engine's sum; the view of `tensor` as rows is its
transpose as a column. -/
noncomputable def so3TransformGrad (group tensor gradOutput : Tns) : Except Err (Tns × Tns) :=
  match matmul (unsq gradOutput) (mT (unsq tensor)), matmul (mT group) (unsq gradOutput) with
  | .ok jg, .ok jt => .ok (sumTo jg group.shape, sumTo (sq jt) tensor.shape)
  | .error e, _ => .error e
  | _, .error e => .error e

/-! ### Sums over indices -/

/-- An index within a shape. -/
abbrev In (idx s : List ℕ) : Prop := List.Forall₂ (· < ·) idx s

theorem sumOver_congr {s : List ℕ} {f g : List ℕ → ℝ} (h : ∀ i, In i s → f i = g i) : sumOver s f = sumOver s g := by
  induction s generalizing f g with
  | nil => exact h [] List.Forall₂.nil
  | cons d s ih =>
    apply Finset.sum_congr rfl
    intro i hi
    exact ih fun r hr => h _ (List.Forall₂.cons (Finset.mem_range.mp hi) hr)

theorem sumOver_append (s t : List ℕ) (f : List ℕ → ℝ) :
    sumOver (s ++ t) f = sumOver s fun a => sumOver t fun b => f (a ++ b) := by
  induction s generalizing f with
  | nil => rfl
  | cons d s ih =>
    apply Finset.sum_congr rfl
    intro i _
    exact ih _

theorem sumOver_two (m n : ℕ) (f : List ℕ → ℝ) :
    sumOver [m, n] f = ∑ i ∈ Finset.range m, ∑ j ∈ Finset.range n, f [i, j] := rfl

theorem sumOver_mul (s : List ℕ) (f : List ℕ → ℝ) (c : ℝ) : sumOver s f * c = sumOver s fun i => f i * c := by
  induction s generalizing f with
  | nil => rfl
  | cons d s ih => simp only [sumOver, Finset.sum_mul, ih]

theorem sumOver_zero (s : List ℕ) : sumOver s (fun _ => 0) = 0 := by
  induction s with
  | nil => rfl
  | cons d s ih => simp [sumOver, ih]

theorem sumOver_sum {ι : Type} (s : List ℕ) (u : Finset ι) (f : ι → List ℕ → ℝ) :
    (sumOver s fun a => ∑ i ∈ u, f i a) = ∑ i ∈ u, sumOver s (f i) := by
  induction s generalizing f with
  | nil => rfl
  | cons d s ih =>
    simp only [sumOver, ih]
    exact Finset.sum_comm

theorem sumOver_comm (s t : List ℕ) (f : List ℕ → List ℕ → ℝ) :
    (sumOver s fun a => sumOver t fun b => f a b) = sumOver t fun b => sumOver s fun a => f a b := by
  induction s generalizing f with
  | nil => rfl
  | cons d s ih =>
    simp only [sumOver]
    rw [sumOver_sum]
    apply Finset.sum_congr rfl
    intro i _
    exact ih _

theorem sumOver_single {s a : List ℕ} (ha : In a s) (f : List ℕ → ℝ) :
    (sumOver s fun x => if a = x then f x else 0) = f a := by
  induction ha generalizing f with
  | nil => simp [sumOver]
  | @cons x d a s hx hrest ih =>
    simp only [sumOver]
    rw [Finset.sum_eq_single x]
    · have := ih fun r => f (x :: r)
      simpa using this
    · intro i _ hi
      have : ∀ r, In r s → (if x :: a = i :: r then f (i :: r) else 0) = 0 := by
        intro r _
        rw [if_neg]
        intro h
        exact hi (List.cons.inj h).1.symm
      rw [sumOver_congr this, sumOver_zero]
    · intro h
      exact (h (Finset.mem_range.mpr hx)).elim

/-- The engine's sum is the transpose of broadcasting. -/
theorem sumTo_adjoint {t : Tns} {s : List ℕ} (h : ∀ b, In b t.shape → In (bidx s b) s) (y : List ℕ → ℝ) :
    (sumOver s fun a => (sumTo t s).val a * y a) = sumOver t.shape fun b => t.val b * y (bidx s b) := by
  simp only [sumTo]
  simp only [sumOver_mul]
  rw [sumOver_comm]
  apply sumOver_congr
  intro b hb
  rw [← sumOver_single (h b hb) fun a => t.val b * y a]
  apply sumOver_congr
  intro a _
  split <;> simp

/-! ### Broadcasting once more -/

theorem bcastDim_comm (x y : ℕ) : bcastDim x y = bcastDim y x := by
  unfold bcastDim
  split
  · rename_i h; rw [if_pos h.symm, h]
  · rename_i h
    rw [if_neg (Ne.symm h)]
    split
    · split
      · omega
      · rfl
    · rfl

theorem bcastRev_comm (xs ys : List ℕ) : bcastRev xs ys = bcastRev ys xs := by
  induction xs generalizing ys with
  | nil => rw [bcastRev_nil]; rfl
  | cons x xs ih =>
    cases ys with
    | nil => rfl
    | cons y ys => simp only [bcastRev, ih ys, bcastDim_comm x y]

theorem bcast_comm (xs ys : List ℕ) : bcast xs ys = bcast ys xs := by
  rw [bcast, bcast, bcastRev_comm]

theorem bcastDim_idem {x y d : ℕ} (h : bcastDim x y = some d) : bcastDim x d = some d := by
  unfold bcastDim at *
  split at h
  · cases h; simp
  · split at h
    · cases h; simp_all
    · split at h
      · cases h; simp
      · cases h

theorem bcastRev_self (xs : List ℕ) : bcastRev xs xs = some xs := by
  induction xs with
  | nil => rfl
  | cons x xs ih => simp [bcastRev, ih, bcastDim_same]

theorem bcastRev_idem {xs ys zs : List ℕ} (h : bcastRev xs ys = some zs) : bcastRev xs zs = some zs := by
  induction xs generalizing ys zs with
  | nil => rfl
  | cons x xs ih =>
    cases ys with
    | nil => simp [bcastRev] at h; subst h; exact bcastRev_self _
    | cons y ys =>
      simp only [bcastRev] at h
      split at h
      · rename_i d ds h1 h2
        cases h
        simp [bcastRev, bcastDim_idem h1, ih h2]
      · cases h

theorem bcast_idem {xs ys zs : List ℕ} (h : bcast xs ys = some zs) : bcast xs zs = some zs := by
  rw [bcast, Option.map_eq_some_iff] at h
  obtain ⟨w, hw, rfl⟩ := h
  rw [bcast, List.reverse_reverse, bcastRev_idem hw]
  rfl

theorem bcastRev_append_both {xs ys : List ℕ} (zs : List ℕ) (h : xs.length = ys.length) :
    bcastRev (xs ++ zs) (ys ++ zs) = (bcastRev xs ys).map (· ++ zs) := by
  induction xs generalizing ys with
  | nil =>
    have : ys = [] := by simpa using h.symm
    simp [this, bcastRev_self, bcastRev]
  | cons x xs ih =>
    cases ys with
    | nil => simp at h
    | cons y ys =>
      simp only [List.cons_append, bcastRev, ih (ys := ys) (by simpa using h)]
      cases bcastDim x y <;> cases bcastRev xs ys <;> simp

theorem bcast_append_both {xs ys : List ℕ} (zs : List ℕ) (h : xs.length = ys.length) :
    bcast (zs ++ xs) (zs ++ ys) = (bcast xs ys).map (zs ++ ·) := by
  simp only [bcast, List.reverse_append]
  rw [bcastRev_append_both _ (by simpa using h)]
  cases bcastRev xs.reverse ys.reverse <;> simp

theorem bidx_reverse {s b : List ℕ} (h : s.length ≤ b.length) :
    (bidx s b).reverse = List.zipWith (fun d i => if d = 1 then 0 else i) s.reverse b.reverse := by
  rw [bidx, List.reverse_zipWith (by simp; omega)]
  have hb : b.reverse = (b.drop (b.length - s.length)).reverse ++ (b.take (b.length - s.length)).reverse := by
    rw [← List.reverse_append, List.take_append_drop]
  rw [hb]
  generalize hc : (b.drop (b.length - s.length)).reverse = c
  have hl : s.reverse.length = c.length := by rw [← hc]; simp; omega
  generalize (b.take (b.length - s.length)).reverse = e
  have := List.zipWith_append (f := fun d i => if d = 1 then 0 else i) (l₁ := s.reverse) (l₁' := []) (l₂ := c)
    (l₂' := e) hl
  simpa using this.symm

theorem bidx_in {xs ys zs b : List ℕ} (h : bcast xs ys = some zs) (hb : In b zs) : In (bidx xs b) xs := by
  have hl := hb.length_eq
  have hz := bcast_length h
  rw [bcast, Option.map_eq_some_iff] at h
  obtain ⟨w, hw, rfl⟩ := h
  rw [In, ← List.forall₂_reverse_iff, bidx_reverse (by omega)]
  have hb' : In b.reverse w := by
    rw [In, ← List.forall₂_reverse_iff, List.reverse_reverse]; exact hb
  generalize b.reverse = c at hb'
  generalize xs.reverse = us at hw ⊢
  generalize ys.reverse = vs at hw
  clear hz hl hb
  induction us generalizing vs w c with
  | nil => simp
  | cons x us ih =>
    cases vs with
    | nil =>
      simp [bcastRev] at hw
      subst hw
      cases hb' with
      | @cons i _ r _ hi hr =>
        rw [List.zipWith_cons_cons]
        refine List.Forall₂.cons ?_ (ih us r hr [] (by rw [bcastRev_nil]))
        split <;> omega
    | cons v vs =>
      simp only [bcastRev] at hw
      split at hw
      · rename_i d ds h1 h2
        cases hw
        cases hb' with
        | @cons i _ r _ hi hr =>
          rw [List.zipWith_cons_cons]
          refine List.Forall₂.cons ?_ (ih ds r hr vs h2)
          unfold bcastDim at h1
          split
          · omega
          · split at h1
            · cases h1; exact hi
            · split at h1
              · cases h1; exact hi
              · cases h1
      · cases hw

theorem bidx_append_le {s t a b : List ℕ} (h1 : s.length ≤ a.length) (h2 : t.length = b.length) :
    bidx (s ++ t) (a ++ b) = bidx s a ++ bidx t b := by
  have ha : a = a.take (a.length - s.length) ++ a.drop (a.length - s.length) := (List.take_append_drop _ _).symm
  have hl : s.length = (a.drop (a.length - s.length)).length := by simp; omega
  conv_lhs => rw [ha, List.append_assoc, bidx_skip _ _ (by simp; omega), bidx_append hl h2]
  conv_rhs => rw [ha, bidx_skip _ _ (by omega)]

theorem In.append {a b s t : List ℕ} (h1 : In a s) (h2 : In b t) : In (a ++ b) (s ++ t) := List.rel_append h1 h2

theorem In.two {i j m n : ℕ} (h1 : i < m) (h2 : j < n) : In [i, j] [m, n] :=
  List.Forall₂.cons h1 (List.Forall₂.cons h2 List.Forall₂.nil)

theorem In.split {a s t : List ℕ} (h : In a (s ++ t)) : ∃ x y, a = x ++ y ∧ In x s ∧ In y t := by
  induction s generalizing a with
  | nil => exact ⟨[], a, rfl, List.Forall₂.nil, h⟩
  | cons d s ih =>
    cases h with
    | @cons i _ r _ hi hr =>
      obtain ⟨x, y, rfl, hx, hy⟩ := ih hr
      exact ⟨i :: x, y, rfl, List.Forall₂.cons hi hx, hy⟩

theorem In.of_two {a : List ℕ} {m n : ℕ} (h : In a [m, n]) : ∃ i j, a = [i, j] ∧ i < m ∧ j < n := by
  cases h with
  | @cons i _ r _ hi hr =>
    cases hr with
    | @cons j _ r2 _ hj hr2 =>
      cases hr2
      exact ⟨i, j, rfl, hi, hj⟩

end Verif.Lie.Batch
