import Verif.Lie.Batch

/-!
# Lemmas about permutations, padding and broadcasting
-/

namespace Verif.Lie.Batch

/-! ### Broadcasting -/

theorem bcastDim_same (x : ℕ) : bcastDim x x = some x := by simp [bcastDim]

theorem bcastRev_nil (xs : List ℕ) : bcastRev xs [] = some xs := by cases xs <;> rfl

theorem bcastRev_length {xs ys zs : List ℕ} (h : bcastRev xs ys = some zs) :
    zs.length = max xs.length ys.length := by
  induction xs generalizing ys zs with
  | nil => simp [bcastRev] at h; simp [h]
  | cons x xs ih =>
    cases ys with
    | nil => simp [bcastRev] at h; simp [← h]
    | cons y ys =>
      simp only [bcastRev] at h
      split at h
      · rename_i d ds _ h2
        cases h
        simp [ih h2]
      · cases h

theorem bcast_length {xs ys zs : List ℕ} (h : bcast xs ys = some zs) :
    zs.length = max xs.length ys.length := by
  simp only [bcast, Option.map_eq_some_iff] at h
  obtain ⟨w, hw, rfl⟩ := h
  simpa using bcastRev_length hw

/-- More dimensions in front of the longer shape stay as they are. -/
theorem bcastRev_append {xs ys : List ℕ} (zs : List ℕ) (h : xs.length ≤ ys.length) :
    bcastRev xs (ys ++ zs) = (bcastRev xs ys).map (· ++ zs) := by
  induction xs generalizing ys with
  | nil => simp [bcastRev]
  | cons x xs ih =>
    cases ys with
    | nil => simp at h
    | cons y ys =>
      simp only [List.cons_append, bcastRev, ih (ys := ys) (by simpa using h)]
      cases bcastDim x y <;> cases bcastRev xs ys <;> simp

theorem bcast_append {xs ys : List ℕ} (zs : List ℕ) (h : xs.length ≤ ys.length) :
    bcast xs (zs ++ ys) = (bcast xs ys).map (zs ++ ·) := by
  simp only [bcast, List.reverse_append]
  rw [bcastRev_append _ (by simpa using h)]
  cases bcastRev xs.reverse ys.reverse <;> simp

/-- Ones in front of the shorter shape, up to the length of the longer one, change nothing. -/
theorem bcastRev_ones {xs ys : List ℕ} {m : ℕ} (h : ys.length + m ≤ xs.length) :
    bcastRev xs (ys ++ List.replicate m 1) = bcastRev xs ys := by
  induction xs generalizing ys m with
  | nil =>
    have : m = 0 ∧ ys = [] := by
      simp at h; exact ⟨h.2, h.1⟩
    simp [this.1, this.2]
  | cons x xs ih =>
    cases ys with
    | nil =>
      cases m with
      | zero => simp
      | succ m =>
        have := ih (ys := []) (m := m) (by simp at h ⊢; omega)
        simp only [List.nil_append] at this
        simp only [List.nil_append, List.replicate_succ, bcastRev, this, bcastRev_nil]
        have : bcastDim x 1 = some x := by
          unfold bcastDim; split <;> simp_all
        simp [this]
    | cons y ys =>
      simp only [List.cons_append, bcastRev, ih (ys := ys) (m := m) (by simp at h; omega)]

theorem bcast_ones {xs ys : List ℕ} {m : ℕ} (h : m + ys.length ≤ xs.length) :
    bcast xs (List.replicate m 1 ++ ys) = bcast xs ys := by
  simp only [bcast, List.reverse_append, List.reverse_replicate]
  rw [bcastRev_ones (by simp; omega)]

/-! ### Indices into broadcast tensors -/

theorem bidx_length {s b : List ℕ} (h : s.length ≤ b.length) : (bidx s b).length = s.length := by
  simp [bidx]; omega

/-- Dimensions in front of the index that the shape does not have are dropped. -/
theorem bidx_skip {s : List ℕ} (a b : List ℕ) (h : s.length ≤ b.length) : bidx s (a ++ b) = bidx s b := by
  have : (a ++ b).length - s.length = a.length + (b.length - s.length) := by simp; omega
  rw [bidx, bidx, this, ← List.drop_drop, List.drop_left]

theorem bidx_append {s t a b : List ℕ} (h1 : s.length = a.length) (h2 : t.length = b.length) :
    bidx (s ++ t) (a ++ b) = bidx s a ++ bidx t b := by
  simp [bidx, h1, h2, List.zipWith_append h1]

/-- An index that is within the shape is its own. -/
theorem bidx_self {s b : List ℕ} (h : List.Forall₂ (· < ·) b s) : bidx s b = b := by
  have hl := h.length_eq
  have : ∀ {b s : List ℕ}, List.Forall₂ (· < ·) b s →
      List.zipWith (fun d i => if d = 1 then 0 else i) s b = b := by
    intro b s h
    induction h with
    | nil => rfl
    | @cons x y xs ys hab hrest ih =>
      have : (if y = 1 then 0 else x) = x := by
        split
        · omega
        · rfl
      simp [ih, this]
  rw [bidx, hl, Nat.sub_self, List.drop_zero]
  exact this h

theorem bidx_ones {s b : List ℕ} {m : ℕ} (h : b.length = m + s.length) :
    bidx (List.replicate m 1 ++ s) b = List.replicate m 0 ++ bidx s b := by
  have hb : b = b.take m ++ b.drop m := (List.take_append_drop m b).symm
  have h1 : (b.take m).length = m := by simp [h]
  have h2 : (b.drop m).length = s.length := by simp [h]
  rw [hb, bidx_append (by simp [h]) (by simp [h]), bidx_skip _ _ (by omega)]
  congr 1
  rw [bidx, List.length_replicate, h1, Nat.sub_self, List.drop_zero]
  generalize b.take m = c at h1
  clear hb h h2
  induction m generalizing c with
  | zero => simp
  | succ m ih =>
    cases c with
    | nil => simp at h1
    | cons c cs => simp [List.replicate_succ, ih cs (by simpa using h1)]

/-! ### Permutations -/

/-- The permutation that swaps the first `b` dimensions with the next `o`. -/
def swapDims (b o : ℕ) : List ℕ := List.range' b o ++ List.range' 0 b ++ List.range' (b + o) 2

theorem pyRange_nat (a n : ℕ) : pyRange a ((a + n : ℕ) : ℤ) = (List.range' a n).map fun i : ℕ => (i : ℤ) := by
  unfold pyRange
  rw [show (((a + n : ℕ) : ℤ) - a).toNat = n by omega, List.range'_eq_map_range, List.map_map]
  apply List.map_congr_left
  intro i _
  simp

theorem permuteOpDim_eq (b o : ℕ) :
    permuteOpDim ((b + o + 2 : ℕ) : ℤ) (o : ℤ) 2 = (swapDims b o).map fun i : ℕ => (i : ℤ) := by
  have e1 : ((b + o + 2 : ℕ) : ℤ) - o - 2 = (b : ℤ) := by omega
  have e2 : ((b + o + 2 : ℕ) : ℤ) - 2 = ((b + o : ℕ) : ℤ) := by omega
  have e3 := pyRange_nat 0 b
  rw [Nat.zero_add, Nat.cast_zero] at e3
  simp only [permuteOpDim, e1, e2, swapDims, List.map_append, pyRange_nat, e3]

theorem unpermuteOpDim_eq (b o : ℕ) :
    unpermuteOpDim ((b + o + 2 : ℕ) : ℤ) (o : ℤ) 2 = (swapDims o b).map fun i : ℕ => (i : ℤ) := by
  have e2 : ((o + b + 2 : ℕ) : ℤ) - 2 = ((o + b : ℕ) : ℤ) := by omega
  have e3 := pyRange_nat 0 o
  rw [Nat.zero_add, Nat.cast_zero] at e3
  rw [show b + o + 2 = o + b + 2 by omega]
  simp only [unpermuteOpDim, e2, swapDims, List.map_append, pyRange_nat, e3]

theorem idxOf_range' {s n d : ℕ} (h1 : s ≤ d) (h2 : d < s + n) : (List.range' s n).idxOf d = d - s := by
  have hn : (List.range' s n).Nodup := List.nodup_range'
  have hl : d - s < (List.range' s n).length := by simp; omega
  have := hn.idxOf_getElem (d - s) hl
  rw [List.getElem_range'] at this
  rwa [show s + 1 * (d - s) = d by omega] at this

theorem swapDims_nodup (b o : ℕ) : (swapDims b o).Nodup := by
  unfold swapDims
  refine List.Nodup.append (List.Nodup.append List.nodup_range' List.nodup_range' ?_) List.nodup_range' ?_
  · intro x hx hy
    simp [List.mem_range'] at hx hy
    omega
  · intro x hx hy
    simp [List.mem_range'] at hx hy
    omega

theorem swapDims_idxOf (b o d : ℕ) (hd : d < b + o + 2) : (swapDims b o).idxOf d =
    if d < b then o + d else if d < b + o then d - b else d := by
  unfold swapDims
  rw [List.idxOf_append, List.idxOf_append]
  split
  · rename_i h
    simp only [List.mem_append, List.mem_range'_1] at h
    split
    · rename_i h'
      simp only [List.mem_range'_1] at h'
      rw [idxOf_range' (by omega) (by omega), if_neg (by omega), if_pos (by omega)]
    · rename_i h'
      simp only [List.mem_range'_1] at h'
      rw [idxOf_range' (by omega) (by omega), if_pos (by omega)]
      simp; omega
  · rename_i h
    simp only [List.mem_append, List.mem_range'_1] at h
    rw [idxOf_range' (by omega) (by omega), if_neg (by omega), if_neg (by omega)]
    simp; omega

theorem getD_three (x y z : List ℕ) (i : ℕ) : (x ++ y ++ z).getD i 0 =
    if i < x.length then x.getD i 0 else if i < x.length + y.length then y.getD (i - x.length) 0
      else z.getD (i - (x.length + y.length)) 0 := by
  simp only [List.getD_eq_getElem?_getD, List.getElem?_append]
  simp only [List.length_append]
  split
  · split
    · rfl
    · rfl
  · rw [if_neg (by omega)]

/-- Swapping the first two blocks of dimensions. -/
theorem permute_swap {t : Tns} {X Y Z : List ℕ} (hZ : Z.length = 2) (ht : t.shape = X ++ Y ++ Z) :
    ∃ r, permute t ((swapDims X.length Y.length).map fun i : ℕ => (i : ℤ)) = .ok r ∧
      r.shape = Y ++ X ++ Z ∧
      ∀ x y z, x.length = X.length → y.length = Y.length → z.length = 2 → r.val (y ++ x ++ z) = t.val (x ++ y ++ z) := by
  have hn : t.ndim = X.length + Y.length + 2 := by simp [Tns.ndim, ht, hZ]; omega
  have hp : (((swapDims X.length Y.length).map fun i : ℕ => (i : ℤ)).map (wrapDim t.ndim)).map Int.toNat
      = swapDims X.length Y.length := by
    rw [List.map_map, List.map_map]
    conv_rhs => rw [← List.map_id (swapDims X.length Y.length)]
    apply List.map_congr_left
    intro i _
    show (if (i : ℤ) < 0 then (i : ℤ) + (t.ndim : ℕ) else (i : ℤ)).toNat = i
    rw [if_neg (by omega)]
    exact Int.toNat_natCast i
  refine ⟨_, by
    unfold permute
    dsimp only
    rw [hp, if_pos]
    refine ⟨by simp [swapDims, hn]; omega, ?_, swapDims_nodup _ _⟩
    intro d hd
    obtain ⟨i, hi, rfl⟩ := List.mem_map.mp hd
    simp [swapDims, List.mem_range'] at hi
    omega, ?_, ?_⟩
  · apply List.ext_getElem?
    intro i
    by_cases hi : i < X.length + Y.length + 2
    · have e1 : (List.map (fun d => t.shape.getD d 0) (swapDims X.length Y.length))[i]?
          = some (t.shape.getD ((swapDims X.length Y.length).getD i 0) 0) := by
        have : i < (swapDims X.length Y.length).length := by simp [swapDims]; omega
        simp [List.getElem?_map, List.getElem?_eq_getElem this]
      have e2 : (Y ++ X ++ Z)[i]? = some ((Y ++ X ++ Z).getD i 0) := by
        have : i < (Y ++ X ++ Z).length := by simp [hZ]; omega
        rw [List.getD_eq_getElem?_getD, List.getElem?_eq_getElem this]; rfl
      rw [e1, e2, ht]
      congr 1
      rw [getD_three Y X Z i]
      have hs : (swapDims X.length Y.length).getD i 0 = if i < Y.length then X.length + i
          else if i < Y.length + X.length then i - Y.length else i := by
        unfold swapDims
        rw [getD_three]
        simp only [List.length_range']
        split
        · rename_i h; simp [List.getD_eq_getElem?_getD, h]
        · split
          · rename_i h1 h2
            have : i - Y.length < X.length := by omega
            simp [List.getD_eq_getElem?_getD, this]
          · rename_i h1 h2
            have : i - (Y.length + X.length) < 2 := by omega
            simp [List.getD_eq_getElem?_getD, this]; omega
      rw [hs, getD_three]
      split
      · rw [if_neg (by omega), if_pos (by omega)]; congr 1; omega
      · split
        · rw [if_pos (by omega)]
        · rw [if_neg (by omega), if_neg (by omega)]; congr 1; omega
    · rw [List.getElem?_eq_none (by simp [swapDims]; omega), List.getElem?_eq_none (by simp [hZ]; omega)]
  · intro x y z hx hy hz
    dsimp only
    congr 1
    apply List.ext_getElem?
    intro i
    by_cases hi : i < X.length + Y.length + 2
    · have e2 : (x ++ y ++ z)[i]? = some ((x ++ y ++ z).getD i 0) := by
        have : i < (x ++ y ++ z).length := by simp [hx, hy, hz]; omega
        rw [List.getD_eq_getElem?_getD, List.getElem?_eq_getElem this]; rfl
      rw [e2, List.getElem?_map, List.getElem?_range (by omega), Option.map_some]
      congr 1
      rw [swapDims_idxOf _ _ _ hi, getD_three, getD_three]
      simp only [hx, hy]
      split
      · rw [if_neg (by omega), if_pos (by omega)]; congr 1; omega
      · split
        · rw [if_pos (by omega)]
        · rw [if_neg (by omega), if_neg (by omega)]; congr 1; omega
    · rw [List.getElem?_eq_none (by simp; omega), List.getElem?_eq_none (by simp [hx, hy, hz]; omega)]

/-! ### The product -/

theorem matmul_eq {a b : Tns} {A B : List ℕ} {m l l' k : ℕ} (ha : a.shape = A ++ [m, l])
    (hb : b.shape = B ++ [l', k]) :
    (l ≠ l' → matmul a b = .error .torch) ∧
    (l = l' → bcast A B = none → matmul a b = .error .torch) ∧
    (l = l' → ∀ N, bcast A B = some N → ∃ r, matmul a b = .ok r ∧ r.shape = N ++ [m, k] ∧
      ∀ p i j, p.length = N.length →
        r.val (p ++ [i, j]) = ∑ q ∈ Finset.range l, a.val (bidx A p ++ [i, q]) * b.val (bidx B p ++ [q, j])) := by
  have na : a.ndim - 2 = A.length := by simp [Tns.ndim, ha]
  have nb : b.ndim - 2 = B.length := by simp [Tns.ndim, hb]
  have a0 : a.shape.getD A.length 0 = m := by simp [ha]
  have a1 : a.shape.getD (A.length + 1) 0 = l := by simp [ha]
  have b0 : b.shape.getD B.length 0 = l' := by simp [hb]
  have b1 : b.shape.getD (B.length + 1) 0 = k := by simp [hb]
  have ta : a.shape.take A.length = A := by simp [ha]
  have tb : b.shape.take B.length = B := by simp [hb]
  simp only [matmul, na, nb, a0, a1, b0, b1, ta, tb]
  refine ⟨fun h => if_pos h, fun h h2 => ?_, fun h N h2 => ?_⟩
  · rw [if_neg (by simpa using h), h2]
  · rw [if_neg (by simpa using h), h2]
    refine ⟨_, rfl, rfl, fun p i j hp => ?_⟩
    subst h
    simp [← hp]

theorem mT_shape {t : Tns} {A : List ℕ} {m n : ℕ} (h : t.shape = A ++ [m, n]) :
    (mT t).shape = A ++ [n, m] ∧ ∀ a i j, a.length = A.length → (mT t).val (a ++ [i, j]) = t.val (a ++ [j, i]) := by
  have hn : t.ndim - 2 = A.length := by simp [Tns.ndim, h]
  constructor
  · simp only [mT, hn, h]
    simp
  · intro a i j ha
    simp only [mT, hn, ← ha]
    simp

end Verif.Lie.Batch
