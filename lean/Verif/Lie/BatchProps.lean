import Verif.Lie.BatchLemmas
import Mathlib.Tactic.IntervalCases

/-!
# C116: `left_act`, `left_project`, `compose` and `transform` on batches

Specification, independent of the permutations: the batch dimensions `G` of the group and `B` of the tensor are
broadcast to `N`; the dimensions `O` are kept; at the batch index `b` and the index `o` into the kept dimensions, the
result is the matrix product of the group element of `b` and the matrix of the tensor at `b`, `o`.
-/

namespace Verif.Lie.Batch

/-- What is left at batch index `b` of the group with batch shape `G`, as a matrix. -/
noncomputable def actAt (g t : Tns) (G B b o : List ℕ) (i j : ℕ) : ℝ :=
  ∑ l ∈ Finset.range 3, g.val (bidx G b ++ [i, l]) * t.val (bidx B b ++ o ++ [l, j])

/-- `r` is the action of the `G`-batch `g` on the tensor `t` of shape `B ++ O ++ [3, k]`. -/
def IsAction (g t : Tns) (G B O : List ℕ) (k : ℕ) (r : Tns) : Prop :=
  ∃ N, bcast G B = some N ∧ r.shape = N ++ O ++ [3, k] ∧
    ∀ b o i j, b.length = N.length → List.Forall₂ (· < ·) o O →
      r.val (b ++ o ++ [i, j]) = actAt g t G B b o i j

/-- Two sizes that broadcast: equal, or one of them is 1. -/
def Fits (x y : ℕ) : Prop := x = y ∨ x = 1 ∨ y = 1

theorem bcastRev_spec (xs ys : List ℕ) :
    (bcastRev xs ys = none ↔ ∃ i, ¬ Fits (xs.getD i 1) (ys.getD i 1)) ∧
    ∀ zs, bcastRev xs ys = some zs → zs.length = max xs.length ys.length ∧
      ∀ i, zs.getD i 1 = if xs.getD i 1 = 1 then ys.getD i 1 else xs.getD i 1 := by
  refine ⟨?_, fun zs h => ⟨bcastRev_length h, ?_⟩⟩
  · induction xs generalizing ys with
    | nil => simp [bcastRev, Fits]
    | cons x xs ih =>
      cases ys with
      | nil => simp [bcastRev, Fits]
      | cons y ys =>
        have h := ih ys
        constructor
        · intro hn
          by_cases hf : Fits x y
          · have hd : ∃ d, bcastDim x y = some d := by
              unfold bcastDim
              split
              · exact ⟨_, rfl⟩
              · split
                · exact ⟨_, rfl⟩
                · rcases hf with hf | hf | hf
                  · contradiction
                  · contradiction
                  · rw [if_pos hf]; exact ⟨_, rfl⟩
            obtain ⟨d, hd⟩ := hd
            have : bcastRev xs ys = none := by
              cases hr : bcastRev xs ys with
              | none => rfl
              | some ds => simp [bcastRev, hd, hr] at hn
            obtain ⟨i, hi⟩ := h.mp this
            exact ⟨i + 1, by simpa using hi⟩
          · exact ⟨0, by simpa using hf⟩
        · rintro ⟨i, hi⟩
          cases i with
          | zero =>
            have : bcastDim x y = none := by
              simp [Fits] at hi
              simp [bcastDim, hi]
            simp [bcastRev, this]
          | succ i =>
            have : bcastRev xs ys = none := h.mpr ⟨i, by simpa using hi⟩
            simp only [bcastRev, this]
            cases bcastDim x y <;> rfl
  · induction xs generalizing ys zs with
    | nil => simp [bcastRev] at h; simp [h]
    | cons x xs ih =>
      cases ys with
      | nil =>
        simp [bcastRev] at h; subst h
        intro i
        split
        · rename_i h; simp only [List.getD_nil]; exact h
        · rfl
      | cons y ys =>
        simp only [bcastRev] at h
        split at h
        · rename_i d ds h1 h2
          cases h
          intro i
          cases i with
          | zero =>
            simp only [List.getD_cons_zero]
            unfold bcastDim at h1
            split at h1
            · cases h1; split <;> simp_all
            · split at h1
              · cases h1; simp_all
              · split at h1
                · cases h1; simp_all
                · cases h1
          | succ i => simpa using ih ys ds h2 i
        · cases h

/-- Broadcasting, said about the sizes counted from the last dimension: the shapes fail to broadcast exactly if some
sizes differ with none of them 1, and then the size is the one that is not 1. -/
theorem bcast_spec (xs ys : List ℕ) :
    (bcast xs ys = none ↔ ∃ i, ¬ Fits (xs.reverse.getD i 1) (ys.reverse.getD i 1)) ∧
    ∀ zs, bcast xs ys = some zs → zs.length = max xs.length ys.length ∧
      ∀ i, zs.reverse.getD i 1 = if xs.reverse.getD i 1 = 1 then ys.reverse.getD i 1 else xs.reverse.getD i 1 := by
  have h := bcastRev_spec xs.reverse ys.reverse
  constructor
  · rw [← h.1, bcast, Option.map_eq_none_iff]
  · intro zs hz
    rw [bcast, Option.map_eq_some_iff] at hz
    obtain ⟨w, hw, rfl⟩ := hz
    simpa using h.2 w hw

example : bcast [4, 1, 3] [5, 3] = some [4, 5, 3] ∧ bcast [2] [3] = none := by decide

/-! ### The core -/

theorem leftActCore_long {g t : Tns} {G B O : List ℕ} {k : ℕ} (hg : g.shape = G ++ [3, 3])
    (ht : t.shape = B ++ O ++ [3, k]) (hl : G.length ≤ B.length) :
    (bcast G B = none → leftActCore g t O.length = .error .torch) ∧
    (bcast G B ≠ none → ∃ r, leftActCore g t O.length = .ok r ∧ IsAction g t G B O k r) := by
  have gn : g.ndim = G.length + 2 := by simp [Tns.ndim, hg]
  have tn : t.ndim = B.length + O.length + 2 := by simp [Tns.ndim, ht]; omega
  have hc : ¬ ((g.ndim : ℤ) + (O.length : ℤ) > t.ndim) := by rw [gn, tn]; omega
  obtain ⟨t', ht', hs', hv'⟩ := permute_swap (t := t) (X := B) (Y := O) (Z := [3, k]) rfl ht
  have m := matmul_eq hg hs'
  have hb : bcast G (O ++ B) = (bcast G B).map (O ++ ·) := bcast_append O hl
  unfold leftActCore
  simp only [if_neg hc]
  rw [tn, permuteOpDim_eq, ht', unpermuteOpDim_eq]
  dsimp only
  constructor
  · intro h
    rw [h] at hb
    rw [m.2.1 rfl hb]
  · intro h
    obtain ⟨N, hN⟩ := Option.ne_none_iff_exists'.mp h
    rw [hN] at hb
    obtain ⟨r, hr, hrs, hrv⟩ := m.2.2 rfl _ hb
    rw [hr]
    dsimp only
    have hNl : N.length = B.length := by rw [bcast_length hN]; omega
    obtain ⟨r', hr', hrs', hrv'⟩ := permute_swap (t := r) (X := O) (Y := N) (Z := [3, k]) rfl (by simpa using hrs)
    rw [hNl] at hr'
    refine ⟨r', hr', N, hN, hrs', fun b o i j hbl ho => ?_⟩
    have hol := ho.length_eq
    rw [hrv' o b [i, j] hol hbl rfl, hrv (o ++ b) i j (by simp [hol, hbl])]
    unfold actAt
    apply Finset.sum_congr rfl
    intro q _
    rw [bidx_skip _ _ (by omega), bidx_append (by omega) (by omega), bidx_self ho]
    rw [hv' (bidx B b) o [q, j] (bidx_length (by omega)) hol rfl]

theorem fillDims_shape (t : Tns) (n : ℕ) : (fillDims t n).shape = List.replicate (n - t.ndim) 1 ++ t.shape := rfl

/-- Missing batch dimensions are filled with ones. -/
theorem leftActCore_spec {g t : Tns} {G B O : List ℕ} {k : ℕ} (hg : g.shape = G ++ [3, 3])
    (ht : t.shape = B ++ O ++ [3, k]) :
    (bcast G B = none → leftActCore g t O.length = .error .torch) ∧
    (bcast G B ≠ none → ∃ r, leftActCore g t O.length = .ok r ∧ IsAction g t G B O k r) := by
  by_cases hl : G.length ≤ B.length
  · exact leftActCore_long hg ht hl
  · have gn : g.ndim = G.length + 2 := by simp [Tns.ndim, hg]
    have tn : t.ndim = B.length + O.length + 2 := by simp [Tns.ndim, ht]; omega
    have hc : (g.ndim : ℤ) + (O.length : ℤ) > t.ndim := by rw [gn, tn]; omega
    have hn : ((g.ndim : ℤ) + (O.length : ℤ)).toNat = g.ndim + O.length := by omega
    have hm : (g.ndim + O.length) - t.ndim = G.length - B.length := by omega
    set t2 := fillDims t (g.ndim + O.length) with ht2
    have t2s : t2.shape = (List.replicate (G.length - B.length) 1 ++ B) ++ O ++ [3, k] := by
      rw [ht2, fillDims_shape, hm, ht]; simp
    have t2n : t2.ndim = g.ndim + O.length := by
      rw [Tns.ndim, t2s, gn]; simp; omega
    have hc2 : ¬ ((g.ndim : ℤ) + (O.length : ℤ) > t2.ndim) := by rw [t2n]; omega
    have e : leftActCore g t O.length = leftActCore g t2 O.length := by
      unfold leftActCore
      simp only [if_pos hc, hn, ← ht2, if_neg hc2]
    have hb : bcast G (List.replicate (G.length - B.length) 1 ++ B) = bcast G B := bcast_ones (by omega)
    have h := leftActCore_long hg t2s (by simp; omega)
    rw [hb] at h
    rw [e]
    refine ⟨h.1, fun hne => ?_⟩
    obtain ⟨r, hr, N, hN, hrs, hrv⟩ := h.2 hne
    rw [hb] at hN
    have hNl : N.length = G.length := by rw [bcast_length hN]; omega
    refine ⟨r, hr, N, hN, hrs, fun b o i j hbl ho => ?_⟩
    rw [hrv b o i j hbl ho]
    unfold actAt
    apply Finset.sum_congr rfl
    intro q _
    congr 1
    rw [ht2]
    show t.val (List.drop _ _) = _
    rw [hm, bidx_ones (by omega), List.append_assoc, List.append_assoc]
    congr 1
    rw [List.drop_left' (by simp)]
    simp

/-- A negative `dim_out` never works. -/
theorem leftActCore_neg {g t : Tns} {d : ℤ} (hd : d < 0) (ht : 2 ≤ t.ndim) :
    leftActCore g t d = .error .torch := by
  have key : ∀ t : Tns, 2 ≤ t.ndim → permute t (permuteOpDim t.ndim d 2) = .error .torch := by
    intro t ht
    unfold permute
    dsimp only
    rw [if_neg]
    rintro ⟨h, -⟩
    simp [permuteOpDim, pyRange] at h
    omega
  have hf : 2 ≤ (fillDims t ((g.ndim : ℤ) + d).toNat).ndim := by
    rw [Tns.ndim, fillDims_shape, List.length_append]; unfold Tns.ndim at ht; omega
  unfold leftActCore
  dsimp only
  by_cases h : (g.ndim : ℤ) + d > t.ndim
  · simp only [if_pos h, key _ hf]
  · simp only [if_neg h, key t ht]

/-! ### `left_act` -/

theorem drop_two {G : List ℕ} {x y : ℕ} {g : Tns} (h : g.shape = G ++ [x, y]) :
    g.shape.drop (g.ndim - 2) = [x, y] := by
  simp [Tns.ndim, h]

theorem getD_two {G : List ℕ} {x y : ℕ} {g : Tns} (h : g.shape = G ++ [x, y]) :
    2 ≤ g.ndim ∧ g.shape.getD (g.ndim - 2) 0 = x := by
  simp [Tns.ndim, h]

/-- `dim_out` given as the number of kept dimensions, or not given when the tensor has as many batch dimensions as the
group. -/
def DimOutIs (G B O : List ℕ) (dimOut : Option ℤ) : Prop :=
  dimOut = some (O.length : ℤ) ∨ (dimOut = none ∧ B.length = G.length)

theorem dimOutOf_eq {g t : Tns} {G B O : List ℕ} {k c : ℕ} (hg : g.shape = G ++ [3, c])
    (ht : t.shape = B ++ O ++ [3, k]) {d : Option ℤ} (hd : DimOutIs G B O d) : dimOutOf g t d = O.length := by
  rcases hd with rfl | ⟨rfl, h⟩
  · rfl
  · simp [dimOutOf, Tns.ndim, hg, ht, h]

/-- **C116 (`SO3.left_act`).** The batch dimensions of the group and of the tensor are broadcast, the `dim_out`
dimensions in front of the matrix are kept, and every matrix is multiplied with its group element. -/
theorem so3LeftAct_spec {g t : Tns} {G B O : List ℕ} {k : ℕ} {d : Option ℤ} (hg : g.shape = G ++ [3, 3])
    (ht : t.shape = B ++ O ++ [3, k]) (hd : DimOutIs G B O d) :
    (bcast G B = none → so3LeftAct g t d = .error .torch) ∧
    (bcast G B ≠ none → ∃ r, so3LeftAct g t d = .ok r ∧ IsAction g t G B O k r) := by
  have e : so3LeftAct g t d = leftActCore g t O.length := by
    unfold so3LeftAct
    rw [if_neg (by simp [drop_two hg]), if_neg (by have := getD_two ht; rw [this.2]; omega), dimOutOf_eq hg ht hd]
  rw [e]
  exact leftActCore_spec hg ht

/-- A group of shape `(2, 1)` acts on a tensor with batch shape `(5,)` (one less) and one kept dimension of size 7. -/
example : DimOutIs [2, 1] [5] [7] (some 1) ∧ bcast [2, 1] [5] = some [2, 5] := ⟨Or.inl rfl, by decide⟩

/-- **C116 (`SE3.left_act`).** The same with the rotations of the poses: the translations take no part. -/
theorem se3LeftAct_spec {g t : Tns} {G B O : List ℕ} {k : ℕ} {d : Option ℤ} (hg : g.shape = G ++ [3, 4])
    (ht : t.shape = B ++ O ++ [3, k]) (hd : DimOutIs G B O d) :
    (bcast G B = none → se3LeftAct g t d = .error .torch) ∧
    (bcast G B ≠ none → ∃ r, se3LeftAct g t d = .ok r ∧ IsAction g t G B O k r) := by
  have hr : (rotationOf g).shape = G ++ [3, 3] := by
    simp [rotationOf, Tns.ndim, hg]
    rw [show G ++ [3, 4] = (G ++ [3]) ++ [4] by simp, List.take_left' (by simp)]
    simp
  have e : se3LeftAct g t d = so3LeftAct (rotationOf g) t (some (O.length : ℤ)) := by
    unfold se3LeftAct
    rw [if_neg (by simp [drop_two hg]), if_neg (by have := getD_two ht; rw [this.2]; omega), dimOutOf_eq hg ht hd]
  rw [e]
  exact so3LeftAct_spec hr ht (Or.inl rfl)

/-- Two groups with the same rotations act alike. -/
theorem se3LeftAct_translation {g g' t : Tns} {G B O : List ℕ} {k : ℕ} {r r' : Tns} {b o : List ℕ} {i j : ℕ}
    (hr : IsAction g t G B O k r) (hr' : IsAction g' t G B O k r')
    (h : ∀ b i l, l < 3 → g.val (b ++ [i, l]) = g'.val (b ++ [i, l]))
    (hb : ∀ N, bcast G B = some N → b.length = N.length) (ho : List.Forall₂ (· < ·) o O) :
    r.val (b ++ o ++ [i, j]) = r'.val (b ++ o ++ [i, j]) := by
  obtain ⟨N, hN, -, hv⟩ := hr
  obtain ⟨N', hN', -, hv'⟩ := hr'
  rw [hv b o i j (hb N hN) ho, hv' b o i j (hb N' hN') ho]
  apply Finset.sum_congr rfl
  intro l hl
  rw [h _ _ _ (Finset.mem_range.mp hl)]

/-- **C116 (shape errors).** Exactly the shapes that are not `(…, 3, 3)` (`(…, 3, 4)`) and `(…, 3, k)` fail the
checks. -/
theorem leftAct_shape_error (g t : Tns) (d : Option ℤ) :
    (so3LeftAct g t d = .error .shape ↔
      ¬ (∃ G, g.shape = G ++ [3, 3]) ∨ ¬ ∃ T k, t.shape = T ++ [3, k]) ∧
    (se3LeftAct g t d = .error .shape ↔
      ¬ (∃ G, g.shape = G ++ [3, 4]) ∨ ¬ ∃ T k, t.shape = T ++ [3, k]) := by
  have hperm : ∀ (t : Tns) dims, permute t dims ≠ .error .shape := by
    intro t dims; unfold permute; dsimp only; split <;> simp
  have hmat : ∀ a b : Tns, matmul a b ≠ .error .shape := by
    intro a b; unfold matmul; dsimp only; split
    · simp
    · split <;> simp
  have hcore : ∀ g t d, leftActCore g t d ≠ .error .shape := by
    intro g t d
    unfold leftActCore
    dsimp only
    split
    · rename_i e he
      intro h
      cases h
      exact hperm _ _ he
    · split
      · rename_i e he
        intro h
        cases h
        exact hmat _ _ he
      · exact hperm _ _
  have hgs : ∀ (g : Tns) (x y : ℕ), g.shape.drop (g.ndim - 2) = [x, y] ↔ ∃ G, g.shape = G ++ [x, y] := by
    intro g x y
    constructor
    · intro h
      exact ⟨g.shape.take (g.ndim - 2), by rw [← h, List.take_append_drop]⟩
    · rintro ⟨G, h⟩
      exact drop_two h
  have hts : ∀ t : Tns, (t.ndim < 2 ∨ t.shape.getD (t.ndim - 2) 0 ≠ 3) ↔ ¬ ∃ T k, t.shape = T ++ [3, k] := by
    intro t
    constructor
    · rintro h ⟨T, k, ht⟩
      have := getD_two ht
      rcases h with h | h
      · omega
      · exact h this.2
    · intro h
      by_contra hc
      push Not at hc
      apply h
      obtain ⟨h2, h3⟩ := hc
      have hlen : t.ndim = t.shape.length := rfl
      refine ⟨t.shape.take (t.ndim - 2), t.shape.getD (t.ndim - 1) 0, ?_⟩
      conv_lhs => rw [← List.take_append_drop (t.ndim - 2) t.shape]
      congr 1
      apply List.ext_getElem
      · simp; omega
      · intro i hi _
        simp only [List.length_drop] at hi
        have hi2 : i = 0 ∨ i = 1 := by omega
        rw [List.getElem_drop]
        rcases hi2 with rfl | rfl
        · rw [List.getD_eq_getElem?_getD, List.getElem?_eq_getElem (by omega), Option.getD_some] at h3
          simpa using h3
        · simp only [List.getElem_cons_succ, List.getElem_cons_zero]
          rw [List.getD_eq_getElem?_getD, List.getElem?_eq_getElem (by omega), Option.getD_some]
          congr 1; omega
  have hso : ∀ g t d, so3LeftAct g t d = .error .shape ↔
      ¬ (∃ G, g.shape = G ++ [3, 3]) ∨ ¬ ∃ T k, t.shape = T ++ [3, k] := by
    intro g t d
    rw [← hgs, ← hts]
    unfold so3LeftAct
    by_cases h1 : g.shape.drop (g.ndim - 2) = [3, 3]
    · by_cases h2 : t.ndim < 2 ∨ t.shape.getD (t.ndim - 2) 0 ≠ 3
      · rw [if_neg (by simpa using h1), if_pos h2]; simp only [true_iff]; exact Or.inr h2
      · rw [if_neg (by simpa using h1), if_neg h2]
        exact ⟨fun h => (hcore _ _ _ h).elim, fun h => by rcases h with h | h; exacts [(h h1).elim, (h2 h).elim]⟩
    · rw [if_pos h1]; simp only [true_iff]; exact Or.inl h1
  refine ⟨hso g t d, ?_⟩
  unfold se3LeftAct
  by_cases h1 : g.shape.drop (g.ndim - 2) = [3, 4]
  · by_cases h2 : t.ndim < 2 ∨ t.shape.getD (t.ndim - 2) 0 ≠ 3
    · rw [if_neg (by simpa using h1), if_pos h2]; simp only [true_iff]; exact Or.inr ((hts t).mp h2)
    · rw [if_neg (by simpa using h1), if_neg h2, hso]
      obtain ⟨G, hG⟩ := (hgs g 3 4).mp h1
      constructor
      · rintro (h | h)
        · refine (h ⟨G, ?_⟩).elim
          simp [rotationOf, Tns.ndim, hG]
          rw [show G ++ [3, 4] = (G ++ [3]) ++ [4] by simp, List.take_left' (by simp)]
          simp
        · exact Or.inr h
      · rintro (h | h)
        · exact (h ⟨G, hG⟩).elim
        · exact Or.inr h
  · rw [if_pos h1]; simp only [true_iff]; exact Or.inl (fun h => h1 ((hgs g 3 4).mpr h))

/-- **C116 (few dimensions).** A tensor with fewer dimensions than `dim_out` asks to keep is acted on as if it had
dimensions of size 1 in front: the result is never an error. -/
theorem so3LeftAct_short {g t : Tns} {G T : List ℕ} {k n : ℕ} (hg : g.shape = G ++ [3, 3])
    (ht : t.shape = T ++ [3, k]) (hn : T.length ≤ n) :
    ∃ r, so3LeftAct g t (some (n : ℤ)) = .ok r ∧
      r.shape = G ++ (List.replicate (n - T.length) 1 ++ T) ++ [3, k] ∧
      ∀ b o i j, b.length = G.length → List.Forall₂ (· < ·) o T →
        r.val (b ++ (List.replicate (n - T.length) 0 ++ o) ++ [i, j])
          = ∑ l ∈ Finset.range 3, g.val (bidx G b ++ [i, l]) * t.val (o ++ [l, j]) := by
  have gn : g.ndim = G.length + 2 := by simp [Tns.ndim, hg]
  have tn : t.ndim = T.length + 2 := by simp [Tns.ndim, ht]
  set O := List.replicate (n - T.length) 1 ++ T with hO
  have On : O.length = n := by simp [hO]; omega
  set t2 : Tns := ⟨O ++ [3, k], fun idx => t.val (idx.drop (n - T.length))⟩ with ht2
  have t2n : t2.ndim = n + 2 := by simp [Tns.ndim, ht2, On]
  have e : leftActCore g t n = leftActCore g t2 n := by
    have f : fillDims t (g.ndim + n) = fillDims t2 (g.ndim + n) := by
      unfold fillDims
      have hs : List.replicate (g.ndim + n - t.ndim) 1 ++ t.shape
          = List.replicate (g.ndim + n - t2.ndim) 1 ++ t2.shape := by
        rw [ht]; show _ = _ ++ (O ++ [3, k])
        rw [hO, ← List.append_assoc, ← List.append_assoc, ← List.append_assoc, List.replicate_append_replicate]
        congr 3; omega
      rw [hs]
      congr 1
      funext idx
      show t.val _ = t.val _
      rw [List.drop_drop]
      congr 2
      omega
    have c2' : t2.ndim ≤ g.ndim + n := by omega
    by_cases hz : g.ndim + n = t2.ndim
    · have hG : G.length = 0 := by omega
      unfold leftActCore
      simp only
      rw [if_neg (c := (g.ndim : ℤ) + (n : ℤ) > t2.ndim) (by omega)]
      have f2 : fillDims t2 (g.ndim + n) = t2 := by
        rw [hz]; unfold fillDims; simp
      by_cases hc : (g.ndim : ℤ) + (n : ℤ) > t.ndim
      · rw [if_pos hc, show ((g.ndim : ℤ) + (n : ℤ)).toNat = g.ndim + n by omega, f, f2]
      · rw [if_neg hc]
        have : t = t2 := by
          have h0 : n - T.length = 0 := by omega
          cases t
          simp only [ht2, hO, h0] at *
          simp [ht]
        rw [← this]
    · unfold leftActCore
      simp only
      rw [if_pos (c := (g.ndim : ℤ) + (n : ℤ) > t.ndim) (by omega),
        if_pos (c := (g.ndim : ℤ) + (n : ℤ) > t2.ndim) (by omega),
        show ((g.ndim : ℤ) + (n : ℤ)).toNat = g.ndim + n by omega, f]
  have hbG : bcast G [] = some G := by
    simp [bcast, bcastRev_nil]
  have h := (leftActCore_spec (g := g) (t := t2) (G := G) (B := []) (O := O) (k := k) hg rfl).2 (by simp [hbG])
  rw [On, ← e] at h
  obtain ⟨r, hr, N, hN, hrs, hrv⟩ := h
  rw [hbG] at hN
  cases hN
  refine ⟨r, ?_, hrs, fun b o i j hb ho => ?_⟩
  · unfold so3LeftAct
    rw [if_neg (by simp [drop_two hg]), if_neg (by have := getD_two ht; rw [this.2]; omega)]
    exact hr
  · have ho' : List.Forall₂ (· < ·) (List.replicate (n - T.length) 0 ++ o) O := by
      rw [hO]
      generalize n - T.length = m
      induction m with
      | zero => simpa using ho
      | succ m ih => rw [List.replicate_succ, List.replicate_succ]; exact List.Forall₂.cons (by omega) ih
    rw [hrv b _ i j hb ho']
    unfold actAt
    apply Finset.sum_congr rfl
    intro l _
    congr 1
    show t.val (List.drop _ _) = _
    congr 1
    simp [bidx]

/-- **C116 (defect).** Without `dim_out`, a tensor with fewer batch dimensions than the group makes `left_act` raise,
although the same call with `dim_out=0` broadcasts it. -/
theorem leftAct_default_raises {g t : Tns} {G B : List ℕ} {k : ℕ} (hg : g.shape = G ++ [3, 3])
    (ht : t.shape = B ++ [3, k]) (hl : B.length < G.length) (hb : bcast G B ≠ none) :
    so3LeftAct g t none = .error .torch ∧ ∃ r, so3LeftAct g t (some 0) = .ok r ∧ IsAction g t G B [] k r := by
  constructor
  · unfold so3LeftAct
    rw [if_neg (by simp [drop_two hg]), if_neg (by have := getD_two ht; rw [this.2]; omega)]
    apply leftActCore_neg
    · simp [dimOutOf, Tns.ndim, hg, ht]; omega
    · simp [Tns.ndim, ht]
  · exact (so3LeftAct_spec (O := []) hg (by simpa using ht) (Or.inl rfl)).2 hb

/-- A batch of 5 rotations and one matrix. -/
example : ∃ g t : Tns, g.shape = [5] ++ [3, 3] ∧ t.shape = [] ++ [3, 4] ∧ bcast [5] [] ≠ none :=
  ⟨⟨[5, 3, 3], fun _ => 1⟩, ⟨[3, 4], fun _ => 2⟩, rfl, rfl, by decide⟩

/-- Nor does any negative `dim_out` work. -/
theorem leftAct_negative_raises {g t : Tns} {G T : List ℕ} {k : ℕ} {d : ℤ} (hg : g.shape = G ++ [3, 3])
    (ht : t.shape = T ++ [3, k]) (hd : d < 0) : so3LeftAct g t (some d) = .error .torch := by
  unfold so3LeftAct
  rw [if_neg (by simp [drop_two hg]), if_neg (by have := getD_two ht; rw [this.2]; omega)]
  exact leftActCore_neg hd (by simp [Tns.ndim, ht])

/-! ### `left_project` -/

/-- `(Rᵀ M)ᵢⱼ` at batch index `b` and kept index `o`. -/
noncomputable def pullAt (g t : Tns) (G B b o : List ℕ) (i j : ℕ) : ℝ :=
  ∑ l ∈ Finset.range 3, g.val (bidx G b ++ [l, i]) * t.val (bidx B b ++ o ++ [l, j])

theorem projectLast_spec {entry : (ℕ → ℕ → ℝ) → ℕ → ℝ} {dof m k : ℕ} {r : Tns} {A a : List ℕ}
    (hr : r.shape = A ++ [m, k]) (ha : a.length = A.length) (c : ℕ) :
    (projectLast entry dof r).shape = A ++ [dof] ∧
    (projectLast entry dof r).val (a ++ [c]) = entry (fun i j => r.val (a ++ [i, j])) c := by
  have rn : r.ndim - 2 = A.length := by simp [Tns.ndim, hr]
  constructor
  · simp only [projectLast, rn]
    rw [hr, List.take_left' rfl]
  · simp only [projectLast, rn, ← ha]
    rw [List.take_left' rfl]
    simp

/-- **C116 (`SO3.left_project`).** For every pair of indices, the differences of the opposite off-diagonal entries of
`Rᵀ M`, in the order of the tangent vector, with the batch dimensions broadcast and the `dim_out` ones kept. -/
theorem so3LeftProject_spec {g t : Tns} {G B O : List ℕ} {d : Option ℤ} (hg : g.shape = G ++ [3, 3])
    (ht : t.shape = B ++ O ++ [3, 3]) (hd : DimOutIs G B O d) :
    (bcast G B = none → so3LeftProject g t d = .error .torch) ∧
    ∀ N, bcast G B = some N → ∃ r, so3LeftProject g t d = .ok r ∧ r.shape = N ++ O ++ [3] ∧
      ∀ b o, b.length = N.length → List.Forall₂ (· < ·) o O →
        r.val (b ++ o ++ [0]) = pullAt g t G B b o 2 1 - pullAt g t G B b o 1 2 ∧
        r.val (b ++ o ++ [1]) = pullAt g t G B b o 0 2 - pullAt g t G B b o 2 0 ∧
        r.val (b ++ o ++ [2]) = pullAt g t G B b o 1 0 - pullAt g t G B b o 0 1 := by
  obtain ⟨hg', gv⟩ := mT_shape hg
  have h := so3LeftAct_spec (d := d) hg' ht hd
  unfold so3LeftProject
  rw [if_neg (by simp [drop_two hg]), if_neg (by simp [drop_two ht])]
  constructor
  · intro hb
    rw [h.1 hb]
  · intro N hN
    obtain ⟨r, hr, N', hN', hrs, hrv⟩ := h.2 (by simp [hN])
    rw [hN] at hN'
    cases hN'
    rw [hr]
    have hlen := bcast_length hN
    refine ⟨_, rfl, (projectLast_spec (a := N ++ O) hrs rfl 0).1, fun b o hb ho => ?_⟩
    have hol := ho.length_eq
    have hpull : ∀ i j, r.val (b ++ o ++ [i, j]) = pullAt g t G B b o i j := by
      intro i j
      rw [hrv b o i j hb ho]
      unfold actAt pullAt
      apply Finset.sum_congr rfl
      intro l _
      rw [gv _ _ _ (bidx_length (by omega))]
    have hl : (b ++ o).length = (N ++ O).length := by simp [hb, hol]
    refine ⟨?_, ?_, ?_⟩
    all_goals
      rw [(projectLast_spec hrs hl _).2]
      simp only [projEntry, hpull]

example : DimOutIs [4] [4] [6, 2] none := Or.inr ⟨rfl, rfl⟩

/-- **C116 (`SE3.left_project`).** The last column of `Rᵀ M`, then the differences of the opposite off-diagonal entries
of its square part. -/
theorem se3LeftProject_spec {g t : Tns} {G B O : List ℕ} {d : Option ℤ} (hg : g.shape = G ++ [3, 4])
    (ht : t.shape = B ++ O ++ [3, 4]) (hd : DimOutIs G B O d) :
    (bcast G B = none → se3LeftProject g t d = .error .torch) ∧
    ∀ N, bcast G B = some N → ∃ r, se3LeftProject g t d = .ok r ∧ r.shape = N ++ O ++ [6] ∧
      ∀ b o, b.length = N.length → List.Forall₂ (· < ·) o O →
        (∀ i < 3, r.val (b ++ o ++ [i]) = pullAt g t G B b o i 3) ∧
        r.val (b ++ o ++ [3]) = pullAt g t G B b o 2 1 - pullAt g t G B b o 1 2 ∧
        r.val (b ++ o ++ [4]) = pullAt g t G B b o 0 2 - pullAt g t G B b o 2 0 ∧
        r.val (b ++ o ++ [5]) = pullAt g t G B b o 1 0 - pullAt g t G B b o 0 1 := by
  have hg' : (se3Inverse g).shape = G ++ [3, 4] := hg
  have gn : g.ndim - 2 = G.length := by simp [Tns.ndim, hg]
  have h := se3LeftAct_spec (d := d) hg' ht hd
  unfold se3LeftProject
  rw [if_neg (by simp [drop_two hg]), if_neg (by simp [drop_two ht])]
  constructor
  · intro hb
    rw [h.1 hb]
  · intro N hN
    obtain ⟨r, hr, N', hN', hrs, hrv⟩ := h.2 (by simp [hN])
    rw [hN] at hN'
    cases hN'
    rw [hr]
    have hlen := bcast_length hN
    refine ⟨_, rfl, (projectLast_spec (a := N ++ O) hrs rfl 0).1, fun b o hb ho => ?_⟩
    have hol := ho.length_eq
    have hpull : ∀ i j, r.val (b ++ o ++ [i, j]) = pullAt g t G B b o i j := by
      intro i j
      rw [hrv b o i j hb ho]
      unfold actAt pullAt
      apply Finset.sum_congr rfl
      intro l hl
      have hbl : (bidx G b).length = G.length := bidx_length (by omega)
      congr 1
      simp only [se3Inverse, gn, ← hbl]
      rw [if_pos (by simpa using Finset.mem_range.mp hl)]
      simp
    have hl : (b ++ o).length = (N ++ O).length := by simp [hb, hol]
    refine ⟨fun i hi => ?_, ?_, ?_, ?_⟩
    · rw [(projectLast_spec hrs hl _).2]
      interval_cases i <;> simp only [se3ProjEntry, hpull]
    all_goals
      rw [(projectLast_spec hrs hl _).2]
      simp only [se3ProjEntry, projEntry, hpull]

/-! ### `compose` and `transform` -/

/-- **C116 (`SO3.compose`).** The product of the matrices at the broadcast batch index. -/
theorem so3Compose_spec {g h : Tns} {G H : List ℕ} (hg : g.shape = G ++ [3, 3]) (hh : h.shape = H ++ [3, 3]) :
    (bcast G H = none → so3Compose g h = .error .torch) ∧
    ∀ N, bcast G H = some N → ∃ r, so3Compose g h = .ok r ∧ r.shape = N ++ [3, 3] ∧
      ∀ b i j, b.length = N.length →
        r.val (b ++ [i, j]) = ∑ l ∈ Finset.range 3, g.val (bidx G b ++ [i, l]) * h.val (bidx H b ++ [l, j]) := by
  have m := matmul_eq hg hh
  unfold so3Compose
  rw [if_neg (by simp [drop_two hg]), if_neg (by simp [drop_two hh])]
  exact ⟨m.2.1 rfl, m.2.2 rfl⟩

/-- **C116 (`SO3.transform`).** The rotated point at the broadcast batch index. -/
theorem so3Transform_spec {g t : Tns} {G T : List ℕ} (hg : g.shape = G ++ [3, 3]) (ht : t.shape = T ++ [3]) :
    (bcast G T = none → so3Transform g t = .error .torch) ∧
    ∀ N, bcast G T = some N → ∃ r, so3Transform g t = .ok r ∧ r.shape = N ++ [3] ∧
      ∀ b i, b.length = N.length →
        r.val (b ++ [i]) = ∑ l ∈ Finset.range 3, g.val (bidx G b ++ [i, l]) * t.val (bidx T b ++ [l]) := by
  have tn : t.ndim = T.length + 1 := by simp [Tns.ndim, ht]
  have m := matmul_eq (b := unsq t) (B := T) (l' := 3) (k := 1) hg
    (by simp [unsq, ht])
  unfold so3Transform
  rw [if_neg (by simp [drop_two hg]), if_neg (by simp [Tns.ndim, ht])]
  constructor
  · intro h
    rw [m.2.1 rfl h]
  · intro N hN
    obtain ⟨r, hr, hrs, hrv⟩ := m.2.2 rfl N hN
    rw [hr]
    refine ⟨_, rfl, ?_, fun b i hb => ?_⟩
    · have : r.ndim - 1 = (N ++ [3]).length := by simp [Tns.ndim, hrs]
      simp only [sq, this]
      rw [hrs, show N ++ [3, 1] = (N ++ [3]) ++ [1] by simp, List.take_left' rfl]
    · have hlen := bcast_length hN
      show r.val ((b ++ [i]) ++ [0]) = _
      rw [List.append_assoc]
      show r.val (b ++ [i, 0]) = _
      rw [hrv b i 0 hb]
      apply Finset.sum_congr rfl
      intro l _
      congr 1
      simp only [unsq]
      have hbl : (bidx T b).length = T.length := bidx_length (by omega)
      congr 1
      rw [tn, show bidx T b ++ [l, 0] = (bidx T b ++ [l]) ++ [0] by simp, List.take_left' (by simp [hbl])]

end Verif.Lie.Batch
