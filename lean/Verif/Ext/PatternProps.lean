import Verif.Ext.MatMultProps

/-!
# The pattern of the product, and the whole assembly on the GPU (C90)
-/

namespace Verif.Ext
open Verif.Linear

/-- The columns of row `i` of a pattern. -/
def patCols (meet : ℕ → ℕ → Bool) (nc i : ℕ) : List ℕ := (List.range nc).filter (meet i)

/-- The first `n` rows of the pattern are there. -/
structure RowsDone (meet : ℕ → ℕ → Bool) (nc n : ℕ) (P : CsrArr) : Prop where
  len : P.rowPtr.length = n + 1
  zero : at' P.rowPtr 0 = 0
  last : at' P.rowPtr n = P.colInd.length
  next : ∀ i < n, at' P.rowPtr (i + 1) = at' P.rowPtr i + (patCols meet nc i).length
  cols : ∀ i < n, ∀ t < (patCols meet nc i).length,
    at' P.colInd (at' P.rowPtr i + t) = at' (patCols meet nc i) t
  range : ∀ c ∈ P.colInd, c < nc

theorem at'_append_left {l l' : List ℕ} {i : ℕ} (h : i < l.length) : at' (l ++ l') i = at' l i := by
  simp [at', List.getD, List.getElem?_append_left h]

theorem at'_append_right {l l' : List ℕ} {i : ℕ} : at' (l ++ l') (l.length + i) = at' l' i := by
  simp [at', List.getD, List.getElem?_append_right]

theorem at'_mem {l : List ℕ} {i : ℕ} (h : i < l.length) : at' l i ∈ l := by
  simp [at', List.getD, List.getElem?_eq_getElem h]

theorem RowsDone.row_le {meet : ℕ → ℕ → Bool} {nc n : ℕ} {P : CsrArr} (h : RowsDone meet nc n P) {i : ℕ}
    (hi : i ≤ n) : at' P.rowPtr i ≤ P.colInd.length := by
  rw [← h.last]
  have : ∀ k, i ≤ k → k ≤ n → at' P.rowPtr i ≤ at' P.rowPtr k := by
    intro k hk
    induction k, hk using Nat.le_induction with
    | base => intro _; exact le_rfl
    | succ k hk ih => intro hn; exact (ih (by omega)).trans (by rw [h.next k (by omega)]; omega)
  exact this n hi le_rfl

theorem RowsDone.step {meet : ℕ → ℕ → Bool} {nc n : ℕ} {P : CsrArr} (h : RowsDone meet nc n P) :
    RowsDone meet nc (n + 1) ⟨P.rowPtr ++ [P.colInd.length + (patCols meet nc n).length],
      P.colInd ++ patCols meet nc n⟩ := by
  have hl := h.len
  have hlast : at' (P.rowPtr ++ [P.colInd.length + (patCols meet nc n).length]) (n + 1)
      = P.colInd.length + (patCols meet nc n).length := by
    have := at'_append_right (l := P.rowPtr) (l' := [P.colInd.length + (patCols meet nc n).length])
      (i := 0)
    rw [hl] at this
    exact this
  have hold : ∀ i ≤ n, at' (P.rowPtr ++ [P.colInd.length + (patCols meet nc n).length]) i
      = at' P.rowPtr i := fun i hi => at'_append_left (by omega)
  refine ⟨by simp [hl], by rw [hold 0 (by omega)]; exact h.zero, by simp [hlast], ?_, ?_, ?_⟩
  · intro i hi
    rcases Nat.eq_or_lt_of_le (Nat.le_of_lt_succ hi) with rfl | hi
    · rw [hlast, hold _ le_rfl, h.last]
    · rw [hold _ (by omega), hold _ (by omega), h.next i hi]
  · intro i hi t ht
    rcases Nat.eq_or_lt_of_le (Nat.le_of_lt_succ hi) with rfl | hi
    · simp only
      rw [hold _ le_rfl, h.last, at'_append_right]
    · simp only
      rw [hold _ (by omega), at'_append_left, h.cols i hi t ht]
      have := h.row_le (show i + 1 ≤ n by omega)
      rw [h.next i hi] at this
      omega
  · intro c hc
    rcases List.mem_append.1 hc with hc | hc
    · exact h.range c hc
    · exact List.mem_range.1 (List.mem_of_mem_filter hc)

theorem patRows_done (meet : ℕ → ℕ → Bool) (nc : ℕ) : ∀ n i P, RowsDone meet nc i P →
    RowsDone meet nc (i + n) (patRows meet nc n i P) := by
  intro n
  induction n with
  | zero => intro i P h; exact h
  | succ n ih =>
    intro i P h
    have := ih (i + 1) _ h.step
    rw [Nat.add_right_comm, Nat.add_assoc] at this
    exact this

/-- A whole pattern. -/
theorem pat_done (meet : ℕ → ℕ → Bool) (nc : ℕ) :
    RowsDone meet nc nc (patRows meet nc nc 0 ⟨[0], []⟩) := by
  have := patRows_done meet nc nc 0 ⟨[0], []⟩
    ⟨rfl, rfl, rfl, fun i hi => absurd hi (by omega), fun i hi => absurd hi (by omega), by simp⟩
  rw [Nat.zero_add] at this
  exact this

theorem patCols_sorted (meet : ℕ → ℕ → Bool) (nc i : ℕ) : (patCols meet nc i).Pairwise (· < ·) :=
  List.Pairwise.filter _ List.pairwise_lt_range

theorem at'_lt_of_pairwise {l : List ℕ} (h : l.Pairwise (· < ·)) {s t : ℕ} (hst : s < t)
    (ht : t < l.length) : at' l s < at' l t := by
  simp only [at', List.getD, List.getElem?_eq_getElem ht,
    List.getElem?_eq_getElem (hst.trans ht), Option.getD_some]
  exact List.pairwise_iff_getElem.1 h s t _ _ hst

theorem RowsDone.numRows {meet : ℕ → ℕ → Bool} {nc : ℕ} {P : CsrArr} (h : RowsDone meet nc nc P) :
    P.numRows = nc := by
  unfold CsrArr.numRows
  rw [h.len]
  omega

theorem RowsDone.legal {meet : ℕ → ℕ → Bool} {nc : ℕ} {P : CsrArr} (h : RowsDone meet nc nc P) :
    P.Legal nc :=
  ⟨by rw [h.numRows]; exact h.len, h.zero, fun i hi => by rw [h.next i (h.numRows ▸ hi)]; omega,
    by rw [h.numRows]; exact h.last, h.range⟩

theorem RowsDone.sorted {meet : ℕ → ℕ → Bool} {nc : ℕ} {P : CsrArr} (h : RowsDone meet nc nc P) :
    P.Sorted := by
  intro i hi p q hp hq hpq
  rw [h.numRows] at hi
  have h1 := hp.1; have h2 := hq.1; have h3 := hq.2
  rw [h.next i hi] at h3
  have e1 := h.cols i hi (p - at' P.rowPtr i) (by omega)
  have e2 := h.cols i hi (q - at' P.rowPtr i) (by omega)
  rw [Nat.add_sub_of_le h1] at e1
  rw [Nat.add_sub_of_le h2] at e2
  rw [e1, e2]
  exact at'_lt_of_pairwise (patCols_sorted meet nc i) (by omega) (by omega)

theorem RowsDone.stored {meet : ℕ → ℕ → Bool} {nc : ℕ} {P : CsrArr} (h : RowsDone meet nc nc P)
    {i j : ℕ} (hi : i < nc) :
    (∃ s, P.InRow i s ∧ at' P.colInd s = j) ↔ j < nc ∧ meet i j = true := by
  constructor
  · rintro ⟨s, hs, e⟩
    have h1 := hs.1
    have h2 := hs.2
    rw [h.next i hi] at h2
    have hl : s - at' P.rowPtr i < (patCols meet nc i).length := by omega
    have := h.cols i hi _ hl
    rw [Nat.add_sub_of_le h1, e] at this
    have hm : j ∈ patCols meet nc i := by
      rw [this]
      exact at'_mem hl
    exact ⟨List.mem_range.1 (List.mem_of_mem_filter hm), (List.mem_filter.1 hm).2⟩
  · rintro ⟨hj, hm⟩
    have : j ∈ patCols meet nc i := List.mem_filter.2 ⟨List.mem_range.2 hj, hm⟩
    obtain ⟨t, ht, e⟩ := List.getElem_of_mem this
    refine ⟨at' P.rowPtr i + t, ⟨by omega, by rw [h.next i hi]; omega⟩, ?_⟩
    rw [h.cols i hi t ht]
    simp only [at', List.getD, List.getElem?_eq_getElem ht, Option.getD_some, e]

theorem ataPattern_done (M : CsrArr) (nc : ℕ) : RowsDone (meets M) nc nc (ataPattern M nc) :=
  pat_done _ _

/-- Two columns share a row. -/
theorem meets_iff (M : CsrArr) (i j : ℕ) : meets M i j = true ↔
    ∃ r < M.numRows, (∃ p, M.InRow r p ∧ at' M.colInd p = i) ∧
      ∃ q, M.InRow r q ∧ at' M.colInd q = j := by
  have hrow : ∀ r c, ((List.range' (at' M.rowPtr r) (at' M.rowPtr (r + 1) - at' M.rowPtr r)).any
      fun p => at' M.colInd p == c) = true ↔ ∃ p, M.InRow r p ∧ at' M.colInd p = c := by
    intro r c
    simp only [List.any_eq_true, List.mem_range'_1, beq_iff_eq]
    constructor
    · rintro ⟨p, hp, e⟩; exact ⟨p, ⟨hp.1, by omega⟩, e⟩
    · rintro ⟨p, hp, e⟩; exact ⟨p, ⟨hp.1, by have := hp.1; have := hp.2; omega⟩, e⟩
  unfold meets
  simp only [List.any_eq_true, List.mem_range, Bool.and_eq_true]
  constructor
  · rintro ⟨r, hr, h1, h2⟩; exact ⟨r, hr, (hrow r i).1 (by simpa using h1), (hrow r j).1 (by simpa using h2)⟩
  · rintro ⟨r, hr, h1, h2⟩; exact ⟨r, hr, by simpa using (hrow r i).2 h1, by simpa using (hrow r j).2 h2⟩

/-- The stored entries of the pattern of the product: two columns of a common row. -/
theorem ataPattern_stored (M : CsrArr) {nc i j : ℕ} (hi : i < nc) :
    (∃ s, (ataPattern M nc).InRow i s ∧ at' (ataPattern M nc).colInd s = j) ↔
      j < nc ∧ ∃ r < M.numRows, (∃ p, M.InRow r p ∧ at' M.colInd p = i) ∧
        ∃ q, M.InRow r q ∧ at' M.colInd q = j := by
  rw [← meets_iff]
  exact (ataPattern_done M nc).stored hi

/-- The pattern that the Python code computes is legal, sorted, and has a place for every product
that `mult_MtM` adds. -/
theorem ata_pattern_fits {M : CsrArr} {nc : ℕ} (hM : M.Legal nc) :
    (ataPattern M nc).Legal nc ∧ (ataPattern M nc).numRows = nc ∧ (ataPattern M nc).Sorted ∧
      Covers (ataPattern M nc) M := by
  have h := ataPattern_done M nc
  refine ⟨h.legal, h.numRows, h.sorted, ?_⟩
  intro r hr p q hp hq
  exact (ataPattern_stored M (InRow.col_lt hM hr hp)).2
    ⟨InRow.col_lt hM hr hq, r, hr, ⟨p, hp, rfl⟩, q, hq, rfl⟩

end Verif.Ext

namespace Verif.Linear
variable {R : Type}

/-- In the arrays that the linearization builds every column has a stored entry, if every variable of
the ordering is in a cost function of positive dimension. -/
theorem csr_columns_stored (o : Ordering) (h : Consistent o) (dof : Objective.Var → Nat)
    (cs : List (LCost R)) (hm : ∀ c ∈ cs, ∀ v ∈ c.vars, v ∈ o.order)
    (hv : ∀ v ∈ o.order, ∃ c ∈ cs, v ∈ c.vars ∧ 0 < c.dim) :
    ∃ m, csr o (layout dof o.order) dof cs = .ok m ∧ ∀ j < (layout dof o.order).numCols,
      ∃ i < numRows cs, ∃ p, at' m.rowPtr i ≤ p ∧ p < at' m.rowPtr (i + 1) ∧ at' m.colInd p = j := by
  refine ⟨_, csr_ok h dof cs hm, fun j hj => ?_⟩
  rw [(columns_of_variable dof o.order).2] at hj
  obtain ⟨v, hvo, t, ht, rfl⟩ := exists_offs dof o.order h.nodup j hj
  obtain ⟨c, hc, hvc, hd⟩ := hv v hvo
  obtain ⟨cpre, cpost, e⟩ := List.append_of_mem hc
  have hext : Linear.Ext (csrBefore o dof (cpre ++ [c])) (csrBefore o dof cs) := by
    have := ext_foldl o dof cpost (csrBefore o dof (cpre ++ [c]))
    have e' : cpost.foldl (csrNext o dof) (csrBefore o dof (cpre ++ [c])) = csrBefore o dof cs := by
      rw [e]; simp [csrBefore]
    rw [e'] at this; exact this
  obtain ⟨s1, s2, _⟩ := structure_rows o dof cpre c _ hext
  obtain ⟨k, hk, ek⟩ := List.getElem_of_mem hvc
  have hs : (offs dof o.order v, offs dof o.order v + dof v, k) ∈ sortedOf o dof c := by
    refine (sorted_perm o dof c).mem_iff.2 ?_
    have := entriesFrom_get o dof c.vars 0 k
    rw [List.getElem?_eq_getElem hk, ek] at this
    exact List.mem_of_getElem? (by simpa using this)
  have hq : offs esz (sortedOf o dof c) (offs dof o.order v, offs dof o.order v + dof v, k) + t
      < (colIndOf (sortedOf o dof c)).length := by
    rw [colIndOf_length]
    have := offs_le esz (sortedOf o dof c) _ hs
    simp only [esz] at this ⊢
    omega
  have h2 := s2 0 hd _ hq
  rw [colIndOf_get _ hs t (by simp [esz]; omega)] at h2
  have h3 := s1 0 (by omega)
  have h4 := s1 1 (by omega)
  rw [Nat.add_zero] at h3
  refine ⟨numRows cpre, by rw [e]; simp [numRows]; omega, _, ?_, ?_, at'_of_get h2⟩
  · rw [h3]; omega
  · rw [h4]; omega

end Verif.Linear
