import Verif.Linear.Lemmas
import Mathlib.Data.List.Sort
/-!
# Lemmas for sparse linearization
-/
namespace Verif.Linear
open Verif Verif.Objective
open scoped BigOperators

variable {R : Type}

/-- Size of a column slice. -/
def esz (s : Nat × Nat × Nat) : Nat := s.2.1 - s.1

/-- The slices of the variables from index `k`. -/
def entriesFrom (o : Ordering) (dof : Var → Nat) : Nat → List Var → List (Nat × Nat × Nat)
  | _, [] => []
  | k, v :: vs => (offs dof o.order v, offs dof o.order v + dof v, k) :: entriesFrom o dof (k + 1) vs

theorem slicesOf_eq {o : Ordering} (h : Consistent o) (dof : Var → Nat) (vs : List Var) :
    ∀ k, (∀ v ∈ vs, v ∈ o.order) →
    slicesOf o (layout dof o.order) dof k vs = .ok (entriesFrom o dof k vs) := by
  induction vs with
  | nil => intro k _; rfl
  | cons v vs ih =>
    intro k hm
    simp [slicesOf, startCol_eq h dof (hm v List.mem_cons_self), ih (k+1) (fun w hw => hm w (List.mem_cons_of_mem _ hw)),
      entriesFrom]

theorem entriesFrom_idx (o : Ordering) (dof : Var → Nat) (vs : List Var) :
    ∀ k, (entriesFrom o dof k vs).map (fun s => s.2.2) = List.range' k vs.length := by
  induction vs with
  | nil => intro k; rfl
  | cons v vs ih => intro k; simp [entriesFrom, ih, List.range'_succ]

theorem entriesFrom_get (o : Ordering) (dof : Var → Nat) (vs : List Var) :
    ∀ k i v, vs[i]? = some v →
      (entriesFrom o dof k vs)[i]? = some (offs dof o.order v, offs dof o.order v + dof v, k + i) := by
  induction vs with
  | nil => intro k i v h; simp at h
  | cons w vs ih =>
    intro k i v h
    cases i with
    | zero => simp at h; subst h; simp [entriesFrom]
    | succ i =>
      simp only [List.getElem?_cons_succ] at h
      simp only [entriesFrom, List.getElem?_cons_succ, ih (k+1) i v h]
      congr 3; omega

/-- `entriesFrom` members. -/
theorem mem_entriesFrom (o : Ordering) (dof : Var → Nat) (vs : List Var) (k : Nat) (s : Nat × Nat × Nat)
    (h : s ∈ entriesFrom o dof k vs) :
    ∃ i v, vs[i]? = some v ∧ s = (offs dof o.order v, offs dof o.order v + dof v, k + i) := by
  induction vs generalizing k with
  | nil => simp [entriesFrom] at h
  | cons w vs ih =>
    simp only [entriesFrom, List.mem_cons] at h
    rcases h with h | h
    · exact ⟨0, w, rfl, by simpa using h⟩
    · obtain ⟨i, v, h1, h2⟩ := ih (k+1) h
      exact ⟨i+1, v, by simpa using h1, by rw [h2]; congr 2; omega⟩

/-- The pointer of an entry is its offset in the sorted list. -/
theorem pointerOf_eq (l : List (Nat × Nat × Nat)) (hn : (l.map fun s => s.2.2).Nodup)
    {s : Nat × Nat × Nat} (hs : s ∈ l) : pointerOf l s.2.2 = offs esz l s := by
  have key : ∀ (l : List (Nat × Nat × Nat)) (acc : Nat), (l.map fun s => s.2.2).Nodup → s ∈ l →
      (l.zip (cumStarts acc (l.map fun s => s.2.1 - s.1))).reverse.find? (fun p => decide (p.1.2.2 = s.2.2))
        = some (s, acc + offs esz l s) := by
    intro l
    induction l with
    | nil => intro acc _ h; simp at h
    | cons x l ih =>
      intro acc hn hs
      simp only [List.map_cons, List.nodup_cons] at hn
      simp only [List.map_cons, cumStarts, List.zip_cons_cons, List.reverse_cons, List.find?_append]
      by_cases hx : x = s
      · subst hx
        have : (l.zip (cumStarts (acc + (x.2.1 - x.1)) (l.map fun s => s.2.1 - s.1))).reverse.find?
            (fun p => decide (p.1.2.2 = x.2.2)) = none := by
          rw [List.find?_eq_none]
          intro p hp
          simp only [List.mem_reverse] at hp
          simp only [decide_eq_true_eq]
          intro e
          exact hn.1 (List.mem_map.2 ⟨p.1, (List.of_mem_zip (show (p.1, p.2) ∈ _ from hp)).1, e⟩)
        rw [this]
        simp [offs]
      · have hs' := (List.mem_cons.1 hs).resolve_left (Ne.symm hx)
        rw [ih _ hn.2 hs']
        simp only [offs, if_neg hx, esz]
        simp [Nat.add_assoc]
  unfold pointerOf
  rw [key l 0 hn hs]; simp

theorem colIndOf_length (l : List (Nat × Nat × Nat)) : (colIndOf l).length = (l.map esz).sum := by
  induction l with
  | nil => rfl
  | cons x l ih =>
    simp only [colIndOf] at ih
    simp [colIndOf, ih, esz]

theorem colIndOf_get (l : List (Nat × Nat × Nat)) {s : Nat × Nat × Nat} (hs : s ∈ l) (t : Nat) (ht : t < esz s) :
    (colIndOf l)[offs esz l s + t]? = some (s.1 + t) := by
  induction l with
  | nil => simp at hs
  | cons x l ih =>
    have e : colIndOf (x :: l) = ((List.range (x.2.1 - x.1)).map (x.1 + ·)) ++ colIndOf l := by simp [colIndOf]
    rw [e]
    by_cases hx : x = s
    · subst hx
      simp only [offs, if_true, Nat.zero_add]
      simp only [esz] at ht
      rw [List.getElem?_append_left (by simpa using ht)]
      simp [ht]
    · simp only [offs, if_neg hx]
      rw [List.getElem?_append_right (by simp [esz]; omega)]
      rw [← ih ((List.mem_cons.1 hs).resolve_left (Ne.symm hx))]
      congr 1
      simp [esz]; omega

/-! ### The structure -/

theorem addRows_spec (cols : List Nat) (n : Nat) (p : List Nat × List Nat) :
    (addRows cols n p).1 = p.1 ++ (List.replicate n cols).flatten ∧
    (addRows cols n p).2 = p.2 ++ (List.range n).map (fun k => p.1.length + (k + 1) * cols.length) := by
  induction n generalizing p with
  | zero => simp [addRows]
  | succ n ih =>
    obtain ⟨a, b⟩ := ih (p.1 ++ cols, p.2 ++ [(p.1 ++ cols).length])
    constructor
    · rw [addRows, a]; simp [List.replicate_succ]
    · rw [addRows, b, List.range_succ_eq_map]
      simp only [List.length_append, List.map_cons, List.map_map, List.append_assoc, List.cons_append,
        List.nil_append, Nat.zero_add, Nat.one_mul]
      congr 2
      apply List.map_congr_left
      intro k _
      simp only [Function.comp, Nat.succ_eq_add_one]
      ring

/-- Sorted slices of a cost function. -/
def sortedOf (o : Ordering) (dof : Var → Nat) (c : LCost R) : List (Nat × Nat × Nat) :=
  (entriesFrom o dof 0 c.vars).mergeSort leEntry

/-- Structure after one cost function. -/
def csrNext (o : Ordering) (dof : Var → Nat) (m : Csr) (c : LCost R) : Csr :=
  { colInd := m.colInd ++ (List.replicate c.dim (colIndOf (sortedOf o dof c))).flatten,
    rowPtr := m.rowPtr ++ (List.range c.dim).map (fun k => m.colInd.length + (k + 1) * (colIndOf (sortedOf o dof c)).length),
    blockPtrs := m.blockPtrs ++ [(List.range c.vars.length).map (pointerOf (sortedOf o dof c))],
    blockStarts := m.blockStarts ++ [m.colInd.length],
    strides := m.strides ++ [(colIndOf (sortedOf o dof c)).length] }

theorem csrCost_eq {o : Ordering} (h : Consistent o) (dof : Var → Nat) (m : Csr) (c : LCost R)
    (hm : ∀ v ∈ c.vars, v ∈ o.order) : csrCost o (layout dof o.order) dof m c = .ok (csrNext o dof m c) := by
  unfold csrCost
  rw [slicesOf_eq h dof c.vars 0 hm]
  obtain ⟨a, b⟩ := addRows_spec (colIndOf (sortedOf o dof c)) c.dim (m.colInd, m.rowPtr)
  simp only [sortedOf] at a b
  simp only [a, b, csrNext, sortedOf]

theorem csrLoop_eq {o : Ordering} (h : Consistent o) (dof : Var → Nat) (cs : List (LCost R)) :
    ∀ m, (∀ c ∈ cs, ∀ v ∈ c.vars, v ∈ o.order) →
    csrLoop o (layout dof o.order) dof cs m = .ok (cs.foldl (csrNext o dof) m) := by
  induction cs with
  | nil => intro m _; rfl
  | cons c cs ih =>
    intro m hm
    simp only [csrLoop, csrCost_eq h dof m c (hm c List.mem_cons_self), List.foldl_cons]
    exact ih _ (fun x hx => hm x (List.mem_cons_of_mem _ hx))

/-- One structure extends another. -/
structure Ext (m m' : Csr) : Prop where
  colInd : m.colInd <+: m'.colInd
  rowPtr : m.rowPtr <+: m'.rowPtr
  blockPtrs : m.blockPtrs <+: m'.blockPtrs
  blockStarts : m.blockStarts <+: m'.blockStarts
  strides : m.strides <+: m'.strides

theorem ext_foldl (o : Ordering) (dof : Var → Nat) (cs : List (LCost R)) : ∀ m, Ext m (cs.foldl (csrNext o dof) m) := by
  induction cs with
  | nil => intro m; exact ⟨List.prefix_rfl, List.prefix_rfl, List.prefix_rfl, List.prefix_rfl, List.prefix_rfl⟩
  | cons c cs ih =>
    intro m
    obtain ⟨a, b, c', d, e⟩ := ih (csrNext o dof m c)
    exact ⟨(List.prefix_append _ _).trans a, (List.prefix_append _ _).trans b, (List.prefix_append _ _).trans c',
      (List.prefix_append _ _).trans d, (List.prefix_append _ _).trans e⟩

/-- Lengths while building. -/
structure CInv (m : Csr) (nrows ncost : Nat) : Prop where
  rp : m.rowPtr.length = nrows + 1
  last : at' m.rowPtr nrows = m.colInd.length
  bp : m.blockPtrs.length = ncost
  bs : m.blockStarts.length = ncost
  st : m.strides.length = ncost

theorem prefix_get {α : Type} {l l' : List α} (h : l <+: l') {i : Nat} {a : α} (hi : l[i]? = some a) : l'[i]? = some a := by
  obtain ⟨x, rfl⟩ := h
  rw [List.getElem?_append_left (List.getElem?_eq_some_iff.1 hi).1]; exact hi

theorem at'_of_get {l : List Nat} {i a : Nat} (h : l[i]? = some a) : at' l i = a := by simp [at', List.getD, h]

theorem cinv_next {o : Ordering} {dof : Var → Nat} {m : Csr} {n k : Nat} (h : CInv m n k) (c : LCost R) :
    CInv (csrNext o dof m c) (n + c.dim) (k + 1) := by
  refine ⟨?_, ?_, ?_, ?_, ?_⟩
  · simp [csrNext, h.rp]; omega
  · cases hd : c.dim with
    | zero =>
      have := h.last
      simpa [csrNext, hd] using this
    | succ d =>
      apply at'_of_get
      simp only [csrNext, hd]
      rw [List.getElem?_append_right (by rw [h.rp]; omega)]
      rw [h.rp, show n + (d + 1) - (n + 1) = d by omega]
      simp
  · simp [csrNext, h.bp]
  · simp [csrNext, h.bs]
  · simp [csrNext, h.st]

theorem cinv_foldl {o : Ordering} {dof : Var → Nat} (cs : List (LCost R)) : ∀ {m : Csr} {n k : Nat}, CInv m n k →
    CInv (cs.foldl (csrNext o dof) m) (n + numRows cs) (k + cs.length) := by
  induction cs with
  | nil => intro m n k h; simpa [numRows] using h
  | cons c cs ih =>
    intro m n k h
    have := ih (cinv_next (o := o) (dof := dof) h c)
    simp only [numRows, List.map_cons, List.sum_cons, List.length_cons, List.foldl_cons] at this ⊢
    rw [show n + (c.dim + (cs.map LCost.dim).sum) = n + c.dim + (cs.map LCost.dim).sum by omega,
      show k + (cs.length + 1) = k + 1 + cs.length by omega]
    exact this

theorem cinv_init : CInv ⟨[], [0], [], [], []⟩ 0 0 := ⟨rfl, rfl, rfl, rfl, rfl⟩

/-- The structure before a cost function. -/
def csrBefore (o : Ordering) (dof : Var → Nat) (cpre : List (LCost R)) : Csr :=
  cpre.foldl (csrNext o dof) ⟨[], [0], [], [], []⟩

theorem cinv_before (o : Ordering) (dof : Var → Nat) (cpre : List (LCost R)) :
    CInv (csrBefore o dof cpre) (numRows cpre) cpre.length := by
  have := cinv_foldl (o := o) (dof := dof) cpre cinv_init
  simpa [csrBefore] using this

theorem replicate_flatten_get (cols : List Nat) (n r q : Nat) (hr : r < n) (hq : q < cols.length) :
    (List.replicate n cols).flatten[r * cols.length + q]? = cols[q]? := by
  induction n generalizing r with
  | zero => omega
  | succ n ih =>
    rw [List.replicate_succ, List.flatten_cons]
    cases r with
    | zero => rw [Nat.zero_mul, Nat.zero_add, List.getElem?_append_left hq]
    | succ r =>
      rw [List.getElem?_append_right (by rw [Nat.succ_mul]; omega)]
      rw [← ih r (by omega)]
      congr 1
      rw [Nat.succ_mul]; omega

/-- Structure of the rows of one cost function in the final arrays. -/
theorem structure_rows (o : Ordering) (dof : Var → Nat) (cpre : List (LCost R)) (c : LCost R) (m : Csr)
    (hm : Ext (csrBefore o dof (cpre ++ [c])) m) :
    (∀ r, r ≤ c.dim → at' m.rowPtr (numRows cpre + r) =
      (csrBefore o dof cpre).colInd.length + r * (colIndOf (sortedOf o dof c)).length) ∧
    (∀ r, r < c.dim → ∀ q, q < (colIndOf (sortedOf o dof c)).length →
      m.colInd[(csrBefore o dof cpre).colInd.length + r * (colIndOf (sortedOf o dof c)).length + q]? =
        (colIndOf (sortedOf o dof c))[q]?) ∧
    m.blockStarts[cpre.length]? = some (csrBefore o dof cpre).colInd.length ∧
    m.strides[cpre.length]? = some (colIndOf (sortedOf o dof c)).length ∧
    m.blockPtrs[cpre.length]? = some ((List.range c.vars.length).map (pointerOf (sortedOf o dof c))) ∧
    (csrBefore o dof (cpre ++ [c])).colInd.length =
      (csrBefore o dof cpre).colInd.length + c.dim * (colIndOf (sortedOf o dof c)).length := by
  have hi := cinv_before o dof cpre
  have hb : csrBefore o dof (cpre ++ [c]) = csrNext o dof (csrBefore o dof cpre) c := by
    simp [csrBefore]
  rw [hb] at hm ⊢
  refine ⟨?_, ?_, ?_, ?_, ?_, ?_⟩
  · intro r hr
    cases r with
    | zero =>
      have : (csrBefore o dof cpre).rowPtr[numRows cpre]? = some (csrBefore o dof cpre).colInd.length := by
        have h1 := hi.last
        have h2 : numRows cpre < (csrBefore o dof cpre).rowPtr.length := by rw [hi.rp]; omega
        rw [List.getElem?_eq_getElem h2]
        simpa [at', List.getD, List.getElem?_eq_getElem h2] using h1
      rw [Nat.add_zero, Nat.zero_mul, Nat.add_zero]
      refine at'_of_get (prefix_get hm.rowPtr (i := numRows cpre) ?_)
      exact prefix_get (List.prefix_append _ _) this
    | succ r =>
      refine at'_of_get (prefix_get hm.rowPtr ?_)
      simp only [csrNext]
      rw [List.getElem?_append_right (by rw [hi.rp]; omega), hi.rp,
        show numRows cpre + (r + 1) - (numRows cpre + 1) = r by omega]
      simp [show r < c.dim by omega]
  · intro r hr q hq
    have h1 := replicate_flatten_get (colIndOf (sortedOf o dof c)) c.dim r q hr hq
    rw [List.getElem?_eq_getElem hq] at h1 ⊢
    refine prefix_get hm.colInd ?_
    simp only [csrNext]
    rw [List.getElem?_append_right (by omega), ← h1]
    congr 1; omega
  · refine prefix_get hm.blockStarts ?_
    simp only [csrNext]; rw [List.getElem?_append_right (by rw [hi.bs]), hi.bs]; simp
  · refine prefix_get hm.strides ?_
    simp only [csrNext]; rw [List.getElem?_append_right (by rw [hi.st]), hi.st]; simp
  · refine prefix_get hm.blockPtrs ?_
    simp only [csrNext]; rw [List.getElem?_append_right (by rw [hi.bp]), hi.bp]; simp
  · simp [csrNext]

/-! ### The values -/

theorem writeVals_at (A : Nat → R) (S w nr p : Nat) (J : Jac R) (r q : Nat) (hr : r < nr) (hq : q < w) :
    writeVals A S w nr p J (S + r * w + q) =
      if p ≤ q ∧ q < p + J.cols then J.val r (q - p) else A (S + r * w + q) := by
  unfold writeVals
  have hw : 0 < w := by omega
  have e1 : S + r * w + q - S = q + w * r := by rw [Nat.mul_comm]; omega
  have e2 : (q + w * r) % w = q := by rw [Nat.add_mul_mod_self_left, Nat.mod_eq_of_lt hq]
  have e3 : (q + w * r) / w = r := by rw [Nat.add_mul_div_left _ _ hw, Nat.div_eq_of_lt hq, Nat.zero_add]
  have hlt : S + r * w + q < S + w * nr := by
    have : r * w + w ≤ w * nr := by
      calc r * w + w = (r + 1) * w := by ring
        _ ≤ nr * w := Nat.mul_le_mul_right _ hr
        _ = w * nr := by ring
    omega
  rw [e1, e2, e3]
  by_cases hp : p ≤ q ∧ q < p + J.cols
  · rw [if_pos hp, if_pos ⟨by omega, hlt, hp.1, hp.2⟩]
  · rw [if_neg hp, if_neg (fun h => hp ⟨h.2.2.1, h.2.2.2⟩)]

theorem writeVals_out (A : Nat → R) (S w nr p : Nat) (J : Jac R) (x : Nat) (hx : x < S ∨ S + w * nr ≤ x) :
    writeVals A S w nr p J x = A x := by
  unfold writeVals
  rw [if_neg]; omega

theorem sparseVars_spec (S w nr : Nat) (ptrs : List Nat) (Js : List (Jac R)) :
    ∀ (k : Nat) (A : Nat → R), k + Js.length ≤ ptrs.length →
    ∃ A', sparseVars S w nr ptrs k Js A = .ok A' ∧
      (∀ x, (x < S ∨ S + w * nr ≤ x) → A' x = A x) ∧
      (∀ r < nr, ∀ q < w,
        (∀ i J p, Js[i]? = some J → ptrs[k + i]? = some p → p ≤ q → q < p + J.cols →
          (∀ i' J' p', Js[i']? = some J' → ptrs[k + i']? = some p' → p' ≤ q → q < p' + J'.cols → i' = i) →
          A' (S + r * w + q) = J.val r (q - p)) ∧
        ((∀ i J p, Js[i]? = some J → ptrs[k + i]? = some p → ¬ (p ≤ q ∧ q < p + J.cols)) →
          A' (S + r * w + q) = A (S + r * w + q))) := by
  induction Js with
  | nil =>
    intro k A _
    exact ⟨A, rfl, fun _ _ => rfl, fun r _ q _ => ⟨by intro i J p h; simp at h, fun _ => rfl⟩⟩
  | cons J Js ih =>
    intro k A hlen
    simp only [List.length_cons] at hlen
    have hk : k < ptrs.length := by omega
    unfold sparseVars
    rw [List.getElem?_eq_getElem hk]
    simp only
    obtain ⟨A', e1, e2, e3⟩ := ih (k + 1) (writeVals A S w nr ptrs[k] J) (by omega)
    refine ⟨A', e1, ?_, ?_⟩
    · intro x hx; rw [e2 x hx, writeVals_out _ _ _ _ _ _ _ hx]
    · intro r hr q hq
      obtain ⟨f1, f2⟩ := e3 r hr q hq
      constructor
      · intro i J1 p hJ hp h1 h2 huniq
        cases i with
        | zero =>
          simp only [List.getElem?_cons_zero, Option.some.injEq] at hJ
          subst hJ
          rw [Nat.add_zero, List.getElem?_eq_getElem hk, Option.some.injEq] at hp
          subst hp
          rw [f2 ?_, writeVals_at _ _ _ _ _ _ _ _ hr hq, if_pos ⟨h1, h2⟩]
          intro i J2 p2 g1 g2 g3
          have := huniq (i + 1) J2 p2 (by simpa using g1) (by rw [← g2]; congr 1; omega) g3.1 g3.2
          omega
        | succ i =>
          refine f1 i J1 p (by simpa using hJ) (by rw [← hp]; congr 1; omega) h1 h2 ?_
          intro i' J' p' g1 g2 g3 g4
          have := huniq (i' + 1) J' p' (by simpa using g1) (by rw [← g2]; congr 1; omega) g3 g4
          omega
      · intro hnone
        rw [f2 ?_, writeVals_at _ _ _ _ _ _ _ _ hr hq, if_neg]
        · exact hnone 0 J _ rfl (by rw [Nat.add_zero, List.getElem?_eq_getElem hk])
        · intro i J1 p g1 g2
          exact hnone (i + 1) J1 p (by simpa using g1) (by rw [← g2]; congr 1; omega)

/-- Jacobian entry of the `k`-th variable. -/
def jacAt [Zero R] (c : LCost R) (k r t : Nat) : R :=
  match c.jacs[k]? with
  | some J => J.val r t
  | none => 0

theorem sorted_perm (o : Ordering) (dof : Var → Nat) (c : LCost R) :
    (sortedOf o dof c).Perm (entriesFrom o dof 0 c.vars) := List.mergeSort_perm _ _

theorem sorted_idx_nodup (o : Ordering) (dof : Var → Nat) (c : LCost R) :
    ((sortedOf o dof c).map fun s => s.2.2).Nodup := by
  rw [((sorted_perm o dof c).map _).nodup_iff, entriesFrom_idx]
  exact List.nodup_range'

theorem sorted_nodup (o : Ordering) (dof : Var → Nat) (c : LCost R) : (sortedOf o dof c).Nodup :=
  List.Nodup.of_map _ (sorted_idx_nodup o dof c)

/-- One cost function of the value loop. -/
theorem block_values [CommRing R] (o : Ordering) (dof : Var → Nat) (c : LCost R)
    (hf : List.Forall₂ (fun v J => J.cols = dof v) c.vars c.jacs) (S : Nat) (A : Nat → R) :
    ∃ A', sparseVars S (colIndOf (sortedOf o dof c)).length c.dim
        ((List.range c.vars.length).map (pointerOf (sortedOf o dof c))) 0 c.jacs A = .ok A' ∧
      (∀ x, (x < S ∨ S + (colIndOf (sortedOf o dof c)).length * c.dim ≤ x) → A' x = A x) ∧
      (∀ r < c.dim, ∀ s ∈ sortedOf o dof c, ∀ t < esz s,
        A' (S + r * (colIndOf (sortedOf o dof c)).length + (offs esz (sortedOf o dof c) s + t)) = jacAt c s.2.2 r t) := by
  obtain ⟨A', e1, e2, e3⟩ := sparseVars_spec S (colIndOf (sortedOf o dof c)).length c.dim
    ((List.range c.vars.length).map (pointerOf (sortedOf o dof c))) c.jacs 0 A (by simp [hf.length_eq])
  refine ⟨A', e1, e2, ?_⟩
  intro r hr s hs t ht
  have hq : offs esz (sortedOf o dof c) s + t < (colIndOf (sortedOf o dof c)).length := by
    rw [colIndOf_length]
    have := offs_le esz (sortedOf o dof c) s hs; omega
  -- every Jacobian corresponds to an entry
  have hent : ∀ (i : Nat) (J : Jac R) (p : Nat), c.jacs[i]? = some J →
      ((List.range c.vars.length).map (pointerOf (sortedOf o dof c)))[0 + i]? = some p →
      ∃ s' ∈ sortedOf o dof c, s'.2.2 = i ∧ p = offs esz (sortedOf o dof c) s' ∧ J.cols = esz s' := by
    intro i J p hJ hp
    have hi : i < c.vars.length := by rw [hf.length_eq]; exact (List.getElem?_eq_some_iff.1 hJ).1
    have hv : c.vars[i]? = some c.vars[i] := List.getElem?_eq_getElem hi
    have hen := entriesFrom_get o dof c.vars 0 i _ hv
    rw [Nat.zero_add] at hen
    have hmem : (offs dof o.order c.vars[i], offs dof o.order c.vars[i] + dof c.vars[i], i) ∈ sortedOf o dof c :=
      (sorted_perm o dof c).mem_iff.2 (List.mem_of_getElem? hen)
    refine ⟨_, hmem, rfl, ?_, ?_⟩
    · rw [← pointerOf_eq _ (sorted_idx_nodup o dof c) hmem]
      simp [hi] at hp
      exact hp.symm
    · have : J.cols = dof c.vars[i] := by
        have h1 := List.forall₂_iff_get.1 hf
        have h2 := h1.2 i hi (by rw [← hf.length_eq]; exact hi)
        have h3 : c.jacs.get ⟨i, by rw [← hf.length_eq]; exact hi⟩ = J := by
          have := (List.getElem?_eq_some_iff.1 hJ).2
          simpa using this
        rw [h3] at h2
        simpa using h2
      rw [this]; simp [esz]
  -- the Jacobian of the entry
  obtain ⟨i, v, hv, hse⟩ := mem_entriesFrom o dof c.vars 0 s ((sorted_perm o dof c).mem_iff.1 hs)
  have hidx : s.2.2 = i := by rw [hse]; simp
  have hi : i < c.vars.length := (List.getElem?_eq_some_iff.1 hv).1
  have hij : i < c.jacs.length := by rw [← hf.length_eq]; exact hi
  have hJ : c.jacs[i]? = some c.jacs[i] := List.getElem?_eq_getElem hij
  have hp : ((List.range c.vars.length).map (pointerOf (sortedOf o dof c)))[0 + i]? =
      some (pointerOf (sortedOf o dof c) i) := by simp [hi]
  obtain ⟨s', hs', hi', hp', hcols⟩ := hent i _ _ hJ hp
  have hss : s' = s := List.inj_on_of_nodup_map (sorted_idx_nodup o dof c) hs' hs (by simp [hi', hidx])
  subst hss
  obtain ⟨f1, _⟩ := e3 r hr _ hq
  have := f1 i c.jacs[i] _ hJ hp (by omega) (by omega) (by
    intro i2 J2 p2 g1 g2 g3 g4
    obtain ⟨s2, hs2, hi2, hp2, hc2⟩ := hent i2 J2 p2 g1 g2
    by_cases e : s' = s2
    · rw [← hi2, ← e, hi']
    · exfalso
      have := offs_disj esz (sortedOf o dof c) s' s2 hs hs2 e
      omega)
  rw [this, hidx]
  unfold jacAt
  rw [hJ]
  simp only
  congr 1
  omega

/-- What the value loop leaves for the cost functions of a list. -/
theorem sparseLoop_spec [CommRing R] (o : Ordering) (dof : Var → Nat) (m : Csr) (cs : List (LCost R)) :
    ∀ (cdone : List (LCost R)) (A b : Nat → R),
    (∀ c ∈ cs, List.Forall₂ (fun v J => J.cols = dof v) c.vars c.jacs) →
    m = csrBefore o dof (cdone ++ cs) →
    ∃ A' b', sparseLoop m cdone.length (numRows cdone) cs (A, b) = .ok (A', b') ∧
      (∀ x, x < (csrBefore o dof cdone).colInd.length → A' x = A x) ∧
      (∀ i, i < numRows cdone → b' i = b i) ∧
      (∀ cpre c cpost, cs = cpre ++ c :: cpost → ∀ r < c.dim,
        b' (numRows (cdone ++ cpre) + r) = - c.err r ∧
        ∀ s ∈ sortedOf o dof c, ∀ t < esz s,
          A' ((csrBefore o dof (cdone ++ cpre)).colInd.length + r * (colIndOf (sortedOf o dof c)).length +
            (offs esz (sortedOf o dof c) s + t)) = jacAt c s.2.2 r t) := by
  induction cs with
  | nil =>
    intro cdone A b _ _
    exact ⟨A, b, rfl, fun _ _ => rfl, fun _ _ => rfl, by intro a c d h; simp at h⟩
  | cons c cs ih =>
    intro cdone A b hf hm
    have hext : Ext (csrBefore o dof (cdone ++ [c])) m := by
      have := ext_foldl o dof cs (csrBefore o dof (cdone ++ [c]))
      have e : cs.foldl (csrNext o dof) (csrBefore o dof (cdone ++ [c])) = m := by
        rw [hm]; simp [csrBefore]
      rw [e] at this; exact this
    obtain ⟨_, _, s3, s4, s5, s6⟩ := structure_rows o dof cdone c m hext
    obtain ⟨A1, a1, a2, a3⟩ := block_values o dof c (hf c List.mem_cons_self) (csrBefore o dof cdone).colInd.length A
    obtain ⟨A', b', g1, g2, g3, g4⟩ := ih (cdone ++ [c]) A1
      (writeSlice b (numRows cdone) c.dim (fun r => - c.err r))
      (fun x hx => hf x (List.mem_cons_of_mem _ hx)) (by rw [hm]; simp)
    have hnr : numRows (cdone ++ [c]) = numRows cdone + c.dim := by simp [numRows]
    unfold sparseLoop
    simp only [s3, s4, s5, a1]
    rw [List.length_append, List.length_singleton, hnr] at g1
    refine ⟨A', b', g1, ?_, ?_, ?_⟩
    · intro x hx
      rw [g2 x (by rw [s6]; omega), a2 x (Or.inl hx)]
    · intro i hi
      rw [g3 i (by omega)]
      unfold writeSlice
      rw [if_neg (by omega)]
    · intro cpre x cpost e r hr
      cases cpre with
      | nil =>
        simp only [List.nil_append, List.cons.injEq] at e
        obtain ⟨rfl, rfl⟩ := e
        rw [List.append_nil]
        refine ⟨?_, ?_⟩
        · rw [g3 _ (by omega)]
          unfold writeSlice
          rw [if_pos (by omega)]
          congr 2; omega
        · intro s hs t ht
          rw [g2 _ ?_, a3 r hr s hs t ht]
          rw [s6]
          have h1 : offs esz (sortedOf o dof c) s + t < (colIndOf (sortedOf o dof c)).length := by
            rw [colIndOf_length]
            have := offs_le esz (sortedOf o dof c) s hs; omega
          have h2 : (r + 1) * (colIndOf (sortedOf o dof c)).length ≤ c.dim * (colIndOf (sortedOf o dof c)).length :=
            Nat.mul_le_mul_right _ hr
          rw [Nat.add_mul, Nat.one_mul] at h2
          omega
      | cons y cpre =>
        simp only [List.cons_append, List.cons.injEq] at e
        obtain ⟨rfl, rfl⟩ := e
        have := g4 cpre x cpost rfl r hr
        simpa using this

/-! ### The denoted matrix -/

theorem denote_row [CommRing R] (o : Ordering) (dof : Var → Nat) (m : Csr) (cpre : List (LCost R)) (c : LCost R)
    (hext : Ext (csrBefore o dof (cpre ++ [c])) m) (A : Nat → R) (r : Nat) (hr : r < c.dim)
    (hA : ∀ s ∈ sortedOf o dof c, ∀ t < esz s,
          A ((csrBefore o dof cpre).colInd.length + r * (colIndOf (sortedOf o dof c)).length +
            (offs esz (sortedOf o dof c) s + t)) = jacAt c s.2.2 r t) (j : Nat) :
    denote m.rowPtr m.colInd A (numRows cpre + r) j =
      ((entriesFrom o dof 0 c.vars).map fun s =>
        ∑ t ∈ Finset.range (esz s), if s.1 + t = j then jacAt c s.2.2 r t else 0).sum := by
  obtain ⟨s1, s2, _⟩ := structure_rows o dof cpre c m hext
  unfold denote
  rw [show numRows cpre + r + 1 = numRows cpre + (r + 1) by omega, s1 r (by omega), s1 (r + 1) (by omega)]
  rw [Finset.sum_Ico_eq_sum_range]
  rw [show (csrBefore o dof cpre).colInd.length + (r + 1) * (colIndOf (sortedOf o dof c)).length -
    ((csrBefore o dof cpre).colInd.length + r * (colIndOf (sortedOf o dof c)).length) =
      ((sortedOf o dof c).map esz).sum by rw [← colIndOf_length, Nat.add_mul, Nat.one_mul]; omega]
  rw [sum_offs esz _ (sorted_nodup o dof c)]
  rw [← ((sorted_perm o dof c).map _).sum_eq]
  congr 1
  apply List.map_congr_left
  intro s hs
  apply Finset.sum_congr rfl
  intro t ht
  have ht' := Finset.mem_range.1 ht
  have hq : offs esz (sortedOf o dof c) s + t < (colIndOf (sortedOf o dof c)).length := by
    rw [colIndOf_length]
    have := offs_le esz (sortedOf o dof c) s hs; omega
  have h2 := s2 r hr _ hq
  rw [colIndOf_get _ hs t ht'] at h2
  rw [at'_of_get h2, hA s hs t ht']

theorem entries_sum [CommRing R] (o : Ordering) (dof : Var → Nat) (c : LCost R) (r j : Nat) :
    ∀ (vs : List Var) (Js : List (Jac R)) (k : Nat), (∀ i J, Js[i]? = some J → c.jacs[k + i]? = some J) →
    List.Forall₂ (fun v J => J.cols = dof v) vs Js →
    ((entriesFrom o dof k vs).map fun s =>
        ∑ t ∈ Finset.range (esz s), if s.1 + t = j then jacAt c s.2.2 r t else 0).sum =
    ((vs.zip Js).map fun p => ∑ t ∈ Finset.range (dof p.1), if offs dof o.order p.1 + t = j then p.2.val r t else 0).sum := by
  intro vs
  induction vs with
  | nil => intro Js k _ hf; cases hf; simp [entriesFrom]
  | cons v vs ih =>
    intro Js k hk hf
    cases hf with
    | @cons _ J _ Js hJ hf =>
    simp only [entriesFrom, List.map_cons, List.sum_cons, List.zip_cons_cons]
    rw [ih Js (k + 1) (fun i J' h => by rw [← hk (i + 1) J' (by simpa using h)]; congr 1; omega) hf]
    congr 1
    have hj : c.jacs[k]? = some J := by simpa using hk 0 J rfl
    apply Finset.sum_congr (by simp [esz])
    intro t _
    simp [jacAt, hj]

theorem pairs_sum [CommRing R] (o : Ordering) (dof : Var → Nat) (r : Nat) (v : Var) (hv : v ∈ o.order)
    (t : Nat) (ht : t < dof v) (l : List (Var × Jac R)) (hl : ∀ p ∈ l, p.1 ∈ o.order) :
    (l.map fun p => ∑ u ∈ Finset.range (dof p.1), if offs dof o.order p.1 + u = offs dof o.order v + t
      then p.2.val r u else 0).sum = (l.map fun p => if p.1 = v then p.2.val r t else 0).sum := by
  congr 1
  apply List.map_congr_left
  intro p hp
  by_cases e : p.1 = v
  · rw [if_pos e, e, Finset.sum_eq_single t]
    · simp
    · intro u _ hu; rw [if_neg (by omega)]
    · intro h; exact absurd (Finset.mem_range.2 ht) h
  · rw [if_neg e]
    apply Finset.sum_eq_zero
    intro u hu
    have := Finset.mem_range.1 hu
    have := offs_disj dof o.order p.1 v (hl p hp) hv e
    rw [if_neg (by omega)]

theorem pairs_entry [CommRing R] (c : LCost R) (hn : c.vars.Nodup) (r : Nat) (v : Var) (t : Nat) :
    ((c.vars.zip c.jacs).map fun p => if p.1 = v then p.2.val r t else 0).sum = entry c r v t := by
  unfold entry LCost.jacOf
  generalize c.jacs = Js
  revert hn
  generalize c.vars = vs
  intro hn
  induction vs generalizing Js with
  | nil => simp
  | cons w vs ih =>
    cases Js with
    | nil => simp
    | cons J Js =>
      simp only [List.nodup_cons] at hn
      simp only [List.zip_cons_cons, List.map_cons, List.sum_cons, List.find?_cons]
      rw [ih Js hn.2]
      by_cases e : w = v
      · subst e
        have hnone : (vs.zip Js).find? (fun p => decide (p.1 = w)) = none := by
          rw [List.find?_eq_none]
          intro p hp
          simp only [decide_eq_true_eq]
          rintro rfl
          exact hn.1 (List.of_mem_zip (show (p.1, p.2) ∈ _ from hp)).1
        rw [hnone]; simp
      · simp [e]

end Verif.Linear
