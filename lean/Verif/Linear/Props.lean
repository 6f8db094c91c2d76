import Verif.Linear.Sparse
import Verif.Linear.Ordering
import Mathlib.Algebra.Order.BigOperators.Group.List
/-!
# Properties of dense and sparse linearization (C24, C25, C26)

`Consistent o` says that `index_of` returns positions, which holds of every ordering built without
`remove` (`index_of_is_position_partial`).
-/
namespace Verif.Linear
open Verif Verif.Objective Verif.Update
open scoped BigOperators

variable {R : Type}

/-- The orderings for which the results of this file apply: every ordering, default or not, built by
`append` and `extend`. -/
theorem consistent_of_history (dt : Nat) (hist : List Call) (hok : Succeeds (init dt false) hist)
    (d : Bool) (cs : List OCall) (hr : NoRemove cs) :
    Consistent ((mkOrdering (run (init dt false) hist) d).run (run (init dt false) hist) cs) :=
  fun n i => index_of_is_position_partial dt hist hok d cs hr n i

/-- The ordering of a single variable. -/
theorem consistent_single (x : Var) : Consistent ⟨[x], [(x.name, 0)]⟩ := by
  intro n i
  by_cases e : x.name = n
  · subst e
    cases i with
    | zero => simp [Ordering.indexOf, Dict.get?]
    | succ i => simp [Ordering.indexOf, Dict.get?]
  · constructor
    · intro h; simp [Ordering.indexOf, Dict.get?, e] at h
    · rintro ⟨v, h, rfl⟩
      cases i with
      | zero => simp at h; subst h; exact absurd rfl e
      | succ i => simp at h

/-! ### C24 -/

/-- C24: dense linearization succeeds; for row `r` of cost function `c` (its rows start after the rows
of the cost functions before it), `b` holds minus the weighted error, and in the columns of each
variable `A` holds the weighted Jacobian of `c` for that variable, or zero. -/
theorem dense_blocks [CommRing R] (o : Ordering) (h : Consistent o) (dof : Var → Nat) (cs : List (LCost R))
    (hg : ∀ c ∈ cs, GoodCost dof o.order c) :
    ∃ d, dense o (layout dof o.order) cs = .ok d ∧
      ∀ cpre c cpost, cs = cpre ++ c :: cpost → ∀ r < c.dim,
        d.b (numRows cpre + r) = - c.err r ∧
        ∀ pre v post, o.order = pre ++ v :: post → ∀ t < dof v,
          d.A (numRows cpre + r) ((pre.map dof).sum + t) = entry c r v t := by
  obtain ⟨d, h1, _, h3⟩ := denseLoop_spec h dof cs ⟨fun _ _ => 0, fun _ => 0, 0, none⟩ hg (fun _ _ _ => rfl)
  refine ⟨d, h1, ?_⟩
  intro cpre c cpost e r hr
  obtain ⟨a1, a2⟩ := h3 cpre c cpost e r hr
  simp only [Nat.zero_add] at a1 a2
  refine ⟨a1, ?_⟩
  intro pre v post eo t ht
  have hnd := h.nodup
  have hnot : v ∉ pre := by
    rw [eo] at hnd
    intro hm
    exact (List.nodup_append.1 hnd).2.2 v hm v List.mem_cons_self rfl
  rw [← offs_append dof pre v post hnot, ← eo]
  exact a2 v (by rw [eo]; simp) t ht

/-- C24: the Hessian block of two variables is the sum over cost functions of `Jᵥᵀ J_w`, and the gradient
block of a variable is minus the sum of `Jᵥᵀ e`. -/
theorem hessian_blocks [CommRing R] (o : Ordering) (h : Consistent o) (dof : Var → Nat) (cs : List (LCost R))
    (hg : ∀ c ∈ cs, GoodCost dof o.order c) (d : Dense R) (hd : dense o (layout dof o.order) cs = .ok d)
    (pre : List Var) (v : Var) (post : List Var) (hv : o.order = pre ++ v :: post)
    (pre' : List Var) (w : Var) (post' : List Var) (hw : o.order = pre' ++ w :: post')
    (t : Nat) (ht : t < dof v) (u : Nat) (hu : u < dof w) :
    ata (numRows cs) d.A ((pre.map dof).sum + t) ((pre'.map dof).sum + u) =
      (cs.map fun c => ∑ r ∈ Finset.range c.dim, entry c r v t * entry c r w u).sum ∧
    atb (numRows cs) d.A d.b ((pre.map dof).sum + t) =
      (cs.map fun c => ∑ r ∈ Finset.range c.dim, entry c r v t * - c.err r).sum := by
  obtain ⟨d', h1, h2⟩ := dense_blocks o h dof cs hg
  rw [hd] at h1
  cases h1
  constructor
  · apply sum_rows cs _ (fun c r => entry c r v t * entry c r w u)
    intro cpre c cpost e r hr
    obtain ⟨_, a⟩ := h2 cpre c cpost e r hr
    rw [a pre v post hv t ht, a pre' w post' hw u hu]
  · apply sum_rows cs _ (fun c r => entry c r v t * - c.err r)
    intro cpre c cpost e r hr
    obtain ⟨b, a⟩ := h2 cpre c cpost e r hr
    rw [a pre v post hv t ht, b]

/-- C24 needs each cost function to have an optimization variable: with none, the first one raises
(`UnboundLocalError`), and a later one overwrites the rows of `b` of the cost function before it. -/
theorem dense_no_variable_wrong : ∃ (o : Ordering) (dof : Var → Nat) (c z : LCost ℤ), Consistent o ∧
    GoodCost dof o.order c ∧ z.vars = [] ∧ z.jacs = [] ∧
    dense o (layout dof o.order) [z] = .error .unboundLocal ∧
    ∃ d, dense o (layout dof o.order) [c, z] = .ok d ∧ d.b 0 ≠ - c.err 0 ∧ d.b 1 ≠ - z.err 0 := by
  let x : Var := { id := 1, name := 1 }
  let c : LCost ℤ := ⟨1, [x], [⟨1, fun _ _ => 7⟩], fun _ => 3⟩
  let z : LCost ℤ := ⟨1, [], [], fun _ => 5⟩
  exact ⟨⟨[x], [(1, 0)]⟩, fun _ => 1, c, z, consistent_single x,
    ⟨by decide, by decide, by decide, .cons rfl .nil⟩, rfl, rfl, rfl, _, rfl, by decide, by decide⟩

/-! ### C25 -/

/-- The sparse structure can be built. -/
theorem csr_ok {o : Ordering} (h : Consistent o) (dof : Var → Nat) (cs : List (LCost R))
    (hm : ∀ c ∈ cs, ∀ v ∈ c.vars, v ∈ o.order) :
    csr o (layout dof o.order) dof cs = .ok (csrBefore o dof cs) := csrLoop_eq h dof cs _ hm

/-- C25, entries: whatever the uninitialised buffers contain, entry (row `r` of `c`, component `t` of
`v`) of the denoted matrix is the sum of the Jacobians of `c` for the occurrences of `v` among its
variables, and `b` holds minus the weighted errors. -/
theorem sparse_blocks [CommRing R] (o : Ordering) (h : Consistent o) (dof : Var → Nat) (cs : List (LCost R))
    (hm : ∀ c ∈ cs, ∀ v ∈ c.vars, v ∈ o.order)
    (hj : ∀ c ∈ cs, List.Forall₂ (fun v J => J.cols = dof v) c.vars c.jacs) (junkA junkB : Nat → R) :
    ∃ m A b, csr o (layout dof o.order) dof cs = .ok m ∧ sparse m cs junkA junkB = .ok (A, b) ∧
      ∀ cpre c cpost, cs = cpre ++ c :: cpost → ∀ r < c.dim,
        b (numRows cpre + r) = - c.err r ∧
        ∀ pre v post, o.order = pre ++ v :: post → ∀ t < dof v,
          denote m.rowPtr m.colInd A (numRows cpre + r) ((pre.map dof).sum + t) =
            ((c.vars.zip c.jacs).map fun p => if p.1 = v then p.2.val r t else 0).sum := by
  obtain ⟨A, b, e1, _, _, e4⟩ := sparseLoop_spec o dof (csrBefore o dof cs) cs [] junkA junkB hj rfl
  refine ⟨_, A, b, csr_ok h dof cs hm, e1, ?_⟩
  intro cpre c cpost e r hr
  obtain ⟨a1, a2⟩ := e4 cpre c cpost e r hr
  simp only [List.nil_append] at a1 a2
  refine ⟨a1, ?_⟩
  intro pre v post eo t ht
  have hnot : v ∉ pre := by
    have hnd := h.nodup
    rw [eo] at hnd
    intro hm
    exact (List.nodup_append.1 hnd).2.2 v hm v List.mem_cons_self rfl
  have hc : c ∈ cs := by rw [e]; simp
  have hext : Ext (csrBefore o dof (cpre ++ [c])) (csrBefore o dof cs) := by
    have := ext_foldl o dof cpost (csrBefore o dof (cpre ++ [c]))
    have e' : cpost.foldl (csrNext o dof) (csrBefore o dof (cpre ++ [c])) = csrBefore o dof cs := by
      rw [e]; simp [csrBefore]
    rw [e'] at this; exact this
  rw [denote_row o dof _ cpre c hext A r hr a2, entries_sum o dof c r _ c.vars c.jacs 0 (by simp) (hj c hc),
    ← offs_append dof pre v post hnot, ← eo,
    pairs_sum o dof r v (by rw [eo]; simp) t ht _ (fun p hp => hm c hc _ (List.of_mem_zip (show (p.1, p.2) ∈ _ from hp)).1)]

theorem exists_row (cs : List (LCost R)) (i : Nat) (hi : i < numRows cs) :
    ∃ cpre c cpost, cs = cpre ++ c :: cpost ∧ ∃ r, r < c.dim ∧ i = numRows cpre + r := by
  induction cs generalizing i with
  | nil => simp [numRows] at hi
  | cons c cs ih =>
    by_cases h : i < c.dim
    · exact ⟨[], c, cs, rfl, i, h, by simp [numRows]⟩
    · have e : numRows (c :: cs) = c.dim + numRows cs := by simp [numRows]
      obtain ⟨a, x, b, e1, r, hr, e2⟩ := ih (i - c.dim) (by omega)
      refine ⟨c :: a, x, b, by simp [e1], r, hr, ?_⟩
      simp only [numRows, List.map_cons, List.sum_cons] at e2 ⊢
      omega

theorem exists_col (dof : Var → Nat) (order : List Var) (j : Nat) (hj : j < (order.map dof).sum) :
    ∃ pre v post, order = pre ++ v :: post ∧ ∃ t, t < dof v ∧ j = (pre.map dof).sum + t := by
  induction order generalizing j with
  | nil => simp at hj
  | cons v vs ih =>
    by_cases h : j < dof v
    · exact ⟨[], v, vs, rfl, j, h, by simp⟩
    · simp only [List.map_cons, List.sum_cons] at hj
      obtain ⟨a, x, b, e1, r, hr, e2⟩ := ih (j - dof v) (by omega)
      refine ⟨v :: a, x, b, by simp [e1], r, hr, ?_⟩
      simp only [List.map_cons, List.sum_cons]; omega

/-- C25: sparse and dense linearization represent the same system: the same matrix entry by entry and the
same right-hand side, whatever the uninitialised buffers of the sparse one contained. -/
theorem sparse_eq_dense [CommRing R] (o : Ordering) (h : Consistent o) (dof : Var → Nat) (cs : List (LCost R))
    (hg : ∀ c ∈ cs, GoodCost dof o.order c) (junkA junkB : Nat → R) :
    ∃ d m A b, dense o (layout dof o.order) cs = .ok d ∧ csr o (layout dof o.order) dof cs = .ok m ∧
      sparse m cs junkA junkB = .ok (A, b) ∧
      ∀ i < numRows cs, b i = d.b i ∧
        ∀ j < (layout dof o.order).numCols, denote m.rowPtr m.colInd A i j = d.A i j := by
  obtain ⟨d, d1, d2⟩ := dense_blocks o h dof cs hg
  obtain ⟨m, A, b, m1, m2, m3⟩ := sparse_blocks o h dof cs (fun c hc => (hg c hc).mem) (fun c hc => (hg c hc).jacs) junkA junkB
  refine ⟨d, m, A, b, d1, m1, m2, ?_⟩
  intro i hi
  obtain ⟨cpre, c, cpost, e, r, hr, rfl⟩ := exists_row cs i hi
  obtain ⟨a1, a2⟩ := d2 cpre c cpost e r hr
  obtain ⟨b1, b2⟩ := m3 cpre c cpost e r hr
  refine ⟨b1.trans a1.symm, ?_⟩
  intro j hj
  rw [(columns_of_variable dof o.order).2] at hj
  obtain ⟨pre, v, post, eo, t, ht, rfl⟩ := exists_col dof o.order j hj
  rw [a2 pre v post eo t ht, b2 pre v post eo t ht, pairs_entry c (hg c (by rw [e]; simp)).nodup]

theorem colInd_range (o : Ordering) (dof : Var → Nat) (cs : List (LCost R))
    (hm : ∀ c ∈ cs, ∀ v ∈ c.vars, v ∈ o.order) :
    ∀ x ∈ (csrBefore o dof cs).colInd, x < (o.order.map dof).sum := by
  unfold csrBefore
  have : ∀ (cs : List (LCost R)) (m : Csr), (∀ c ∈ cs, ∀ v ∈ c.vars, v ∈ o.order) →
      (∀ x ∈ m.colInd, x < (o.order.map dof).sum) →
      ∀ x ∈ (cs.foldl (csrNext o dof) m).colInd, x < (o.order.map dof).sum := by
    intro cs
    induction cs with
    | nil => intro m _ h; exact h
    | cons c cs ih =>
      intro m hm h
      refine ih _ (fun x hx => hm x (List.mem_cons_of_mem _ hx)) ?_
      intro x hx
      simp only [csrNext, List.mem_append, List.mem_flatten, List.mem_replicate] at hx
      rcases hx with hx | ⟨l, ⟨_, rfl⟩, hx⟩
      · exact h x hx
      · simp only [colIndOf, List.mem_flatten, List.mem_map] at hx
        obtain ⟨l, ⟨s, hs, rfl⟩, hx⟩ := hx
        simp only [List.mem_map, List.mem_range] at hx
        obtain ⟨a, ha, rfl⟩ := hx
        obtain ⟨i, v, hv, e⟩ := mem_entriesFrom o dof c.vars 0 s ((sorted_perm o dof c).mem_iff.1 hs)
        have := offs_le dof o.order v (hm c List.mem_cons_self v (List.mem_of_getElem? hv))
        rw [e] at ha ⊢
        simp only at ha ⊢
        omega
  exact this cs _ hm (by simp)

/-- C25: the CSR arrays are well formed: row pointers start at zero, never decrease and end at the number
of stored entries; column indices are below the number of columns. -/
theorem csr_wellFormed (o : Ordering) (h : Consistent o) (dof : Var → Nat) (cs : List (LCost R))
    (hm : ∀ c ∈ cs, ∀ v ∈ c.vars, v ∈ o.order) :
    ∃ m, csr o (layout dof o.order) dof cs = .ok m ∧
      WellFormed m.rowPtr m.colInd (numRows cs) (layout dof o.order).numCols := by
  refine ⟨_, csr_ok h dof cs hm, ?_⟩
  have hi := cinv_before o dof cs
  refine ⟨hi.rp, ?_, ?_, hi.last, ?_⟩
  · exact at'_of_get (prefix_get (ext_foldl o dof cs ⟨[], [0], [], [], []⟩).rowPtr rfl)
  · intro i hlt
    obtain ⟨cpre, c, cpost, e, r, hr, rfl⟩ := exists_row cs i hlt
    have hext : Ext (csrBefore o dof (cpre ++ [c])) (csrBefore o dof cs) := by
      have := ext_foldl o dof cpost (csrBefore o dof (cpre ++ [c]))
      have e' : cpost.foldl (csrNext o dof) (csrBefore o dof (cpre ++ [c])) = csrBefore o dof cs := by
        rw [e]; simp [csrBefore]
      rw [e'] at this; exact this
    obtain ⟨s1, _⟩ := structure_rows o dof cpre c _ hext
    rw [Nat.add_assoc, s1 r (by omega), s1 (r + 1) (by omega)]
    have := Nat.mul_le_mul_right (colIndOf (sortedOf o dof c)).length (show r ≤ r + 1 by omega)
    omega
  · rw [(columns_of_variable dof o.order).2]
    exact colInd_range o dof cs hm

theorem exists_offs {α : Type} [DecidableEq α] (sz : α → Nat) (l : List α) (hn : l.Nodup) (q : Nat)
    (hq : q < (l.map sz).sum) : ∃ s ∈ l, ∃ t, t < sz s ∧ q = offs sz l s + t := by
  induction l generalizing q with
  | nil => simp at hq
  | cons x l ih =>
    simp only [List.nodup_cons] at hn
    simp only [List.map_cons, List.sum_cons] at hq
    by_cases h : q < sz x
    · exact ⟨x, List.mem_cons_self, q, h, by simp [offs]⟩
    · obtain ⟨s, hs, t, ht, e⟩ := ih hn.2 (q - sz x) (by omega)
      refine ⟨s, List.mem_cons_of_mem _ hs, t, ht, ?_⟩
      simp only [offs]
      rw [if_neg (fun e : x = s => hn.1 (by rw [e]; exact hs))]
      omega

/-- C25/C26: if every cost function lists each variable once, no column is stored twice in a row. -/
theorem csr_noDup (o : Ordering) (h : Consistent o) (dof : Var → Nat) (cs : List (LCost R))
    (hm : ∀ c ∈ cs, ∀ v ∈ c.vars, v ∈ o.order) (hn : ∀ c ∈ cs, c.vars.Nodup) :
    ∃ m, csr o (layout dof o.order) dof cs = .ok m ∧ NoDupCols m.rowPtr m.colInd (numRows cs) := by
  refine ⟨_, csr_ok h dof cs hm, ?_⟩
  intro i hlt p q hp1 hp2 hq1 hq2 heq
  obtain ⟨cpre, c, cpost, e, r, hr, rfl⟩ := exists_row cs i hlt
  have hc : c ∈ cs := by rw [e]; simp
  have hext : Ext (csrBefore o dof (cpre ++ [c])) (csrBefore o dof cs) := by
    have := ext_foldl o dof cpost (csrBefore o dof (cpre ++ [c]))
    have e' : cpost.foldl (csrNext o dof) (csrBefore o dof (cpre ++ [c])) = csrBefore o dof cs := by
      rw [e]; simp [csrBefore]
    rw [e'] at this; exact this
  obtain ⟨s1, s2, _⟩ := structure_rows o dof cpre c _ hext
  rw [s1 r (by omega)] at hp1 hq1
  rw [Nat.add_assoc, s1 (r + 1) (by omega)] at hp2 hq2
  rw [Nat.add_mul, Nat.one_mul] at hp2 hq2
  obtain ⟨a, rfl⟩ := Nat.exists_eq_add_of_le hp1
  obtain ⟨b, rfl⟩ := Nat.exists_eq_add_of_le hq1
  have ha : a < (colIndOf (sortedOf o dof c)).length := by omega
  have hb : b < (colIndOf (sortedOf o dof c)).length := by omega
  have ga := s2 r hr a ha
  have gb := s2 r hr b hb
  rw [colIndOf_length] at ha hb
  obtain ⟨sa, hsa, ta, hta, ea⟩ := exists_offs esz _ (sorted_nodup o dof c) a ha
  obtain ⟨sb, hsb, tb, htb, eb⟩ := exists_offs esz _ (sorted_nodup o dof c) b hb
  rw [ea, colIndOf_get _ hsa ta hta, ← ea] at ga
  rw [eb, colIndOf_get _ hsb tb htb, ← eb] at gb
  rw [at'_of_get ga, at'_of_get gb] at heq
  obtain ⟨ia, va, hva, ea'⟩ := mem_entriesFrom o dof c.vars 0 sa ((sorted_perm o dof c).mem_iff.1 hsa)
  obtain ⟨ib, vb, hvb, eb'⟩ := mem_entriesFrom o dof c.vars 0 sb ((sorted_perm o dof c).mem_iff.1 hsb)
  by_cases hvv : va = vb
  · subst hvv
    have hia := (List.getElem?_eq_some_iff.1 hva).1
    have : ia = ib := by
      by_contra hne
      exact hne ((List.getElem?_inj hia (hn c hc)).1 (hva.trans hvb.symm))
    subst this
    rw [← eb'] at ea'
    subst ea'
    omega
  · exfalso
    have := offs_disj dof o.order va vb (hm c hc _ (List.mem_of_getElem? hva)) (hm c hc _ (List.mem_of_getElem? hvb)) hvv
    simp only [ea', eb', esz] at hta htb heq
    omega

/-- C25 fails without "once": if a cost function lists a variable twice, dense linearization keeps the last
Jacobian, while the sparse one denotes their sum (`sparse_blocks`). -/
theorem dense_keeps_last : ∃ (o : Ordering) (dof : Var → Nat) (c : LCost ℤ) (x : Var), Consistent o ∧
    c.vars = [x, x] ∧ List.Forall₂ (fun v J => J.cols = dof v) c.vars c.jacs ∧
    ∃ d, dense o (layout dof o.order) [c] = .ok d ∧
      d.A 0 0 ≠ ((c.vars.zip c.jacs).map fun p => if p.1 = x then p.2.val 0 0 else 0).sum := by
  let x : Var := { id := 1, name := 1 }
  let c : LCost ℤ := ⟨1, [x, x], [⟨1, fun _ _ => 7⟩, ⟨1, fun _ _ => 2⟩], fun _ => 3⟩
  exact ⟨⟨[x], [(1, 0)]⟩, fun _ => 1, c, x, consistent_single x, rfl, .cons rfl (.cons rfl .nil),
    _, rfl, by decide⟩

/-! ### C26 -/

theorem WellFormed.le {rowPtr colInd : List Nat} {nr nc : Nat} (h : WellFormed rowPtr colInd nr nc) :
    ∀ i, i ≤ nr → at' rowPtr i ≤ colInd.length := by
  intro i hi
  rw [← h.last]
  induction hi with
  | refl => exact Nat.le_refl _
  | @step m hm ih =>
    have hm' := Nat.le_of_succ_le (Nat.le_refl (m + 1))
    clear ih
    have : ∀ k, i + k ≤ m + 1 → at' rowPtr i ≤ at' rowPtr (i + k) := by
      intro k
      induction k with
      | zero => intro _; exact Nat.le_refl _
      | succ k ih =>
        intro hk
        exact Nat.le_trans (ih (by omega)) (h.mono (i + k) (by omega))
    have := this (m + 1 - i) (by simp at hm; omega)
    rwa [show i + (m + 1 - i) = m + 1 by simp at hm; omega] at this

/-- C26: the CSR product is the product with the denoted matrix. -/
theorem matVec_eq [CommRing R] (rowPtr colInd : List Nat) (nr nc : Nat) (h : WellFormed rowPtr colInd nr nc)
    (val v : Nat → R) (i : Nat) (hi : i < nr) :
    matVec rowPtr colInd val v i = ∑ j ∈ Finset.range nc, denote rowPtr colInd val i j * v j := by
  unfold matVec denote
  simp only [Finset.sum_mul]
  rw [Finset.sum_comm]
  apply Finset.sum_congr rfl
  intro p hp
  have hp' := Finset.mem_Ico.1 hp
  have hlen : p < colInd.length := Nat.lt_of_lt_of_le hp'.2 (h.le (i + 1) hi)
  have hc : at' colInd p < nc := by
    apply h.range
    unfold at'
    simp only [List.getD, List.getElem?_eq_getElem hlen, Option.getD_some]
    exact List.getElem_mem hlen
  rw [Finset.sum_eq_single (at' colInd p)]
  · simp
  · intro j _ hj; rw [if_neg (Ne.symm hj), zero_mul]
  · intro hj; exact absurd (Finset.mem_range.2 hc) hj

/-- C26: the transposed product is the product with the transpose of the denoted matrix. -/
theorem tmatVec_eq [CommRing R] (rowPtr colInd : List Nat) (nr nc : Nat) (h : WellFormed rowPtr colInd nr nc)
    (val v : Nat → R) (j : Nat) :
    tmatVec rowPtr colInd val v j = ∑ i ∈ Finset.range nr, denote rowPtr colInd val i j * v i := by
  unfold tmatVec denote
  rw [h.len, Nat.add_sub_cancel]
  apply Finset.sum_congr rfl
  intro i _
  rw [Finset.sum_mul]
  apply Finset.sum_congr rfl
  intro p _
  split <;> simp

theorem indexAdd_nodup [CommRing R] (D : Nat → R) (l : List (Nat × R)) (hn : (l.map Prod.fst).Nodup) (j : Nat) :
    indexAdd D l j = D j + (l.map fun c => if c.1 = j then c.2 else 0).sum := by
  have key : ∀ (l : List (Nat × R)) (E : Nat → R), (l.map Prod.fst).Nodup →
      l.foldl (fun E c => fun j => if j = c.1 then D j + c.2 else E j) E j =
        if j ∈ l.map Prod.fst then D j + (l.map fun c => if c.1 = j then c.2 else 0).sum else E j := by
    intro l
    induction l with
    | nil => intro E _; simp
    | cons c l ih =>
      intro E hn
      simp only [List.map_cons, List.nodup_cons] at hn
      simp only [List.foldl_cons]
      rw [ih _ hn.2]
      simp only [List.map_cons, List.mem_cons, List.sum_cons]
      by_cases h1 : j = c.1
      · subst h1
        rw [if_neg hn.1, if_pos rfl, if_pos (Or.inl rfl), if_pos rfl]
        have : (l.map fun d => if d.1 = c.1 then d.2 else 0).sum = 0 := by
          apply List.sum_eq_zero
          intro x hx
          obtain ⟨d, hd, rfl⟩ := List.mem_map.1 hx
          rw [if_neg]
          intro e
          exact hn.1 (List.mem_map.2 ⟨d, hd, e⟩)
        rw [this, add_zero]
      · by_cases h2 : j ∈ l.map Prod.fst
        · rw [if_pos h2, if_pos (Or.inr h2), if_neg (Ne.symm h1), zero_add]
        · rw [if_neg h2, if_neg h1, if_neg (by simp only [not_or]; exact ⟨h1, h2⟩)]
  unfold indexAdd
  rw [key l D hn]
  split
  · rfl
  · next h =>
    have : (l.map fun d => if d.1 = j then d.2 else 0).sum = 0 := by
      apply List.sum_eq_zero
      intro x hx
      obtain ⟨d, hd, rfl⟩ := List.mem_map.1 hx
      rw [if_neg]
      intro e
      exact h (List.mem_map.2 ⟨d, hd, e⟩)
    rw [this, add_zero]

/-- One row of an indexed addition. -/
theorem rowAdd_eq [CommRing R] (rowPtr colInd : List Nat) (D : Nat → R) (i : Nat) (F : Nat → R)
    (hn : ∀ p q, at' rowPtr i ≤ p → p < at' rowPtr (i + 1) → at' rowPtr i ≤ q →
      q < at' rowPtr (i + 1) → at' colInd p = at' colInd q → p = q) (j : Nat) :
    indexAdd D ((List.range' (at' rowPtr i) (at' rowPtr (i + 1) - at' rowPtr i)).map fun p =>
        (at' colInd p, F p)) j =
      D j + ∑ p ∈ Finset.Ico (at' rowPtr i) (at' rowPtr (i + 1)), if at' colInd p = j then F p else 0 := by
  rw [indexAdd_nodup]
  · congr 1
    rw [List.map_map]
    rw [Finset.sum_Ico_eq_sum_range, List.range'_eq_map_range, List.map_map]
    rw [← List.sum_toFinset _ (List.nodup_range)]
    congr 1
    ext; simp
  · rw [List.map_map]
    apply List.Nodup.map_on
    · intro p hp q hq e
      simp only [List.mem_range'_1] at hp hq
      exact hn p q hp.1 (by omega) hq.1 (by omega) e
    · exact List.nodup_range'

/-- C26: sparse diagonal scaling multiplies by the diagonal of `AᵀA`, if no column is stored twice in a
row (`csr_noDup`). -/
theorem diagonal_scaling_eq [CommRing R] (rowPtr colInd : List Nat) (nr : Nat)
    (hn : NoDupCols rowPtr colInd nr) (val v : Nat → R) (j : Nat) :
    sparseDiagScale nr rowPtr colInd val v j = denseDiagScale nr (denote rowPtr colInd val) v j := by
  unfold sparseDiagScale denseDiagScale ata
  rw [mul_comm (v j)]
  congr 1
  have key : ∀ n, n ≤ nr → diagLoop rowPtr colInd val n j =
      ∑ r ∈ Finset.range n, denote rowPtr colInd val r j * denote rowPtr colInd val r j := by
    intro n
    induction n with
    | zero => intro _; rfl
    | succ n ih =>
      intro hle
      rw [diagLoop, rowAdd_eq rowPtr colInd _ n (fun p => val p ^ 2) (hn n (by omega)), ih (by omega),
        Finset.sum_range_succ]
      congr 1
      by_cases hex : ∃ p, at' rowPtr n ≤ p ∧ p < at' rowPtr (n + 1) ∧ at' colInd p = j
      · obtain ⟨p, h1, h2, h3⟩ := hex
        have hsingle : ∀ G : Nat → R, ∑ q ∈ Finset.Ico (at' rowPtr n) (at' rowPtr (n + 1)), (if at' colInd q = j then G q else 0) = G p := by
          intro G
          rw [Finset.sum_eq_single p]
          · rw [if_pos h3]
          · intro q hq hne
            rw [if_neg]
            intro e
            have := Finset.mem_Ico.1 hq
            exact hne (hn n (by omega) q p this.1 this.2 h1 h2 (e.trans h3.symm))
          · intro h; exact absurd (Finset.mem_Ico.2 ⟨h1, h2⟩) h
        unfold denote
        rw [hsingle, hsingle, pow_two]
      · have hzero : ∀ G : Nat → R, ∑ q ∈ Finset.Ico (at' rowPtr n) (at' rowPtr (n + 1)), (if at' colInd q = j then G q else 0) = 0 := by
          intro G
          apply Finset.sum_eq_zero
          intro q hq
          have := Finset.mem_Ico.1 hq
          rw [if_neg (fun e => hex ⟨q, this.1, this.2, e⟩)]
        unfold denote
        rw [hzero, hzero, mul_zero]
  exact key nr (Nat.le_refl _)

/-- C26 fails without that: with a column stored twice in a row, diagonal scaling is wrong. -/
theorem diagonal_scaling_dup_wrong : ∃ (rowPtr colInd : List Nat) (val : Nat → ℤ),
    WellFormed rowPtr colInd 1 1 ∧
    sparseDiagScale 1 rowPtr colInd val (fun _ => 1) 0 ≠
      denseDiagScale 1 (denote rowPtr colInd val) (fun _ => 1) 0 :=
  ⟨[0, 2], [0, 0], fun _ => 1, ⟨rfl, rfl, by decide, rfl, by decide⟩, by decide⟩

/-- C26, backward of `sparse_mv` for the values: the returned gradient is that of `⟨g, A v⟩`, which is
linear in the stored values `dA`. -/
theorem mv_backward_values [CommRing R] (rowPtr colInd : List Nat) (nr : Nat) (dA v g : Nat → R) :
    ∑ i ∈ Finset.range nr, g i * matVec rowPtr colInd dA v i =
    ∑ i ∈ Finset.range nr, ∑ p ∈ Finset.Ico (at' rowPtr i) (at' rowPtr (i + 1)), mvGradA colInd v g i p * dA p := by
  apply Finset.sum_congr rfl
  intro i _
  unfold matVec mvGradA
  rw [Finset.mul_sum]
  apply Finset.sum_congr rfl
  intro p _; ring

/-- C26, backward of `sparse_mv` for the vector: the returned gradient is `Aᵀ g`. -/
theorem mv_backward_vector [CommRing R] (rowPtr colInd : List Nat) (nr : Nat)
    (hn : NoDupCols rowPtr colInd nr) (val g : Nat → R) (j : Nat) :
    mvGradV rowPtr colInd val g nr j = ∑ i ∈ Finset.range nr, denote rowPtr colInd val i j * g i := by
  have key : ∀ n, n ≤ nr → mvGradV rowPtr colInd val g n j =
      ∑ i ∈ Finset.range n, denote rowPtr colInd val i j * g i := by
    intro n
    induction n with
    | zero => intro _; rfl
    | succ n ih =>
      intro hle
      rw [mvGradV, rowAdd_eq rowPtr colInd _ n (fun p => g n * val p) (hn n (by omega)), ih (by omega),
        Finset.sum_range_succ]
      congr 1
      unfold denote
      rw [Finset.sum_mul]
      apply Finset.sum_congr rfl
      intro p _
      split
      · ring
      · simp
  exact key nr (Nat.le_refl _)

/-- C26, backward of `sparse_mtv`: gradients of `⟨g, Aᵀ v⟩` for the stored values and for the vector
(`A g`). -/
theorem mtv_backward [CommRing R] (rowPtr colInd : List Nat) (nr nc : Nat) (h : WellFormed rowPtr colInd nr nc)
    (dA v g : Nat → R) :
    (∑ j ∈ Finset.range nc, g j * tmatVec rowPtr colInd dA v j =
      ∑ i ∈ Finset.range nr, ∑ p ∈ Finset.Ico (at' rowPtr i) (at' rowPtr (i + 1)), mtvGradA colInd v g i p * dA p) ∧
    (∀ i < nr, mtvGradV rowPtr colInd dA g i = ∑ j ∈ Finset.range nc, denote rowPtr colInd dA i j * g j) := by
  have hv : ∀ i < nr, mtvGradV rowPtr colInd dA g i = ∑ j ∈ Finset.range nc, denote rowPtr colInd dA i j * g j := by
    intro i hi
    rw [← matVec_eq rowPtr colInd nr nc h dA g i hi]
    unfold mtvGradV matVec
    apply Finset.sum_congr rfl
    intro p _; ring
  refine ⟨?_, hv⟩
  simp only [tmatVec_eq rowPtr colInd nr nc h, Finset.mul_sum]
  rw [Finset.sum_comm]
  apply Finset.sum_congr rfl
  intro i hi
  have := hv i (Finset.mem_range.1 hi)
  calc ∑ j ∈ Finset.range nc, g j * (denote rowPtr colInd dA i j * v i)
      = v i * ∑ j ∈ Finset.range nc, denote rowPtr colInd dA i j * g j := by
        rw [Finset.mul_sum]; apply Finset.sum_congr rfl; intro j _; ring
    _ = _ := by
        rw [← this]
        unfold mtvGradV mtvGradA
        rw [Finset.mul_sum]; apply Finset.sum_congr rfl; intro p _; ring

/-! ### Non-vacuity -/

namespace Ex
/-- A three-dimensional variable. -/
def x : Var := { id := 1, name := 1 }
/-- A one-dimensional variable. -/
def y : Var := { id := 2, name := 2 }
/-- Degrees of freedom. -/
def dof (v : Var) : Nat := if v.name = 1 then 2 else 1
/-- The order `y`, `x`. -/
def o : Ordering := ⟨[y, x], [(2, 0), (1, 1)]⟩
/-- Cost function on `x`, `y` (in this order, which is not the column order). -/
def c1 : LCost ℤ := ⟨1, [x, y], [⟨2, fun _ t => 10 + t⟩, ⟨1, fun _ _ => 5⟩], fun _ => 3⟩
/-- Cost function on `y`. -/
def c2 : LCost ℤ := ⟨2, [y], [⟨1, fun r _ => 7 + r⟩], fun r => r⟩

example : GoodCost dof o.order c1 ∧ GoodCost dof o.order c2 :=
  ⟨⟨by decide, by decide, by decide, .cons rfl (.cons rfl .nil)⟩, ⟨by decide, by decide, by decide, .cons rfl .nil⟩⟩

example : (match dense o (layout dof o.order) [c1, c2] with
    | .ok d => [[d.A 0 0, d.A 0 1, d.A 0 2], [d.A 1 0, d.A 1 1, d.A 1 2], [d.A 2 0, d.A 2 1, d.A 2 2]]
    | .error _ => []) = [[5, 10, 11], [7, 0, 0], [8, 0, 0]] := by decide

example : WellFormed [0, 3, 4, 5] [0, 1, 2, 0, 0] 3 3 := ⟨rfl, rfl, by decide, rfl, by decide⟩
example : matVec [0, 3, 4, 5] [0, 1, 2, 0, 0] (fun p => (p : ℤ) + 1) (fun j => (j : ℤ)) 0 = 8 := by decide
end Ex

end Verif.Linear
