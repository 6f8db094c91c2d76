import Verif.Linear.Spec
import Verif.Update.Lemmas
import Mathlib.Data.List.Nodup
import Mathlib.Data.List.Infix
import Mathlib.Data.Finset.Card
/-!
# Properties of variable orderings (C22) and column layout (C23)

`s` is any objective built by successful calls.
-/
namespace Verif.Linear
open Verif Verif.Objective Verif.Update

/-- What holds of an ordering after any history. -/
structure OInv (s : State) (o : Ordering) : Prop where
  nodup : (o.order.map Var.name).Nodup
  keys : ∀ n, o.index.has n = true ↔ n ∈ o.order.map Var.name
  sub : ∀ v ∈ o.order, hasOptimVar s v.name = true

/-- Indices are positions. -/
def IdxOk (o : Ordering) : Prop := ∀ i v, o.order[i]? = some v → o.index.get? v.name = some i

theorem oinv_empty (s : State) : OInv s ⟨[], []⟩ ∧ IdxOk ⟨[], []⟩ :=
  ⟨⟨by simp, by simp [Dict.has, Dict.get?], by simp⟩, by intro i v h; simp at h⟩

theorem has_set {d : Dict Nat Nat} {k i n : Nat} :
    (d.set k i).has n = true ↔ n = k ∨ d.has n = true := by
  unfold Dict.has
  rw [Dict.get?_set]
  by_cases e : k = n
  · simp [e]
  · simp [e, Ne.symm e]

theorem append_inv {s : State} {o : Ordering} (h : OInv s o) (v : Var) :
    OInv s (o.append s v).1 ∧ (IdxOk o → IdxOk (o.append s v).1) := by
  unfold Ordering.append
  by_cases h1 : o.index.has v.name = true
  · rw [if_pos h1]; exact ⟨h, id⟩
  rw [if_neg h1]
  by_cases h2 : (!s.optimVars.has v.name) = true
  · rw [if_pos h2]; exact ⟨h, id⟩
  rw [if_neg h2]
  simp only [Bool.not_eq_true', Bool.not_eq_false] at h2
  have hn : v.name ∉ o.order.map Var.name := fun hm => h1 ((h.keys _).2 hm)
  constructor
  · refine ⟨?_, ?_, ?_⟩
    · simp only [List.map_append, List.map_cons, List.map_nil]
      rw [List.nodup_append]
      refine ⟨h.nodup, by simp, ?_⟩
      intro a ha b hb e
      simp only [List.mem_singleton] at hb
      subst hb; subst e; exact hn ha
    · intro n
      simp only [has_set, h.keys, List.map_append, List.map_cons, List.map_nil, List.mem_append,
        List.mem_singleton]
      exact Or.comm
    · intro u hu
      simp only [List.mem_append, List.mem_singleton] at hu
      rcases hu with hu | rfl
      · exact h.sub u hu
      · exact h2
  · intro hi i u hu
    simp only at hu ⊢
    rw [Dict.get?_set]
    rw [List.getElem?_append] at hu
    split at hu
    · have := List.mem_of_getElem? hu
      rw [if_neg (fun e => hn (by rw [e]; exact List.mem_map.2 ⟨u, this, rfl⟩))]
      exact hi i u hu
    · have : i = o.order.length := by
        have := (List.getElem?_eq_some_iff.1 hu).1
        simp at this; omega
      subst this
      simp at hu
      subst hu
      simp

theorem extend_inv {s : State} (vs : List Var) : ∀ {o : Ordering}, OInv s o →
    OInv s (o.extend s vs).1 ∧ (IdxOk o → IdxOk (o.extend s vs).1) := by
  induction vs with
  | nil => intro o h; exact ⟨h, id⟩
  | cons v vs ih =>
    intro o h
    have ha := append_inv h v
    unfold Ordering.extend
    cases hc : o.append s v with
    | mk o' e =>
      rw [hc] at ha
      cases e with
      | some e => exact ha
      | none =>
        have := ih ha.1
        exact ⟨this.1, fun hi => this.2 (ha.2 hi)⟩

theorem remove_inv {s : State} {o : Ordering} (h : OInv s o) (v : Var) : OInv s (o.remove v).1 := by
  unfold Ordering.remove
  by_cases h1 : v ∈ o.order
  · rw [if_neg (by simpa using h1)]
    have hk := (h.keys v.name).2 (List.mem_map.2 ⟨v, h1, rfl⟩)
    simp only [hk, Bool.not_true, Bool.false_eq_true, if_false]
    refine ⟨?_, ?_, ?_⟩
    · exact List.Nodup.sublist (List.Sublist.map _ List.erase_sublist) h.nodup
    · intro n
      have hnd : o.order.Nodup := List.Nodup.of_map _ h.nodup
      unfold Dict.has
      rw [Dict.get?_del]
      by_cases e : n = v.name
      · subst e
        simp only [if_true, Option.isSome_none, Bool.false_eq_true, false_iff, List.mem_map, not_exists,
          not_and]
        intro u hu hn
        rw [hnd.mem_erase_iff] at hu
        exact hu.1 (List.inj_on_of_nodup_map h.nodup hu.2 h1 hn)
      · have := h.keys n
        unfold Dict.has at this
        rw [if_neg (Ne.symm e), this]
        simp only [List.mem_map, hnd.mem_erase_iff]
        constructor
        · rintro ⟨u, hu, rfl⟩; exact ⟨u, ⟨fun e' => e (by rw [e']), hu⟩, rfl⟩
        · rintro ⟨u, hu, rfl⟩; exact ⟨u, hu.2, rfl⟩
    · intro u hu; exact h.sub u (List.mem_of_mem_erase hu)
  · rw [if_pos (by simpa using h1)]; exact h

theorem call_inv {s : State} {o : Ordering} (h : OInv s o) (c : OCall) : OInv s (o.call s c).1 := by
  cases c with
  | append v => exact (append_inv h v).1
  | remove v => exact remove_inv h v
  | extend vs => exact (extend_inv vs h).1

theorem orun_inv {s : State} (cs : List OCall) : ∀ {o : Ordering}, OInv s o → OInv s (o.run s cs) := by
  induction cs with
  | nil => intro o h; exact h
  | cons c cs ih => intro o h; exact ih (call_inv h c)

/-- The default order. -/
theorem defaultLoop_spec {s : State} (l : List (Nat × Var)) : ∀ (o : Ordering) (cur : Nat),
    OInv s o → IdxOk o → cur = o.order.length →
    ((o.order.map Var.name) ++ (l.map Prod.fst)).Nodup →
    (∀ p ∈ l, p.2.name = p.1 ∧ hasOptimVar s p.1 = true) →
    (defaultLoop l cur o).order = o.order ++ l.map Prod.snd ∧ OInv s (defaultLoop l cur o) ∧
      IdxOk (defaultLoop l cur o) := by
  induction l with
  | nil => intro o cur h hi _ _ _; simp [defaultLoop, h, hi]
  | cons p l ih =>
    intro o cur h hi hc hnd hp
    obtain ⟨n, v⟩ := p
    obtain ⟨hn, ho⟩ := hp (n, v) List.mem_cons_self
    simp only at hn ho
    subst hn
    have hno : o.index.has v.name ≠ true := by
      rw [Ne, h.keys]
      intro hm
      simp only [List.map_cons, List.nodup_append, List.mem_cons] at hnd
      exact hnd.2.2 _ hm v.name (Or.inl rfl) rfl
    unfold defaultLoop
    rw [if_neg hno]
    have ha := append_inv h v
    have e : o.append s v = (⟨o.order ++ [v], o.index.set v.name cur⟩, none) := by
      unfold Ordering.append
      rw [if_neg hno, if_neg (by simpa [hasOptimVar] using ho)]
      simp [hc]
    rw [e] at ha
    have := ih ⟨o.order ++ [v], o.index.set v.name cur⟩ (cur + 1) ha.1 (ha.2 hi) (by simp [hc])
      (by simpa using hnd) (fun p hp' => hp p (List.mem_cons_of_mem _ hp'))
    simpa using this

theorem default_inv {s : State} (hg : Good s) (d : Bool) :
    OInv s (mkOrdering s d) ∧ IdxOk (mkOrdering s d) ∧
    (mkOrdering s d).order = if d then s.optimVars.vals else [] := by
  unfold mkOrdering
  cases d with
  | false => exact ⟨(oinv_empty s).1, (oinv_empty s).2, rfl⟩
  | true =>
    have := defaultLoop_spec (s := s) s.optimVars ⟨[], []⟩ 0 (oinv_empty s).1 (oinv_empty s).2 rfl
      (by simpa [Dict.keys] using hg.ndo)
      (by
        intro p hp
        have hget := Dict.get?_of_mem hg.ndo (k := p.1) (a := p.2) hp
        exact ⟨hg.opt _ _ hget, by rw [hasOptimVar, Dict.has_iff]; exact ⟨p.2, hget⟩⟩)
    simp only [if_true]
    exact ⟨this.2.1, this.2.2, by simpa [Dict.vals] using this.1⟩

/-! ### C22 -/

/-- `remove` does not occur in the history. -/
def NoRemove (cs : List OCall) : Prop := ∀ c ∈ cs, ∀ v, c ≠ .remove v

theorem orun_idx {s : State} (cs : List OCall) (hr : NoRemove cs) : ∀ {o : Ordering}, OInv s o →
    IdxOk o → IdxOk (o.run s cs) := by
  induction cs with
  | nil => intro o _ h; exact h
  | cons c cs ih =>
    intro o h hi
    refine ih (fun d hd => hr d (List.mem_cons_of_mem _ hd)) (call_inv h c) ?_
    cases c with
    | append v => exact (append_inv h v).2 hi
    | remove v => exact absurd rfl (hr _ List.mem_cons_self v)
    | extend vs => exact (extend_inv vs h).2 hi

/-- C22 (what holds): in every ordering, default or empty at first, and after any history of `append`
and `extend` calls (raising or not), `index_of(name)` is `i` exactly when iteration yields a variable of
that name at position `i`.  Missing from C22: histories with `remove` (`remove_leaves_stale_index`). -/
theorem index_of_is_position_partial (dt : Nat) (hist : List Call)
    (hok : Succeeds (init dt false) hist) (d : Bool) (cs : List OCall) (hr : NoRemove cs) (n i : Nat) :
    ((mkOrdering (run (init dt false) hist) d).run (run (init dt false) hist) cs).indexOf n = .ok i ↔
    ∃ v, ((mkOrdering (run (init dt false) hist) d).run (run (init dt false) hist) cs).order[i]? = some v
      ∧ v.name = n := by
  obtain ⟨hg, _⟩ := good_run dt hist hok
  obtain ⟨h1, h2, _⟩ := default_inv hg d
  have hi := orun_idx cs hr h1 h2
  have ho := orun_inv cs h1
  generalize (mkOrdering (run (init dt false) hist) d).run (run (init dt false) hist) cs = o at *
  unfold Ordering.indexOf
  constructor
  · intro h
    cases hget : o.index.get? n with
    | none => rw [hget] at h; simp at h
    | some j =>
      rw [hget] at h; simp at h; subst h
      have : o.index.has n = true := by rw [Dict.has_iff]; exact ⟨j, hget⟩
      obtain ⟨v, hv, rfl⟩ := List.mem_map.1 ((ho.keys n).1 this)
      obtain ⟨k, hk, hkv⟩ := List.mem_iff_getElem.1 hv
      have hk' : o.order[k]? = some v := by rw [List.getElem?_eq_getElem hk, hkv]
      have := hi k v hk'
      rw [hget] at this; simp at this; subst this
      exact ⟨v, hk', rfl⟩
  · rintro ⟨v, hv, rfl⟩
    rw [hi i v hv]

/-- C22 fails: after `remove`, the index of a later variable is stale. -/
theorem remove_leaves_stale_index : ∃ (hist : List Call) (cs : List OCall) (v : Var) (i : Nat),
    Succeeds (init 0 false) hist ∧
    ((mkOrdering (run (init 0 false) hist) true).run (run (init 0 false) hist) cs).indexOf v.name = .ok i ∧
    ((mkOrdering (run (init 0 false) hist) true).run (run (init 0 false) hist) cs).order[i]? ≠ some v := by
  let w : Weight := { id := 10 }
  let x : Var := { id := 1, name := 1 }
  let y : Var := { id := 2, name := 2 }
  let c : CostFn := { id := 20, name := 20, optimVars := [x, y], auxVars := [], weight := w }
  exact ⟨[.add c], [.remove x], y, 1, by simp only [Succeeds]; decide, by decide, by decide⟩

/-- C22: the default ordering is the objective's optimization variables in the order in which they
were registered. -/
theorem default_order (dt : Nat) (hist : List Call) (hok : Succeeds (init dt false) hist) :
    (mkOrdering (run (init dt false) hist) true).order = (run (init dt false) hist).optimVars.vals := by
  obtain ⟨hg, _⟩ := good_run dt hist hok
  simpa using (default_inv hg true).2.2

/-- C22: after any history, `append` accepts a variable exactly when its name is not in the ordering
and is the name of an optimization variable of the objective. -/
theorem append_accepts_iff (dt : Nat) (hist : List Call) (hok : Succeeds (init dt false) hist)
    (d : Bool) (cs : List OCall) (v : Var) :
    (((mkOrdering (run (init dt false) hist) d).run (run (init dt false) hist) cs).append
      (run (init dt false) hist) v).2 = none ↔
    v.name ∉ ((mkOrdering (run (init dt false) hist) d).run (run (init dt false) hist) cs).order.map Var.name ∧
      hasOptimVar (run (init dt false) hist) v.name = true := by
  obtain ⟨hg, _⟩ := good_run dt hist hok
  have ho := orun_inv cs (default_inv hg d).1
  generalize (mkOrdering (run (init dt false) hist) d).run (run (init dt false) hist) cs = o at *
  rw [← ho.keys]
  unfold Ordering.append hasOptimVar
  by_cases h1 : o.index.has v.name = true <;> by_cases h2 : (run (init dt false) hist).optimVars.has v.name = true <;>
    simp [h1, h2]

/-- C22 fails in one more way: `append` checks the name only, so an object that is not a variable of the
objective is accepted if it has the name of one. -/
theorem append_accepts_foreign_object : ∃ (hist : List Call) (v : Var), Succeeds (init 0 false) hist ∧
    getOptimVar (run (init 0 false) hist) v.name ≠ some v ∧
    ((mkOrdering (run (init 0 false) hist) false).append (run (init 0 false) hist) v).2 = none := by
  let w : Weight := { id := 10 }
  let x : Var := { id := 1, name := 1 }
  let c : CostFn := { id := 20, name := 20, optimVars := [x], auxVars := [], weight := w }
  exact ⟨[.add c], { id := 7, name := 1 }, by simp only [Succeeds]; decide, by decide, by decide⟩

/-- C22: after any history (removals included) the ordering is `complete` exactly when every
optimization variable of the objective is in it, by name. -/
theorem complete_iff (dt : Nat) (hist : List Call) (hok : Succeeds (init dt false) hist)
    (d : Bool) (cs : List OCall) :
    ((mkOrdering (run (init dt false) hist) d).run (run (init dt false) hist) cs).complete
      (run (init dt false) hist) = true ↔
    ∀ n, hasOptimVar (run (init dt false) hist) n = true →
      n ∈ ((mkOrdering (run (init dt false) hist) d).run (run (init dt false) hist) cs).order.map Var.name := by
  obtain ⟨hg, _⟩ := good_run dt hist hok
  have ho := orun_inv cs (default_inv hg d).1
  generalize (mkOrdering (run (init dt false) hist) d).run (run (init dt false) hist) cs = o at *
  generalize run (init dt false) hist = s at *
  have hmem : ∀ n, hasOptimVar s n = true ↔ n ∈ s.optimVars.keys := by
    intro n; rw [hasOptimVar, Dict.mem_keys_iff]; rfl
  have hsub : (o.order.map Var.name) ⊆ s.optimVars.keys := by
    intro n hn
    obtain ⟨v, hv, rfl⟩ := List.mem_map.1 hn
    exact (hmem _).1 (ho.sub v hv)
  have hlen : sizeVariables s = s.optimVars.keys.length := by simp [sizeVariables, Dict.keys]
  unfold Ordering.complete
  rw [decide_eq_true_iff, hlen]
  simp only [hmem]
  constructor
  · intro e n hn
    have hp := List.Nodup.subperm ho.nodup hsub
    have := hp.perm_of_length_le (by simp [e])
    exact this.mem_iff.2 hn
  · intro hall
    have h1 := List.Nodup.subperm hg.ndo (show s.optimVars.keys ⊆ o.order.map Var.name from fun n hn => hall n hn)
    have h2 := List.Nodup.subperm ho.nodup hsub
    have := h1.length_le; have := h2.length_le
    simp at *; omega

/-! ### C23 -/

theorem layoutLoop_spec (dof : Var → Nat) (vs : List Var) (L : Layout) :
    (layoutLoop dof vs L).starts = L.starts ++ cumStarts L.numCols (vs.map dof) ∧
    (layoutLoop dof vs L).dims = L.dims ++ vs.map dof ∧
    (layoutLoop dof vs L).numCols = L.numCols + (vs.map dof).sum := by
  induction vs generalizing L with
  | nil => simp [layoutLoop, cumStarts]
  | cons v vs ih =>
    obtain ⟨a, b, c⟩ := ih ⟨L.starts ++ [L.numCols], L.dims ++ [dof v], L.numCols + dof v⟩
    simp only [layoutLoop, List.map_cons, List.sum_cons, cumStarts]
    exact ⟨by rw [a]; simp, by rw [b]; simp, by rw [c]; simp [Nat.add_assoc]⟩

theorem cumStarts_get (acc : Nat) (ds : List Nat) (i : Nat) (hi : i < ds.length) :
    (cumStarts acc ds)[i]? = some (acc + (ds.take i).sum) := by
  induction ds generalizing acc i with
  | nil => simp at hi
  | cons d ds ih =>
    cases i with
    | zero => simp [cumStarts]
    | succ i =>
      simp only [cumStarts, List.getElem?_cons_succ, List.take_succ_cons, List.sum_cons]
      rw [ih _ _ (by simpa using hi), Nat.add_assoc]

/-- C23: the `i`-th variable of the ordering owns the `dof` columns that start after the columns of the
variables before it, and there are as many columns as degrees of freedom in all. -/
theorem columns_of_variable (dof : Var → Nat) (order : List Var) :
    (∀ pre v post, order = pre ++ v :: post →
      (layout dof order).starts[pre.length]? = some ((pre.map dof).sum) ∧
      (layout dof order).dims[pre.length]? = some (dof v)) ∧
    (layout dof order).numCols = (order.map dof).sum := by
  obtain ⟨a, b, c⟩ := layoutLoop_spec dof order ⟨[], [], 0⟩
  refine ⟨?_, by simpa [layout] using c⟩
  rintro pre v post rfl
  simp only [layout, a, b, List.nil_append]
  constructor
  · rw [cumStarts_get _ _ _ (by simp)]
    simp
  · simp

/-- C23: the blocks tile the columns: each column belongs to exactly one block. -/
theorem columns_partition (dof : Var → Nat) (order : List Var) (j : Nat)
    (hj : j < (layout dof order).numCols) :
    ∃! i, i < order.length ∧ ∃ a d, (layout dof order).starts[i]? = some a ∧
      (layout dof order).dims[i]? = some d ∧ a ≤ j ∧ j < a + d := by
  obtain ⟨a, b, c⟩ := layoutLoop_spec dof order ⟨[], [], 0⟩
  simp only [layout] at hj ⊢
  rw [c] at hj
  simp only [a, b, List.nil_append]
  simp only [Nat.zero_add] at hj
  have key : ∀ (ds : List Nat) (acc : Nat), acc ≤ j → j < acc + ds.sum →
      ∃! i, i < ds.length ∧ ∃ x d, (cumStarts acc ds)[i]? = some x ∧ ds[i]? = some d ∧ x ≤ j ∧ j < x + d := by
    intro ds
    induction ds with
    | nil => intro acc h1 h2; simp at h2; omega
    | cons d ds ih =>
      intro acc h1 h2
      simp only [List.sum_cons] at h2
      by_cases hd : j < acc + d
      · refine ⟨0, ⟨by simp, acc, d, by simp [cumStarts], by simp, h1, hd⟩, ?_⟩
        rintro i ⟨hi, x, d', hx, hd', h3, h4⟩
        cases i with
        | zero => rfl
        | succ i =>
          exfalso
          simp only [cumStarts, List.getElem?_cons_succ] at hx
          rw [cumStarts_get _ _ _ (by simpa using hi)] at hx
          simp only [Option.some.injEq] at hx; omega
      · obtain ⟨i, ⟨h5, x, d', h6, h7, h8, h9⟩, hu⟩ := ih (acc + d) (by omega) (by omega)
        refine ⟨i + 1, ⟨by simpa using h5, x, d', by simpa [cumStarts] using h6, by simpa using h7, h8, h9⟩, ?_⟩
        rintro k ⟨hk, x', d'', hx, hd', h3, h4⟩
        cases k with
        | zero =>
          exfalso
          simp [cumStarts] at hx hd'
          omega
        | succ k =>
          have := hu k ⟨by simpa using hk, x', d'', by simpa [cumStarts] using hx, by simpa using hd', h3, h4⟩
          omega
  simpa using key (order.map dof) 0 (Nat.zero_le _) (by simpa using hj)

example : let x : Var := { id := 1, name := 1 }
    let y : Var := { id := 2, name := 2 }
    layout (fun v => if v.name = 1 then 3 else 2) [y, x] = ⟨[0, 2], [2, 3], 5⟩ := by decide

end Verif.Linear
