import Verif.Lie.Storage
import Mathlib.Tactic

/-!
# Creation and storage of `LieTensor`s (C89)
-/

namespace Verif.Lie.Storage
open Verif.Lie.Tensor (Lt)

variable {D : Type} {ok : Lt → D → Bool}

/-! ## Specification -/

/-- The value of object `i`. -/
def St.value (s : St D) (i : ℕ) : Option D := s.objs[i]?.bind s.val

/-- Object `i` is a `LieTensor` of type `l`. -/
def St.IsLie (s : St D) (i : ℕ) (l : Lt) : Prop := ∃ sid, s.objs[i]? = some ⟨some l, sid⟩

/-- Objects `i` and `j` share memory. -/
def St.Shares (s : St D) (i j : ℕ) : Prop :=
  ∃ o o', s.objs[i]? = some o ∧ s.objs[j]? = some o' ∧ o.sid = o'.sid

/-- Every `LieTensor` holds data that are legal for its type. -/
def St.Sound (ok : Lt → D → Bool) (s : St D) : Prop :=
  ∀ i l, s.IsLie i l → ∃ d, s.value i = some d ∧ ok l d = true

/-- The operation does not write through an alias of a `LieTensor`, and the value of a retraction is
legal (C86). -/
def Op.Clean (ok : Lt → D → Bool) (s : St D) : Op D → Prop
  | .inplace i _ => ∀ j l, s.IsLie j l → ¬ s.Shares i j
  | .add g _ d => ∀ l, s.IsLie g l → ok l d = true
  | _ => True

/-- Every operation of the history is clean at the time it is done. -/
def CleanRun (ok : Lt → D → Bool) : St D → List (Op D) → Prop
  | _, [] => True
  | s, o :: os => o.Clean ok s ∧
      match step ok s o with
      | .error _ => CleanRun ok s os
      | .ok (s', _) => CleanRun ok s' os

/-- The initial state. -/
def St.empty : St D := ⟨[], []⟩

/-! ## Lemmas -/

/-- All storage identifiers exist. -/
def WF (s : St D) : Prop := ∀ o ∈ s.objs, o.sid < s.stores.length

theorem wf_fresh {s : St D} (h : WF s) (lt : Option Lt) (d : D) : WF (s.fresh lt d) := by
  intro o ho
  simp only [St.fresh, List.mem_append, List.mem_singleton, List.length_append, List.length_singleton]
    at ho ⊢
  rcases ho with ho | rfl
  · exact Nat.lt_succ_of_lt (h o ho)
  · exact Nat.lt_succ_self _

theorem wf_shared {s : St D} (h : WF s) (lt : Option Lt) {o : Obj} (ho : o ∈ s.objs) :
    WF (s.shared lt o.sid) := by
  intro o' ho'
  simp only [St.shared, List.mem_append, List.mem_singleton] at ho' ⊢
  rcases ho' with ho' | rfl
  · exact h o' ho'
  · exact h o ho

/-- What a successful operation does to the state. -/
theorem step_cases {s s' : St D} {op : Op D} {r : ℕ} (h : step ok s op = .ok (s', r)) :
    (∃ lt d, s' = s.fresh lt d ∧ r = s.objs.length ∧ (∀ l, lt = some l → ok l d = true) ∧
      ((∃ d, op = .raw d) → lt = none) ∧ (lt = none → ∃ d, op = .raw d)) ∨
    (∃ lt o d, o ∈ s.objs ∧ s.val o = some d ∧ s' = s.shared lt o.sid ∧ r = s.objs.length ∧
      (∀ l, lt = some l → ok l d = true) ∧ (lt = none → ∃ i, op = .view i)) ∨
    (∃ o, o ∈ s.objs ∧ s' = s.shared none o.sid ∧ r = s.objs.length ∧ ∃ i, op = .view i) ∨
    (s' = s ∧ ∃ lt, op = .asLie r lt true) ∨
    (∃ i o d, op = .inplace i d ∧ s.objs[i]? = some o ∧ o.lt = none ∧
      s' = ⟨s.stores.set o.sid d, s.objs⟩) ∨
    (∃ g o l d, op = .add g true d ∧ s.objs[g]? = some o ∧ o.lt = some l ∧
      s' = ⟨s.stores ++ [d], s.objs.set g ⟨some l, s.stores.length⟩⟩) := by
  cases op with
  | raw d =>
    simp only [step, Except.ok.injEq, Prod.mk.injEq] at h
    exact Or.inl ⟨none, d, h.1.symm, h.2.symm, by simp, by simp, fun _ => ⟨d, rfl⟩⟩
  | view i =>
    simp only [step] at h
    rcases ho : s.objs[i]? with _ | o
    · simp [ho] at h
    · simp only [ho, Except.ok.injEq, Prod.mk.injEq] at h
      exact Or.inr (Or.inr (Or.inl ⟨o, List.mem_of_getElem? ho, h.1.symm, h.2.symm, i, rfl⟩))
  | construct i lt =>
    simp only [step] at h
    rcases ho : s.objs[i]? with _ | o
    · simp [ho] at h
    · rcases hv : s.val o with _ | d
      · simp [ho, hv] at h
      · simp only [ho, hv] at h
        split_ifs at h with hk
        simp only [Except.ok.injEq, Prod.mk.injEq] at h
        exact Or.inl ⟨some lt, d, h.1.symm, h.2.symm, by rintro _ ⟨⟩; exact hk, by simp, by simp⟩
  | fromTensor i lt =>
    simp only [step] at h
    rcases ho : s.objs[i]? with _ | o
    · simp [ho] at h
    · rcases hv : s.val o with _ | d
      · simp [ho, hv] at h
      · simp only [ho, hv] at h
        split_ifs at h with hk
        simp only [Except.ok.injEq, Prod.mk.injEq] at h
        exact Or.inr (Or.inl ⟨some lt, o, d, List.mem_of_getElem? ho, hv, h.1.symm, h.2.symm,
          by rintro _ ⟨⟩; exact hk, by simp⟩)
  | asLie i lt same =>
    simp only [step] at h
    rcases ho : s.objs[i]? with _ | o
    · simp [ho] at h
    · rcases hv : s.val o with _ | d
      · simp [ho, hv] at h
      · rcases hl : o.lt with _ | l
        · cases lt with
          | none => simp [ho, hv, hl] at h
          | some l =>
            simp only [ho, hv, hl] at h
            split_ifs at h with hk hs
            · simp only [Except.ok.injEq, Prod.mk.injEq] at h
              exact Or.inr (Or.inl ⟨some l, o, d, List.mem_of_getElem? ho, hv, h.1.symm, h.2.symm,
                by rintro _ ⟨⟩; exact hk, by simp⟩)
            · simp only [Except.ok.injEq, Prod.mk.injEq] at h
              exact Or.inl ⟨some l, d, h.1.symm, h.2.symm, by rintro _ ⟨⟩; exact hk, by simp, by simp⟩
        · simp only [ho, hv, hl] at h
          split_ifs at h with hs hk
          · simp only [Except.ok.injEq, Prod.mk.injEq] at h
            subst hs
            obtain ⟨h1, rfl⟩ := h
            exact Or.inr (Or.inr (Or.inr (Or.inl ⟨h1.symm, lt, rfl⟩)))
          · simp only [Except.ok.injEq, Prod.mk.injEq] at h
            exact Or.inl ⟨some l, d, h.1.symm, h.2.symm, by rintro _ ⟨⟩; exact hk, by simp, by simp⟩
  | newLie g i =>
    simp only [step] at h
    rcases hg : s.objs[g]? with _ | og
    · simp [hg] at h
    · rcases ho : s.objs[i]? with _ | o
      · simp [hg, ho] at h
      · rcases hl : og.lt with _ | l
        · simp [hg, ho, hl] at h
        · rcases hv : s.val o with _ | d
          · simp [hg, ho, hl, hv] at h
          · simp only [hg, ho, hl, hv] at h
            split_ifs at h with hk
            simp only [Except.ok.injEq, Prod.mk.injEq] at h
            exact Or.inl ⟨some l, d, h.1.symm, h.2.symm, by rintro _ ⟨⟩; exact hk, by simp, by simp⟩
  | inplace i d =>
    simp only [step] at h
    rcases ho : s.objs[i]? with _ | o
    · simp [ho] at h
    · rcases hl : o.lt with _ | l
      · simp only [ho, hl, Except.ok.injEq, Prod.mk.injEq] at h
        exact Or.inr (Or.inr (Or.inr (Or.inr (Or.inl ⟨i, o, d, rfl, ho, hl, h.1.symm⟩))))
      · simp [ho, hl] at h
  | add g m d =>
    simp only [step] at h
    rcases ho : s.objs[g]? with _ | o
    · simp [ho] at h
    · rcases hl : o.lt with _ | l
      · simp [ho, hl] at h
      · simp only [ho, hl] at h
        split_ifs at h with hm
        simp only [Except.ok.injEq, Prod.mk.injEq] at h
        subst hm
        exact Or.inr (Or.inr (Or.inr (Or.inr (Or.inr ⟨g, o, l, d, rfl, ho, hl, h.1.symm⟩))))

theorem step_wf {s s' : St D} {op : Op D} {r : ℕ} (hw : WF s) (h : step ok s op = .ok (s', r)) :
    WF s' := by
  rcases step_cases h with ⟨lt, d, rfl, -⟩ | ⟨lt, o, d, ho, -, rfl, -⟩ | ⟨o, ho, rfl, -⟩ | ⟨rfl, -⟩ |
    ⟨i, o, d, -, -, -, rfl⟩ | ⟨g, o, l, d, -, hg, -, rfl⟩
  · exact wf_fresh hw _ _
  · exact wf_shared hw _ ho
  · exact wf_shared hw _ ho
  · exact hw
  · intro o' ho'
    simpa using hw o' ho'
  · intro o' ho'
    simp only [List.length_append, List.length_singleton]
    rcases List.mem_or_eq_of_mem_set ho' with h1 | rfl
    · exact Nat.lt_succ_of_lt (hw o' h1)
    · exact Nat.lt_succ_self _

theorem val_append {s : St D} (hw : WF s) (d : D) {o : Obj} (ho : o ∈ s.objs) :
    (s.stores ++ [d])[o.sid]? = s.stores[o.sid]? := by
  rw [List.getElem?_append_left (hw o ho)]

theorem value_fresh {s : St D} (hw : WF s) (lt : Option Lt) (d : D) (i : ℕ) :
    (s.fresh lt d).value i = if i = s.objs.length then some d else s.value i := by
  unfold St.value
  by_cases h : i < s.objs.length
  · rw [if_neg (by omega)]
    simp only [St.fresh, List.getElem?_append_left h, List.getElem?_eq_getElem h, Option.bind_some,
      St.val]
    exact val_append hw d (List.getElem_mem h)
  · split_ifs with hi
    · subst hi
      simp [St.fresh, St.val]
    · have h1 : (s.fresh lt d).objs[i]? = none := by
        simp [St.fresh]; omega
      have h2 : s.objs[i]? = none := by simp; omega
      rw [h1, h2]; rfl

theorem value_shared (s : St D) (lt : Option Lt) (sid i : ℕ) :
    (s.shared lt sid).value i = if i = s.objs.length then s.stores[sid]? else s.value i := by
  unfold St.value
  by_cases h : i < s.objs.length
  · rw [if_neg (by omega)]
    simp only [St.shared, List.getElem?_append_left h]; rfl
  · split_ifs with hi
    · subst hi
      simp [St.shared, St.val]
    · have h1 : (s.shared lt sid).objs[i]? = none := by
        simp [St.shared]; omega
      have h2 : s.objs[i]? = none := by simp; omega
      rw [h1, h2]; rfl

theorem isLie_append {s : St D} {o : Obj} {st : List D} {i : ℕ} {l : Lt}
    (h : (⟨st, s.objs ++ [o]⟩ : St D).IsLie i l) :
    s.IsLie i l ∧ i ≠ s.objs.length ∨ i = s.objs.length ∧ o.lt = some l := by
  obtain ⟨sid, h⟩ := h
  simp only at h
  by_cases hi : i < s.objs.length
  · rw [List.getElem?_append_left hi] at h
    exact Or.inl ⟨⟨sid, h⟩, by omega⟩
  · rw [List.getElem?_append_right (by omega)] at h
    have : i - s.objs.length = 0 := by
      by_contra hne
      rw [List.getElem?_eq_none (by simp; omega)] at h
      cases h
    refine Or.inr ⟨by omega, ?_⟩
    rw [this] at h
    simp only [List.getElem?_cons_zero, Option.some.injEq] at h
    rw [h]

theorem value_set {s : St D} {i sid : ℕ} {o : Obj} {d : D} (ho : s.objs[i]? = some o)
    (hs : o.sid ≠ sid) : (⟨s.stores.set sid d, s.objs⟩ : St D).value i = s.value i := by
  simp [St.value, ho, St.val, List.getElem?_set_ne hs.symm]

theorem value_add {s : St D} (hw : WF s) {g : ℕ} {o : Obj} (lt : Option Lt) (hg : s.objs[g]? = some o) (d : D)
    (i : ℕ) :
    (⟨s.stores ++ [d], s.objs.set g ⟨lt, s.stores.length⟩⟩ : St D).value i =
      if i = g then some d else s.value i := by
  have hlt : g < s.objs.length := by
    by_contra hc
    rw [List.getElem?_eq_none (by omega)] at hg
    cases hg
  unfold St.value
  split_ifs with h
  · subst h
    simp [List.getElem?_set_self hlt, St.val]
  · rw [List.getElem?_set_ne (fun e => h e.symm)]
    rcases ho : s.objs[i]? with _ | o'
    · rfl
    · simp only [Option.bind_some, St.val]
      exact val_append hw d (List.mem_of_getElem? ho)

theorem step_sound {s s' : St D} {op : Op D} {r : ℕ} (hw : WF s) (hs : s.Sound ok)
    (hc : op.Clean ok s) (h : step ok s op = .ok (s', r)) : s'.Sound ok := by
  rcases step_cases h with ⟨lt, d, rfl, -, hl, -⟩ | ⟨lt, o, d, ho, hv, rfl, -, hl, -⟩ |
    ⟨o, ho, rfl, -⟩ | ⟨rfl, -⟩ | ⟨i, o, d, rfl, ho, hn, rfl⟩ | ⟨g, o, l, d, rfl, hg, hol, rfl⟩
  · intro i l hi
    rw [value_fresh hw]
    rcases isLie_append (s := s) hi with ⟨h1, h2⟩ | ⟨h1, h2⟩
    · rw [if_neg h2]; exact hs i l h1
    · rw [if_pos h1]; exact ⟨d, rfl, hl l h2⟩
  · intro i l hi
    rw [value_shared]
    rcases isLie_append (s := s) hi with ⟨h1, h2⟩ | ⟨h1, h2⟩
    · rw [if_neg h2]; exact hs i l h1
    · rw [if_pos h1]; exact ⟨d, hv, hl l h2⟩
  · intro i l hi
    rw [value_shared]
    rcases isLie_append (s := s) hi with ⟨h1, h2⟩ | ⟨h1, h2⟩
    · rw [if_neg h2]; exact hs i l h1
    · cases h2
  · exact hs
  · intro j l hj
    have hj' : s.IsLie j l := hj
    have hns := hc j l hj'
    obtain ⟨sid, hsid⟩ := hj'
    have hne : sid ≠ o.sid := fun e => hns ⟨o, _, ho, hsid, e.symm⟩
    rw [value_set hsid hne]
    exact hs j l hj
  · intro j l' hj
    rw [value_add hw _ hg]
    split_ifs with hjg
    · subst hjg
      obtain ⟨sid, hsid⟩ := hj
      have hlt : j < s.objs.length := by
        by_contra hc'
        rw [List.getElem?_eq_none (by omega)] at hg
        cases hg
      simp only [List.getElem?_set_self hlt, Option.some.injEq, Obj.mk.injEq] at hsid
      refine ⟨d, rfl, hc l' ⟨o.sid, ?_⟩⟩
      rw [hg, ← hsid.1, ← hol]
    · obtain ⟨sid, hsid⟩ := hj
      simp only at hsid
      rw [List.getElem?_set_ne (fun e => hjg e.symm)] at hsid
      exact hs j l' ⟨sid, hsid⟩

theorem run_sound {s : St D} (hw : WF s) (hs : s.Sound ok) (os : List (Op D))
    (hc : CleanRun ok s os) : (run ok s os).Sound ok := by
  induction os generalizing s with
  | nil => exact hs
  | cons o os ih =>
    obtain ⟨h1, h2⟩ := hc
    rcases h : step ok s o with e | ⟨s', r⟩
    · simp only [run, h] at h2 ⊢
      exact ih hw hs h2
    · simp only [run, h] at h2 ⊢
      exact ih (step_wf hw h) (step_sound hw hs h1 h) h2

theorem run_wf {s : St D} (hw : WF s) (os : List (Op D)) : WF (run ok s os) := by
  induction os generalizing s with
  | nil => exact hw
  | cons o os ih =>
    rcases h : step ok s o with e | ⟨s', r⟩
    · simp only [run, h]; exact ih hw
    · simp only [run, h]; exact ih (step_wf hw h)

theorem wf_empty : WF (St.empty : St D) := by
  intro o ho
  cases ho

/-- The reachable states: those after some history. -/
def Reachable (ok : Lt → D → Bool) (s : St D) : Prop := ∃ os, s = run ok St.empty os

theorem Reachable.wf {s : St D} (h : Reachable ok s) : WF s := by
  obtain ⟨os, rfl⟩ := h
  exact run_wf wf_empty os

/-- No operation of the history steps object `j`, or makes a raw alias of an object that shares its
memory. -/
def ApartRun (ok : Lt → D → Bool) (j : ℕ) : St D → List (Op D) → Prop
  | _, [] => True
  | s, o :: os =>
      (match o with
        | .view i => ¬ s.Shares i j
        | .add g _ _ => g ≠ j
        | _ => True) ∧
      match step ok s o with
      | .error _ => ApartRun ok j s os
      | .ok (s', _) => ApartRun ok j s' os

/-- No raw tensor shares the memory of object `j`. -/
def Private (s : St D) (j : ℕ) : Prop :=
  ∃ oj, s.objs[j]? = some oj ∧ oj.lt.isSome ∧ ∀ o ∈ s.objs, o.lt = none → o.sid ≠ oj.sid

theorem getElem?_append_some {α : Type} {l : List α} {x a : α} {j : ℕ} (h : l[j]? = some a) :
    (l ++ [x])[j]? = some a := by
  have : j < l.length := by
    by_contra hc
    rw [List.getElem?_eq_none (by omega)] at h
    cases h
  rw [List.getElem?_append_left this, h]

theorem private_step {s s' : St D} {op : Op D} {r j : ℕ} (hw : WF s) (hp : Private s j)
    (hv : ∀ i, op = .view i → ¬ s.Shares i j) (ha : ∀ g m d, op = .add g m d → g ≠ j)
    (h : step ok s op = .ok (s', r)) : Private s' j ∧ s'.value j = s.value j := by
  obtain ⟨oj, hj, hl, hpr⟩ := hp
  have hlt : j < s.objs.length := by
    by_contra hc
    rw [List.getElem?_eq_none (by omega)] at hj
    cases hj
  have hmem : oj ∈ s.objs := List.mem_of_getElem? hj
  have hcs := step_cases h
  rcases hcs with ⟨lt, d, rfl, -, -, -, hraw⟩ | ⟨lt, o, d, ho, hval, rfl, -, -, hview⟩ |
    ⟨o, ho, rfl, -, i, rfl⟩ | ⟨rfl, -⟩ | ⟨i, o, d, rfl, ho, hn, rfl⟩ | ⟨g, o, l, d, rfl, hg, hol, rfl⟩
  · refine ⟨⟨oj, getElem?_append_some hj, hl, ?_⟩, ?_⟩
    · intro o ho hn
      simp only [St.fresh, List.mem_append, List.mem_singleton] at ho
      rcases ho with ho | rfl
      · exact hpr o ho hn
      · exact (hw oj hmem).ne'
    · rw [value_fresh hw, if_neg (by omega)]
  · refine ⟨⟨oj, getElem?_append_some hj, hl, ?_⟩, ?_⟩
    · intro o' ho' hn
      simp only [St.shared, List.mem_append, List.mem_singleton] at ho'
      rcases ho' with ho' | rfl
      · exact hpr o' ho' hn
      · obtain ⟨i, rfl⟩ := hview hn
        have h2 := h
        simp only [step] at h2
        rcases hoi : s.objs[i]? with _ | o2
        · simp [hoi] at h2
        · simp only [hoi, Except.ok.injEq, Prod.mk.injEq, St.shared, St.mk.injEq, true_and,
            List.append_cancel_left_eq, List.cons.injEq, and_true, Obj.mk.injEq] at h2
          intro e
          exact hv i rfl ⟨o2, oj, hoi, hj, by rw [h2.1.2]; exact e⟩
    · rw [value_shared, if_neg (by omega)]
  · refine ⟨⟨oj, getElem?_append_some hj, hl, ?_⟩, ?_⟩
    · intro o' ho' hn
      simp only [St.shared, List.mem_append, List.mem_singleton] at ho'
      rcases ho' with ho' | rfl
      · exact hpr o' ho' hn
      · have h2 := h
        simp only [step] at h2
        rcases hoi : s.objs[i]? with _ | o2
        · simp [hoi] at h2
        · simp only [hoi, Except.ok.injEq, Prod.mk.injEq, St.shared, St.mk.injEq, true_and,
            List.append_cancel_left_eq, List.cons.injEq, and_true, Obj.mk.injEq] at h2
          intro e
          exact hv i rfl ⟨o2, oj, hoi, hj, by rw [h2.1]; exact e⟩
    · rw [value_shared, if_neg (by omega)]
  · exact ⟨⟨oj, hj, hl, hpr⟩, rfl⟩
  · have hne : oj.sid ≠ o.sid := (hpr o (List.mem_of_getElem? ho) hn).symm
    exact ⟨⟨oj, hj, hl, hpr⟩, value_set hj hne⟩
  · have hgj := ha g true d rfl
    refine ⟨⟨oj, by simp only; rw [List.getElem?_set_ne hgj, hj], hl, ?_⟩, ?_⟩
    · intro o' ho' hn
      rcases List.mem_or_eq_of_mem_set ho' with h1 | rfl
      · exact hpr o' h1 hn
      · cases hn
    · rw [value_add hw _ hg, if_neg hgj.symm]

/-! ## C89 -/

/-- In every history in which nobody writes through an alias of a `LieTensor`, every `LieTensor`
holds legal data of its type at all times. -/
theorem lie_tensors_sound_partial (os : List (Op D)) (h : CleanRun ok St.empty os) :
    (run ok St.empty os).Sound ok :=
  run_sound wf_empty (by rintro i l ⟨sid, hi⟩; cases hi) os h

/-- `LieTensor(t, ltype)` (and `SO3(t)`, `SE3(t)`, `g.new_lietensor(t)`) copies: the result holds the
data of `t` in memory shared with no other tensor, and whatever happens later to other tensors, its
value stays the same, until it is stepped itself or aliased by the user. -/
theorem lie_constructor_copies {s s' : St D} (hr : Reachable ok s) {op : Op D} {i r : ℕ}
    (hop : (∃ lt, op = .construct i lt) ∨ ∃ g, op = .newLie g i)
    (h : step ok s op = .ok (s', r)) :
    s'.value r = s.value i ∧ (∀ k, k ≠ r → ¬ s'.Shares k r) ∧
    ∀ os, ApartRun ok r s' os → (run ok s' os).value r = s.value i := by
  have hw := hr.wf
  have key : ∃ l d, s' = s.fresh (some l) d ∧ r = s.objs.length ∧ s.value i = some d := by
    rcases hop with ⟨lt, rfl⟩ | ⟨g, rfl⟩
    · simp only [step] at h
      rcases ho : s.objs[i]? with _ | o
      · simp [ho] at h
      · rcases hv : s.val o with _ | d
        · simp [ho, hv] at h
        · simp only [ho, hv] at h
          split_ifs at h with hk
          simp only [Except.ok.injEq, Prod.mk.injEq] at h
          exact ⟨lt, d, h.1.symm, h.2.symm, by simp [St.value, ho, hv]⟩
    · simp only [step] at h
      rcases hg : s.objs[g]? with _ | og
      · simp [hg] at h
      · rcases ho : s.objs[i]? with _ | o
        · simp [hg, ho] at h
        · rcases hl : og.lt with _ | l
          · simp [hg, ho, hl] at h
          · rcases hv : s.val o with _ | d
            · simp [hg, ho, hl, hv] at h
            · simp only [hg, ho, hl, hv] at h
              split_ifs at h with hk
              simp only [Except.ok.injEq, Prod.mk.injEq] at h
              exact ⟨l, d, h.1.symm, h.2.symm, by simp [St.value, ho, hv]⟩
  have hw' := step_wf hw h
  obtain ⟨l, d, rfl, rfl, hd⟩ := key
  have hval : (s.fresh (some l) d).value s.objs.length = s.value i := by
    rw [value_fresh hw, if_pos rfl, hd]
  have hnew : (s.fresh (some l) d).objs[s.objs.length]? = some ⟨some l, s.stores.length⟩ := by
    simp [St.fresh]
  have hpriv : Private (s.fresh (some l) d) s.objs.length := by
    refine ⟨⟨some l, s.stores.length⟩, hnew, rfl, ?_⟩
    intro o ho hn
    simp only [St.fresh, List.mem_append, List.mem_singleton] at ho
    rcases ho with ho | rfl
    · exact (hw o ho).ne
    · cases hn
  refine ⟨hval, ?_, ?_⟩
  · rintro k hk ⟨o, o', h1, h2, h3⟩
    rw [hnew] at h2
    cases h2
    have hklt : k < s.objs.length := by
      by_contra hc
      have : (s.fresh (some l) d).objs[k]? = none := by
        simp [St.fresh]; omega
      rw [this] at h1
      cases h1
    simp only [St.fresh] at h1
    rw [List.getElem?_append_left hklt] at h1
    exact (hw o (List.mem_of_getElem? h1)).ne h3
  · intro os hos
    rw [← hval]
    generalize s.fresh (some l) d = s1 at hw' hpriv hos
    generalize s.objs.length = j at hpriv hos
    clear hval hnew h hd hw hr hop
    induction os generalizing s1 with
    | nil => rfl
    | cons o os ih =>
      obtain ⟨h1, h2⟩ := hos
      rcases h : step ok s1 o with e | ⟨s2, r2⟩
      · simp only [run, h] at h2 ⊢
        exact ih s1 hw' hpriv h2
      · simp only [run, h] at h2 ⊢
        have hvw : ∀ i, o = .view i → ¬ s1.Shares i j := by
          rintro i rfl; exact h1
        have had : ∀ g m d, o = .add g m d → g ≠ j := by
          rintro g m d rfl; exact h1
        obtain ⟨p, q⟩ := private_step hw' hpriv hvw had h
        rw [ih s2 (step_wf hw' h) p h2, q]

/-- `from_tensor(t, ltype)`, and `as_lietensor(t, ltype)` when the dtype and the device agree, share
the memory of `t`: an in-place operation on `t` changes the result as well. -/
theorem lie_from_tensor_shares {s s' : St D} {op : Op D} {i r : ℕ} {l : Lt}
    (hop : op = .fromTensor i l ∨ (op = .asLie i (some l) true ∧ ∀ l', ¬ s.IsLie i l'))
    (h : step ok s op = .ok (s', r)) :
    s'.Shares i r ∧ s'.IsLie r l ∧
    ∀ d s'' r', step ok s' (.inplace i d) = .ok (s'', r') →
      s''.value i = some d → s''.value r = some d := by
  have key : ∃ o, s.objs[i]? = some o ∧ s' = s.shared (some l) o.sid ∧ r = s.objs.length := by
    rcases hop with rfl | ⟨rfl, hnl⟩
    · simp only [step] at h
      rcases ho : s.objs[i]? with _ | o
      · simp [ho] at h
      · rcases hv : s.val o with _ | d
        · simp [ho, hv] at h
        · simp only [ho, hv] at h
          split_ifs at h with hk
          simp only [Except.ok.injEq, Prod.mk.injEq] at h
          exact ⟨o, rfl, h.1.symm, h.2.symm⟩
    · simp only [step] at h
      rcases ho : s.objs[i]? with _ | o
      · simp [ho] at h
      · rcases hv : s.val o with _ | d
        · simp [ho, hv] at h
        · rcases hl : o.lt with _ | l'
          · simp only [ho, hv, hl] at h
            split_ifs at h with hk
            simp only [Except.ok.injEq, Prod.mk.injEq] at h
            exact ⟨o, rfl, h.1.symm, h.2.symm⟩
          · exact absurd ⟨o.sid, by rw [ho, ← hl]⟩ (hnl l')
  obtain ⟨o, ho, rfl, rfl⟩ := key
  have hi : (s.shared (some l) o.sid).objs[i]? = some o := getElem?_append_some ho
  have hn : (s.shared (some l) o.sid).objs[s.objs.length]? = some ⟨some l, o.sid⟩ := by
    simp [St.shared]
  refine ⟨⟨o, _, hi, hn, rfl⟩, ⟨o.sid, hn⟩, fun d s'' r' hs hd => ?_⟩
  simp only [step, hi] at hs
  rcases hl : o.lt with _ | l'
  · simp only [hl, Except.ok.injEq, Prod.mk.injEq] at hs
    obtain ⟨rfl, -⟩ := hs
    simp only [St.value, hi, hn, Option.bind_some, St.val] at hd ⊢
    exact hd
  · simp [hl] at hs

/-- A step of an optimizer is not in place: `g.add_(u)` gives `g` the new value in new memory, and
every other tensor, also one that shared the memory of `g`, keeps its old value. -/
theorem lie_step_not_in_place {s s' : St D} (hr : Reachable ok s) {g r : ℕ} {m : Bool} {d : D}
    (h : step ok s (.add g m d) = .ok (s', r)) :
    m = true ∧ r = g ∧ s'.value g = some d ∧ (∀ k, k ≠ g → s'.value k = s.value k) ∧
      ∀ k, k ≠ g → ¬ s'.Shares k g := by
  have hw := hr.wf
  simp only [step] at h
  rcases ho : s.objs[g]? with _ | o
  · simp [ho] at h
  rcases hl : o.lt with _ | l
  · simp [ho, hl] at h
  simp only [ho, hl] at h
  split_ifs at h with hm
  simp only [Except.ok.injEq, Prod.mk.injEq] at h
  obtain ⟨rfl, rfl⟩ := h
  refine ⟨hm, rfl, by rw [value_add hw _ ho, if_pos rfl], fun k hk => by
    rw [value_add hw _ ho, if_neg hk], ?_⟩
  rintro k hk ⟨o1, o2, h1, h2, h3⟩
  have hlt : g < s.objs.length := by
    by_contra hc
    rw [List.getElem?_eq_none (by omega)] at ho
    cases ho
  simp only [List.getElem?_set_self hlt, Option.some.injEq] at h2
  simp only [List.getElem?_set_ne (Ne.symm hk)] at h1
  subst h2
  exact (hw o1 (List.mem_of_getElem? h1)).ne h3

/-- `as_lietensor(g, ltype)` of a `LieTensor` never looks at `ltype`: it returns `g`, also when the
requested type is another one. -/
theorem as_lietensor_ignores_ltype {s : St D} (hr : Reachable ok s) {i : ℕ} {l : Lt}
    (hi : s.IsLie i l) (lt : Option Lt) :
    step ok s (.asLie i lt true) = .ok (s, i) := by
  obtain ⟨sid, hi⟩ := hi
  have hw := hr.wf _ (List.mem_of_getElem? hi)
  have hv : s.val ⟨some l, sid⟩ = some s.stores[sid] := by
    simp only [St.val]
    exact List.getElem?_eq_getElem hw
  simp [step, hi, hv]

/-! ## Non-vacuity and the counterexample -/

/-- Legal data: the number 0. -/
def exOk : Lt → ℕ → Bool := fun _ d => d == 0

/-- `t = R.clone(); g = from_tensor(t, SO3); t.add_(5)`: now `g` holds illegal data. -/
theorem lie_alias_unsound :
    ¬ (run exOk St.empty [.raw 0, .fromTensor 0 .so3, .inplace 0 5]).Sound exOk := by
  intro h
  obtain ⟨d, h1, h2⟩ := h 1 .so3 ⟨0, rfl⟩
  have : some d = some 5 := h1.symm.trans rfl
  cases this
  cases h2

/-- With the copying constructor the same history is harmless. -/
example : (run exOk St.empty [.raw 0, .construct 0 .so3, .inplace 0 5]).value 1 = some 0 := rfl

example : CleanRun exOk St.empty [.raw 0, .construct 0 .so3, .inplace 0 5, .add 1 true 0] := by
  refine ⟨trivial, trivial, ?_, ?_, trivial⟩
  · rintro j l ⟨sid, hj⟩ ⟨o, o', h1, h2, h3⟩
    rcases j with _ | _ | j
    · cases hj
    · cases h1; cases h2; cases h3
    · cases hj
  · rintro l ⟨sid, hj⟩
    rfl

example : Reachable exOk (run exOk St.empty [.raw 0, .construct 0 .so3]) ∧
    (run exOk St.empty [.raw 0, .construct 0 .so3]).IsLie 1 .so3 := ⟨⟨_, rfl⟩, 1, rfl⟩

end Verif.Lie.Storage
