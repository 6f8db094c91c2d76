/-!
# Insertion-ordered dictionaries

Model of CPython's `dict` / `collections.OrderedDict` as used throughout
`/repo/theseus` (e.g. `theseus/core/objective.py:72-102`): association lists that keep
insertion order.  Assigning to an existing key keeps its position, deleting removes it,
inserting a new key appends it.
-/
namespace Verif

/-- Insertion-ordered dictionary (CPython `dict` / `OrderedDict`). -/
abbrev Dict (κ : Type) (α : Type) := List (κ × α)

namespace Dict
variable {κ α : Type} [DecidableEq κ]

/-- `d.get(k, None)`. -/
def get? : Dict κ α → κ → Option α
  | [], _ => none
  | (k', a) :: d, k => if k' = k then some a else get? d k

/-- `d[k] = a`. -/
def set : Dict κ α → κ → α → Dict κ α
  | [], k, a => [(k, a)]
  | (k', b) :: d, k, a => if k' = k then (k, a) :: d else (k', b) :: set d k a

/-- `del d[k]` for a key that is present (no effect otherwise; callers model `KeyError`). -/
def del (d : Dict κ α) (k : κ) : Dict κ α := d.filter (fun p => decide (p.1 ≠ k))

/-- `k in d`. -/
def has (d : Dict κ α) (k : κ) : Bool := (get? d k).isSome

/-- `list(d.keys())`. -/
def keys (d : Dict κ α) : List κ := List.map Prod.fst d

/-- `list(d.values())`. -/
def vals (d : Dict κ α) : List α := List.map Prod.snd d

@[simp] theorem get?_nil (k : κ) : get? ([] : Dict κ α) k = none := rfl

theorem get?_set (d : Dict κ α) (k k' : κ) (a : α) :
    get? (set d k a) k' = if k = k' then some a else get? d k' := by
  induction d with
  | nil => simp [set, get?]
  | cons p d ih =>
    obtain ⟨k1, b⟩ := p
    unfold set
    by_cases h : k1 = k
    · subst h; simp only [if_true, get?]; split <;> rfl
    · simp only [h, if_false, get?, ih]
      by_cases h2 : k1 = k'
      · subst h2; simp [Ne.symm h]
      · simp [h2]

@[simp] theorem get?_set_self (d : Dict κ α) (k : κ) (a : α) : get? (set d k a) k = some a := by
  simp [get?_set]

theorem get?_del (d : Dict κ α) (k k' : κ) :
    get? (del d k) k' = if k = k' then none else get? d k' := by
  induction d with
  | nil => simp [del, get?]
  | cons p d ih =>
    obtain ⟨k1, b⟩ := p
    simp only [del] at ih ⊢
    by_cases h : k1 = k
    · subst h
      simp only [List.filter, ne_eq, not_true_eq_false, decide_false]
      rw [ih]
      by_cases h2 : k1 = k' <;> simp [h2, get?]
    · simp only [List.filter, ne_eq, h, not_false_eq_true, decide_true, get?]
      rw [ih]
      by_cases h2 : k1 = k'
      · subst h2; simp [Ne.symm h]
      · simp [h2]

theorem get?_eq_some_mem {d : Dict κ α} {k : κ} {a : α} (h : get? d k = some a) : (k, a) ∈ d := by
  induction d with
  | nil => simp [get?] at h
  | cons p d ih =>
    obtain ⟨k1, b⟩ := p
    simp only [get?] at h
    split at h
    · next e => simp at h; subst e; subst h; simp
    · exact List.mem_cons_of_mem _ (ih h)

theorem mem_keys_iff {d : Dict κ α} {k : κ} : k ∈ keys d ↔ (get? d k).isSome := by
  induction d with
  | nil => simp [keys, get?]
  | cons p d ih =>
    obtain ⟨k1, b⟩ := p
    simp only [keys] at ih
    simp only [keys, List.map_cons, List.mem_cons, get?]
    by_cases h : k1 = k
    · simp [h]
    · simp [h, Ne.symm h, ih]

theorem get?_of_mem {d : Dict κ α} (hn : (keys d).Nodup) {k : κ} {a : α} (h : (k, a) ∈ d) :
    get? d k = some a := by
  induction d with
  | nil => simp at h
  | cons p d ih =>
    obtain ⟨k1, b⟩ := p
    simp only [keys, List.map_cons, List.nodup_cons] at hn
    simp only [get?]
    rcases List.mem_cons.1 h with h | h
    · cases h; simp
    · have : k1 ≠ k := by
        intro e; subst e
        exact hn.1 (List.mem_map.2 ⟨(k1, a), h, rfl⟩)
      simp [this, ih hn.2 h]

theorem keys_set (d : Dict κ α) (k : κ) (a : α) :
    keys (set d k a) = if (get? d k).isSome then keys d else keys d ++ [k] := by
  induction d with
  | nil => simp [set, keys, get?]
  | cons p d ih =>
    obtain ⟨k1, b⟩ := p
    simp only [keys] at ih
    unfold set
    by_cases h : k1 = k
    · subst h; simp [keys, get?]
    · simp only [h, if_false, keys, List.map_cons, ih, get?]
      split <;> simp

theorem set_eq_append {d : Dict κ α} {k : κ} (a : α) (h : get? d k = none) :
    set d k a = d ++ [(k, a)] := by
  induction d with
  | nil => simp [set]
  | cons p d ih =>
    obtain ⟨k1, b⟩ := p
    simp only [get?] at h
    split at h
    · simp at h
    · next e => simp [set, e, ih h]

theorem nodup_set {d : Dict κ α} (hn : (keys d).Nodup) (k : κ) (a : α) :
    (keys (set d k a)).Nodup := by
  rw [keys_set]
  split
  · exact hn
  · next h =>
    rw [List.nodup_append]
    refine ⟨hn, by simp, ?_⟩
    intro x hx y hy
    simp at hy
    subst hy
    rintro rfl
    exact h (mem_keys_iff.1 hx)

theorem nodup_del {d : Dict κ α} (hn : (keys d).Nodup) (k : κ) : (keys (del d k)).Nodup := by
  unfold keys del
  exact hn.sublist (List.Sublist.map _ List.filter_sublist)

theorem has_iff {d : Dict κ α} {k : κ} : has d k = true ↔ ∃ a, get? d k = some a := by
  simp [has, Option.isSome_iff_exists]

end Dict
end Verif
