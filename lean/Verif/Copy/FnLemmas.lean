import Verif.Copy.FnSpec
import Mathlib.Data.List.Forall2
import Mathlib.Data.List.Nodup

/-!
# Lemmas for C113: copying succeeds
-/

namespace Verif.CopyFn
open Verif

variable {V : Type} (W : World V)

theorem forall₂_of_get {α β : Type} {R : α → β → Prop} {l : List α} {l' : List β}
    (hl : l.length = l'.length) (h : ∀ (i : ℕ) a b, l[i]? = some a → l'[i]? = some b → R a b) :
    List.Forall₂ R l l' := by
  induction l generalizing l' with
  | nil => cases l' with
    | nil => exact .nil
    | cons _ _ => simp at hl
  | cons a l ih => cases l' with
    | nil => simp at hl
    | cons b l' =>
      exact .cons (h 0 a b rfl rfl) (ih (by simpa using hl) fun i x y hx hy =>
        h (i + 1) x y (by simpa using hx) (by simpa using hy))

theorem look_new (h t : Heap V) (cs : List (Cell V)) :
    look (h ++ cs.map (copyCell W) ++ t) (List.range' h.length cs.length) =
      cs.map fun c => (c.cls, copyVal W c.cls c.val) := by
  induction cs generalizing h with
  | nil => rfl
  | cons c cs ih =>
    have := ih (h ++ [copyCell W c])
    simp only [List.length_append, List.length_cons, List.length_nil, Nat.zero_add] at this
    simp only [List.length_cons, List.range'_succ, look, List.filterMap_cons, List.map_cons]
    have e : (h ++ (copyCell W c :: cs.map (copyCell W)) ++ t)[h.length]? = some (copyCell W c) := by
      rw [List.append_assoc, List.getElem?_append_right (Nat.le_refl _)]
      simp
    rw [e]
    simp only [Option.map_some, List.cons.injEq]
    refine ⟨rfl, ?_⟩
    rw [← this]
    simp [look]

theorem names_new (h t : Heap V) (cs : List (Cell V)) :
    namesOf (h ++ cs.map (copyCell W) ++ t) (List.range' h.length cs.length) =
      cs.map fun c => c.name ++ "_copy" := by
  induction cs generalizing h with
  | nil => rfl
  | cons c cs ih =>
    have := ih (h ++ [copyCell W c])
    simp only [List.length_append, List.length_cons, List.length_nil, Nat.zero_add] at this
    simp only [List.length_cons, List.range'_succ, namesOf, List.filterMap_cons, List.map_cons]
    have e : (h ++ (copyCell W c :: cs.map (copyCell W)) ++ t)[h.length]? = some (copyCell W c) := by
      rw [List.append_assoc, List.getElem?_append_right (Nat.le_refl _)]
      simp
    rw [e]
    simp only [Option.map_some, List.cons.injEq]
    refine ⟨rfl, ?_⟩
    rw [← this]
    simp [namesOf]

theorem attrVal_list {h : Heap V} {d : Dict String Addr} {rs : List String} {as : List Addr}
    {cs : List (Cell V)} (h1 : List.Forall₂ (fun r a => d.get? r = some a) rs as)
    (h2 : List.Forall₂ (fun a c => h[a]? = some c) as cs) :
    rs.filterMap (attrVal h d) = cs.map fun c => (c.cls, c.val) := by
  induction h1 generalizing cs with
  | nil => cases h2; rfl
  | cons e _ ih =>
    cases h2 with
    | cons e' h2 =>
      rw [List.map_cons, ← ih h2]
      exact List.filterMap_cons_some (by simp [attrVal, e, e'])

theorem fixed_list {h : Heap V} {d : Dict String Addr} {rs : List String} {as : List Addr}
    {cs : List (Cell V)} (h1 : List.Forall₂ (fun r a => d.get? r = some a) rs as)
    (h2 : List.Forall₂ (fun a c => h[a]? = some c) as cs) (hf : Fixed W h d rs) :
    ∀ c ∈ cs, copyVal W c.cls c.val = c.val := by
  intro c hc
  obtain ⟨i, hi⟩ := List.getElem?_of_mem hc
  obtain ⟨a, ha, e⟩ := forall₂_get' h2 hi
  obtain ⟨r, hr, e'⟩ := forall₂_get' h1 ha
  exact hf r (List.mem_of_getElem? hr) a c e' e

theorem getElem?_new {h t : Heap V} {cs : List (Cell V)} {i : ℕ} {c : Cell V} (e : cs[i]? = some c) :
    (h ++ cs.map (copyCell W) ++ t)[h.length + i]? = some (copyCell W c) := by
  rw [List.append_assoc, List.getElem?_append_right (Nat.le_add_right _ _), Nat.add_sub_cancel_left,
    List.getElem?_append_left]
  · simp [e]
  · simpa using lt_of_get e

theorem getElem?_old {h t : Heap V} {cs : List (Cell V)} {a : Addr} {c : Cell V} (e : h[a]? = some c) :
    (h ++ cs.map (copyCell W) ++ t)[a]? = some c := by
  rw [List.append_assoc, List.getElem?_append_left (lt_of_get e), e]

/-- The name that a new variable is given if names are kept. -/
def keptName (L : ℕ) (cs : List (Cell V)) (j : ℕ) : String := ((cs[j - L]?).map Cell.name).getD ""

/-- From the copies and the end of `copy` to the specification: `o`, `o'` are attributes of the original
and the copy, of which the `i`-th hold the `p i`-th of the copied variables. -/
theorem copied_of {h t H' : Heap V} {cs : List (Cell V)} {keep : Bool} {news : List (Option Addr)}
    {x : Addr} {i : ℕ} {c : Cell V}
    (hH : ∀ j, H'[j]? = ((h ++ cs.map (copyCell W) ++ t)[j]?).map fun c =>
      if keep = true ∧ some j ∈ news then { c with name := keptName h.length cs j } else c)
    (hx : h[x]? = some c) (hi : cs[i]? = some c) (hv : copyVal W c.cls c.val = c.val)
    (hn : some (h.length + i) ∈ news) : Copied keep h H' (some x) (some (h.length + i)) := by
  refine ⟨x, h.length + i, c, if keep = true then { copyCell W c with name := c.name } else copyCell W c,
    rfl, rfl, hx, (hH _).trans ?_, Nat.le_add_right _ _, ?_⟩
  · rw [getElem?_new W hi]
    simp only [hn, and_true, keptName, Nat.add_sub_cancel_left, hi, Option.map_some, Option.getD_some]
  · split <;> exact ⟨rfl, hv, rfl⟩

theorem prefix_of {H H' h : Heap V} {keep : Bool} {news : List (Option Addr)} {nm : ℕ → String}
    (hp : h <+: H) (hn : ∀ j, some j ∈ news → h.length ≤ j)
    (hH : ∀ j, H'[j]? = (H[j]?).map fun c => if keep = true ∧ some j ∈ news then { c with name := nm j } else c) :
    h <+: H' := by
  rw [List.prefix_iff_getElem?]
  intro i hi
  have h1 : H[i]? = some h[i] := (List.prefix_iff_getElem?.1 hp) i hi
  rw [hH, h1, Option.map_some, if_neg]
  rintro ⟨-, h2⟩
  exact absurd hi (Nat.not_lt.2 (hn i h2))

theorem ctorW_nodup (c : WCls) : (ctorW c).Nodup := by cases c <;> decide
theorem passedW_eq (c : WCls) : passedW c = ctorW c := by cases c <;> rfl

/-- Attribute `r` of a freshly constructed object. -/
theorem built_get {d : Dict String Addr} {rs : List String} (hn : rs.Nodup) {h : Heap V}
    {as : List Addr} {cs : List (Cell V)} (h1 : List.Forall₂ (fun r a => d.get? r = some a) rs as)
    (h2 : List.Forall₂ (fun a c => h[a]? = some c) as cs) {r : String} (hr : r ∈ rs) :
    ∃ i x c, rs[i]? = some r ∧ d.get? r = some x ∧
      Dict.get? (rs.zip (List.range' h.length cs.length)) r = some (h.length + i) ∧ h[x]? = some c ∧ cs[i]? = some c := by
  obtain ⟨i, hi⟩ := List.getElem?_of_mem hr
  obtain ⟨x, hx, e⟩ := forall₂_get h1 hi
  obtain ⟨c, hc, e'⟩ := forall₂_get h2 hx
  refine ⟨i, x, c, hi, e, zip_get hn hi ?_, e', hc⟩
  rw [List.getElem?_range' (by have := lt_of_get hc; simpa using this)]
  simp

theorem wt_copy {h : Heap V} {w : Wt} (n : Option String) (keep : Bool)
    (hb : Has h w.attrs (ctorW w.cls)) (hf : Fixed W h w.attrs (ctorW w.cls))
    (hok : W.okW w.cls ((ctorW w.cls).filterMap (attrVal h w.attrs)) = true) :
    ∃ h' w', w.copy W h n keep = .ok (h', w') ∧ h <+: h' ∧ w'.name = newName w.name n ∧
      w.IsCopy keep h h' w' ∧ ((ctorW w'.cls).map w'.attrs.get?).Nodup := by
  obtain ⟨as, cs, h1, h2, h3⟩ := has_getattrs hb
  have hlen : as.length = cs.length := h3.length_eq
  have hfix := fixed_list W h2 h3 hf
  set d' : Dict String Addr := (ctorW w.cls).zip (List.range' h.length cs.length) with hd'
  have hat := fun r hr => built_get (ctorW_nodup w.cls) h2 h3 (r := r) hr
  have hnm : ∀ {i : ℕ} {c : Cell V}, cs[i]? = some c → c.name = keptName h.length cs (h.length + i) := by
    intro i c e
    simp [keptName, e]
  have hfin : List.Forall₂ (fun r r' => ∃ x y c, w.attrs.get? r = some x ∧ d'.get? r' = some y ∧
      x < h.length ∧ h.length ≤ y ∧ y < (h ++ cs.map (copyCell W) ++ []).length ∧
      (h ++ cs.map (copyCell W) ++ [])[x]? = some c ∧ c.name = keptName h.length cs y) (ctorW w.cls) (ctorW w.cls) := by
    rw [List.forall₂_same]
    intro r hr
    obtain ⟨i, x, c, -, e1, e2, e3, e4⟩ := hat r hr
    refine ⟨x, h.length + i, c, e1, e2, lt_of_get e3, Nat.le_add_right _ _, lt_of_get (getElem?_new W e4),
      getElem?_old W e3, hnm e4⟩
  obtain ⟨H', hH1, hH2⟩ := finishFn_eq (o := []) (o' := []) keep .nil hfin
  refine ⟨H', ⟨w.cls, newName w.name n, d'⟩, ?_, ?_, rfl, ⟨rfl, ?_⟩, ?_⟩
  · have hlook : W.okW w.cls (look (h ++ cs.map (copyCell W)) (List.range' h.length cs.length)) = true := by
      have := look_new W h [] cs
      rw [List.append_nil] at this
      rw [this, ← hok, attrVal_list h2 h3]
      congr 1
      apply List.map_congr_left
      intro c hc
      rw [hfix c hc]
    rw [List.append_nil] at hH1
    rw [Wt.copy, passedW_eq, h1]
    simp only [copyAll_eq' W h3, hlen, hlook, if_true, ← hd', hH1]
  · refine prefix_of (news := ([] ++ ctorW w.cls).map d'.get?) ⟨cs.map (copyCell W) ++ [], (List.append_assoc _ _ _).symm⟩ ?_ hH2
    intro j hj
    obtain ⟨r, hr, e⟩ := List.mem_map.1 hj
    obtain ⟨i, x, c, -, -, e2, -⟩ := hat r hr
    rw [← hd', e] at e2
    simp only [Option.some.injEq] at e2
    rw [e2]
    exact Nat.le_add_right _ _
  · intro r hr
    obtain ⟨i, x, c, -, e1, e2, e3, e4⟩ := hat r hr
    dsimp only
    rw [e1, e2]
    refine copied_of W (news := ([] ++ ctorW w.cls).map d'.get?) hH2 e3 e4 (hfix c (List.mem_of_getElem? e4)) ?_
    exact List.mem_map.2 ⟨r, hr, e2⟩
  · refine List.Nodup.map_on ?_ (ctorW_nodup w.cls)
    intro r hr s hs e
    obtain ⟨i, x, c, e0, -, e2, -⟩ := hat r hr
    obtain ⟨j, y, c', f0, -, f2, -⟩ := hat s hs
    dsimp only at e
    rw [e2, f2] at e
    simp only [Option.some.injEq] at e
    have : i = j := Nat.add_left_cancel e
    subst this
    rw [e0] at f0
    exact Option.some.inj f0

end Verif.CopyFn
