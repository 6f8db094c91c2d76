import Verif.Copy.FnModel

/-!
# What a copy of a cost function is

Specification of C113, and lemmas on the heap.
-/

namespace Verif.CopyFn
open Verif

variable {V : Type} (W : World V)

/-- The variable under an attribute of the copy (`x'`) is a new one with the class and the data of the
variable under an attribute of the original (`x`), and its name, if names are kept. -/
def Copied (keep : Bool) (h h' : Heap V) (x x' : Option Addr) : Prop :=
  ∃ a a' c c', x = some a ∧ x' = some a' ∧ h[a]? = some c ∧ h'[a']? = some c' ∧ h.length ≤ a' ∧
    c'.cls = c.cls ∧ c'.val = c.val ∧ c'.name = if keep then c.name else c.name ++ "_copy"

/-- The attributes hold variables. -/
def Has (h : Heap V) (d : Dict String Addr) (rs : List String) : Prop :=
  ∀ r ∈ rs, ∃ a, d.get? r = some a ∧ a < h.length

/-- The data of the variables is legal: the check of a copy's constructor leaves it alone. -/
def Fixed (h : Heap V) (d : Dict String Addr) (rs : List String) : Prop :=
  ∀ r ∈ rs, ∀ a c, d.get? r = some a → h[a]? = some c → copyVal W c.cls c.val = c.val

/-- A cost function as its constructor leaves it, whatever data its variables hold now: all attributes
hold variables, those of the class are registered, and the variables of an `AutoDiffCostFunction` have
different names. -/
structure Base.Built (h : Heap V) (b : Base) : Prop where
  weight : Has h b.weight.attrs (ctorW b.weight.cls)
  has : Has h b.attrs (b.optim ++ b.aux)
  roles : (∀ o, b.cls ≠ .autodiff o) → b.optim = optimRoles b.cls ∧ b.aux = auxRoles b.cls
  auto : ∀ o, b.cls = .autodiff o → b.optim ≠ [] ∧
    ∀ r ∈ b.optim ++ b.aux, ∀ s ∈ b.optim ++ b.aux, ∀ x y c c', b.attrs.get? r = some x →
      b.attrs.get? s = some y → h[x]? = some c → h[y]? = some c' → c.name = c'.name → r = s
  nodup : (b.optim ++ b.aux).Nodup

/-- The weight's variables and the cost function's hold legal data. -/
structure Base.Legal (h : Heap V) (b : Base) : Prop where
  weight : Fixed W h b.weight.attrs (ctorW b.weight.cls)
  vars : Fixed W h b.attrs (b.optim ++ b.aux)

/-- The constructors that a copy calls accept the data of the variables. -/
structure Base.Accepted (h : Heap V) (b : Base) : Prop where
  weight : W.okW b.weight.cls ((ctorW b.weight.cls).filterMap (attrVal h b.weight.attrs)) = true
  vars : (∀ o, b.cls ≠ .autodiff o) →
    W.ok (copyCls b.cls) ((ctor b.cls).filterMap (attrVal h b.attrs)) = true

/-- `w'` is a copy of `w`. -/
structure Wt.IsCopy (keep : Bool) (h h' : Heap V) (w w' : Wt) : Prop where
  cls : w'.cls = w.cls
  vars : ∀ r ∈ ctorW w.cls, Copied keep h h' (w.attrs.get? r) (w'.attrs.get? r)

/-- `b'` is a copy of `b`: every registered variable is copied, under the same attributes
(those of an `AutoDiffCostFunction` are the names of the copies), no two attributes of the copy share a
variable, and the weight is copied, too (its variables do not keep their names). -/
structure Base.IsCopy (keep : Bool) (h h' : Heap V) (b b' : Base) : Prop where
  cls : b'.cls = copyCls b.cls
  optim : List.Forall₂ (Copied keep h h') (b.optim.map b.attrs.get?) (b'.optim.map b'.attrs.get?)
  aux : List.Forall₂ (Copied keep h h') (b.aux.map b.attrs.get?) (b'.aux.map b'.attrs.get?)
  roles : (∀ o, b.cls ≠ .autodiff o) → b'.optim = b.optim ∧ b'.aux = b.aux
  autoRoles : ∀ o, b.cls = .autodiff o → ∀ r ∈ b'.optim ++ b'.aux, ∃ s, r = s ++ "_copy"
  nodup : (b'.optim ++ b'.aux).Nodup
  weight : b.weight.IsCopy false h h' b'.weight
  distinct : ((b'.optim ++ b'.aux).map b'.attrs.get? ++
    (ctorW b'.weight.cls).map b'.weight.attrs.get?).Nodup

/-! ## Lemmas -/

theorem getattrs_iff {d : Dict String Addr} {rs : List String} {as : List Addr} :
    getattrs d rs = .ok as ↔ List.Forall₂ (fun r a => d.get? r = some a) rs as := by
  induction rs generalizing as with
  | nil => constructor
           · intro h; simp only [getattrs, Except.ok.injEq] at h; subst h; exact .nil
           · intro h; cases h; rfl
  | cons r rs ih =>
    simp only [getattrs]
    constructor
    · intro h
      cases h1 : d.get? r with
      | none => simp [h1] at h
      | some a =>
        rw [h1] at h
        cases h2 : getattrs d rs with
        | error e => simp [h2] at h
        | ok as' =>
          rw [h2] at h
          simp only [Except.ok.injEq] at h
          subst h
          exact .cons h1 (ih.1 h2)
    · intro h
      cases h with
      | cons h1 h2 =>
        rw [h1, ih.2 h2]

theorem has_getattrs {h : Heap V} {d : Dict String Addr} {rs : List String} (hh : Has h d rs) :
    ∃ as cs, getattrs d rs = .ok as ∧ List.Forall₂ (fun r a => d.get? r = some a) rs as ∧
      List.Forall₂ (fun a c => h[a]? = some c) as cs := by
  induction rs with
  | nil => exact ⟨[], [], rfl, .nil, .nil⟩
  | cons r rs ih =>
    obtain ⟨as, cs, -, h2, h3⟩ := ih fun r hr => hh r (by simp [hr])
    obtain ⟨a, h4, h5⟩ := hh r (by simp)
    have h6 : List.Forall₂ (fun r a => d.get? r = some a) (r :: rs) (a :: as) := .cons h4 h2
    exact ⟨a :: as, h[a] :: cs, getattrs_iff.2 h6, h6, .cons (List.getElem?_eq_getElem h5) h3⟩

theorem lt_of_get {h : Heap V} {a : Addr} {c : Cell V} (e : h[a]? = some c) : a < h.length := by
  by_contra hn
  rw [List.getElem?_eq_none (Nat.le_of_not_lt hn)] at e
  simp at e

theorem forall₂_get {α β : Type} {R : α → β → Prop} {l : List α} {l' : List β}
    (h : List.Forall₂ R l l') {i : ℕ} {a : α} (e : l[i]? = some a) : ∃ b, l'[i]? = some b ∧ R a b := by
  induction h generalizing i with
  | nil => simp at e
  | cons h1 _ ih =>
    cases i with
    | zero => simp only [List.getElem?_cons_zero, Option.some.injEq] at e; subst e
              exact ⟨_, rfl, h1⟩
    | succ i => simp only [List.getElem?_cons_succ] at e ⊢; exact ih e

theorem forall₂_get' {α β : Type} {R : α → β → Prop} {l : List α} {l' : List β}
    (h : List.Forall₂ R l l') {i : ℕ} {b : β} (e : l'[i]? = some b) : ∃ a, l[i]? = some a ∧ R a b := by
  induction h generalizing i with
  | nil => simp at e
  | cons h1 _ ih =>
    cases i with
    | zero => simp only [List.getElem?_cons_zero, Option.some.injEq] at e; subst e
              exact ⟨_, rfl, h1⟩
    | succ i => simp only [List.getElem?_cons_succ] at e ⊢; exact ih e

theorem copyAll_eq {h : Heap V} {as : List Addr} {cs : List (Cell V)}
    (hc : List.Forall₂ (fun a c => h[a]? = some c) as cs) (t : Heap V) :
    copyAll W (h ++ t) as = .ok (h ++ t ++ cs.map (copyCell W),
      List.range' (h ++ t).length as.length) := by
  induction hc generalizing t with
  | nil => simp [copyAll]
  | @cons a c as cs h1 _ ih =>
    have h2 : (h ++ t)[a]? = some c := by
      rw [List.getElem?_append_left (lt_of_get h1), h1]
    simp only [copyAll, h2]
    rw [List.append_assoc h t, ih (t ++ [copyCell W c])]
    simp [List.range'_succ, Nat.add_assoc]

theorem copyAll_eq' {h : Heap V} {as : List Addr} {cs : List (Cell V)}
    (hc : List.Forall₂ (fun a c => h[a]? = some c) as cs) :
    copyAll W h as = .ok (h ++ cs.map (copyCell W), List.range' h.length as.length) := by
  simpa using copyAll_eq W hc []

theorem zip_get {rs : List String} (hn : rs.Nodup) {as : List Addr} {i : ℕ} {r : String} {a : Addr}
    (h1 : rs[i]? = some r) (h2 : as[i]? = some a) : Dict.get? (rs.zip as) r = some a := by
  induction rs generalizing as i with
  | nil => simp at h1
  | cons s rs ih =>
    cases as with
    | nil => simp at h2
    | cons b as =>
      cases i with
      | zero =>
        simp only [List.getElem?_cons_zero, Option.some.injEq] at h1 h2
        subst h1; subst h2; simp [Dict.get?]
      | succ i =>
        simp only [List.getElem?_cons_succ] at h1 h2
        have h3 : s ≠ r := by
          rintro rfl
          exact (List.nodup_cons.1 hn).1 (List.mem_of_getElem? h1)
        simp only [List.zip_cons_cons, Dict.get?, if_neg h3]
        exact ih (List.nodup_cons.1 hn).2 h1 h2

theorem rename_get {nm : ℕ → String} {L : ℕ} {ps : List (Addr × Addr)} {h : Heap V}
    (hp : ∀ p ∈ ps, p.1 < L ∧ L ≤ p.2 ∧ p.2 < h.length ∧ ∃ c, h[p.1]? = some c ∧ c.name = nm p.2)
    (j : ℕ) : (rename h ps)[j]? = (h[j]?).map fun d =>
      if j ∈ ps.map Prod.snd then { d with name := nm j } else d := by
  induction ps generalizing h with
  | nil => simp [rename]
  | cons p ps ih =>
    obtain ⟨o, n⟩ := p
    obtain ⟨h1, h2, h3, c, h4, h5⟩ := hp (o, n) (by simp)
    dsimp only at h1 h2 h3 h4 h5
    simp only [rename, h4, List.getElem?_eq_getElem h3]
    rw [ih]
    · by_cases hj : n = j
      · subst hj
        rw [List.getElem?_set_self h3, List.getElem?_eq_getElem h3]
        simp [h5]
      · rw [List.getElem?_set_ne hj]
        have hj2 : j ∈ ((o, n) :: ps).map Prod.snd ↔ j ∈ ps.map Prod.snd := by
          rw [List.map_cons, List.mem_cons]; exact ⟨fun h => h.resolve_left fun e => hj e.symm, .inr⟩
        simp only [hj2]
    · intro p' hp'
      obtain ⟨q1, q2, q3, c', q4, q5⟩ := hp p' (by simp [hp'])
      refine ⟨q1, q2, by simpa using q3, c', ?_, q5⟩
      have hne : n ≠ p'.1 := fun e => absurd (e ▸ q1 : n < L) (Nat.not_lt.2 h2)
      rw [List.getElem?_set_ne hne]
      exact q4

/-- What the end of `copy` does when the variables of the copy are new. -/
theorem finishFn_eq {nm : ℕ → String} {L : ℕ} {H : Heap V} {d d' : Dict String Addr}
    {o a o' a' : List String} (keep : Bool)
    (ho : List.Forall₂ (fun r r' => ∃ x y c, d.get? r = some x ∧ d'.get? r' = some y ∧ x < L ∧
      L ≤ y ∧ y < H.length ∧ H[x]? = some c ∧ c.name = nm y) o o')
    (ha : List.Forall₂ (fun r r' => ∃ x y c, d.get? r = some x ∧ d'.get? r' = some y ∧ x < L ∧
      L ≤ y ∧ y < H.length ∧ H[x]? = some c ∧ c.name = nm y) a a') :
    ∃ H', finishFn keep H d o a d' o' a' = .ok H' ∧ ∀ j, H'[j]? = (H[j]?).map fun c =>
      if keep = true ∧ some j ∈ (o' ++ a').map d'.get? then { c with name := nm j } else c := by
  have key : ∀ {rs rs' : List String}, List.Forall₂ (fun r r' => ∃ x y c, d.get? r = some x ∧
      d'.get? r' = some y ∧ x < L ∧ L ≤ y ∧ y < H.length ∧ H[x]? = some c ∧ c.name = nm y) rs rs' →
      ∃ as as', getattrs d rs = .ok as ∧ getattrs d' rs' = .ok as' ∧ as'.map some = rs'.map d'.get? ∧
        List.Forall₂ (fun x y => x < L ∧ L ≤ y ∧ y < H.length ∧ ∃ c, H[x]? = some c ∧ c.name = nm y) as as' := by
    intro rs rs' hr
    induction hr with
    | nil => exact ⟨[], [], rfl, rfl, rfl, .nil⟩
    | cons h1 _ ih =>
      obtain ⟨as, as', i1, i2, i3, i4⟩ := ih
      obtain ⟨x, y, c, j1, j2, j3, j4, j5, j6, j7⟩ := h1
      exact ⟨x :: as, y :: as', by simp [getattrs, j1, i1], by simp [getattrs, j2, i2],
        by simp [i3, j2], .cons ⟨j3, j4, j5, c, j6, j7⟩ i4⟩
  obtain ⟨ov, ov', k1, k2, k3, k4⟩ := key ho
  obtain ⟨av, av', l1, l2, l3, l4⟩ := key ha
  have hm : ∀ {l l' : List Addr}, List.Forall₂ (fun x y => x < L ∧ L ≤ y ∧ y < H.length ∧
      ∃ c, H[x]? = some c ∧ c.name = nm y) l l' → meet l l' = false := by
    intro l l' hl
    have h1 : ∀ x ∈ l, x < L := by
      intro x hx
      obtain ⟨i, hi⟩ := List.getElem?_of_mem hx
      obtain ⟨y, -, hy, -⟩ := forall₂_get hl hi
      exact hy
    have h2 : ∀ y ∈ l', L ≤ y := by
      intro x hx
      obtain ⟨i, hi⟩ := List.getElem?_of_mem hx
      obtain ⟨y, -, -, hy, -⟩ := forall₂_get' hl hi
      exact hy
    rw [meet, Bool.eq_false_iff]
    intro hc
    obtain ⟨x, hx, hx'⟩ := List.any_eq_true.1 hc
    exact absurd (h1 x hx) (Nat.not_lt.2 (h2 x (by simpa using hx')))
  have hz : ∀ {l l' : List Addr}, List.Forall₂ (fun x y => x < L ∧ L ≤ y ∧ y < H.length ∧
      ∃ c, H[x]? = some c ∧ c.name = nm y) l l' → (∀ p ∈ l.zip l', p.1 < L ∧ L ≤ p.2 ∧ p.2 < H.length ∧
      ∃ c, H[p.1]? = some c ∧ c.name = nm p.2) ∧ (l.zip l').map Prod.snd = l' := by
    intro l l' hl
    induction hl with
    | nil => simp
    | cons h1 _ ih =>
      constructor
      · intro p hp
        rw [List.zip_cons_cons, List.mem_cons] at hp
        rcases hp with rfl | hp
        · exact h1
        · exact ih.1 p hp
      · simp [ih.2]
  have hnews : ∀ j, j ∈ (ov.zip ov' ++ av.zip av').map Prod.snd ↔ some j ∈ (o' ++ a').map d'.get? := by
    intro j
    rw [List.map_append, (hz k4).2, (hz l4).2, List.map_append, ← k3, ← l3]
    simp
  cases keep with
  | false =>
    exact ⟨H, by simp [finishFn, k1, k2, l1, l2, finish, hm k4, hm l4], fun j => by simp⟩
  | true =>
    refine ⟨rename H (ov.zip ov' ++ av.zip av'),
      by simp [finishFn, k1, k2, l1, l2, finish, hm k4, hm l4], fun j => ?_⟩
    rw [rename_get (nm := nm) (L := L)]
    · simp only [hnews, true_and]
    · intro p hp
      rcases List.mem_append.1 hp with hp | hp
      · exact (hz k4).1 p hp
      · exact (hz l4).1 p hp

end Verif.CopyFn
