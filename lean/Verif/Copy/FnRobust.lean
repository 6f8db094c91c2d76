import Verif.Copy.FnMore

/-!
# Copies of robust cost functions, copies of copies, examples (C113)
-/

namespace Verif.CopyFn
open Verif

variable {V : Type} (W : World V)

/-! ## A copy can be copied again -/

theorem Copied.has {keep : Bool} {h h' : Heap V} {l l' : List String} {d d' : Dict String Addr}
    (hc : List.Forall₂ (Copied keep h h') (l.map d.get?) (l'.map d'.get?)) : Has h' d' l' := by
  intro r hr
  obtain ⟨i, hi⟩ := List.getElem?_of_mem hr
  have h1 : (l'.map d'.get?)[i]? = some (d'.get? r) := by simp [hi]
  obtain ⟨x, -, a, a', c, c', -, e2, -, e3, -⟩ := forall₂_get' hc h1
  exact ⟨a', e2, lt_of_get e3⟩

theorem Copied.at {keep : Bool} {h h' : Heap V} {l l' : List String} {d d' : Dict String Addr}
    (hc : List.Forall₂ (Copied keep h h') (l.map d.get?) (l'.map d'.get?)) {i : ℕ} {r' : String}
    (hr : l'[i]? = some r') : ∃ r, l[i]? = some r ∧ Copied keep h h' (d.get? r) (d'.get? r') := by
  have h1 : (l'.map d'.get?)[i]? = some (d'.get? r') := by simp [hr]
  obtain ⟨x, hx, hc'⟩ := forall₂_get' hc h1
  rw [List.getElem?_map, Option.map_eq_some_iff] at hx
  obtain ⟨r, e1, rfl⟩ := hx
  exact ⟨r, e1, hc'⟩

/-- **A copy is as good as new**: it can be copied again. -/
theorem copy_built {keep : Bool} {h h' : Heap V} {b b' : Base} (hb : b.Built h) (hc : b.IsCopy keep h h' b') :
    b'.Built h' := by
  have hall : List.Forall₂ (Copied keep h h') ((b.optim ++ b.aux).map b.attrs.get?)
      ((b'.optim ++ b'.aux).map b'.attrs.get?) := by
    rw [List.map_append, List.map_append]; exact List.rel_append hc.optim hc.aux
  have hauto : ∀ o, b'.cls = .autodiff o → ∃ o, b.cls = .autodiff o := by
    intro o ho
    rw [hc.cls] at ho
    cases hcls : b.cls with
    | autodiff o' => exact ⟨o', rfl⟩
    | _ => rw [hcls] at ho; simp [copyCls] at ho
  refine ⟨?_, Copied.has hall, ?_, ?_, hc.nodup⟩
  · intro r hr
    rw [hc.weight.cls] at hr
    obtain ⟨a, a', c, c', -, e, -, e2, -⟩ := hc.weight.vars r hr
    exact ⟨a', e, lt_of_get e2⟩
  · intro hno
    have hno' : ∀ o, b.cls ≠ .autodiff o := by
      intro o ho
      exact hno _ (by rw [hc.cls, ho]; rfl)
    obtain ⟨e1, e2⟩ := hc.roles hno'
    obtain ⟨e3, e4⟩ := hb.roles hno'
    rw [e1, e2, e3, e4, hc.cls, optimRoles_copyCls, auxRoles_copyCls]
    exact ⟨rfl, rfl⟩
  · intro o ho
    obtain ⟨o', ho'⟩ := hauto o ho
    obtain ⟨hne, hnm⟩ := hb.auto o' ho'
    constructor
    · intro e
      have := hc.optim.length_eq
      rw [e] at this
      simp only [List.length_map, List.length_nil] at this
      exact hne (List.length_eq_zero_iff.1 this)
    · intro r hr s hs x y c c' e1 e2 e3 e4 e5
      obtain ⟨i, hi⟩ := List.getElem?_of_mem hr
      obtain ⟨j, hj⟩ := List.getElem?_of_mem hs
      obtain ⟨r0, hr0, a, a', q, q', f1, f2, f3, f4, -, -, -, f5⟩ := Copied.at hall hi
      obtain ⟨s0, hs0, b0, b0', p, p', g1, g2, g3, g4, -, -, -, g5⟩ := Copied.at hall hj
      rw [e1, Option.some.injEq] at f2
      rw [e2, Option.some.injEq] at g2
      subst f2; subst g2
      rw [e3, Option.some.injEq] at f4
      rw [e4, Option.some.injEq] at g4
      subst f4; subst g4
      have hq : q.name = p.name := by
        rw [f5, g5] at e5
        cases keep <;> simpa using e5
      have hrs := hnm r0 (List.mem_of_getElem? hr0) s0 (List.mem_of_getElem? hs0) _ _ _ _ f1 g1 f3 g3 hq
      subst hrs
      have := idx_inj hb.nodup hr0 hs0
      subst this
      rw [hi] at hj
      exact Option.some.inj hj

/-! ## Robust cost functions -/

/-- A robust cost function as its constructor leaves it: it registers the variables of the wrapped cost
function, under the same attributes, and its own. -/
structure Robust.Built (h : Heap V) (r : Robust) : Prop where
  inner : r.inner.Built h
  optim : r.optim = r.inner.optim
  aux : r.aux = r.inner.aux ++ extra r.gnc
  attached : ∀ x ∈ r.inner.optim ++ r.inner.aux, r.attrs.get? x = r.inner.attrs.get? x
  extras : Has h r.attrs (extra r.gnc)
  new : ∀ x ∈ extra r.gnc, x ∉ r.inner.optim ++ r.inner.aux

/-- `r'` is a copy of `r`. -/
structure Robust.IsCopy (keep : Bool) (h h' : Heap V) (r r' : Robust) : Prop where
  gnc : r'.gnc = r.gnc
  loss : r'.loss = r.loss
  flatten : r'.flatten = r.flatten
  inner : r.inner.IsCopy keep h h' r'.inner
  built : r'.Built h'
  extras : ∀ x ∈ extra r.gnc, Copied keep h h' (r.attrs.get? x) (r'.attrs.get? x)

theorem extra_nodup (g : Bool) : (extra g).Nodup := by cases g <;> decide

theorem get?_zip_append {rs : List String} {as : List Addr} {d : Dict String Addr} {r : String} (h : r ∉ rs) :
    Dict.get? (rs.zip as ++ d) r = d.get? r := by
  induction rs generalizing as with
  | nil => rfl
  | cons s rs ih =>
    cases as with
    | nil => rfl
    | cons a as =>
      rw [List.mem_cons, not_or] at h
      simp only [List.zip_cons_cons, List.cons_append, Dict.get?, if_neg (Ne.symm h.1)]
      exact ih h.2

theorem get?_append_of_some {d d' : Dict String Addr} {r : String} {a : Addr} (h : d.get? r = some a) :
    Dict.get? (d ++ d') r = some a := by
  induction d with
  | nil => simp [Dict.get?] at h
  | cons p d ih =>
    obtain ⟨k, b⟩ := p
    simp only [List.cons_append, Dict.get?] at h ⊢
    split
    · rename_i e; rw [if_pos e] at h; exact h
    · rename_i e; rw [if_neg e] at h; exact ih h

/-- A name without the suffix of a copy. -/
def unCopy (s : String) : String := String.ofList (s.toList.take (s.toList.length - 5))

theorem unCopy_append (s : String) : unCopy (s ++ "_copy") = s := by
  simp [unCopy, String.toList_append]

theorem extra_ne_copy (g : Bool) : ∀ x ∈ extra g, ∀ s : String, x ≠ s ++ "_copy" := by
  intro x hx s e
  have h2 : x.toList.drop (x.toList.length - 5) = "_copy".toList := by
    rw [e]; simp [String.toList_append]
  cases g with
  | false =>
    simp only [extra, Bool.false_eq_true, if_false, List.mem_singleton] at hx
    subst hx; revert h2; decide
  | true =>
    simp only [extra, if_true, List.mem_cons, List.not_mem_nil, or_false] at hx
    rcases hx with rfl | rfl <;> (revert h2; decide)

/-- **A copy of a robust cost function** is one of the same kind, around a copy of the wrapped cost function,
with which it shares its variables; its own variables are copied, too. -/
theorem copy_robust {h : Heap V} {r : Robust} (n : Option String) (keep : Bool) (hb : r.Built h)
    (hl : r.inner.Legal W h) (hle : Fixed W h r.attrs (extra r.gnc)) (hac : r.inner.Accepted W h) :
    ∃ h' r', r.copy W h n keep = .ok (h', r') ∧ r'.name = newName r.name n ∧ h <+: h' ∧
      r.IsCopy keep h h' r' := by
  obtain ⟨h1, b', c1, -, c3, c4⟩ := copy_cost_function_partial W none false hb.inner hl hac
  have hb' := copy_built hb.inner c4
  obtain ⟨es, ecs, x1, x2, x3⟩ := has_getattrs hb.extras
  have x3' : List.Forall₂ (fun a c => h1[a]? = some c) es ecs := by
    refine x3.imp fun a c e => ?_
    rw [get_of_prefix c3 (lt_of_get e)]; exact e
  have hlen : es.length = ecs.length := x3.length_eq
  have hfix := fixed_list W x2 x3 hle
  set H := h1 ++ ecs.map (copyCell W) with hH
  set d' : Dict String Addr := (extra r.gnc).zip (List.range' h1.length ecs.length) ++ b'.attrs with hd'
  have hnew : ∀ x ∈ extra r.gnc, x ∉ b'.optim ++ b'.aux := by
    intro x hx hm
    by_cases ha : ∃ o, r.inner.cls = .autodiff o
    · obtain ⟨o, ho⟩ := ha
      obtain ⟨s, e⟩ := c4.autoRoles o ho x hm
      exact extra_ne_copy _ x hx s e
    · obtain ⟨e1, e2⟩ := c4.roles fun o ho => ha ⟨o, ho⟩
      rw [e1, e2] at hm
      exact hb.new x hx hm
  have hchk : ((extra r.gnc).any fun x => (b'.optim ++ b'.aux).contains x) = false := by
    rw [Bool.eq_false_iff]
    intro hc
    obtain ⟨x, hx, hx'⟩ := List.any_eq_true.1 hc
    exact hnew x hx (by simpa using hx')
  have hdr : ∀ x ∈ b'.optim ++ b'.aux, d'.get? x = b'.attrs.get? x := fun x hx =>
    get?_zip_append fun hx' => hnew x hx' hx
  have hde : ∀ x ∈ extra r.gnc, ∃ i y c, r.attrs.get? x = some y ∧ d'.get? x = some (h1.length + i) ∧
      h[y]? = some c ∧ ecs[i]? = some c ∧ (extra r.gnc)[i]? = some x := by
    intro x hx
    obtain ⟨i, y, c, e0, e1, e2, e3, e4⟩ := built_get (extra_nodup r.gnc) x2 x3' hx
    refine ⟨i, y, c, e1, get?_append_of_some e2, ?_, e4, e0⟩
    obtain ⟨z, f1, f2⟩ := hb.extras x hx
    rw [e1, Option.some.injEq] at f1
    subst f1
    rw [← get_of_prefix c3 f2]; exact e3
  have hHold : ∀ {a : Addr}, a < h1.length → H[a]? = h1[a]? := fun hl => List.getElem?_append_left hl
  have hHnew : ∀ {i : ℕ} {c : Cell V}, ecs[i]? = some c → H[h1.length + i]? = some (copyCell W c) := by
    intro i c e
    have := getElem?_new W (h := h1) (t := []) e
    rwa [List.append_nil] at this
  let nm : ℕ → String := fun j => ((H[j]?).map fun c => unCopy c.name).getD ""
  -- the wrapped cost function's variables
  have hin : ∀ {l l' : List String}, (∀ x ∈ l, x ∈ r.inner.optim ++ r.inner.aux) → (∀ x ∈ l', x ∈ b'.optim ++ b'.aux) →
      List.Forall₂ (Copied false h h1) (l.map r.inner.attrs.get?) (l'.map b'.attrs.get?) →
      List.Forall₂ (fun x x' => ∃ a y c, r.attrs.get? x = some a ∧ d'.get? x' = some y ∧ a < h.length ∧
        h.length ≤ y ∧ y < H.length ∧ H[a]? = some c ∧ c.name = nm y) l l' := by
    intro l l' hs hs' hc
    refine forall₂_of_get (by simpa using hc.length_eq) fun i x x' hx hx' => ?_
    obtain ⟨x0, hx0, a, a', c, c', e1, e2, e3, e4, e5, -, -, e6⟩ := Copied.at hc hx'
    rw [hx, Option.some.injEq] at hx0
    subst hx0
    have hlt := lt_of_get e4
    refine ⟨a, a', c, ?_, ?_, lt_of_get e3, e5, ?_, ?_, ?_⟩
    · rw [hb.attached x (hs x (List.mem_of_getElem? hx))]; exact e1
    · rw [hdr x' (hs' x' (List.mem_of_getElem? hx'))]; exact e2
    · rw [hH, List.length_append]; exact Nat.lt_of_lt_of_le hlt (Nat.le_add_right _ _)
    · rw [hHold (Nat.lt_of_lt_of_le (lt_of_get e3) c3.length_le), get_of_prefix c3 (lt_of_get e3)]; exact e3
    · simp only [nm, hHold hlt, e4, Option.map_some, Option.getD_some, e6, Bool.false_eq_true, if_false, unCopy_append]
  have hex : List.Forall₂ (fun x x' => ∃ a y c, r.attrs.get? x = some a ∧ d'.get? x' = some y ∧ a < h.length ∧
        h.length ≤ y ∧ y < H.length ∧ H[a]? = some c ∧ c.name = nm y) (extra r.gnc) (extra r.gnc) := by
    rw [List.forall₂_same]
    intro x hx
    obtain ⟨i, y, c, e1, e2, e3, e4, -⟩ := hde x hx
    refine ⟨y, h1.length + i, c, e1, e2, lt_of_get e3, Nat.le_trans c3.length_le (Nat.le_add_right _ _),
      lt_of_get (hHnew e4), ?_, ?_⟩
    · rw [hHold (Nat.lt_of_lt_of_le (lt_of_get e3) c3.length_le), get_of_prefix c3 (lt_of_get e3)]; exact e3
    · simp only [nm, hHnew e4, Option.map_some, Option.getD_some, copyCell, unCopy_append]
  obtain ⟨H', f1, f2⟩ := finishFn_eq (d := r.attrs) (d' := d') (o := r.optim) (o' := b'.optim) (a := r.aux)
    (a' := b'.aux ++ extra r.gnc) keep
    (by rw [hb.optim]; exact hin (fun x hx => by simp [hx]) (fun x hx => by simp [hx]) c4.optim)
    (by rw [hb.aux]
        exact List.rel_append (hin (fun x hx => by simp [hx]) (fun x hx => by simp [hx]) c4.aux) hex)
  have hHp : h <+: H := c3.trans ⟨_, rfl⟩
  have hnews : ∀ j, some j ∈ (b'.optim ++ (b'.aux ++ extra r.gnc)).map d'.get? → h.length ≤ j := by
    intro j hj
    obtain ⟨x, hx, e⟩ := List.mem_map.1 hj
    rw [← List.append_assoc] at hx
    rcases List.mem_append.1 hx with hx | hx
    · rw [hdr x hx] at e
      rcases List.mem_append.1 hx with hx | hx
      · obtain ⟨a, e', hl⟩ := Copied.mem c4.optim x hx
        rw [e, Option.some.injEq] at e'; subst e'; exact hl
      · obtain ⟨a, e', hl⟩ := Copied.mem c4.aux x hx
        rw [e, Option.some.injEq] at e'; subst e'; exact hl
    · obtain ⟨i, y, c, -, e2, -⟩ := hde x hx
      rw [e, Option.some.injEq] at e2
      subst e2
      exact Nat.le_trans c3.length_le (Nat.le_add_right _ _)
  have hpre : h <+: H' := prefix_of hHp hnews f2
  -- the renamed copies
  have hren : ∀ {x : Option Addr} {y : Addr}, Copied false h h1 x (some y) →
      some y ∈ (b'.optim ++ (b'.aux ++ extra r.gnc)).map d'.get? → Copied keep h H' x (some y) := by
    rintro x y ⟨a, a', c, c', e1, e2, e3, e4, e5, e6, e7, e8⟩ hm
    simp only [Option.some.injEq] at e2
    subst e2
    refine ⟨a, y, c, if keep = true then { c' with name := c.name } else c', e1, rfl, e3, ?_, e5, ?_⟩
    · rw [f2, hHold (lt_of_get e4), e4, Option.map_some]
      simp only [hm, and_true, nm, hHold (lt_of_get e4), e4, Option.map_some, Option.getD_some, e8,
        Bool.false_eq_true, if_false, unCopy_append]
    · cases keep
      · exact ⟨e6, e7, by simpa using e8⟩
      · exact ⟨e6, e7, rfl⟩
  have hlist : ∀ {l l' : List String}, (∀ x ∈ l', x ∈ b'.optim ++ b'.aux) →
      List.Forall₂ (Copied false h h1) (l.map r.inner.attrs.get?) (l'.map b'.attrs.get?) →
      List.Forall₂ (Copied keep h H') (l.map r.inner.attrs.get?) (l'.map b'.attrs.get?) := by
    intro l l' hs' hc
    refine forall₂_of_get hc.length_eq fun i x x' hx hx' => ?_
    rw [List.getElem?_map, Option.map_eq_some_iff] at hx'
    obtain ⟨q, hq, rfl⟩ := hx'
    obtain ⟨q0, hq0, hcp⟩ := Copied.at hc hq
    rw [List.getElem?_map, hq0, Option.map_some, Option.some.injEq] at hx
    subst hx
    obtain ⟨a, a', c, c', e1, e2, e3⟩ := id hcp
    rw [e2] at hcp ⊢
    refine hren hcp ?_
    have hq' := hs' q (List.mem_of_getElem? hq)
    refine List.mem_map.2 ⟨q, ?_, ?_⟩
    · rw [← List.append_assoc]; exact List.mem_append_left _ hq'
    · rw [hdr q hq']; exact e2
  have hinner : r.inner.IsCopy keep h H' b' := by
    refine ⟨c4.cls, hlist (fun x hx => by simp [hx]) c4.optim, hlist (fun x hx => by simp [hx]) c4.aux, c4.roles,
      c4.autoRoles, c4.nodup, ⟨c4.weight.cls, fun s hs => ?_⟩, c4.distinct⟩
    obtain ⟨a, a', c, c', e1, e2, e3, e4, e5, e6⟩ := c4.weight.vars s hs
    refine ⟨a, a', c, c', e1, e2, e3, ?_, e5, e6⟩
    rw [f2, hHold (lt_of_get e4), e4, Option.map_some, if_neg]
    rintro ⟨-, hm⟩
    obtain ⟨x, hx, e⟩ := List.mem_map.1 hm
    rw [← List.append_assoc] at hx
    rcases List.mem_append.1 hx with hx | hx
    · rw [hdr x hx, ← e2] at e
      rw [← c4.weight.cls] at hs
      exact copy_splits c4 hx hs e
    · obtain ⟨i, y, c2, -, g2, -⟩ := hde x hx
      rw [g2, Option.some.injEq] at e
      have := lt_of_get e4
      rw [← e] at this
      exact absurd this (Nat.not_lt.2 (Nat.le_add_right _ _))
  have hextras : ∀ x ∈ extra r.gnc, Copied keep h H' (r.attrs.get? x) (d'.get? x) := by
    intro x hx
    obtain ⟨i, y, c, e1, e2, e3, e4, -⟩ := hde x hx
    rw [e1, e2]
    refine ⟨y, h1.length + i, c, if keep = true then { copyCell W c with name := c.name } else copyCell W c, rfl, rfl,
      e3, ?_, Nat.le_trans c3.length_le (Nat.le_add_right _ _), ?_⟩
    · have hm : some (h1.length + i) ∈ (b'.optim ++ (b'.aux ++ extra r.gnc)).map d'.get? :=
        List.mem_map.2 ⟨x, by simp [hx], e2⟩
      rw [f2, hHnew e4, Option.map_some]
      simp only [hm, and_true, nm, hHnew e4, Option.map_some, Option.getD_some, copyCell, unCopy_append]
    · have hv := hfix c (List.mem_of_getElem? e4)
      cases keep
      · exact ⟨rfl, hv, rfl⟩
      · exact ⟨rfl, hv, rfl⟩
  refine ⟨H', ⟨r.gnc, r.loss, r.flatten, newName r.name n, b', d', b'.optim, b'.aux ++ extra r.gnc⟩, ?_, rfl, hpre,
    rfl, rfl, rfl, hinner, ⟨copy_built hb.inner hinner, rfl, rfl, hdr, ?_, hnew⟩, hextras⟩
  · simp only [Robust.copy, Robust.copyImpl, c1, x1, copyAll_eq' W x3', hlen, hchk, Bool.false_eq_true, if_false,
      ← hd', ← hH, f1]
  · intro x hx
    obtain ⟨a, a', c, c', -, e2, -, e4, -⟩ := hextras x hx
    exact ⟨a', e2, lt_of_get e4⟩

/-- **The copy of a robust cost function evaluates to the same**, for any loss. -/
theorem copy_robust_error {R S T : Type} (sem : Cls → List (Option (VCls × V)) → R)
    (wsem : WCls → List (Option (VCls × V)) → R → S) (rsem : ℕ → Bool → List (Option (VCls × V)) → S → T)
    {keep : Bool} {h h' : Heap V} {r r' : Robust} (hc : r.IsCopy keep h h' r') :
    r'.weightedError sem wsem rsem h' = r.weightedError sem wsem rsem h := by
  have : (extra r'.gnc).map (attrVal h' r'.attrs) = (extra r.gnc).map (attrVal h r.attrs) := by
    rw [hc.gnc]
    refine inputs_of_copied (keep := keep) ?_
    rw [List.forall₂_map_left_iff, List.forall₂_map_right_iff, List.forall₂_same]
    exact hc.extras
  rw [Robust.weightedError, this, copy_error sem wsem hc.inner, hc.loss, hc.flatten]; rfl

end Verif.CopyFn
