import Verif.Copy.FnLemmas

/-!
# Properties of copies of cost functions (C113)
-/

namespace Verif.CopyFn
open Verif

variable {V : Type} (W : World V)

theorem ctor_nodup (c : Cls) : (ctor c).Nodup := by cases c <;> simp [ctor]
theorem passed_eq (c : Cls) : passed c = ctor c := by cases c <;> rfl
theorem ctor_copyCls (c : Cls) : ctor (copyCls c) = ctor c := by cases c <;> rfl
theorem optimRoles_copyCls (c : Cls) : optimRoles (copyCls c) = optimRoles c := by cases c <;> rfl
theorem auxRoles_copyCls (c : Cls) : auxRoles (copyCls c) = auxRoles c := by cases c <;> rfl
theorem roles_iff (c : Cls) (r : String) : r ∈ ctor c ↔ r ∈ optimRoles c ++ auxRoles c := by
  cases c <;> simp [ctor, optimRoles, auxRoles]
  all_goals tauto

/-- The attribute `r'` of the copy holds the copy of the variable under `r`. -/
def Linked (h : Heap V) (cs : List (Cell V)) (rs' : List String) (d d' : Dict String Addr) (r r' : String) : Prop :=
  ∃ i x c, rs'[i]? = some r' ∧ d.get? r = some x ∧ d'.get? r' = some (h.length + i) ∧ h[x]? = some c ∧
    cs[i]? = some c

theorem finish_linked {h t : Heap V} {cs : List (Cell V)} {rs' : List String} {d d' : Dict String Addr}
    {o a o' a' : List String} (keep : Bool) (hfix : ∀ c ∈ cs, copyVal W c.cls c.val = c.val)
    (ho : List.Forall₂ (Linked h cs rs' d d') o o') (ha : List.Forall₂ (Linked h cs rs' d d') a a')
    (hn : (o' ++ a').Nodup) :
    ∃ H', finishFn keep (h ++ cs.map (copyCell W) ++ t) d o a d' o' a' = .ok H' ∧ h <+: H' ∧
      (∀ j, h.length + cs.length ≤ j → H'[j]? = (h ++ cs.map (copyCell W) ++ t)[j]?) ∧
      List.Forall₂ (Copied keep h H') (o.map d.get?) (o'.map d'.get?) ∧
      List.Forall₂ (Copied keep h H') (a.map d.get?) (a'.map d'.get?) ∧
      ((o' ++ a').map d'.get?).Nodup ∧
      ∀ y, some y ∈ (o' ++ a').map d'.get? → y < h.length + cs.length := by
  have hnm : ∀ {i : ℕ} {c : Cell V}, cs[i]? = some c → c.name = keptName h.length cs (h.length + i) := by
    intro i c e
    simp [keptName, e]
  have hto : ∀ {l l' : List String}, List.Forall₂ (Linked h cs rs' d d') l l' →
      List.Forall₂ (fun r r' => ∃ x y c, d.get? r = some x ∧ d'.get? r' = some y ∧
      x < h.length ∧ h.length ≤ y ∧ y < (h ++ cs.map (copyCell W) ++ t).length ∧
      (h ++ cs.map (copyCell W) ++ t)[x]? = some c ∧ c.name = keptName h.length cs y) l l' := by
    intro l l' hl
    refine hl.imp ?_
    rintro r r' ⟨i, x, c, -, e1, e2, e3, e4⟩
    exact ⟨x, h.length + i, c, e1, e2, lt_of_get e3, Nat.le_add_right _ _, lt_of_get (getElem?_new W e4),
      getElem?_old W e3, hnm e4⟩
  have hmem : ∀ {l l' : List String}, List.Forall₂ (Linked h cs rs' d d') l l' → ∀ r' ∈ l',
      ∃ i c, rs'[i]? = some r' ∧ d'.get? r' = some (h.length + i) ∧ cs[i]? = some c := by
    intro l l' hl r' hr
    obtain ⟨k, hk⟩ := List.getElem?_of_mem hr
    obtain ⟨r, -, i, x, c, e0, -, e2, -, e4⟩ := forall₂_get' hl hk
    exact ⟨i, c, e0, e2, e4⟩
  have hall : ∀ r' ∈ o' ++ a', ∃ i c, rs'[i]? = some r' ∧ d'.get? r' = some (h.length + i) ∧ cs[i]? = some c := by
    intro r' hr
    rcases List.mem_append.1 hr with hr | hr
    · exact hmem ho r' hr
    · exact hmem ha r' hr
  obtain ⟨H', hH1, hH2⟩ := finishFn_eq keep (hto ho) (hto ha)
  have hnews : ∀ j, some j ∈ (o' ++ a').map d'.get? → h.length ≤ j ∧ j < h.length + cs.length := by
    intro j hj
    obtain ⟨r, hr, e⟩ := List.mem_map.1 hj
    obtain ⟨i, c, -, e2, e4⟩ := hall r hr
    rw [e] at e2
    simp only [Option.some.injEq] at e2
    have := lt_of_get e4
    rw [e2]
    exact ⟨Nat.le_add_right _ _, Nat.add_lt_add_left this _⟩
  have hcop : ∀ {l l' : List String}, List.Forall₂ (Linked h cs rs' d d') l l' → (∀ r ∈ l', r ∈ o' ++ a') →
      List.Forall₂ (Copied keep h H') (l.map d.get?) (l'.map d'.get?) := by
    intro l l' hl
    induction hl with
    | nil => intro _; exact .nil
    | @cons r r' l l' h1 _ ih =>
      intro hsub
      refine .cons ?_ (ih fun s hs => hsub s (by simp [hs]))
      obtain ⟨i, x, c, -, e1, e2, e3, e4⟩ := h1
      rw [e1, e2]
      exact copied_of W hH2 e3 e4 (hfix c (List.mem_of_getElem? e4)) (List.mem_map.2 ⟨r', hsub r' (by simp), e2⟩)
  refine ⟨H', hH1, ?_, ?_, hcop ho fun r hr => by simp [hr], hcop ha fun r hr => by simp [hr], ?_,
    fun y hy => (hnews y hy).2⟩
  · exact prefix_of (news := (o' ++ a').map d'.get?) ⟨cs.map (copyCell W) ++ t, (List.append_assoc _ _ _).symm⟩
      (fun j hj => (hnews j hj).1) hH2
  · intro j hj
    rw [hH2]
    cases (h ++ cs.map (copyCell W) ++ t)[j]? with
    | none => rfl
    | some c =>
      rw [Option.map_some, if_neg]
      rintro ⟨-, h2⟩
      exact absurd (hnews j h2).2 (Nat.not_lt.2 hj)
  · refine List.Nodup.map_on ?_ hn
    intro r hr s hs e
    obtain ⟨i, c, e0, e2, -⟩ := hall r hr
    obtain ⟨j, c', f0, f2, -⟩ := hall s hs
    rw [e2, f2] at e
    simp only [Option.some.injEq] at e
    have : i = j := Nat.add_left_cancel e
    subst this
    rw [e0] at f0
    exact Option.some.inj f0

theorem Wt.IsCopy.lift {keep : Bool} {h h1 h2 h3 : Heap V} {w w' : Wt} (hc : w.IsCopy keep h1 h2 w')
    (hh : Has h w.attrs (ctorW w.cls)) (hp : h <+: h1) (he : ∀ j, h1.length ≤ j → h3[j]? = h2[j]?) :
    w.IsCopy keep h h3 w' := by
  refine ⟨hc.cls, fun r hr => ?_⟩
  obtain ⟨a, a', c, c', e1, e2, e3, e4, e5, e6⟩ := hc.vars r hr
  obtain ⟨x, f1, f2⟩ := hh r hr
  rw [f1] at e1
  simp only [Option.some.injEq] at e1
  subst e1
  refine ⟨x, a', c, c', f1, e2, ?_, (he a' e5).trans e4, Nat.le_trans hp.length_le e5, e6⟩
  have := (List.prefix_iff_getElem?.1 hp) x f2
  rw [this] at e3
  rw [List.getElem?_eq_getElem f2]
  exact e3

theorem has_of_prefix {h h1 : Heap V} {d : Dict String Addr} {rs : List String} (hh : Has h d rs)
    (hp : h <+: h1) : Has h1 d rs := by
  intro r hr
  obtain ⟨a, e, hl⟩ := hh r hr
  exact ⟨a, e, Nat.lt_of_lt_of_le hl hp.length_le⟩

theorem get_of_prefix {h h1 : Heap V} (hp : h <+: h1) {a : Addr} (hl : a < h.length) : h1[a]? = h[a]? := by
  rw [List.getElem?_eq_getElem hl]
  exact (List.prefix_iff_getElem?.1 hp) a hl

theorem fixed_of_prefix {h h1 : Heap V} {d : Dict String Addr} {rs : List String} (hh : Has h d rs)
    (hf : Fixed W h d rs) (hp : h <+: h1) : Fixed W h1 d rs := by
  intro r hr a c e1 e2
  obtain ⟨x, f1, f2⟩ := hh r hr
  rw [e1] at f1
  simp only [Option.some.injEq] at f1
  subst f1
  exact hf r hr a c e1 (by rw [← get_of_prefix hp f2]; exact e2)

theorem attrVal_of_prefix {h h1 : Heap V} {d : Dict String Addr} {rs : List String} (hh : Has h d rs)
    (hp : h <+: h1) : ∀ r ∈ rs, attrVal h1 d r = attrVal h d r := by
  intro r hr
  obtain ⟨a, e, hl⟩ := hh r hr
  simp [attrVal, e, get_of_prefix hp hl]

theorem accW_of_prefix {h h1 : Heap V} {w : Wt} (hh : Has h w.attrs (ctorW w.cls)) (hp : h <+: h1)
    (hok : W.okW w.cls ((ctorW w.cls).filterMap (attrVal h w.attrs)) = true) :
    W.okW w.cls ((ctorW w.cls).filterMap (attrVal h1 w.attrs)) = true := by
  rw [← hok]
  congr 1
  exact List.filterMap_congr fun r hr => attrVal_of_prefix hh hp r hr

/-- The common end of the two cases below. -/
theorem base_copy_aux {h h2 : Heap V} {b : Base} {cs : List (Cell V)} {rs' o' a' : List String}
    {d' : Dict String Addr} {w' : Wt} {c' : Cls} {nm : String} (n : Option String) (keep : Bool)
    (hb : b.Built h) (hfix : ∀ c ∈ cs, copyVal W c.cls c.val = c.val)
    (himp : b.copyImpl W h (newName b.name n) = .ok (h2, ⟨c', nm, d', o', a', w'⟩)) (hc : c' = copyCls b.cls)
    (hp : h ++ cs.map (copyCell W) <+: h2)
    (hw : b.weight.IsCopy false (h ++ cs.map (copyCell W)) h2 w')
    (hwn : ((ctorW w'.cls).map w'.attrs.get?).Nodup)
    (ho : List.Forall₂ (Linked h cs rs' b.attrs d') b.optim o')
    (ha : List.Forall₂ (Linked h cs rs' b.attrs d') b.aux a') (hn : (o' ++ a').Nodup)
    (hr : (∀ o, b.cls ≠ .autodiff o) → o' = b.optim ∧ a' = b.aux)
    (hr' : ∀ o, b.cls = .autodiff o → ∀ r ∈ o' ++ a', ∃ s, r = s ++ "_copy") :
    ∃ H', b.copy W h n keep = .ok (H', ⟨c', nm, d', o', a', w'⟩) ∧ h <+: H' ∧
      b.IsCopy keep h H' ⟨c', nm, d', o', a', w'⟩ := by
  obtain ⟨t, rfl⟩ := hp
  obtain ⟨H', e1, e2, e3, e4, e5, e6, e7⟩ := finish_linked W (t := t) keep hfix ho ha hn
  refine ⟨H', by simp only [Base.copy, himp, e1], e2, hc, e4, e5, hr, hr', hn, ?_, ?_⟩
  · refine hw.lift hb.weight ⟨_, rfl⟩ fun j hj => e3 j ?_
    simpa using hj
  · refine List.nodup_append'.2 ⟨e6, hwn, ?_⟩
    intro x hx hx'
    obtain ⟨r, hr, rfl⟩ := List.mem_map.1 hx'
    rw [hw.cls] at hr
    obtain ⟨a, y, c, c'', -, f2, -, -, f5, -⟩ := hw.vars r hr
    dsimp only at hx f2 ⊢
    rw [f2] at hx
    have := e7 y hx
    simp only [List.length_append, List.length_map] at f5
    exact absurd this (Nat.not_lt.2 f5)

theorem idx_inj {α : Type} {l : List α} (hn : l.Nodup) {i j : ℕ} {r : α} (hi : l[i]? = some r)
    (hj : l[j]? = some r) : i = j := by
  have key : ∀ {i j : ℕ}, l[i]? = some r → l[j]? = some r → ¬ i < j := by
    intro i j hi hj hlt
    have hlen : j < l.length := by
      by_contra hc
      rw [List.getElem?_eq_none (Nat.le_of_not_lt hc)] at hj
      simp at hj
    exact (List.nodup_iff_getElem?_ne_getElem?.1 hn) i j hlt hlen (hi.trans hj.symm)
  have h1 := key hi hj
  have h2 := key hj hi
  omega

theorem nodup_of_idx {α : Type} {l : List α} (h : ∀ (i j : ℕ) r, l[i]? = some r → l[j]? = some r → i = j) : l.Nodup := by
  rw [List.nodup_iff_getElem?_ne_getElem?]
  intro i j hij hj e
  have e2 : l[j]? = some l[j] := List.getElem?_eq_getElem hj
  exact absurd (h i j _ (e.trans e2) e2) (Nat.ne_of_lt hij)

/-- **A copy of a cost function**: `copy` of a cost function whose variables hold legal data returns a new
one of the class `copyCls`, all of whose variables (and those of its weight) are new, distinct objects with
the data of the original's; nothing changes in the variables that existed before.
Partial: the class is that of the original except for `GPMotionModel`, and the options of an
`AutoDiffCostFunction` are not copied (`copy_class`, `copy_gp_class`, `copy_autodiff_options`); a variable under
two attributes is split (`copy_splits`); data that is not legal, or was updated to what a constructor refuses,
is not copied (`copy_normalizes`, `copy_raises`). -/
theorem copy_cost_function_partial {h : Heap V} {b : Base} (n : Option String) (keep : Bool)
    (hb : b.Built h) (hl : b.Legal W h) (hac : b.Accepted W h) :
    ∃ h' b', b.copy W h n keep = .ok (h', b') ∧ b'.name = newName b.name n ∧ h <+: h' ∧
      b.IsCopy keep h h' b' := by
  obtain ⟨os, cs1, h1, h2, h3⟩ := has_getattrs (rs := b.optim) fun r hr => hb.has r (by simp [hr])
  obtain ⟨as, cs2, k1, k2, k3⟩ := has_getattrs (rs := b.aux) fun r hr => hb.has r (by simp [hr])
  by_cases hauto : ∃ o, b.cls = .autodiff o
  · obtain ⟨o, ho⟩ := hauto
    obtain ⟨hne, hnames⟩ := hb.auto o ho
    have hall : List.Forall₂ (fun a c => h[a]? = some c) (os ++ as) (cs1 ++ cs2) := List.rel_append h3 k3
    have hget : List.Forall₂ (fun r a => b.attrs.get? r = some a) (b.optim ++ b.aux) (os ++ as) :=
      List.rel_append h2 k2
    have hfix := fixed_list W hget hall hl.vars
    have hp1 : h <+: h ++ (cs1 ++ cs2).map (copyCell W) := ⟨_, rfl⟩
    obtain ⟨H, w', w1, w2, -, w4, w5⟩ := wt_copy W (h := h ++ (cs1 ++ cs2).map (copyCell W)) (w := b.weight) none false
      (has_of_prefix hb.weight hp1) (fixed_of_prefix W hb.weight hl.weight hp1)
      (accW_of_prefix W hb.weight hp1 hac.weight)
    obtain ⟨t, rfl⟩ := w2
    have l1 : os.length = b.optim.length := h2.length_eq.symm
    have l2 : cs1.length = os.length := h3.length_eq.symm
    have l3 : cs2.length = as.length := k3.length_eq.symm
    have l4 : as.length = b.aux.length := k2.length_eq.symm
    have hnm := names_new W h t (cs1 ++ cs2)
    have hlen : (os ++ as).length = (cs1 ++ cs2).length := by simp [l2, l3]
    have hnd : ((cs1 ++ cs2).map fun c => c.name ++ "_copy").Nodup := by
      refine nodup_of_idx fun i j r hi hj => ?_
      rw [List.getElem?_map, Option.map_eq_some_iff] at hi hj
      obtain ⟨ci, hi, rfl⟩ := hi
      obtain ⟨cj, hj, e⟩ := hj
      have e' : cj.name = ci.name := by simpa using e
      obtain ⟨x, hx, ex⟩ := forall₂_get' hall hi
      obtain ⟨y, hy, ey⟩ := forall₂_get' hall hj
      obtain ⟨r, hr, er⟩ := forall₂_get' hget hx
      obtain ⟨s, hs, es⟩ := forall₂_get' hget hy
      have hrs := hnames r (List.mem_of_getElem? hr) s (List.mem_of_getElem? hs) x y _ _ er es ex ey e'.symm
      subst hrs
      exact idx_inj hb.nodup hr hs
    have hallow : namesAllowed W ((cs1 ++ cs2).map fun c => c.name ++ "_copy") = true := by
      rw [namesAllowed, Bool.and_eq_true, decide_eq_true_eq, List.all_eq_true]
      refine ⟨hnd, fun x hx => ?_⟩
      obtain ⟨c, -, rfl⟩ := List.mem_map.1 hx
      simp [W.reserved_copy]
    have hone : ¬ os.length < 1 := by
      rw [l1]
      intro hlt
      exact hne (List.length_eq_zero_iff.1 (by omega))
    have himp : b.copyImpl W h (newName b.name n) = .ok (h ++ (cs1 ++ cs2).map (copyCell W) ++ t,
        ⟨copyCls b.cls, newName b.name n, ((cs1 ++ cs2).map fun c => c.name ++ "_copy").zip
            (List.range' h.length (cs1 ++ cs2).length),
          cs1.map fun c => c.name ++ "_copy", cs2.map fun c => c.name ++ "_copy", w'⟩) := by
      simp only [Base.copyImpl, ho, h1, k1, copyAll_eq' W hall, w1, hlen, hnm, hallow, if_neg hone, if_true]
      simp [l2.symm]
    have hlink : ∀ (l : List String) (as' : List Addr) (cs : List (Cell V)) (k : ℕ),
        List.Forall₂ (fun r a => b.attrs.get? r = some a) l as' → List.Forall₂ (fun a c => h[a]? = some c) as' cs →
        (∀ i c, cs[i]? = some c → (cs1 ++ cs2)[k + i]? = some c) →
        List.Forall₂ (Linked h (cs1 ++ cs2) ((cs1 ++ cs2).map fun c => c.name ++ "_copy") b.attrs
          (((cs1 ++ cs2).map fun c => c.name ++ "_copy").zip (List.range' h.length (cs1 ++ cs2).length))) l
          (cs.map fun c => c.name ++ "_copy") := by
      intro l as' cs k m1 m2 m3
      refine forall₂_of_get (by simp [m1.length_eq, m2.length_eq]) fun i r r' hi hi' => ?_
      obtain ⟨x, hx, e1⟩ := forall₂_get m1 hi
      obtain ⟨c, hc, e2⟩ := forall₂_get m2 hx
      rw [List.getElem?_map, hc] at hi'
      simp only [Option.map_some, Option.some.injEq] at hi'
      have e3 := m3 i c hc
      have e4 : ((cs1 ++ cs2).map fun c => c.name ++ "_copy")[k + i]? = some r' := by
        rw [List.getElem?_map, e3, Option.map_some, hi']
      refine ⟨k + i, x, c, e4, e1, zip_get hnd e4 ?_, e2, e3⟩
      rw [List.getElem?_range' (lt_of_get e3)]
      simp
    obtain ⟨H', e1, e2, e3⟩ := base_copy_aux W n keep hb hfix himp rfl ⟨t, rfl⟩ w4 w5
      (hlink b.optim os cs1 0 h2 h3 fun i c hc => by
        rw [Nat.zero_add, List.getElem?_append_left (lt_of_get hc)]; exact hc)
      (hlink b.aux as cs2 cs1.length k2 k3 fun i c hc => by
        rw [List.getElem?_append_right (Nat.le_add_right _ _), Nat.add_sub_cancel_left]; exact hc)
      (by rw [← List.map_append]; exact hnd) (fun hno => absurd ho (hno o)) (fun _ _ r hr => by
        rw [← List.map_append] at hr
        obtain ⟨c, -, e⟩ := List.mem_map.1 hr
        exact ⟨c.name, e.symm⟩)
    exact ⟨H', _, e1, rfl, e2, e3⟩
  · have hno : ∀ o, b.cls ≠ .autodiff o := fun o ho => hauto ⟨o, ho⟩
    obtain ⟨ro, ra⟩ := hb.roles hno
    have hhas : Has h b.attrs (ctor b.cls) := fun r hr => hb.has r (by
      rw [ro, ra]; exact (roles_iff _ _).1 hr)
    obtain ⟨vs, cs, m1, m2, m3⟩ := has_getattrs hhas
    have hfix := fixed_list W m2 m3 fun r hr => hl.vars r (by rw [ro, ra]; exact (roles_iff _ _).1 hr)
    have hp1 : h <+: h ++ cs.map (copyCell W) := ⟨_, rfl⟩
    obtain ⟨H, w', w1, w2, -, w4, w5⟩ := wt_copy W (h := h ++ cs.map (copyCell W)) (w := b.weight) none false
      (has_of_prefix hb.weight hp1) (fixed_of_prefix W hb.weight hl.weight hp1)
      (accW_of_prefix W hb.weight hp1 hac.weight)
    obtain ⟨t, rfl⟩ := w2
    have hlen : vs.length = cs.length := m3.length_eq
    have hlook : W.ok (copyCls b.cls) (look (h ++ cs.map (copyCell W) ++ t) (List.range' h.length cs.length)) = true := by
      rw [look_new W h t cs, ← hac.vars hno, attrVal_list m2 m3]
      congr 1
      apply List.map_congr_left
      intro c hc
      rw [hfix c hc]
    have himp : b.copyImpl W h (newName b.name n) = .ok (h ++ cs.map (copyCell W) ++ t,
        ⟨copyCls b.cls, newName b.name n, (ctor (copyCls b.cls)).zip (List.range' h.length cs.length),
          optimRoles (copyCls b.cls), auxRoles (copyCls b.cls), w'⟩) := by
      have hun : b.copyImpl W h (newName b.name n) = match getattrs b.attrs (passed b.cls) with
          | .error e => .error e
          | .ok vs =>
            match copyAll W h vs with
            | .error e => .error e
            | .ok (h1, as) =>
              match b.weight.copy W h1 none false with
              | .error e => .error e
              | .ok (h2, w) =>
                if W.ok (copyCls b.cls) (look h2 as) then
                  .ok (h2, ⟨copyCls b.cls, newName b.name n, (ctor (copyCls b.cls)).zip as,
                    optimRoles (copyCls b.cls), auxRoles (copyCls b.cls), w⟩)
                else .error .value := by
        cases hcls : b.cls <;> first | exact absurd hcls (hno _) | (simp only [Base.copyImpl, hcls]; rfl)
      simp only [hun, passed_eq, m1, copyAll_eq' W m3, w1, hlen, hlook, if_true]
    have hlink : ∀ l : List String, (∀ r ∈ l, r ∈ ctor b.cls) → List.Forall₂ (Linked h cs (ctor b.cls) b.attrs
        ((ctor (copyCls b.cls)).zip (List.range' h.length cs.length))) l l := by
      intro l hsub
      rw [List.forall₂_same]
      intro r hr
      rw [ctor_copyCls]
      obtain ⟨i, x, c, e0, e1, e2, e3, e4⟩ := built_get (ctor_nodup b.cls) m2 m3 (hsub r hr)
      exact ⟨i, x, c, e0, e1, e2, e3, e4⟩
    obtain ⟨H', e1, e2, e3⟩ := base_copy_aux W n keep hb hfix himp rfl ⟨t, rfl⟩ w4 w5
      (by rw [optimRoles_copyCls, ← ro]
          exact hlink b.optim fun r hr => (roles_iff _ _).2 (by simp [← ro, hr]))
      (by rw [auxRoles_copyCls, ← ra]
          exact hlink b.aux fun r hr => (roles_iff _ _).2 (by simp [← ra, hr]))
      (by rw [optimRoles_copyCls, auxRoles_copyCls, ← ro, ← ra]; exact hb.nodup)
      (fun _ => by rw [optimRoles_copyCls, auxRoles_copyCls, ← ro, ← ra]; exact ⟨rfl, rfl⟩)
      (fun o ho => absurd ho (hno o))
    exact ⟨H', _, e1, rfl, e2, e3⟩

end Verif.CopyFn
