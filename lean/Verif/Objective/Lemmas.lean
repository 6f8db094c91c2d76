import Verif.Objective.Model
/-! Helper lemmas about the `Objective` model: registration invariant. -/
namespace Verif.Objective
open Verif

/-- Usage counts: how often function `f` is linked to variable `v` in the map for kind `k`. -/
abbrev Usage := Kind → Var → Fn → Nat

def Kind.other : Kind → Kind
  | .optim => .aux
  | .cwOptim => .aux
  | .aux => .optim

def cnt (o : Option (List Fn)) (f : Fn) : Nat := match o with | none => 0 | some l => l.count f

def Used (U : Usage) (k : Kind) (v : Var) : Prop := ∃ f, 0 < U k v f

structure Reg (s : State) (U : Usage) : Prop where
  mixed : s.mixed = false
  cw : s.cwOptimVars = []
  cnt : ∀ k, k ≠ .cwOptim → ∀ v f, cnt ((s.fnMap k).get? v) f = U k v f
  ne : ∀ k, k ≠ .cwOptim → ∀ v, (s.fnMap k).get? v ≠ some []
  typ : ∀ k, k ≠ .cwOptim → ∀ n v, (s.typed k).get? n = some v ↔ v.name = n ∧ Used U k v
  all : ∀ n v, s.allVars.get? n = some v ↔ v.name = n ∧ (Used U .optim v ∨ Used U .aux v)
  disj : ∀ v, Used U .optim v → ¬ Used U .aux v
  nodO : (s.optimVars.keys).Nodup
  nodA : (s.auxVars.keys).Nodup
  nodFO : (s.fnsForOptim.keys).Nodup
  nodFA : (s.fnsForAux.keys).Nodup
  nodAll : (s.allVars.keys).Nodup

structure Frame (s s' : State) : Prop where
  costFns : s'.costFns = s.costFns
  cfw : s'.cfForWeights = s.cfForWeights
  version : s'.version = s.version
  dtype : s'.dtype = s.dtype

theorem Frame.refl (s : State) : Frame s s := ⟨rfl, rfl, rfl, rfl⟩
theorem Frame.trans {a b c : State} (h : Frame a b) (h' : Frame b c) : Frame a c :=
  ⟨h'.costFns.trans h.costFns, h'.cfw.trans h.cfw, h'.version.trans h.version,
   h'.dtype.trans h.dtype⟩

theorem Reg.used_iff {s : State} {U : Usage} (h : Reg s U) {k : Kind} (hk : k ≠ .cwOptim) (v : Var) :
    Used U k v ↔ ∃ l, (s.fnMap k).get? v = some l := by
  constructor
  · rintro ⟨f, hf⟩
    rw [← h.cnt k hk] at hf
    cases hg : (s.fnMap k).get? v with
    | none => rw [hg] at hf; simp [Objective.cnt] at hf
    | some l => exact ⟨l, rfl⟩
  · rintro ⟨l, hl⟩
    have hne := h.ne k hk v
    rw [hl] at hne
    cases l with
    | nil => simp at hne
    | cons f l =>
      refine ⟨f, ?_⟩
      rw [← h.cnt k hk, hl]
      simp [Objective.cnt]

theorem Reg.get_none {s : State} {U : Usage} (h : Reg s U) {k : Kind} (hk : k ≠ .cwOptim) {v : Var}
    (hn : ¬ Used U k v) : (s.fnMap k).get? v = none := by
  cases hx : (s.fnMap k).get? v with
  | none => rfl
  | some l => exact absurd ((h.used_iff hk v).2 ⟨l, hx⟩) hn

/-- One more link of `f` to `v` in map `k`. -/
def bump (U : Usage) (k : Kind) (v : Var) (f : Fn) : Usage :=
  fun k' v' f' => U k' v' f' + (if k' = k ∧ v' = v ∧ f' = f then 1 else 0)

theorem used_bump {U : Usage} {k k' : Kind} {v v' : Var} {f : Fn} :
    Used (bump U k v f) k' v' ↔ Used U k' v' ∨ (k' = k ∧ v' = v) := by
  unfold Used bump
  constructor
  · rintro ⟨g, hg⟩
    by_cases h : k' = k ∧ v' = v ∧ g = f
    · exact Or.inr ⟨h.1, h.2.1⟩
    · simp [h] at hg; exact Or.inl ⟨g, hg⟩
  · rintro (⟨g, hg⟩ | ⟨rfl, rfl⟩)
    · exact ⟨g, by omega⟩
    · exact ⟨f, by simp⟩

/-- Condition under which adding `v` with kind `k` is accepted. -/
def AddOk (s : State) (U : Usage) (k : Kind) (v : Var) : Prop :=
  v.dtype = s.dtype ∧ (∀ w, Used U .optim w ∨ Used U .aux w → w.name = v.name → w = v) ∧
  ¬ Used U k.other v

theorem cnt_append (l : List Fn) (f g : Fn) :
    cnt (some (l ++ [f])) g = cnt (some l) g + (if g = f then 1 else 0) := by
  simp only [cnt, List.count_append, List.count_singleton]
  by_cases h : g = f
  · simp [h]
  · simp [h, Ne.symm h]

theorem addVar_ok_iff {s : State} {U : Usage} (h : Reg s U) {f : Fn} {k : Kind} {v : Var}
    (hk : k ≠ .cwOptim) : (addVar s f k v).2 = none ↔ AddOk s U k v := by
  have hm := h.mixed
  unfold addVar AddOk
  by_cases hd : v.dtype = s.dtype
  · simp only [hd, ne_eq, not_true_eq_false, if_false, true_and]
    cases hg : s.allVars.get? v.name with
    | some w =>
      have hw := (h.all v.name w).1 hg
      by_cases hwv : w = v
      · subst hwv
        have huniq : (∀ u, Used U .optim u ∨ Used U .aux u → u.name = w.name → u = w) := by
          intro u hu hn
          have := (h.all w.name u).2 ⟨hn, hu⟩
          rw [hg] at this; simpa using this.symm
        simp only [not_true_eq_false, if_false]
        have key : (addVarTail s f k w).2 = none ↔ Used U k w := by
          rw [h.used_iff hk]
          unfold addVarTail
          cases k with
          | cwOptim => exact absurd rfl hk
          | optim =>
            simp only [State.setTyped, hm, Bool.false_and, Bool.false_eq_true, if_false, State.fnMap]
            cases s.fnsForOptim.get? w <;> simp
          | aux =>
            simp only [State.setTyped, hm, Bool.false_and, Bool.false_eq_true, if_false, State.fnMap]
            cases s.fnsForAux.get? w <;> simp
        rw [key]
        constructor
        · intro hu
          refine ⟨huniq, ?_⟩
          cases k with
          | cwOptim => exact absurd rfl hk
          | optim => exact h.disj _ hu
          | aux => exact fun ho => h.disj _ ho hu
        · rintro ⟨_, hno⟩
          cases k with
          | cwOptim => exact absurd rfl hk
          | optim => exact hw.2.resolve_right hno
          | aux => exact hw.2.resolve_left hno
      · simp only [hwv, not_false_eq_true, if_true]
        constructor
        · simp
        · rintro ⟨h1, _⟩
          exact absurd (h1 w hw.2 hw.1) hwv
    | none =>
      have hnone : ∀ w, Used U .optim w ∨ Used U .aux w → w.name ≠ v.name := by
        intro w hw hn
        have := (h.all v.name w).2 ⟨hn, hw⟩
        rw [hg] at this; simp at this
      have hno : ¬ Used U .optim v := fun hu => hnone v (Or.inl hu) rfl
      have hna : ¬ Used U .aux v := fun hu => hnone v (Or.inr hu) rfl
      have hrhs : (∀ w, Used U .optim w ∨ Used U .aux w → w.name = v.name → w = v) ∧
          ¬ Used U k.other v := by
        refine ⟨fun w hw hn => absurd hn (hnone w hw), ?_⟩
        cases k <;> simp only [Kind.other] <;> assumption
      refine ⟨fun _ => hrhs, fun _ => ?_⟩
      have hho : s.fnsForOptim.get? v = none := by
        exact h.get_none (k := .optim) (by simp) hno
      have hha : s.fnsForAux.get? v = none := by
        exact h.get_none (k := .aux) (by simp) hna
      cases k with
      | cwOptim => exact absurd rfl hk
      | optim => simp [State.fnMap, Dict.has, hho, addVarTail, State.setFnMap, State.setTyped, hm]
      | aux => simp [State.fnMap, Dict.has, hha, addVarTail, State.setFnMap, State.setTyped, hm]
  · simp [hd]

/-- Effect of a successful `addVar`, field by field. -/
structure AddForm (s s' : State) (f : Fn) (k : Kind) (v : Var) : Prop where
  mixed : s'.mixed = s.mixed
  cw : s'.cwOptimVars = s.cwOptimVars
  typ : ∀ n, (s'.typed k).get? n = if v.name = n then some v else (s.typed k).get? n
  typ' : s'.typed k.other = s.typed k.other
  fn : ∀ u, (s'.fnMap k).get? u =
    if v = u then some (((s.fnMap k).get? v).getD [] ++ [f]) else (s.fnMap k).get? u
  fn' : s'.fnMap k.other = s.fnMap k.other
  all : ∀ n, s'.allVars.get? n = if v.name = n then some v else s.allVars.get? n
  frame : Frame s s'
  nodT : ((s.typed k).keys).Nodup → ((s'.typed k).keys).Nodup
  nodF : ((s.fnMap k).keys).Nodup → ((s'.fnMap k).keys).Nodup
  nodAll : (s.allVars.keys).Nodup → (s'.allVars.keys).Nodup

theorem addVar_form {s : State} {f : Fn} {k : Kind} {v : Var} (hm : s.mixed = false)
    (hk : k ≠ .cwOptim) (hok : (addVar s f k v).2 = none) :
    AddForm s (addVar s f k v).1 f k v := by
  unfold addVar at hok ⊢
  by_cases hd : v.dtype = s.dtype
  · simp only [hd, ne_eq, not_true_eq_false, if_false] at hok ⊢
    cases hg : s.allVars.get? v.name with
    | some w =>
      simp only [hg] at hok ⊢
      by_cases hwv : w = v
      · subst hwv
        simp only [not_true_eq_false, if_false] at hok ⊢
        cases k with
        | cwOptim => exact absurd rfl hk
        | optim =>
          simp only [addVarTail, State.setTyped, hm, Bool.false_and, Bool.false_eq_true, if_false,
            State.fnMap, State.typed, State.setFnMap] at hok ⊢
          cases hl : s.fnsForOptim.get? w with
          | none => simp [hl] at hok
          | some l =>
            simp only
            refine ⟨hm.symm ▸ rfl, rfl, ?_, rfl, ?_, rfl, ?_, ⟨rfl, rfl, rfl, rfl⟩, ?_, ?_, id⟩
            · intro n; simp [State.typed, Dict.get?_set]
            · intro u; simp [State.fnMap, Dict.get?_set, hl]
            · intro n; simp only; split
              · next e => subst e; exact hg
              · rfl
            · intro hn; exact Dict.nodup_set hn _ _
            · intro hn; exact Dict.nodup_set hn _ _
        | aux =>
          simp only [addVarTail, State.setTyped, hm, Bool.false_and, Bool.false_eq_true, if_false,
            State.fnMap, State.typed, State.setFnMap] at hok ⊢
          cases hl : s.fnsForAux.get? w with
          | none => simp [hl] at hok
          | some l =>
            simp only
            refine ⟨hm.symm ▸ rfl, rfl, ?_, rfl, ?_, rfl, ?_, ⟨rfl, rfl, rfl, rfl⟩, ?_, ?_, id⟩
            · intro n; simp [State.typed, Dict.get?_set]
            · intro u; simp [State.fnMap, Dict.get?_set, hl]
            · intro n; simp only; split
              · next e => subst e; exact hg
              · rfl
            · intro hn; exact Dict.nodup_set hn _ _
            · intro hn; exact Dict.nodup_set hn _ _
      · simp [hwv] at hok
    | none =>
      simp only [hg] at hok ⊢
      cases k with
      | cwOptim => exact absurd rfl hk
      | optim =>
        simp only [State.fnMap, Dict.has] at hok ⊢
        rcases Option.eq_none_or_eq_some (s.fnsForOptim.get? v) with hl | ⟨l, hl⟩
        rotate_left
        · simp [hl] at hok
        · simp only [hl, Option.isSome_none, Bool.false_eq_true, if_false, addVarTail, State.setTyped, hm,
            Bool.false_and, State.fnMap, State.typed, State.setFnMap, Dict.get?_set_self]
          refine ⟨hm.symm ▸ rfl, rfl, ?_, rfl, ?_, rfl, ?_, ⟨rfl, rfl, rfl, rfl⟩, ?_, ?_, ?_⟩
          · intro n; simp [State.typed, Dict.get?_set]
          · intro u; simp only [State.fnMap, Dict.get?_set, hl]; split <;> simp
          · intro n; simp [Dict.get?_set]
          · intro hn; exact Dict.nodup_set hn _ _
          · intro hn; exact Dict.nodup_set (Dict.nodup_set hn _ _) _ _
          · intro hn; exact Dict.nodup_set hn _ _
      | aux =>
        simp only [State.fnMap, Dict.has] at hok ⊢
        rcases Option.eq_none_or_eq_some (s.fnsForAux.get? v) with hl | ⟨l, hl⟩
        rotate_left
        · simp [hl] at hok
        · simp only [hl, Option.isSome_none, Bool.false_eq_true, if_false, addVarTail, State.setTyped, hm,
            Bool.false_and, State.fnMap, State.typed, State.setFnMap, Dict.get?_set_self]
          refine ⟨hm.symm ▸ rfl, rfl, ?_, rfl, ?_, rfl, ?_, ⟨rfl, rfl, rfl, rfl⟩, ?_, ?_, ?_⟩
          · intro n; simp [State.typed, Dict.get?_set]
          · intro u; simp only [State.fnMap, Dict.get?_set, hl]; split <;> simp
          · intro n; simp [Dict.get?_set]
          · intro hn; exact Dict.nodup_set hn _ _
          · intro hn; exact Dict.nodup_set (Dict.nodup_set hn _ _) _ _
          · intro hn; exact Dict.nodup_set hn _ _
  · simp [hd] at hok

theorem Kind.cases_other {k k' : Kind} (hk : k ≠ .cwOptim) (hk' : k' ≠ .cwOptim) :
    k' = k ∨ (k' = k.other ∧ k' ≠ k) := by
  cases k <;> cases k' <;> simp_all [Kind.other]

theorem addVar_reg {s : State} {U : Usage} (h : Reg s U) {f : Fn} {k : Kind} {v : Var}
    (hk : k ≠ .cwOptim) (hok : (addVar s f k v).2 = none) :
    Reg (addVar s f k v).1 (bump U k v f) ∧ Frame s (addVar s f k v).1 := by
  have F := addVar_form h.mixed hk hok
  have ok := (addVar_ok_iff h hk).1 hok
  generalize (addVar s f k v).1 = s' at F
  have hoc : k.other ≠ .cwOptim := by cases k <;> simp [Kind.other]
  have hoo : k.other ≠ k := by cases k <;> simp_all [Kind.other]
  refine ⟨?_, F.frame⟩
  constructor
  · rw [F.mixed, h.mixed]
  · rw [F.cw, h.cw]
  · intro k' hk' u g
    rcases Kind.cases_other hk hk' with rfl | ⟨rfl, hne⟩
    · rw [F.fn]
      by_cases e : v = u
      · subst e
        have := h.cnt k' hk v g
        simp only [if_true, bump, true_and, cnt_append]
        cases hl : (s.fnMap k').get? v with
        | none => rw [hl] at this; simp only [Objective.cnt] at this; simp [Objective.cnt, ← this]
        | some l => rw [hl] at this; simp [← this]
      · simp only [e, if_false, bump, Ne.symm e, false_and, and_false, Nat.add_zero]
        exact h.cnt k' hk u g
    · rw [F.fn']; simp only [bump, hne, false_and, if_false, Nat.add_zero]
      exact h.cnt _ hk' u g
  · intro k' hk' u
    rcases Kind.cases_other hk hk' with rfl | ⟨rfl, hne⟩
    · rw [F.fn]
      by_cases e : v = u
      · simp [e]
      · simp only [e, if_false]; exact h.ne k' hk u
    · rw [F.fn']; exact h.ne _ hk' u
  · intro k' hk' n u
    rw [used_bump]
    rcases Kind.cases_other hk hk' with rfl | ⟨rfl, hne⟩
    · rw [F.typ]
      by_cases e : v.name = n
      · subst e
        simp only [if_true, Option.some.injEq, true_and]
        constructor
        · rintro rfl; exact ⟨rfl, Or.inr rfl⟩
        · rintro ⟨hn, hu | rfl⟩
          · refine (ok.2.1 u ?_ hn).symm
            cases k' with
            | cwOptim => exact absurd rfl hk
            | optim => exact Or.inl hu
            | aux => exact Or.inr hu
          · rfl
      · simp only [e, if_false, h.typ k' hk, true_and]
        constructor
        · rintro ⟨a, b⟩; exact ⟨a, Or.inl b⟩
        · rintro ⟨a, b | rfl⟩
          · exact ⟨a, b⟩
          · exact absurd a e
    · rw [F.typ', h.typ _ hk']; simp [hne]
  · intro n u
    rw [F.all, used_bump, used_bump]
    by_cases e : v.name = n
    · subst e
      simp only [if_true, Option.some.injEq]
      constructor
      · rintro rfl
        refine ⟨rfl, ?_⟩
        cases k with
        | cwOptim => exact absurd rfl hk
        | optim => exact Or.inl (Or.inr ⟨rfl, rfl⟩)
        | aux => exact Or.inr (Or.inr ⟨rfl, rfl⟩)
      · rintro ⟨hn, (hu | ⟨_, rfl⟩) | (hu | ⟨_, rfl⟩)⟩
        · exact (ok.2.1 u (Or.inl hu) hn).symm
        · rfl
        · exact (ok.2.1 u (Or.inr hu) hn).symm
        · rfl
    · simp only [e, if_false, h.all]
      constructor
      · rintro ⟨a, b | b⟩
        · exact ⟨a, Or.inl (Or.inl b)⟩
        · exact ⟨a, Or.inr (Or.inl b)⟩
      · rintro ⟨hn, (hu | ⟨_, rfl⟩) | (hu | ⟨_, rfl⟩)⟩
        · exact ⟨hn, Or.inl hu⟩
        · exact absurd hn e
        · exact ⟨hn, Or.inr hu⟩
        · exact absurd hn e
  · intro u
    rw [used_bump, used_bump]
    rintro (ho | ⟨e1, e2⟩) (ha | ⟨e3, e4⟩)
    · exact h.disj u ho ha
    · subst e3; subst e4; exact ok.2.2 ho
    · subst e1; subst e2; exact ok.2.2 ha
    · subst e1; simp at e3
  · cases k with
    | cwOptim => exact absurd rfl hk
    | optim => exact F.nodT h.nodO
    | aux => have := F.typ'; simp only [Kind.other, State.typed] at this; rw [this]; exact h.nodO
  · cases k with
    | cwOptim => exact absurd rfl hk
    | aux => exact F.nodT h.nodA
    | optim => have := F.typ'; simp only [Kind.other, State.typed] at this; rw [this]; exact h.nodA
  · cases k with
    | cwOptim => exact absurd rfl hk
    | optim => exact F.nodF h.nodFO
    | aux => have := F.fn'; simp only [Kind.other, State.fnMap] at this; rw [this]; exact h.nodFO
  · cases k with
    | cwOptim => exact absurd rfl hk
    | aux => exact F.nodF h.nodFA
    | optim => have := F.fn'; simp only [Kind.other, State.fnMap] at this; rw [this]; exact h.nodFA
  · exact F.nodAll h.nodAll

/-- One link of `f` to `v` less in map `k`. -/
def unbump (U : Usage) (k : Kind) (v : Var) (f : Fn) : Usage :=
  fun k' v' f' => U k' v' f' - (if k' = k ∧ v' = v ∧ f' = f then 1 else 0)

/-- Effect of a successful `eraseVar`, field by field. `g = true` iff the variable is dropped. -/
structure EraseForm (s s' : State) (f : Fn) (k : Kind) (v : Var) (l : List Fn) : Prop where
  mixed : s'.mixed = s.mixed
  cw : s'.cwOptimVars = s.cwOptimVars
  typ : ∀ n, (s'.typed k).get? n =
    if v.name = n ∧ l.erase f = [] then none else (s.typed k).get? n
  typ' : s'.typed k.other = s.typed k.other
  fn : ∀ u, (s'.fnMap k).get? u =
    if v = u then (if l.erase f = [] then none else some (l.erase f)) else (s.fnMap k).get? u
  fn' : s'.fnMap k.other = s.fnMap k.other
  all : ∀ n, s'.allVars.get? n = if v.name = n ∧ l.erase f = [] then none else s.allVars.get? n
  frame : Frame s s'
  nodT : ((s.typed k).keys).Nodup → ((s'.typed k).keys).Nodup
  nodF : ((s.fnMap k).keys).Nodup → ((s'.fnMap k).keys).Nodup
  nodAll : (s.allVars.keys).Nodup → (s'.allVars.keys).Nodup

theorem eraseVar_form {s : State} {f : Fn} {k : Kind} {v : Var} {l : List Fn}
    (hk : k ≠ .cwOptim) (hl : (s.fnMap k).get? v = some l) (hf : f ∈ l)
    (ha : s.allVars.has v.name = true) (ht : (s.typed k).has v.name = true) :
    ∃ s', eraseVar s f k v = (s', none) ∧ EraseForm s s' f k v l := by
  unfold eraseVar
  simp only [hl, hf, not_true_eq_false, if_false]
  by_cases hne : l.erase f = []
  · cases k with
    | cwOptim => exact absurd rfl hk
    | optim =>
      simp only [State.typed] at ht
      simp only [State.setFnMap, State.fnMap, State.typed, State.setTyped, ha, ht, hne]
      simp only [ne_eq, not_true_eq_false, if_false, Bool.not_true, Bool.false_eq_true]
      refine ⟨_, rfl, ?_⟩
      refine ⟨rfl, rfl, ?_, rfl, ?_, rfl, ?_, ⟨rfl, rfl, rfl, rfl⟩, ?_, ?_, ?_⟩
      · intro n; simp [State.typed, Dict.get?_del, hne]
      · intro u; simp only [State.fnMap, Dict.get?_del, Dict.get?_set, hne, if_true]; split <;> rfl
      · intro n; simp [Dict.get?_del, hne]
      · intro hn; exact Dict.nodup_del hn _
      · intro hn; exact Dict.nodup_del (Dict.nodup_set hn _ _) _
      · intro hn; exact Dict.nodup_del hn _
    | aux =>
      simp only [State.typed] at ht
      simp only [State.setFnMap, State.fnMap, State.typed, State.setTyped, ha, ht, hne]
      simp only [ne_eq, not_true_eq_false, if_false, Bool.not_true, Bool.false_eq_true]
      refine ⟨_, rfl, ?_⟩
      refine ⟨rfl, rfl, ?_, rfl, ?_, rfl, ?_, ⟨rfl, rfl, rfl, rfl⟩, ?_, ?_, ?_⟩
      · intro n; simp [State.typed, Dict.get?_del, hne]
      · intro u; simp only [State.fnMap, Dict.get?_del, Dict.get?_set, hne, if_true]; split <;> rfl
      · intro n; simp [Dict.get?_del, hne]
      · intro hn; exact Dict.nodup_del hn _
      · intro hn; exact Dict.nodup_del (Dict.nodup_set hn _ _) _
      · intro hn; exact Dict.nodup_del hn _
  · simp only [ne_eq, hne, not_false_eq_true, if_true]
    cases k with
    | cwOptim => exact absurd rfl hk
    | optim =>
      refine ⟨_, rfl, ?_⟩
      refine ⟨rfl, rfl, ?_, rfl, ?_, rfl, ?_, ⟨rfl, rfl, rfl, rfl⟩, id, ?_, id⟩
      · intro n; simp [State.typed, State.setFnMap, hne]
      · intro u; simp [State.fnMap, State.setFnMap, Dict.get?_set, hne]
      · intro n; simp [State.setFnMap, hne]
      · intro hn; exact Dict.nodup_set hn _ _
    | aux =>
      refine ⟨_, rfl, ?_⟩
      refine ⟨rfl, rfl, ?_, rfl, ?_, rfl, ?_, ⟨rfl, rfl, rfl, rfl⟩, id, ?_, id⟩
      · intro n; simp [State.typed, State.setFnMap, hne]
      · intro u; simp [State.fnMap, State.setFnMap, Dict.get?_set, hne]
      · intro n; simp [State.setFnMap, hne]
      · intro hn; exact Dict.nodup_set hn _ _

theorem eraseVar_reg {s : State} {U : Usage} (h : Reg s U) {f : Fn} {k : Kind} {v : Var}
    (hk : k ≠ .cwOptim) (hu : 0 < U k v f) :
    ∃ s', eraseVar s f k v = (s', none) ∧ Reg s' (unbump U k v f) ∧ Frame s s' := by
  have hused : Used U k v := ⟨f, hu⟩
  obtain ⟨l, hl⟩ := (h.used_iff hk v).1 hused
  have hc := h.cnt k hk v
  rw [hl] at hc
  simp only [Objective.cnt] at hc
  have hf : f ∈ l := by
    have := hc f; apply List.count_pos_iff.1; omega
  have hall : s.allVars.get? v.name = some v := by
    refine (h.all _ _).2 ⟨rfl, ?_⟩
    cases k with
    | cwOptim => exact absurd rfl hk
    | optim => exact Or.inl hused
    | aux => exact Or.inr hused
  have htyp : (s.typed k).get? v.name = some v := (h.typ k hk _ _).2 ⟨rfl, hused⟩
  obtain ⟨s', he, F⟩ := eraseVar_form hk hl hf (by simp [Dict.has, hall]) (by simp [Dict.has, htyp])
  refine ⟨s', he, ?_, F.frame⟩
  have hcnt' : ∀ g, (l.erase f).count g = unbump U k v f k v g := by
    intro g
    simp only [unbump, true_and, ← hc g]
    by_cases e : g = f
    · subst e; simp
    · simp [e, List.count_erase_of_ne e]
  have hused' : Used (unbump U k v f) k v ↔ l.erase f ≠ [] := by
    constructor
    · rintro ⟨g, hg⟩ he
      rw [← hcnt', he] at hg; simp at hg
    · intro hne
      cases hle : l.erase f with
      | nil => exact absurd hle hne
      | cons g r => refine ⟨g, ?_⟩; rw [← hcnt', hle]; simp
  have hoc : k.other ≠ .cwOptim := by cases k <;> simp [Kind.other]
  have hoth : ∀ k' u, ¬ (k' = k ∧ u = v) → (Used (unbump U k v f) k' u ↔ Used U k' u) := by
    intro k' u hn
    have : ∀ g, unbump U k v f k' u g = U k' u g := by
      intro g; simp only [unbump]
      have : ¬ (k' = k ∧ u = v ∧ g = f) := fun ⟨a, b, _⟩ => hn ⟨a, b⟩
      simp [this]
    simp [Used, this]
  have huse1 : ∀ k', k' ≠ .cwOptim → k' ≠ k → ¬ Used U k' v := by
    intro k' hk' hne
    cases k <;> cases k' <;> simp_all
    · exact h.disj v hused
    · exact fun ho => h.disj v ho hused
  have huniq : ∀ u, (Used U .optim u ∨ Used U .aux u) → u.name = v.name → u = v := by
    intro u hu' hn
    have := (h.all v.name u).2 ⟨hn, hu'⟩
    rw [hall] at this; simpa using this.symm
  have hin : ∀ k', k' ≠ .cwOptim → ∀ u, Used U k' u → (Used U .optim u ∨ Used U .aux u) := by
    intro k' hk' u hu'
    cases k' with
    | cwOptim => exact absurd rfl hk'
    | optim => exact Or.inl hu'
    | aux => exact Or.inr hu'
  constructor
  · rw [F.mixed, h.mixed]
  · rw [F.cw, h.cw]
  · intro k' hk' u g
    rcases Kind.cases_other hk hk' with rfl | ⟨rfl, hne⟩
    · rw [F.fn]
      by_cases e : v = u
      · subst e
        rw [← hcnt']
        by_cases e2 : l.erase f = []
        · simp [e2, Objective.cnt]
        · simp [e2, Objective.cnt]
      · simp only [e, if_false, unbump, Ne.symm e, false_and, and_false, Nat.sub_zero]
        exact h.cnt k' hk u g
    · rw [F.fn']; simp only [unbump, hne, false_and, if_false, Nat.sub_zero]
      exact h.cnt _ hk' u g
  · intro k' hk' u
    rcases Kind.cases_other hk hk' with rfl | ⟨rfl, hne⟩
    · rw [F.fn]
      by_cases e : v = u
      · subst e; simp only [if_true]; split
        · simp
        · next e2 => simpa using e2
      · simp only [e, if_false]; exact h.ne k' hk u
    · rw [F.fn']; exact h.ne _ hk' u
  · intro k' hk' n u
    rcases Kind.cases_other hk hk' with rfl | ⟨rfl, hne⟩
    · rw [F.typ]
      by_cases eu : u = v
      · subst eu
        rw [hused']
        by_cases e2 : l.erase f = []
        · simp only [e2, and_true, ne_eq, not_true_eq_false, and_false, iff_false]
          split
          · simp
          · next e3 => rw [h.typ _ hk]; exact fun hh => e3 hh.1
        · simp only [e2, and_false, if_false, h.typ _ hk, hused, ne_eq, not_false_eq_true]
      · rw [hoth _ _ (fun hh => eu hh.2)]
        split
        · next e3 =>
          constructor
          · simp
          · rintro ⟨hn, hu'⟩
            exact absurd (huniq u (hin _ hk _ hu') (hn.trans e3.1.symm)) eu
        · exact h.typ _ hk n u
    · rw [F.typ', h.typ _ hk', hoth _ _ (fun hh => hne hh.1)]
  · intro n u
    rw [F.all]
    by_cases eu : u = v
    · subst eu
      have hnot : (Used (unbump U k u f) .optim u ∨ Used (unbump U k u f) .aux u) ↔
          l.erase f ≠ [] := by
        rw [← hused']
        cases k with
        | cwOptim => exact absurd rfl hk
        | optim =>
          rw [hoth .aux u (by simp)]
          have := huse1 .aux (by simp) (by simp)
          simp [this]
        | aux =>
          rw [hoth .optim u (by simp)]
          have := huse1 .optim (by simp) (by simp)
          simp [this]
      rw [hnot]
      by_cases e2 : l.erase f = []
      · simp only [e2, and_true, ne_eq, not_true_eq_false, and_false, iff_false]
        split
        · simp
        · next e3 => rw [h.all]; exact fun hh => e3 hh.1
      · simp only [e2, and_false, if_false, h.all, ne_eq, not_false_eq_true, and_true]
        exact ⟨fun hh => hh.1, fun hh => ⟨hh, hin k hk _ hused⟩⟩
    · rw [hoth _ _ (fun hh => eu hh.2), hoth _ _ (fun hh => eu hh.2)]
      split
      · next e3 =>
        constructor
        · simp
        · rintro ⟨hn, hu'⟩
          exact absurd (huniq u hu' (hn.trans e3.1.symm)) eu
      · exact h.all n u
  · intro u ho ha
    have mono : ∀ k' u, Used (unbump U k v f) k' u → Used U k' u := by
      rintro k' u ⟨g, hg⟩; exact ⟨g, by simp only [unbump] at hg; omega⟩
    exact h.disj u (mono _ _ ho) (mono _ _ ha)
  · cases k with
    | cwOptim => exact absurd rfl hk
    | optim => exact F.nodT h.nodO
    | aux => have := F.typ'; simp only [Kind.other, State.typed] at this; rw [this]; exact h.nodO
  · cases k with
    | cwOptim => exact absurd rfl hk
    | aux => exact F.nodT h.nodA
    | optim => have := F.typ'; simp only [Kind.other, State.typed] at this; rw [this]; exact h.nodA
  · cases k with
    | cwOptim => exact absurd rfl hk
    | optim => exact F.nodF h.nodFO
    | aux => have := F.fn'; simp only [Kind.other, State.fnMap] at this; rw [this]; exact h.nodFO
  · cases k with
    | cwOptim => exact absurd rfl hk
    | aux => exact F.nodF h.nodFA
    | optim => have := F.fn'; simp only [Kind.other, State.fnMap] at this; rw [this]; exact h.nodFA
  · exact F.nodAll h.nodAll

theorem Res.andThen_ok {r : Res} {k : State → Res} :
    (r.andThen k).2 = none ↔ r.2 = none ∧ (k r.1).2 = none := by
  obtain ⟨s, e⟩ := r
  cases e <;> simp [Res.andThen]

theorem Res.andThen_of_ok {r : Res} {k : State → Res} (h : r.2 = none) : r.andThen k = k r.1 := by
  obtain ⟨s, e⟩ := r
  simp only at h
  subst h
  rfl

/-- `vs` linked to `f` in map `k`. -/
def bumps (U : Usage) (k : Kind) (f : Fn) (vs : List Var) : Usage :=
  fun k' v' f' => U k' v' f' + (if k' = k ∧ f' = f then vs.count v' else 0)

theorem bumps_nil (U : Usage) (k : Kind) (f : Fn) : bumps U k f [] = U := by
  funext k' v' f'; simp [bumps]

theorem bumps_cons (U : Usage) (k : Kind) (f : Fn) (v : Var) (vs : List Var) :
    bumps (bump U k v f) k f vs = bumps U k f (v :: vs) := by
  funext k' v' f'
  simp only [bumps, bump, List.count_cons]
  by_cases h1 : k' = k <;> by_cases h2 : f' = f <;> by_cases h3 : v' = v <;> simp [*]
  · omega
  · simp [Ne.symm h3]

theorem used_bumps {U : Usage} {k k' : Kind} {f : Fn} {vs : List Var} {v : Var} :
    Used (bumps U k f vs) k' v ↔ Used U k' v ∨ (k' = k ∧ v ∈ vs) := by
  unfold Used bumps
  constructor
  · rintro ⟨g, hg⟩
    by_cases h : k' = k ∧ g = f
    · simp only [h, and_self, if_true] at hg
      by_cases hv : v ∈ vs
      · exact Or.inr ⟨h.1, hv⟩
      · rw [List.count_eq_zero_of_not_mem hv] at hg
        exact Or.inl ⟨f, by rw [h.1]; exact hg⟩
    · simp only [h, if_false, Nat.add_zero] at hg; exact Or.inl ⟨g, hg⟩
  · rintro (⟨g, hg⟩ | ⟨rfl, hv⟩)
    · exact ⟨g, by omega⟩
    · exact ⟨f, by have := List.count_pos_iff.2 hv; simp only [and_self, if_true]; omega⟩

def AddsOk (dt : Nat) (U : Usage) (k : Kind) (vs : List Var) : Prop :=
  ∀ v ∈ vs, v.dtype = dt ∧
    (∀ w, Used U .optim w ∨ Used U .aux w ∨ w ∈ vs → w.name = v.name → w = v) ∧ ¬ Used U k.other v

theorem addFnVars_reg {s : State} {U : Usage} (h : Reg s U) {f : Fn} {k : Kind} {vs : List Var}
    (hk : k ≠ .cwOptim) (hok : (addFnVars s f k vs).2 = none) :
    Reg (addFnVars s f k vs).1 (bumps U k f vs) ∧ Frame s (addFnVars s f k vs).1 := by
  induction vs generalizing s U with
  | nil => rw [bumps_nil]; exact ⟨h, Frame.refl _⟩
  | cons v vs ih =>
    simp only [addFnVars] at hok ⊢
    obtain ⟨h1, h2⟩ := Res.andThen_ok.1 hok
    rw [Res.andThen_of_ok h1]
    obtain ⟨r1, f1⟩ := addVar_reg h hk h1
    obtain ⟨r2, f2⟩ := ih r1 h2
    rw [← bumps_cons]
    exact ⟨r2, f1.trans f2⟩

theorem addFnVars_ok_iff {s : State} {U : Usage} (h : Reg s U) {f : Fn} {k : Kind} {vs : List Var}
    (hk : k ≠ .cwOptim) : (addFnVars s f k vs).2 = none ↔ AddsOk s.dtype U k vs := by
  induction vs generalizing s U with
  | nil => simp [addFnVars, AddsOk]
  | cons v vs ih =>
    simp only [addFnVars, Res.andThen_ok]
    have hok1 : (addVar s f k v).2 = none ↔ AddOk s U k v := addVar_ok_iff h hk
    constructor
    · rintro ⟨h1, h2⟩
      obtain ⟨r1, f1⟩ := addVar_reg h hk h1
      have h3 := (ih r1).1 h2
      have h4 := hok1.1 h1
      rw [f1.dtype] at h3
      intro u hu
      rcases List.mem_cons.1 hu with rfl | hu
      · refine ⟨h4.1, ?_, h4.2.2⟩
        rintro w (hw | hw | hw) hn
        · exact h4.2.1 w (Or.inl hw) hn
        · exact h4.2.1 w (Or.inr hw) hn
        · rcases List.mem_cons.1 hw with rfl | hw
          · rfl
          · refine ((h3 w hw).2.1 u ?_ hn.symm).symm
            rw [used_bump, used_bump]
            cases k with
            | cwOptim => exact absurd rfl hk
            | optim => exact Or.inl (Or.inr ⟨rfl, rfl⟩)
            | aux => exact Or.inr (Or.inl (Or.inr ⟨rfl, rfl⟩))
      · have h5 := h3 u hu
        refine ⟨h5.1, ?_, ?_⟩
        · intro w hw hn
          apply h5.2.1 w _ hn
          rw [used_bump, used_bump]
          rcases hw with hw | hw | hw
          · exact Or.inl (Or.inl hw)
          · exact Or.inr (Or.inl (Or.inl hw))
          · rcases List.mem_cons.1 hw with rfl | hw
            · cases k with
              | cwOptim => exact absurd rfl hk
              | optim => exact Or.inl (Or.inr ⟨rfl, rfl⟩)
              | aux => exact Or.inr (Or.inl (Or.inr ⟨rfl, rfl⟩))
            · exact Or.inr (Or.inr hw)
        · intro hh; exact h5.2.2 (used_bump.2 (Or.inl hh))
    · intro hall
      have hv := hall v List.mem_cons_self
      have h1 : (addVar s f k v).2 = none := by
        rw [hok1]
        refine ⟨hv.1, ?_, hv.2.2⟩
        rintro w (hw | hw) hn
        · exact hv.2.1 w (Or.inl hw) hn
        · exact hv.2.1 w (Or.inr (Or.inl hw)) hn
      refine ⟨h1, ?_⟩
      obtain ⟨r1, f1⟩ := addVar_reg h hk h1
      rw [ih r1, f1.dtype]
      intro u hu
      have h5 := hall u (List.mem_cons_of_mem _ hu)
      refine ⟨h5.1, ?_, ?_⟩
      · intro w hw hn
        apply h5.2.1 w _ hn
        rw [used_bump, used_bump] at hw
        rcases hw with (hw | ⟨_, rfl⟩) | (hw | ⟨_, rfl⟩) | hw
        · exact Or.inl hw
        · exact Or.inr (Or.inr List.mem_cons_self)
        · exact Or.inr (Or.inl hw)
        · exact Or.inr (Or.inr List.mem_cons_self)
        · exact Or.inr (Or.inr (List.mem_cons_of_mem _ hw))
      · rw [used_bump]
        rintro (hh | ⟨hh, _⟩)
        · exact h5.2.2 hh
        · cases k <;> simp [Kind.other] at hh

/-- `vs` unlinked from `f` in map `k`. -/
def unbumps (U : Usage) (k : Kind) (f : Fn) (vs : List Var) : Usage :=
  fun k' v' f' => U k' v' f' - (if k' = k ∧ f' = f then vs.count v' else 0)

theorem unbumps_cons (U : Usage) (k : Kind) (f : Fn) (v : Var) (vs : List Var) :
    unbumps (unbump U k v f) k f vs = unbumps U k f (v :: vs) := by
  funext k' v' f'
  simp only [unbumps, unbump, List.count_cons]
  by_cases h1 : k' = k <;> by_cases h2 : f' = f <;> by_cases h3 : v' = v <;> simp [*]
  · omega
  · simp [Ne.symm h3]

theorem eraseFnVars_reg {s : State} {U : Usage} (h : Reg s U) {f : Fn} {k : Kind} {vs : List Var}
    (hk : k ≠ .cwOptim) (hu : ∀ v, vs.count v ≤ U k v f) :
    ∃ s', eraseFnVars s f k vs = (s', none) ∧ Reg s' (unbumps U k f vs) ∧ Frame s s' := by
  induction vs generalizing s U with
  | nil =>
    refine ⟨s, rfl, ?_, Frame.refl _⟩
    have : unbumps U k f [] = U := by funext k' v' f'; simp [unbumps]
    rw [this]; exact h
  | cons v vs ih =>
    have hv : 0 < U k v f := by
      have := hu v; simp only [List.count_cons_self] at this; omega
    obtain ⟨s1, e1, r1, f1⟩ := eraseVar_reg h hk hv
    obtain ⟨s2, e2, r2, f2⟩ := ih r1 (by
      intro u
      have := hu u
      simp only [List.count_cons] at this
      simp only [unbump, true_and]
      by_cases hh : u = v
      · subst hh; simp at this ⊢; omega
      · simp [hh, Ne.symm hh] at this ⊢; exact this)
    refine ⟨s2, ?_, ?_, f1.trans f2⟩
    · simp only [eraseFnVars, e1, Res.andThen, e2]
    · rw [← unbumps_cons]; exact r2

end Verif.Objective
