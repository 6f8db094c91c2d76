import Verif.Update.Spec
import Verif.Objective.Inv
/-! # Helper lemmas about updates -/
namespace Verif.Update
open Verif Verif.Objective

variable {ρ : Type}

/-- What the reachable objectives give us. -/
structure Good (s : State) : Prop where
  lk : ∀ n v, lookup s n = some v ↔ v.name = n ∧ IsVar s v
  opt : ∀ n v, s.optimVars.get? n = some v → v.name = n
  ndo : s.optimVars.keys.Nodup
  nda : s.auxVars.keys.Nodup
  auxn : ∀ n v, s.auxVars.get? n = some v → v.name = n

theorem good_of_inv {s : State} {cs reg : List CostFn} (h : Inv s cs reg) : Good s := by
  have ho := h.hasOptim
  have ha := h.hasAux
  refine ⟨?_, fun n v hv => ((ho n v).1 hv).1, h.rg.nodO, h.rg.nodA,
    fun n v hv => ((ha n v).1 hv).1⟩
  intro n v
  unfold lookup IsVar getOptimVar getAuxVar
  rw [h.rg.cw]
  constructor
  · intro hl
    cases h1 : s.optimVars.get? n with
    | some u =>
      rw [h1] at hl; simp at hl; subst hl
      have := ((ho n u).1 h1).1; subst this; exact ⟨rfl, Or.inl h1⟩
    | none =>
      rw [h1] at hl; simp only at hl
      cases h2 : s.auxVars.get? n with
      | some u =>
        rw [h2] at hl; simp at hl; subst hl
        have := ((ha n u).1 h2).1; subst this; exact ⟨rfl, Or.inr h2⟩
      | none => rw [h2] at hl; simp at hl
  · rintro ⟨rfl, h1 | h1⟩
    · rw [h1]
    · cases h2 : s.optimVars.get? v.name with
      | some u =>
        have hu := (ho _ _).1 h2
        have hv := (ha _ _).1 h1
        have := h.uniq ((uses_iff _ _).2 (Or.inl hu.2)) ((uses_iff _ _).2 (Or.inr hv.2)) hu.1
        simp [this]
      | none => simp [h1]

theorem good_run (dt : Nat) (hist : List Call) (hok : Succeeds (init dt false) hist) :
    Good (run (init dt false) hist) ∧ (run (init dt false) hist).dtype = dt := by
  obtain ⟨reg, h, hd, _⟩ := run_inv (init_inv dt) hok
  exact ⟨good_of_inv h, hd⟩

/-! ### the loop -/

theorem updLoop_obj (mask : Option (List Bool)) (inp : List (Nat × Tensor ρ)) (e : Env ρ) :
    (updLoop e mask inp).1.obj = e.obj ∧ (updLoop e mask inp).1.device = e.device ∧
    (updLoop e mask inp).1.batchSize = e.batchSize := by
  induction inp generalizing e with
  | nil => simp [updLoop]
  | cons p rest ih =>
    obtain ⟨n, t⟩ := p
    unfold updLoop
    split
    · simp
    split
    · simp
    split
    · exact ih e
    · split
      · simp
      · rename_i u _ _ st _
        have := ih { e with heap := e.heap.put u st }
        simpa using this

/-- Variables that are not named are not touched, whatever the outcome. -/
theorem updLoop_frame {s : State} (hg : Good s) (mask : Option (List Bool))
    (inp : List (Nat × Tensor ρ)) (e : Env ρ) (he : e.obj = s) (v : Var)
    (hv : ¬ IsVar s v ∨ v.name ∉ inp.map Prod.fst) :
    (updLoop e mask inp).1.heap v = e.heap v := by
  induction inp generalizing e with
  | nil => simp [updLoop]
  | cons p rest ih =>
    obtain ⟨n, t⟩ := p
    have hv' : ¬ IsVar s v ∨ v.name ∉ rest.map Prod.fst := by
      rcases hv with h | h
      · exact Or.inl h
      · right; simp only [List.map_cons, List.mem_cons, not_or] at h; exact h.2
    unfold updLoop
    split
    · rfl
    split
    · rfl
    split
    · exact ih e he hv'
    · rename_i u hu
      split
      · rfl
      · rename_i st hst
        rw [ih _ (by simpa using he) hv']
        simp only [Heap.put]
        rw [if_neg]
        rintro rfl
        rw [he, hg.lk] at hu
        rcases hv with h | h
        · exact h hu.2
        · simp [hu.1] at h

theorem updLoop_ok {s : State} (hg : Good s) (mask : Option (List Bool))
    (inp : List (Nat × Tensor ρ)) (hnd : (inp.map Prod.fst).Nodup)
    (e : Env ρ) (he : e.obj = s) :
    ((updLoop e mask inp).2 = none ↔ ∀ p ∈ inp, p.2.trail ≠ [] ∧ p.2.device = e.device ∧
      p.2.dtype = s.dtype ∧ ∀ v, IsVar s v → v.name = p.1 →
        ∃ st, varUpdate (e.heap v) p.2 mask = .ok st) ∧
    ((updLoop e mask inp).2 = none → ∀ p ∈ inp, ∀ v, IsVar s v → v.name = p.1 →
      varUpdate (e.heap v) p.2 mask = .ok ((updLoop e mask inp).1.heap v)) := by
  induction inp generalizing e with
  | nil => simp [updLoop]
  | cons p rest ih =>
    obtain ⟨n, t⟩ := p
    simp only [List.map_cons, List.nodup_cons] at hnd
    unfold updLoop
    by_cases h1 : t.trail = []
    · simp [h1]
    rw [if_neg h1]
    by_cases h2 : t.device ≠ e.device ∨ t.dtype ≠ e.obj.dtype
    · rw [if_pos h2]
      constructor
      · constructor
        · intro h; simp at h
        · intro h
          have := h (n, t) (by simp)
          rw [he] at h2
          rcases h2 with h2 | h2
          · exact absurd this.2.1 h2
          · exact absurd this.2.2.1 h2
      · intro h; simp at h
    rw [if_neg h2]
    simp only [not_or, Decidable.not_not] at h2
    cases hl : lookup e.obj n with
    | none =>
      have hno : ∀ v, IsVar s v → v.name ≠ n := by
        intro v hv hn
        have := (hg.lk n v).2 ⟨hn, hv⟩
        rw [he] at hl; rw [hl] at this; simp at this
      obtain ⟨i1, i2⟩ := ih hnd.2 e he
      simp only [List.mem_cons, forall_eq_or_imp]
      constructor
      · rw [i1]
        constructor
        · intro h
          refine ⟨⟨h1, h2.1, by rw [h2.2, he], fun v hv hn => absurd hn (hno v hv)⟩, h⟩
        · exact fun h => h.2
      · intro h
        exact ⟨fun v hv hn => absurd hn (hno v hv), i2 h⟩
    | some u =>
      simp only
      have hu := hl
      rw [he, hg.lk] at hu
      have huniq : ∀ v, IsVar s v → v.name = n → v = u := by
        intro v hv hn
        have := (hg.lk n v).2 ⟨hn, hv⟩
        rw [he] at hl; rw [hl] at this; simpa using this.symm
      cases hs : varUpdate (e.heap u) t mask with
      | error x =>
        simp only [List.mem_cons, forall_eq_or_imp]
        constructor
        · constructor
          · intro h; simp at h
          · intro h
            obtain ⟨st, hst⟩ := h.1.2.2.2 u hu.2 hu.1
            rw [hs] at hst; simp at hst
        · intro h; simp at h
      | ok st =>
        simp only
        obtain ⟨i1, i2⟩ := ih hnd.2 { e with heap := e.heap.put u st } (by simpa using he)
        dsimp only at i1 i2
        have hput : ∀ p ∈ rest, ∀ v, v.name = p.1 → (e.heap.put u st) v = e.heap v := by
          intro p hp v hn
          simp only [Heap.put]
          rw [if_neg]
          rintro rfl
          exact hnd.1 (by rw [← hu.1, hn]; exact List.mem_map.2 ⟨p, hp, rfl⟩)
        simp only [List.mem_cons, forall_eq_or_imp]
        constructor
        · rw [i1]
          constructor
          · intro h
            refine ⟨⟨h1, h2.1, by rw [h2.2, he], ?_⟩, ?_⟩
            · intro v hv hn; rw [huniq v hv hn]; exact ⟨st, hs⟩
            · intro p hp
              obtain ⟨a, b, c, d⟩ := h p hp
              refine ⟨a, b, c, fun v hv hn => ?_⟩
              have := d v hv hn
              rwa [hput p hp v hn] at this
          · rintro ⟨_, h⟩ p hp
            obtain ⟨a, b, c, d⟩ := h p hp
            refine ⟨a, b, c, fun v hv hn => ?_⟩
            rw [hput p hp v hn]; exact d v hv hn
        · intro h
          refine ⟨?_, ?_⟩
          · intro v hv hn
            obtain rfl := huniq v hv hn
            rw [updLoop_frame hg mask rest _ (by simpa using he) v (Or.inr (by rw [hn]; exact hnd.1))]
            simp [Heap.put, hs]
          · intro p hp v hv hn
            have := i2 h p hp v hv hn
            rwa [hput p hp v hn] at this

/-- A failing loop has applied a prefix of the dictionary, and nothing else. -/
theorem updLoop_prefix (mask : Option (List Bool)) (inp : List (Nat × Tensor ρ)) (e : Env ρ)
    (x : Err) (h : (updLoop e mask inp).2 = some x) :
    ∃ pre p post, inp = pre ++ p :: post ∧ (updLoop e mask pre).2 = none ∧
      (updLoop e mask (pre ++ [p])).2 = some x ∧ (updLoop e mask inp).1 = (updLoop e mask pre).1 := by
  induction inp generalizing e with
  | nil => simp [updLoop] at h
  | cons p rest ih =>
    obtain ⟨n, t⟩ := p
    unfold updLoop at h ⊢
    by_cases h1 : t.trail = []
    · simp only [h1, if_true] at h ⊢
      exact ⟨[], (n, t), rest, rfl, rfl, by simp [updLoop, h1, ← h], rfl⟩
    rw [if_neg h1] at h ⊢
    by_cases h2 : t.device ≠ e.device ∨ t.dtype ≠ e.obj.dtype
    · rw [if_pos h2] at h ⊢
      exact ⟨[], (n, t), rest, rfl, rfl, by simpa [updLoop, h1, h2] using h, rfl⟩
    rw [if_neg h2] at h ⊢
    cases hl : lookup e.obj n with
    | none =>
      rw [hl] at h; simp only at h ⊢
      obtain ⟨pre, q, post, a, b, d, c⟩ := ih e h
      refine ⟨(n, t) :: pre, q, post, by simp [a], ?_, ?_, ?_⟩
      · simp only [h1, h2, if_false, hl]; exact b
      · simp only [List.cons_append, h1, h2, if_false, hl]; exact d
      · rw [c]; simp only [h1, h2, if_false, hl]
    | some u =>
      rw [hl] at h; simp only at h ⊢
      cases hs : varUpdate (e.heap u) t mask with
      | error y =>
        rw [hs] at h; simp only at h ⊢
        exact ⟨[], (n, t), rest, rfl, rfl, by simpa [updLoop, h1, h2, hl, hs] using h, rfl⟩
      | ok st =>
        rw [hs] at h; simp only at h ⊢
        obtain ⟨pre, q, post, a, b, d, c⟩ := ih _ h
        refine ⟨(n, t) :: pre, q, post, by simp [a], ?_, ?_, ?_⟩
        · simp only [h1, h2, if_false, hl, hs]; exact b
        · simp only [List.cons_append, h1, h2, if_false, hl, hs]; exact d
        · rw [c]; simp only [h1, h2, if_false, hl, hs]

/-! ### `Variable.update` -/

theorem varUpdate_none (st : VarSt ρ) (t : Tensor ρ) (st' : VarSt ρ) :
    varUpdate st t none = .ok st' ↔ t.trail = st.tensor.trail ∧ t.dtype = st.tensor.dtype ∧
      st' = ⟨t, st.numUpdates + 1⟩ := by
  unfold varUpdate
  by_cases h1 : t.trail = st.tensor.trail <;> by_cases h2 : t.dtype = st.tensor.dtype <;>
    simp [h1, h2, eq_comm]

theorem varUpdate_num {st st' : VarSt ρ} {t : Tensor ρ} {mask} (h : varUpdate st t mask = .ok st') :
    st'.numUpdates = st.numUpdates + 1 := by
  unfold varUpdate at h
  split at h
  · cases h
  split at h
  · cases h
  split at h
  · cases h; rfl
  · split at h
    · split at h
      · cases h
      · cases h; rfl
    · cases h; rfl

theorem collect_some {α : Type} (l : List (Option α)) (r : List α) :
    collect l = some r ↔ l = r.map some := by
  induction l generalizing r with
  | nil => cases r <;> simp [collect]
  | cons a l ih =>
    cases a with
    | none => cases r <;> simp [collect]
    | some a =>
      simp only [collect, Option.map_eq_some_iff]
      constructor
      · rintro ⟨r', h, rfl⟩; simp [(ih r').1 h]
      · cases r with
        | nil => simp
        | cons b r =>
          simp only [List.map_cons, List.cons.injEq, Option.some.injEq, and_imp]
          rintro rfl h; exact ⟨r, (ih r).2 h, rfl, rfl⟩

theorem whereRows_get {m : List Bool} {old new r : List ρ} (h : whereRows m old new = some r)
    (i : Nat) (hi : i < r.length) :
    r[i]? = if bget m i = some true then bget old i else bget new i := by
  unfold whereRows at h
  split at h
  · simp at h
  split at h
  · simp at h
  rename_i n _
  rw [collect_some] at h
  have hl : n = r.length := by have := congrArg List.length h; simpa using this
  have := congrArg (fun l => l[i]?) h
  simp only [List.getElem?_map, List.getElem?_range (hl ▸ hi), Option.map_some] at this
  rw [List.getElem?_eq_getElem hi] at this ⊢
  simp only [Option.map_some, Option.some.injEq] at this
  exact this.symm

theorem bget_isSome {α : Type} (l : List α) (n i : Nat) (hi : i < n) (h : l.length = 1 ∨ l.length = n) :
    ∃ a, bget l i = some a := by
  unfold bget
  rcases h with h | h
  · rw [if_pos h, List.getElem?_eq_getElem (by omega)]; exact ⟨_, rfl⟩
  · split
    · rw [List.getElem?_eq_getElem (by omega)]; exact ⟨_, rfl⟩
    · rw [List.getElem?_eq_getElem (by omega)]; exact ⟨_, rfl⟩

theorem whereRows_same {m : List Bool} {old new : List ρ} (h1 : m.length = old.length)
    (h2 : m.length = new.length) : ∃ r, whereRows m old new = some r ∧ r.length = m.length := by
  have hb1 : bcast m.length old.length = some m.length := by rw [← h1]; simp [bcast]
  have hb2 : bcast m.length new.length = some m.length := by rw [← h2]; simp [bcast]
  unfold whereRows
  rw [hb1]; simp only [hb2]
  have : ∀ i < m.length, ∃ a, (if bget m i = some true then bget old i else bget new i) = some a := by
    intro i hi
    split
    · exact bget_isSome _ _ _ hi (Or.inr h1.symm)
    · exact bget_isSome _ _ _ hi (Or.inr h2.symm)
  refine ⟨(List.range m.length).pmap (fun i hi => (this i hi).choose) (by simp), ?_, by simp⟩
  rw [collect_some]
  apply List.ext_getElem (by simp)
  intro i h3 h4
  simp only [List.length_map, List.length_range] at h3
  simp only [List.getElem_map, List.getElem_range, List.getElem_pmap]
  exact (this i h3).choose_spec

/-! ### batch size -/

theorem mem_eraseDups (l : List Nat) (a : Nat) : a ∈ l.eraseDups ↔ a ∈ l := by simp

theorem nodup_eraseDups (l : List Nat) : l.eraseDups.Nodup := by
  induction hn : l.length using Nat.strongRecOn generalizing l with
  | _ n ih =>
    cases l with
    | nil => simp
    | cons a l =>
      rw [List.eraseDups_cons, List.nodup_cons]
      constructor
      · simp
      · apply ih _ _ _ rfl
        rw [← hn]
        exact Nat.lt_succ_of_le (List.length_filter_le _ _)

theorem getBatchSize_iff (l : List Nat) (B : Nat) : getBatchSize l = .ok B ↔ Agree l B := by
  have hm := mem_eraseDups l
  have hn := nodup_eraseDups l
  unfold getBatchSize Agree
  simp only
  generalize l.eraseDups = u at hm hn
  simp only [← hm]
  match u, hn with
  | [], _ => simp
  | [a], _ => simp; constructor
              · rintro rfl; exact ⟨rfl, Or.inr rfl, Nat.le_refl _⟩
              · rintro ⟨rfl, _⟩; rfl
  | [a, b], hn =>
    simp only [List.nodup_cons, List.mem_cons, List.not_mem_nil, or_false] at hn
    simp only [List.mem_cons, List.not_mem_nil, or_false, forall_eq_or_imp, forall_eq]
    have hab : a ≠ b := hn.1
    split
    · simp only [Except.ok.injEq]; omega
    · simp; omega
  | a :: b :: c :: u, hn =>
    simp only [List.nodup_cons, List.mem_cons, not_or] at hn
    simp only [List.mem_cons, forall_eq_or_imp]
    constructor
    · intro h; simp at h
    · rintro ⟨_, ⟨h1, h2, h3, _⟩, _⟩; omega

end Verif.Update
