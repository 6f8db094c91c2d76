import Verif.Scoped.Model
/-!
# Scoped settings are restored (C50)
-/
namespace Verif.Scoped

/-- The settings governed by class based managers. -/
def clsPart (s : Settings) : Bool × Bool × Bool := (s.tlCheck, s.tangent, s.euclid)

theorem clsPart_enter (k : Gen) (s : Settings) : clsPart (k.enter s) = clsPart s := by cases k <;> rfl
theorem clsPart_exit (s0 s : Settings) : clsPart (Gen.exit s0 s) = clsPart s := rfl

theorem put_restores (k : Cls) {a b : Settings} {v : Bool} (h : clsPart b = clsPart (k.put a v)) :
    clsPart (k.put b (k.get a)) = clsPart a := by
  cases k <;> simp_all [clsPart, Cls.put, Cls.get]

theorem prev_kept : ∀ (p : Prog) (s : State) (i : Nat), i ∉ uses p → (exec p s).1.prev i = s.prev i := by
  intro p
  induction p with
  | skip => intros; rfl
  | fail => intros; rfl
  | seq p q ihp ihq =>
    intro s i hi
    simp only [uses, List.mem_append, not_or] at hi
    have hp := ihp s i hi.1
    unfold exec
    split
    · next s' e => rw [e] at hp; exact hp
    · next s' e => rw [e] at hp; rw [ihq s' i hi.2]; exact hp
  | attempt p q ihp ihq =>
    intro s i hi
    simp only [uses, List.mem_append, not_or] at hi
    have hp := ihp s i hi.1
    unfold exec
    split
    · next s' e => rw [e] at hp; rw [ihq s' i hi.2]; exact hp
    · next s' e => rw [e] at hp; exact hp
  | withGen k b ih =>
    intro s i hi
    have hb := ih { s with set := k.enter s.set } i hi
    unfold exec
    split
    · next s' e => rw [e] at hb; exact hb
    · next s' e => rw [e] at hb; exact hb
  | withCls j k b ih =>
    intro s i hi
    simp only [uses, List.mem_cons, not_or] at hi
    have hb := ih { s with prev := fun l => if l = j then k.get s.set else s.prev l, set := k.put s.set k.value } i hi.2
    unfold exec
    simp only
    rw [hb]
    simp only
    rw [if_neg hi.1]

/-- C50 (class based managers): torchlie's check mode, the tangent mode and the euclidean mode have their
old values after any nest of managers, whether or not it raises, provided no manager object is re-entered
inside its own block. -/
theorem class_settings_restored (p : Prog) (hp : nonReentrant p = true) (s : State) :
    clsPart (exec p s).1.set = clsPart s.set := by
  induction p generalizing s with
  | skip => rfl
  | fail => rfl
  | seq p q ihp ihq =>
    simp only [nonReentrant, Bool.and_eq_true] at hp
    have h := ihp hp.1 s
    unfold exec
    split
    · next s' e => rw [e] at h; exact h
    · next s' e => rw [e] at h; rw [ihq hp.2 s']; exact h
  | attempt p q ihp ihq =>
    simp only [nonReentrant, Bool.and_eq_true] at hp
    have h := ihp hp.1 s
    unfold exec
    split
    · next s' e => rw [e] at h; rw [ihq hp.2 s']; exact h
    · next s' e => rw [e] at h; exact h
  | withGen k b ih =>
    have h := ih hp { s with set := k.enter s.set }
    rw [clsPart_enter] at h
    unfold exec
    split
    · next s' e => rw [e] at h; exact h
    · next s' e => rw [e] at h; simp only [clsPart_exit]; exact h
  | withCls i k b ih =>
    simp only [nonReentrant, Bool.and_eq_true, decide_eq_true_eq] at hp
    have h := ih hp.2 { s with prev := fun l => if l = i then k.get s.set else s.prev l, set := k.put s.set k.value }
    have hk := prev_kept b { s with prev := fun l => if l = i then k.get s.set else s.prev l, set := k.put s.set k.value } i hp.1
    unfold exec
    simp only
    rw [hk]
    simp only [if_true]
    exact put_restores k h

theorem interrupted_mono : ∀ (p : Prog) (s : State), s.interrupted = true → (exec p s).1.interrupted = true := by
  intro p
  induction p with
  | skip => intro s h; exact h
  | fail => intro s h; exact h
  | seq p q ihp ihq =>
    intro s h
    have hp := ihp s h
    unfold exec
    split
    · next s' e => rw [e] at hp; exact hp
    · next s' e => rw [e] at hp; exact ihq s' hp
  | attempt p q ihp ihq =>
    intro s h
    have hp := ihp s h
    unfold exec
    split
    · next s' e => rw [e] at hp; exact ihq s' hp
    · next s' e => rw [e] at hp; exact hp
  | withGen k b ih =>
    intro s h
    have hb := ih { s with set := k.enter s.set } h
    unfold exec
    split
    · rfl
    · next s' e => rw [e] at hb; exact hb
  | withCls j k b ih =>
    intro s h
    have hb := ih { s with prev := fun l => if l = j then k.get s.set else s.prev l, set := k.put s.set k.value } h
    unfold exec
    simp only
    exact hb

/-- C50 (partial): all settings, including theseus' Lie group checks and warnings, have their old values
after any nest of managers in which no exception passes through a block of `set_lie_group_check_enabled`,
`enable_lie_group_check`, `no_lie_group_check` or `silence_internal_warnings` (exceptions caught inside such
a block, or passing through the other managers, are allowed).  Missing: exceptions through these blocks,
where the settings are not restored (`check_not_restored`, `optimize_raise_silences`). -/
theorem settings_restored_partial (p : Prog) (hp : nonReentrant p = true) (s : State)
    (hq : (exec p s).1.interrupted = false) : (exec p s).1.set = s.set := by
  have hc := class_settings_restored p hp s
  suffices h : (exec p s).1.set.check = s.set.check ∧ (exec p s).1.set.silent = s.set.silent ∧
      (exec p s).1.set.silence = s.set.silence by
    unfold clsPart at hc
    simp only [Prod.mk.injEq] at hc
    cases h1 : (exec p s).1.set
    cases h2 : s.set
    rw [h1, h2] at hc h
    simp_all
  clear hc hp
  induction p generalizing s with
  | skip => exact ⟨rfl, rfl, rfl⟩
  | fail => exact ⟨rfl, rfl, rfl⟩
  | seq p q ihp ihq =>
    unfold exec at hq ⊢
    split
    · next s' e =>
      rw [e] at hq
      have := ihp s (by rw [e]; exact hq)
      rw [e] at this; exact this
    · next s' e =>
      rw [e] at hq
      simp only at hq
      have hp' : s'.interrupted = false := by
        cases hs : s'.interrupted with
        | false => rfl
        | true => rw [interrupted_mono q s' hs] at hq; exact hq
      have h1 := ihp s (by rw [e]; exact hp')
      rw [e] at h1
      have h2 := ihq s' hq
      exact ⟨h2.1.trans h1.1, h2.2.1.trans h1.2.1, h2.2.2.trans h1.2.2⟩
  | attempt p q ihp ihq =>
    unfold exec at hq ⊢
    split
    · next s' e =>
      rw [e] at hq
      simp only at hq
      have hp' : s'.interrupted = false := by
        cases hs : s'.interrupted with
        | false => rfl
        | true => rw [interrupted_mono q s' hs] at hq; exact hq
      have h1 := ihp s (by rw [e]; exact hp')
      rw [e] at h1
      have h2 := ihq s' hq
      exact ⟨h2.1.trans h1.1, h2.2.1.trans h1.2.1, h2.2.2.trans h1.2.2⟩
    · next s' e =>
      rw [e] at hq
      have := ihp s (by rw [e]; exact hq)
      rw [e] at this; exact this
  | withGen k b ih =>
    unfold exec at hq ⊢
    split
    · next s' e => rw [e] at hq; simp at hq
    · exact ⟨rfl, rfl, rfl⟩
  | withCls i k b ih =>
    unfold exec at hq ⊢
    simp only at hq ⊢
    have := ih { s with prev := fun l => if l = i then k.get s.set else s.prev l, set := k.put s.set k.value } hq
    cases k <;> exact this

/-- C50: in particular programs that never raise restore everything. -/
def noFail : Prog → Bool
  | .skip => true
  | .fail => false
  | .seq p q => noFail p && noFail q
  | .attempt p q => noFail p && noFail q
  | .withGen _ b => noFail b
  | .withCls _ _ b => noFail b

theorem noFail_quiet : ∀ (p : Prog), noFail p = true → ∀ s : State,
    (exec p s).2 = false ∧ (exec p s).1.interrupted = s.interrupted := by
  intro p
  induction p with
  | skip => intro _ s; exact ⟨rfl, rfl⟩
  | fail => intro h; simp [noFail] at h
  | seq p q ihp ihq =>
    intro h s
    simp only [noFail, Bool.and_eq_true] at h
    have hp := ihp h.1 s
    unfold exec
    split
    · next s' e => rw [e] at hp; simp at hp
    · next s' e => rw [e] at hp; have := ihq h.2 s'; exact ⟨this.1, this.2.trans hp.2⟩
  | attempt p q ihp ihq =>
    intro h s
    simp only [noFail, Bool.and_eq_true] at h
    have hp := ihp h.1 s
    unfold exec
    split
    · next s' e => rw [e] at hp; simp at hp
    · next s' e => rw [e] at hp; exact ⟨rfl, hp.2⟩
  | withGen k b ih =>
    intro h s
    have hb := ih h { s with set := k.enter s.set }
    unfold exec
    split
    · next s' e => rw [e] at hb; simp at hb
    · next s' e => rw [e] at hb; exact ⟨rfl, hb.2⟩
  | withCls i k b ih =>
    intro h s
    have hb := ih h { s with prev := fun l => if l = i then k.get s.set else s.prev l, set := k.put s.set k.value }
    unfold exec
    simp only
    exact hb

/-- C50: normal exits restore all settings, in any nesting. -/
theorem settings_restored_normally (p : Prog) (hp : nonReentrant p = true) (hn : noFail p = true) (g : Settings) :
    (exec p (fresh g)).1.set = g :=
  settings_restored_partial p hp (fresh g) (noFail_quiet p hn (fresh g)).2

/-! ### Violations -/

/-- C50 is violated: an exception that leaves `with no_lie_group_check()` and is caught by the caller leaves
the Lie group checks disabled. -/
theorem check_not_restored :
    let p := Prog.attempt (.withGen (.disable true false) .fail) .skip
    nonReentrant p = true ∧ (exec p (fresh {})).2 = false ∧ (exec p (fresh {})).1.set.check = false := by
  decide +kernel

/-- C50 is violated: `Optimizer.optimize` runs in `with silence_internal_warnings()` (`optimizer.py:52-53`);
if it raises, warnings stay silenced, whatever the settings were. -/
theorem optimize_raise_silences (g : Settings) :
    (exec (.attempt (.withGen .silenceWarnings .fail) .skip) (fresh g)).1.set = { g with silence := true } := rfl

/-- C50 is violated: a manager object used again inside its own block forgets the setting of the outer
block, although nothing raises. -/
theorem reentered_manager_leaks :
    (exec (.withCls 0 .enableChecks (.withCls 0 .enableChecks .skip)) (fresh {})).1.set.tlCheck = true := rfl

/-- Non-vacuity: a nest of all kinds of managers with exceptions raised and caught inside. -/
example :
    let p := Prog.withGen (.disable false true)
      (.withCls 0 .enableTangent (.seq (.attempt (.withCls 1 .noTangent .fail) .skip) (.withGen .silenceWarnings .skip)))
    nonReentrant p = true ∧ (exec p (fresh {})).1.interrupted = false ∧ noFail p = false := by
  decide +kernel

end Verif.Scoped
