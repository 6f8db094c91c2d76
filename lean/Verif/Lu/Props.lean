import Verif.Lu.Model
import Verif.Nlopt.Props
/-!
# Solver contexts (C38)
-/
namespace Verif.Lu
variable {α : Type}

/-- Invariant of all solvers. -/
structure Inv (s : Solver α) : Prop where
  nodup : s.contexts.Nodup
  bound : ∀ o ∈ s.contexts, o < s.nobj
  len : s.lastReset.2 = some s.contexts.length
  last : s.contexts ≠ [] → s.last < s.contexts.length

theorem reset_inv {s : Solver α} (h : Inv s ∨ (s.contexts = [] ∧ s.lastReset = (none, none))) (b n : Option Nat) :
    Inv (reset s b n) := by
  unfold reset
  simp only
  split
  · next he =>
    rcases h with h | h
    · exact h
    · rw [h.2] at he; simp at he
  · refine ⟨List.nodup_range' , ?_, by simp, ?_⟩
    · intro o ho
      simp only [List.mem_range'_1] at ho
      simp only
      omega
    · intro hne
      simp only [ne_eq, List.range'_eq_nil_iff] at hne
      simp only [List.length_range']
      omega

theorem init_inv (b n : Option Nat) (auto : Bool) : Inv (init b n auto : Solver α) :=
  reset_inv (Or.inr ⟨rfl, rfl⟩) b n

/-- A reset changes no existing context object. -/
theorem reset_objs (s : Solver α) (b n : Option Nat) {o : Nat} (ho : o < s.nobj) : (reset s b n).objs o = s.objs o := by
  unfold reset
  simp only
  split
  · rfl
  · simp only
    rw [if_neg (by omega)]

theorem reset_nobj (s : Solver α) (b n : Option Nat) : s.nobj ≤ (reset s b n).nobj := by
  unfold reset
  simp only
  split
  · exact Nat.le_refl _
  · simp

/-- After a reset the contexts are the old ones (and nothing changed) or all new. -/
theorem reset_contexts (s : Solver α) (b n : Option Nat) :
    reset s b n = s ∨ ∀ o ∈ (reset s b n).contexts, s.nobj ≤ o := by
  unfold reset
  simp only
  split
  · left; rfl
  · right
    intro o ho
    simp only [List.mem_range'_1] at ho
    omega

/-- What a solve does: possibly a reset, then it factors on the next context. -/
theorem solve_spec {s : Solver α} (h : Inv s) {b : Nat} {A : α} {s' : Solver α} {t : Token α}
    (hs : solve s b A = some (s', t)) :
    ∃ r : Solver α, (r = s ∨ r = reset s (some b) none) ∧ Inv r ∧ r.contexts ≠ [] ∧
      s'.contexts = r.contexts ∧ s'.nobj = r.nobj ∧ s'.lastReset = r.lastReset ∧ s'.autoReset = r.autoReset ∧
      s'.last = (r.last + 1) % r.contexts.length ∧ r.contexts[s'.last]? = some t.obj ∧
      (∀ o, o ≠ t.obj → s'.objs o = r.objs o) ∧ s'.objs t.obj = ⟨b, t.factorId, some A⟩ ∧
      t.factorId = (r.objs t.obj).factorId + 1 ∧ t.mat = A := by
  unfold solve at hs
  split at hs
  · simp at hs
  next c l hc =>
  simp only at hs
  generalize hr : (if (s.autoReset && decide ((s.objs c).batch ≠ b)) = true then reset s (some b) none else s) = r at hs
  have hr' : r = s ∨ r = reset s (some b) none := by
    rw [← hr]; split
    · right; rfl
    · left; rfl
  have hi : Inv r := by
    rcases hr' with rfl | rfl
    · exact h
    · exact reset_inv (Or.inl h) _ _
  split at hs
  · simp at hs
  next o ho =>
  split at hs
  · simp at hs
  · simp only [Option.some.injEq, Prod.mk.injEq] at hs
    obtain ⟨rfl, rfl⟩ := hs
    have hne : r.contexts ≠ [] := by
      intro he; rw [he] at ho; simp at ho
    refine ⟨r, hr', hi, hne, rfl, rfl, rfl, rfl, ?_, ho, ?_, ?_, rfl, rfl⟩
    · simp only [hi.len, Option.getD_some]
    · intro o' ho'; simp [ho']
    · simp

theorem solve_inv {s : Solver α} (h : Inv s) {b : Nat} {A : α} {s' : Solver α} {t : Token α}
    (hs : solve s b A = some (s', t)) : Inv s' := by
  obtain ⟨r, _, hi, hne, h1, h2, h3, _, h4, _⟩ := solve_spec h hs
  refine ⟨by rw [h1]; exact hi.nodup, by rw [h1, h2]; exact hi.bound, by rw [h3, h1]; exact hi.len, ?_⟩
  intro _
  rw [h4, h1]
  exact Nat.mod_lt _ (List.length_pos_of_ne_nil hne)

theorem act_inv {s : Solver α} (h : Inv s) {e : Ev α} {s' : Solver α} {l : List (Token α)} (hs : act s e = some (s', l)) :
    Inv s' := by
  cases e with
  | reset b n =>
    simp only [act, Option.some.injEq, Prod.mk.injEq] at hs
    rw [← hs.1]; exact reset_inv (Or.inl h) _ _
  | solve b A =>
    simp only [act, Option.map_eq_some_iff, Prod.mk.injEq, Prod.exists] at hs
    obtain ⟨s1, t, h1, rfl, rfl⟩ := hs
    exact solve_inv h h1

theorem run_inv {evs : List (Ev α)} : ∀ {s s' : Solver α} {l : List (Token α)}, Inv s → run s evs = some (s', l) → Inv s' := by
  induction evs with
  | nil => intro s s' l h hr; simp only [run, Option.some.injEq, Prod.mk.injEq] at hr; rw [← hr.1]; exact h
  | cons e t ih =>
    intro s s' l h hr
    simp only [run] at hr
    split at hr
    · simp at hr
    next s1 l1 h1 =>
    simp only [Option.map_eq_some_iff, Prod.mk.injEq, Prod.exists] at hr
    obtain ⟨s2, l2, h2, rfl, _⟩ := hr
    exact ih (act_inv h h1) h2

/-- The context of a token exists, its counter is not behind the token, and the matrix is the token's if
the counters agree. -/
def Sound (s : Solver α) (t : Token α) : Prop :=
  t.obj < s.nobj ∧ t.factorId ≤ (s.objs t.obj).factorId ∧
    ((s.objs t.obj).factorId = t.factorId → (s.objs t.obj).mat = some t.mat)

theorem reset_sound {s : Solver α} {t : Token α} (h : Sound s t) (b n : Option Nat) : Sound (reset s b n) t := by
  refine ⟨lt_of_lt_of_le h.1 (reset_nobj s b n), ?_, ?_⟩ <;> rw [reset_objs s b n h.1]
  · exact h.2.1
  · exact h.2.2

theorem solve_sound {s : Solver α} (hi : Inv s) {b : Nat} {A : α} {s' : Solver α} {t' : Token α}
    (hs : solve s b A = some (s', t')) : Sound s' t' ∧ ∀ t, Sound s t → Sound s' t := by
  obtain ⟨r, hr, hir, hne, h1, h2, h3, _, h4, h5, h6, h7, h8, h9⟩ := solve_spec hi hs
  constructor
  · refine ⟨?_, ?_, ?_⟩
    · rw [h2]; exact hir.bound _ (List.mem_of_getElem? h5)
    · rw [h7]
    · rw [h7, h9]; intro _; rfl
  · intro t ht
    have htr : Sound r t := by
      rcases hr with rfl | rfl
      · exact ht
      · exact reset_sound ht _ _
    refine ⟨by rw [h2]; exact htr.1, ?_, ?_⟩
    · by_cases ho : t.obj = t'.obj
      · rw [ho, h7]
        have := htr.2.1
        rw [ho] at this
        simp only
        omega
      · rw [h6 _ ho]; exact htr.2.1
    · by_cases ho : t.obj = t'.obj
      · rw [ho, h7]
        have := htr.2.1
        rw [ho] at this
        simp only
        intro he; omega
      · rw [h6 _ ho]; exact htr.2.2

theorem run_sound {evs : List (Ev α)} : ∀ {s s' : Solver α} {l : List (Token α)}, Inv s → run s evs = some (s', l) →
    (∀ t ∈ l, Sound s' t) ∧ ∀ t, Sound s t → Sound s' t := by
  induction evs with
  | nil =>
    intro s s' l h hr
    simp only [run, Option.some.injEq, Prod.mk.injEq] at hr
    obtain ⟨rfl, rfl⟩ := hr
    simp
  | cons e t ih =>
    intro s s' l h hr
    simp only [run] at hr
    split at hr
    · simp at hr
    next s1 l1 h1 =>
    simp only [Option.map_eq_some_iff, Prod.mk.injEq, Prod.exists] at hr
    obtain ⟨s2, l2, h2, rfl, rfl⟩ := hr
    obtain ⟨k1, k2⟩ := ih (act_inv h h1) h2
    have hact : (∀ t ∈ l1, Sound s1 t) ∧ ∀ t, Sound s t → Sound s1 t := by
      cases e with
      | reset b n =>
        simp only [act, Option.some.injEq, Prod.mk.injEq] at h1
        obtain ⟨rfl, rfl⟩ := h1
        exact ⟨by simp, fun t ht => reset_sound ht _ _⟩
      | solve b A =>
        simp only [act, Option.map_eq_some_iff, Prod.mk.injEq, Prod.exists] at h1
        obtain ⟨s1, t1, h1, rfl, rfl⟩ := h1
        have := solve_sound h h1
        simpa using this
    refine ⟨?_, fun t ht => k2 t (hact.2 t ht)⟩
    intro t ht
    rcases List.mem_append.1 ht with ht | ht
    · exact k2 t (hact.1 t ht)
    · exact k1 t ht

/-- C38: whatever the history, the backward pass of any solve of it either raises RuntimeError or uses the
factors of exactly the matrix of that solve: a stale context is never used silently. -/
theorem stale_backward_detected (b n : Option Nat) (auto : Bool) (evs : List (Ev α)) (s : Solver α) (l : List (Token α))
    (h : run (init b n auto) evs = some (s, l)) (t : Token α) (ht : t ∈ l) :
    backward s t = .overwritten ∨ backward s t = .solvedWith (some t.mat) := by
  have := (run_sound (init_inv b n auto) h).1 t ht
  unfold backward
  split
  · left; rfl
  · next hc =>
    right
    rw [this.2.2 (by simpa using hc)]

/-- The token is alive and, if its context is still in use, was taken `k` solves ago. -/
def Alive (s : Solver α) (t : Token α) (k : Nat) : Prop :=
  t.obj < s.nobj ∧ s.objs t.obj = ⟨(s.objs t.obj).batch, t.factorId, some t.mat⟩ ∧
  (t.obj ∉ s.contexts ∨ ∃ j k', k' ≤ k ∧ k' < s.contexts.length ∧ s.contexts[j]? = some t.obj ∧
    s.last = (j + k') % s.contexts.length)

theorem reset_alive {s : Solver α} {t : Token α} {k : Nat} (h : Alive s t k) (b n : Option Nat) :
    Alive (reset s b n) t k := by
  refine ⟨lt_of_lt_of_le h.1 (reset_nobj s b n), ?_, ?_⟩
  · rw [reset_objs s b n h.1]; exact h.2.1
  · rcases reset_contexts s b n with e | e
    · rw [e]; exact h.2.2
    · left
      intro hc
      have := e _ hc
      have := h.1
      omega

theorem solve_alive {s : Solver α} (hi : Inv s) {t : Token α} {k : Nat} (h : Alive s t k)
    {b : Nat} {A : α} {s' : Solver α} {t' : Token α} (hs : solve s b A = some (s', t'))
    (hk : t.obj ∈ s.contexts → k + 1 < s.contexts.length) : Alive s' t (k + 1) := by
  obtain ⟨r, hr, hir, hne, h1, h2, h3, _, h4, h5, h6, h7, h8, h9⟩ := solve_spec hi hs
  have hcr : (t.obj ∈ r.contexts → k + 1 < r.contexts.length) := by
    rcases hr with rfl | rfl
    · exact hk
    · intro hc
      rcases reset_contexts s (some b) none with e | e
      · rw [e] at hc ⊢; exact hk hc
      · have := e _ hc
        have := h.1
        omega
  have har : Alive r t k := by
    rcases hr with rfl | rfl
    · exact h
    · exact reset_alive h _ _
  have hneq : t.obj ≠ t'.obj := by
    intro he
    rcases har.2.2 with hn | ⟨j, k', hk', hkl, hj, hl⟩
    · exact hn (by rw [he]; exact List.mem_of_getElem? h5)
    · have hlt := hcr (List.mem_of_getElem? hj)
      rw [← he] at h5
      have hjl : j < r.contexts.length := (List.getElem?_eq_some_iff.1 hj).1
      have hsl : s'.last < r.contexts.length := (List.getElem?_eq_some_iff.1 h5).1
      have hjj : j = s'.last := by
        apply (List.getElem?_inj hjl hir.nodup).1
        rw [hj, h5]
      have : s'.last = (j + (k' + 1)) % r.contexts.length := by
        rw [h4, hl, Nat.mod_add_mod]; rfl
      rw [hjj] at this
      have hmod : (s'.last + (k' + 1)) % r.contexts.length = s'.last % r.contexts.length := by
        rw [← this, Nat.mod_eq_of_lt hsl]
      have hd : r.contexts.length ∣ k' + 1 := by
        have := Nat.sub_mod_eq_zero_of_mod_eq hmod
        rw [Nat.add_sub_cancel_left] at this
        exact Nat.dvd_of_mod_eq_zero this
      have := Nat.le_of_dvd (by omega) hd
      omega
  refine ⟨by rw [h2]; exact har.1, ?_, ?_⟩
  · rw [h6 _ hneq]; exact har.2.1
  · rw [h1]
    rcases har.2.2 with hn | ⟨j, k', hk', hkl, hj, hl⟩
    · exact Or.inl hn
    · right
      have hlt := hcr (List.mem_of_getElem? hj)
      refine ⟨j, k' + 1, by omega, by omega, hj, ?_⟩
      rw [h4, hl, Nat.mod_add_mod]; rfl

theorem solve_fresh {s : Solver α} (hi : Inv s) {b : Nat} {A : α} {s' : Solver α} {t : Token α}
    (hs : solve s b A = some (s', t)) : Alive s' t 0 := by
  obtain ⟨r, hr, hir, hne, h1, h2, h3, _, h4, h5, h6, h7, h8, h9⟩ := solve_spec hi hs
  refine ⟨by rw [h2]; exact hir.bound _ (List.mem_of_getElem? h5), by rw [h7, h9], ?_⟩
  right
  have hpos := List.length_pos_of_ne_nil hne
  refine ⟨s'.last, 0, Nat.le_refl _, by rw [h1]; exact hpos, by rw [h1]; exact h5, ?_⟩
  rw [h1]
  have : s'.last < r.contexts.length := (List.getElem?_eq_some_iff.1 h5).1
  rw [Nat.add_zero, Nat.mod_eq_of_lt this]

/-- Number of solves in a history. -/
def solveCount : List (Ev α) → Nat
  | [] => 0
  | .reset _ _ :: t => solveCount t
  | .solve _ _ :: t => solveCount t + 1

theorem run_alive {evs : List (Ev α)} : ∀ {s s' : Solver α} {l : List (Token α)} {t : Token α} {k : Nat}, Inv s → Alive s t k →
    (t.obj ∈ s.contexts → k + solveCount evs < s.contexts.length) → run s evs = some (s', l) →
    Alive s' t (k + solveCount evs) := by
  induction evs with
  | nil =>
    intro s s' l t k hi h hk hr
    simp only [run, Option.some.injEq, Prod.mk.injEq] at hr
    rw [← hr.1]; exact h
  | cons e evs ih =>
    intro s s' l t k hi h hk hr
    simp only [run] at hr
    split at hr
    · simp at hr
    next s1 l1 h1 =>
    simp only [Option.map_eq_some_iff, Prod.mk.injEq, Prod.exists] at hr
    obtain ⟨s2, l2, h2, rfl, _⟩ := hr
    have hi1 := act_inv hi h1
    cases e with
    | reset b n =>
      simp only [act, Option.some.injEq, Prod.mk.injEq] at h1
      obtain ⟨rfl, rfl⟩ := h1
      apply ih hi1 (reset_alive h _ _) _ h2
      intro hc
      rcases reset_contexts s b n with e | e
      · rw [e] at hc ⊢; exact hk hc
      · have := e _ hc
        have := h.1
        omega
    | solve b A =>
      simp only [act, Option.map_eq_some_iff, Prod.mk.injEq, Prod.exists] at h1
      obtain ⟨s1, t1, h1, rfl, rfl⟩ := h1
      have hk' : t.obj ∈ s.contexts → k + 1 < s.contexts.length := by
        intro hc; have := hk hc; simp only [solveCount] at this; omega
      have hal := solve_alive hi h h1 hk'
      have := ih hi1 hal (by
        intro hc
        obtain ⟨r, hr, hir, hne, e1, e2, _⟩ := solve_spec hi h1
        rw [e1] at hc ⊢
        rcases hr with rfl | rfl
        · have := hk hc; simp only [solveCount] at this; omega
        · rcases reset_contexts s (some b) none with e | e
          · rw [e] at hc ⊢; have := hk hc; simp only [solveCount] at this; omega
          · have := e _ hc
            have := h.1
            omega) h2
      simp only [solveCount]
      rw [show k + (solveCount evs + 1) = k + 1 + solveCount evs by omega]
      exact this

/-- C38: if a solve with `N` contexts is followed by fewer than `N` solves (and any number of resets), its
backward pass does not raise and uses the factors of its own matrix. -/
theorem contexts_suffice (b n : Option Nat) (auto : Bool) (before after : List (Ev α)) (batch : Nat) (A : α)
    (s0 s1 s2 : Solver α) (t : Token α) (l0 l2 : List (Token α))
    (h0 : run (init b n auto) before = some (s0, l0)) (h1 : solve s0 batch A = some (s1, t))
    (h2 : run s1 after = some (s2, l2)) (hN : solveCount after < s1.contexts.length) :
    backward s2 t = .solvedWith (some A) := by
  have hi0 := run_inv (init_inv b n auto) h0
  have hi1 := solve_inv hi0 h1
  have hf := solve_fresh hi0 h1
  have ha := run_alive hi1 hf (by intro _; omega) h2
  have hmat : t.mat = A := (solve_spec hi0 h1).choose_spec.2.2.2.2.2.2.2.2.2.2.2.2
  unfold backward
  rw [ha.2.1]
  simp [hmat]

/-- C38: conversely, `N` further solves for the same batch size, without an effective reset, overwrite the
context: the backward pass raises. -/
theorem contexts_needed (b n : Option Nat) (auto : Bool) (before : List (Ev α)) (batch : Nat) (A : α)
    (s0 s1 s2 : Solver α) (t : Token α) (l0 l2 : List (Token α)) (more : List α)
    (h0 : run (init b n auto) before = some (s0, l0)) (h1 : solve s0 batch A = some (s1, t))
    (hb : ∀ o ∈ s1.contexts, (s1.objs o).batch = batch)
    (h2 : run s1 (more.map (Ev.solve batch)) = some (s2, l2)) (hN : s1.contexts.length ≤ more.length) :
    backward s2 t = .overwritten := by
  have hi0 := run_inv (init_inv b n auto) h0
  have hi1 := solve_inv hi0 h1
  have hso := (solve_sound hi0 h1).1
  have hf := solve_fresh hi0 h1
  -- after `m` more solves the context at index `(j + m) % N` has been used
  have key : ∀ (more : List α) (s s2 : Solver α) (l : List (Token α)) (k : Nat), Inv s → Sound s t →
      (∀ o ∈ s.contexts, (s.objs o).batch = batch) → (∃ j, s.contexts[j]? = some t.obj ∧ s.last = (j + k) % s.contexts.length) →
      run s (more.map (Ev.solve batch)) = some (s2, l) → k < s.contexts.length → s.contexts.length ≤ k + more.length →
      t.factorId < (s2.objs t.obj).factorId := by
    intro more
    induction more with
    | nil => intro s s2 l k _ _ _ _ _ hk hlen; simp at hlen; omega
    | cons M more ih =>
      intro s s2 l k hi hs hb hj hr hk hlen
      obtain ⟨j, hj, hl⟩ := hj
      simp only [List.map_cons, run, act] at hr
      split at hr
      · simp at hr
      next s' l' h' =>
      simp only [Option.map_eq_some_iff, Prod.mk.injEq, Prod.exists] at h' hr
      obtain ⟨s', t', h', rfl, rfl⟩ := h'
      obtain ⟨s3, l3, h3, rfl, _⟩ := hr
      have hrs : ∃ r : Solver α, r = s ∧ s'.contexts = r.contexts ∧
          s'.last = (r.last + 1) % r.contexts.length ∧ r.contexts[s'.last]? = some t'.obj ∧
          (∀ o, o ≠ t'.obj → s'.objs o = r.objs o) ∧ s'.objs t'.obj = ⟨batch, t'.factorId, some M⟩ ∧
          t'.factorId = (r.objs t'.obj).factorId + 1 := by
        refine ⟨s, rfl, ?_⟩
        unfold solve at h'
        split at h'
        · simp at h'
        next c cl hc =>
        have hcb : (s.objs c).batch = batch := hb c (by rw [hc]; simp)
        simp only [hcb, ne_eq, not_true_eq_false, decide_false, Bool.and_false, Bool.false_eq_true, if_false] at h'
        split at h'
        · simp at h'
        next o ho =>
        split at h'
        · simp at h'
        · simp only [Option.some.injEq, Prod.mk.injEq] at h'
          obtain ⟨rfl, rfl⟩ := h'
          refine ⟨rfl, ?_, ho, ?_, ?_, rfl⟩
          · simp only [hi.len, Option.getD_some]
          · intro o' ho'; simp [ho']
          · simp
      obtain ⟨r, rfl, e1, e2, e3, e4, e5, e6⟩ := hrs
      have hi' := solve_inv hi h'
      have hs' := (solve_sound hi h').2 t hs
      have hlast : s'.last = (j + (k + 1)) % r.contexts.length := by
        rw [e2, hl, Nat.mod_add_mod]; rfl
      by_cases hkk : k + 1 < r.contexts.length
      · apply ih s' s3 l3 (k + 1) hi' hs' _ ⟨j, by rw [e1]; exact hj, by rw [e1]; exact hlast⟩ h3 (by rw [e1]; exact hkk)
          (by rw [e1]; simp at hlen; omega)
        intro o ho
        rw [e1] at ho
        by_cases hoo : o = t'.obj
        · rw [hoo, e5]
        · rw [e4 o hoo]; exact hb o ho
      · -- this solve reuses the context
        have hN : k + 1 = r.contexts.length := by omega
        have hjl : j < r.contexts.length := (List.getElem?_eq_some_iff.1 hj).1
        have : s'.last = j := by rw [hlast, hN, Nat.add_mod_right, Nat.mod_eq_of_lt hjl]
        rw [this, hj] at e3
        simp only [Option.some.injEq] at e3
        have hlt : t.factorId < (s'.objs t.obj).factorId := by
          rw [e3, e5, e6, ← e3]
          have := hs.2.1
          simp only
          omega
        -- counters never decrease
        have mono : ∀ (evs : List (Ev α)) (u u' : Solver α) (l : List (Token α)), Inv u → t.obj < u.nobj →
            run u evs = some (u', l) → (u.objs t.obj).factorId ≤ (u'.objs t.obj).factorId := by
          intro evs
          induction evs with
          | nil =>
            intro u u' l _ _ hr
            simp only [run, Option.some.injEq, Prod.mk.injEq] at hr
            rw [hr.1]
          | cons e evs ih =>
            intro u u' l hi hn hr
            simp only [run] at hr
            split at hr
            · simp at hr
            next u1 l1 h1 =>
            simp only [Option.map_eq_some_iff, Prod.mk.injEq, Prod.exists] at hr
            obtain ⟨u2, l2, h2, rfl, _⟩ := hr
            have hi1 := act_inv hi h1
            cases e with
            | reset b n =>
              simp only [act, Option.some.injEq, Prod.mk.injEq] at h1
              obtain ⟨rfl, rfl⟩ := h1
              have := ih _ _ _ hi1 (lt_of_lt_of_le hn (reset_nobj _ _ _)) h2
              rw [reset_objs _ _ _ hn] at this
              exact this
            | solve b A =>
              simp only [act, Option.map_eq_some_iff, Prod.mk.injEq, Prod.exists] at h1
              obtain ⟨u1, t1, h1, rfl, rfl⟩ := h1
              obtain ⟨r, hr, hir, hne, f1, f2, f3, _, f4, f5, f6, f7, f8, f9⟩ := solve_spec hi h1
              have hrn : t.obj < r.nobj ∧ r.objs t.obj = u.objs t.obj := by
                rcases hr with rfl | rfl
                · exact ⟨hn, rfl⟩
                · exact ⟨lt_of_lt_of_le hn (reset_nobj _ _ _), reset_objs _ _ _ hn⟩
              have h3 := ih _ _ _ hi1 (by rw [f2]; exact hrn.1) h2
              refine le_trans ?_ h3
              rw [← hrn.2]
              by_cases ho : t.obj = t1.obj
              · rw [ho, f7]; simp only; omega
              · rw [f6 _ ho]
        exact lt_of_lt_of_le hlt (mono _ _ _ _ hi' hs'.1 h3)
  have hpos : 0 < s1.contexts.length := by
    obtain ⟨r, _, _, hne, e1, _⟩ := solve_spec hi0 h1
    rw [e1]; exact List.length_pos_of_ne_nil hne
  have hj : ∃ j, s1.contexts[j]? = some t.obj ∧ s1.last = (j + 0) % s1.contexts.length := by
    obtain ⟨r, _, _, hne, e1, _, _, _, e4, e5, _⟩ := solve_spec hi0 h1
    refine ⟨s1.last, by rw [e1]; exact e5, ?_⟩
    rw [e1, Nat.add_zero, Nat.mod_eq_of_lt (List.getElem?_eq_some_iff.1 e5).1]
  have := key more s1 s2 l2 0 hi1 hso hb hj h2 hpos (by omega)
  unfold backward
  rw [if_pos (by omega)]

theorem solve_length {s : Solver α} (hi : Inv s) {b : Nat} {A : α} {s' : Solver α} {t : Token α}
    (hs : solve s b A = some (s', t)) : s'.contexts.length = s.contexts.length := by
  obtain ⟨r, hr, _, _, e1, _⟩ := solve_spec hi hs
  rw [e1]
  rcases hr with rfl | rfl
  · rfl
  · unfold reset
    simp only
    split
    · rfl
    · simp [fill, hi.len]

/-- C38: with `N` contexts, after at most `N` consecutive solves the backward passes of all of them work. -/
theorem consecutive_solves (batch : Nat) : ∀ (mats : List α) (s s2 : Solver α) (l : List (Token α)), Inv s →
    mats.length ≤ s.contexts.length → run s (mats.map (Ev.solve batch)) = some (s2, l) →
    ∀ t ∈ l, backward s2 t = .solvedWith (some t.mat) := by
  intro mats
  induction mats with
  | nil =>
    intro s s2 l _ _ hr
    simp only [List.map_nil, run, Option.some.injEq, Prod.mk.injEq] at hr
    rw [← hr.2]; simp
  | cons M mats ih =>
    intro s s2 l hi hlen hr t ht
    simp only [List.map_cons, run, act] at hr
    split at hr
    · simp at hr
    next s' l' h' =>
    simp only [Option.map_eq_some_iff, Prod.mk.injEq, Prod.exists] at h' hr
    obtain ⟨s', t', h', rfl, rfl⟩ := h'
    obtain ⟨s3, l3, h3, rfl, rfl⟩ := hr
    have hi' := solve_inv hi h'
    have hl := solve_length hi h'
    simp only [List.length_cons] at hlen
    rcases List.mem_append.1 ht with ht | ht
    · simp only [List.mem_singleton] at ht
      subst ht
      have hc : ∀ mats : List α, solveCount (mats.map (Ev.solve batch)) = mats.length := by
        intro m
        induction m with
        | nil => rfl
        | cons a m ih => simp [solveCount, ih]
      have ha := run_alive hi' (solve_fresh hi h') (by intro _; rw [hc]; omega) h3
      unfold backward
      rw [ha.2.1]
      simp
    · exact ih s' s3 l3 hi' (by omega) h3 t ht

/-- C38: in `optimize()` the number of contexts set up by `reset` is enough for the loop that carries
gradients, whatever steps are rejected: after it the backward passes of all its linear solves work.  (In
mode `IMPLICIT` the loop makes a single pass, with at most two solves, and three contexts are set up.) -/
theorem optimize_contexts_suffice {K : Type} [Field K] [LinearOrder K] {m : Nat} {X D M : Type}
    (P : Nlopt.Params K) (A : Nlopt.Method K m X D M) (o : Nlopt.Opts) (num : Int) (x : Nlopt.B m X) (mem : M)
    (e : Nlopt.LS K m X M)
    (he : Nlopt.optimizeLoop P A o num x mem (Nlopt.initInfo A x) = .finished e ∨
      Nlopt.optimizeLoop P A o num x mem (Nlopt.initInfo A x) = .failed e)
    (s s2 : Solver α) (hi : Inv s) (hs : s.contexts.length = autoContexts num.toNat)
    (batch : Nat) (mats : List α) (hm : mats.length = e.solves) (l : List (Token α))
    (hr : run s (mats.map (Ev.solve batch)) = some (s2, l)) :
    ∀ t ∈ l, backward s2 t = .solvedWith (some t.mat) := by
  have hl := Nlopt.loop_spec (P := P) (A := A) (o := o) (num := num.toNat) (3 * num.toNat) _ _
    (Nlopt.inv_start P A o x mem) (Nat.zero_le _) (Or.inr rfl) (by simp [Nlopt.startLS])
  have hle : e.solves ≤ 3 * num.toNat := by
    unfold Nlopt.optimizeLoop at he
    rcases he with he | he <;> rw [he] at hl
    · obtain ⟨_, _, _, _, _, _, _, _, _, _, h, _⟩ := hl; exact h
    · obtain ⟨_, _, _, _, _, _, _, _, _, _, h, _⟩ := hl; exact h
  apply consecutive_solves batch mats s s2 l hi _ hr
  rw [hs, hm]; unfold autoContexts; omega

/-- `reset(num_solver_contexts=n)`, as called at the start of `optimize()`, leaves `n` contexts. -/
theorem reset_gives (s : Solver α) (hi : Inv s) (n : Nat) : (reset s none (some n)).contexts.length = n := by
  unfold reset
  simp only
  split
  · next h =>
    rw [Prod.ext_iff] at h
    have := h.2
    rw [hi.len] at this
    simp [fill] at this
    exact this.symm
  · simp [fill]

/-- C38 fails at the boundary: for a budget of zero iterations with gradients (`backward_num_iterations=0`)
`optimize()` sets up no context at all, and then even the solves of the loop without gradients raise. -/
theorem zero_backward_iterations_break (s : Solver α) (hi : Inv s) (batch : Nat) (A : α) :
    solve (reset s none (some (autoContexts 0))) batch A = none := by
  have h : (reset s none (some 0)).contexts = [] := List.eq_nil_of_length_eq_zero (reset_gives s hi 0)
  unfold solve
  rw [show autoContexts 0 = 0 from rfl, h]

/-- Non-vacuity: two contexts; three solves overwrite the first context but not the second. -/
example : (match run (init (some 4) (some 2) true : Solver Nat) [.solve 4 10, .solve 4 11, .solve 4 12] with
    | some (s, l) => l.map fun t => match backward s t with | .solvedWith A => A | .overwritten => none
    | none => []) = [none, some 11, some 12] := by decide +kernel

/-- Non-vacuity: a change of the batch size resets the contexts, and old tokens stay valid. -/
example : (match run (init none (some 1) true : Solver Nat) [.solve 4 10, .solve 5 11, .solve 5 12] with
    | some (s, l) => l.map fun t => match backward s t with | .solvedWith A => A | .overwritten => none
    | none => []) = [some 10, none, some 12] := by decide +kernel

end Verif.Lu
