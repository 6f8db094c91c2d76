import Verif.Nlopt.Spec
import Mathlib.Tactic.Linarith
/-!
# Lemmas about the optimization loop
-/
namespace Verif.Nlopt
set_option linter.unusedSectionVars false
variable {K : Type} [Field K] [LinearOrder K] {n : Nat} {X D M : Type}

/-- Sequence extended at `u + 1`. -/
def ext (Y : Nat → B n X) (u : Nat) (y : B n X) : Nat → B n X := fun k => if k ≤ u then Y k else y

theorem ext_le (Y : Nat → B n X) (u : Nat) (y : B n X) {k : Nat} (h : k ≤ u) : ext Y u y k = Y k := by
  simp [ext, h]

theorem ext_succ (Y : Nat → B n X) (u : Nat) (y : B n X) : ext Y u y (u + 1) = y := by
  simp [ext]

theorem fired_ext (P : Params K) (A : Method K n X D M) (Y : Nat → B n X) (u : Nat) (y : B n X) {k : Nat}
    (h : k < u) (i : Fin n) : fired P A (ext Y u y) k i = fired P A Y k i := by
  unfold fired
  rw [ext_le Y u y (by omega : k + 1 ≤ u), ext_le Y u y (by omega : k ≤ u)]

theorem firedBefore_ext (P : Params K) (A : Method K n X D M) (Y : Nat → B n X) (u : Nat) (y : B n X) {k : Nat}
    (h : k ≤ u) (i : Fin n) : firedBefore P A (ext Y u y) k i = firedBefore P A Y k i := by
  cases k with
  | zero => rfl
  | succ k => exact fired_ext P A Y u y (by omega) i

theorem lt_nan_right (a : Fl K) : a.lt .nan = false := by cases a <;> rfl

theorem Fl.lt_irrefl (a : Fl K) : a.lt a = false := by
  cases a <;> simp [Fl.lt]

theorem Fl.lt_trans {a b c : Fl K} (h1 : a.lt b = true) (h2 : b.lt c = true) : a.lt c = true := by
  cases a <;> cases b <;> cases c <;> simp_all [Fl.lt]
  exact _root_.lt_trans h1 h2

theorem Fl.lt_of_not_lt {a b c : Fl K} (hb : b ≠ .nan) (h1 : a.lt b = true) (h2 : c.lt b = false) (hc : c ≠ .nan) :
    a.lt c = true := by
  cases a <;> cases b <;> cases c <;> simp_all [Fl.lt]
  exact lt_of_lt_of_le h1 h2

theorem Fl.not_lt_trans {a b c : Fl K} (hb : b ≠ .nan) (h1 : a.lt b = false) (h2 : b.lt c = false) :
    a.lt c = false := by
  cases a <;> cases b <;> cases c <;> simp_all [Fl.lt]
  exact le_trans h2 h1

theorem Fl.not_lt_of_lt {a b : Fl K} (h : a.lt b = true) : b.lt a = false := by
  cases a <;> cases b <;> simp_all [Fl.lt]
  exact le_of_lt h

theorem Fl.minimum_eq {a b : Fl K} (ha : a ≠ .nan) (hb : b ≠ .nan) : Fl.minimum a b = if b.lt a then b else a := by
  cases a <;> cases b <;> simp_all [Fl.minimum]

/-- Recording one more iteration. -/
theorem record_update {P : Params K} {A : Method K n X D M} {Y : Nat → B n X} {u : Nat} {info : Info K n X}
    (h : Record P A Y u info) (hlast : info.lastErr = errs A (Y u)) (y : B n X)
    (conv : B n Bool) (hconv : ∀ i, conv i = firedBefore P A Y u i) :
    Record P A (ext Y u y) (u + 1) (updateInfo P info y u (errs A y) conv) := by
  refine ⟨?_, ?_, ?_, ?_, ?_⟩
  · intro k hk
    by_cases e : k = u + 1
    · subst e; simp [updateInfo, ext_succ]
    · have hk' : k ≤ u := by omega
      simp only [updateInfo, if_neg e, ext_le Y u y hk']
      exact h.hist k hk'
  · intro k hk
    simp only [updateInfo, if_neg (show k ≠ u + 1 by omega)]
    exact h.rest k (by omega)
  · intro i
    have hf : fired P A (ext Y u y) u i = checkConv P (errs A y) (errs A (Y u)) i := by
      unfold fired; rw [ext_succ, ext_le Y u y (Nat.le_refl _)]
    simp only [updateInfo, hlast, ← hf, h.status]
    by_cases h1 : fired P A (ext Y u y) u i = true
    · rw [if_pos h1, if_pos ⟨u, by omega, h1⟩]
    · rw [if_neg h1]
      congr 1
      apply propext
      constructor
      · rintro ⟨k, hk, hh⟩; exact ⟨k, by omega, by rw [fired_ext P A Y u y hk]; exact hh⟩
      · rintro ⟨k, hk, hh⟩
        rcases Nat.lt_succ_iff_lt_or_eq.1 hk with hk | rfl
        · exact ⟨k, hk, by rw [fired_ext P A Y u y hk] at hh; exact hh⟩
        · exact absurd hh h1
  · intro i
    simp only [updateInfo, h.convIter, hconv]
    rw [List.range_succ, List.filter_append, List.length_append]
    have e1 : (List.range u).filter (fun k => !firedBefore P A (ext Y u y) k i) =
        (List.range u).filter (fun k => !firedBefore P A Y k i) := by
      apply List.filter_congr
      intro k hk
      rw [firedBefore_ext P A Y u y (Nat.le_of_lt (List.mem_range.1 hk))]
    rw [e1]
    have e2 := firedBefore_ext P A Y u y (Nat.le_refl u) i
    cases hb : firedBefore P A Y u i <;> simp [e2, hb]
  · intro hnn i
    obtain ⟨k, hk, b1, b2, b3, b4, b5⟩ := h.best hnn i
    by_cases hlt : (A.metric (y i)).lt (info.bestErr i) = true
    · refine ⟨u + 1, Nat.le_refl _, ?_, ?_, ?_, ?_, ?_⟩
      · simp only [updateInfo, ext_succ, errs]
        rw [Fl.minimum_eq (by rw [b1]; exact hnn _) (hnn _), if_pos hlt]
      · simp [updateInfo, ext_succ, errs, hlt]
      · simp [updateInfo, errs, hlt]
      · intro j hj
        rw [ext_succ]
        by_cases e : j = u + 1
        · subst e; rw [ext_succ]; exact Fl.lt_irrefl _
        · rw [ext_le Y u y (by omega)]
          have := b4 j (by omega)
          rw [b1] at hlt
          exact Fl.not_lt_trans (hnn _) this (Fl.not_lt_of_lt hlt)
      · intro j hj
        rw [ext_succ, ext_le Y u y (by omega)]
        rw [b1] at hlt
        exact Fl.lt_of_not_lt (hnn _) hlt (b4 j (by omega)) (hnn _)
    · refine ⟨k, by omega, ?_, ?_, ?_, ?_, ?_⟩
      · simp only [updateInfo, errs, ext_le Y u y hk]
        rw [Fl.minimum_eq (by rw [b1]; exact hnn _) (hnn _), if_neg hlt, b1]
      · simp [updateInfo, errs, hlt, ext_le Y u y hk, b2]
      · simp [updateInfo, errs, hlt, b3]
      · intro j hj
        rw [ext_le Y u y hk]
        by_cases e : j = u + 1
        · subst e; rw [ext_succ, ← b1]; simpa using hlt
        · rw [ext_le Y u y (by omega)]; exact b4 j (by omega)
      · intro j hj
        rw [ext_le Y u y hk, ext_le Y u y (by omega)]
        exact b5 j hj

/-- Invariant of the loop at the head of the `while`. -/
structure Inv (P : Params K) (A : Method K n X D M) (o : Opts) (s : LS K n X M) (Y : Nat → B n X) : Prop where
  record : Record P A Y s.it s.info
  moves : Moves P A o Y s.it
  cur : Y s.it = s.x
  last : s.info.lastErr = errs A s.x
  conv : ∀ i, s.conv i = firedBefore P A Y s.it i
  go : ∀ k < s.it, ∃ i, fired P A Y k i = false
  upd : s.updates = s.it
  done : s.done = s.it
  att : s.attempts < 3
  solves : s.solves ≤ 3 * s.it + s.attempts

theorem inv_start (P : Params K) (A : Method K n X D M) (o : Opts) (x : B n X) (mem : M) :
    Inv P A o (startLS x mem (initInfo A x)) (fun _ => x) := by
  refine ⟨⟨?_, ?_, ?_, ?_, ?_⟩, ⟨?_, ?_, ?_⟩, rfl, rfl, fun _ => rfl, ?_, rfl, rfl, by simp [startLS], by simp [startLS]⟩
  · intro k hk
    simp only [startLS, Nat.le_zero] at hk
    subst hk; simp [startLS, initInfo]; rfl
  · intro k hk
    simp only [startLS] at hk
    simp [startLS, initInfo]; omega
  · intro i; simp [startLS, initInfo]
  · intro i; simp [startLS, initInfo]
  · intro hnn i
    refine ⟨0, by simp, rfl, rfl, rfl, ?_, ?_⟩
    · intro j _; exact Fl.lt_irrefl _
    · intro j hj; omega
  · intro k hk; simp [startLS] at hk
  · intro _ k hk; simp [startLS] at hk
  · intro k hk; simp [startLS] at hk
  · intro k hk; simp [startLS] at hk

/-- What `_step` returns. -/
theorem step_spec (A : Method K n X D M) (o : Opts) (s : LS K n X M) (d : B n D)
    (hlast : s.info.lastErr = errs A s.x) :
    (step A o s d).2.2.1 = errs A (step A o s d).1 ∧
    (∀ i, (step A o s d).1 i = s.x i ∨ (step A o s d).1 i = A.retract (s.x i) (d i)) ∧
    (o.implicit = false → ∀ i, s.conv i = true → (step A o s d).1 i = s.x i) ∧
    ((step A o s d).2.2.2 = true → (step A o s d).1 = s.x) := by
  unfold step
  simp only
  generalize (if o.implicit = true then (s.mem, none)
    else A.complete s.mem s.x d (fun i => A.metric (retracted A o.implicit s.x d s.conv i)) s.info.lastErr) = cr
  have hr : ∀ i, retracted A o.implicit s.x d s.conv i = s.x i ∨
      retracted A o.implicit s.x d s.conv i = A.retract (s.x i) (d i) := by
    intro i; unfold retracted; split <;> simp
  have hf : o.implicit = false → ∀ i, s.conv i = true → retracted A o.implicit s.x d s.conv i = s.x i := by
    intro h i hi; simp [retracted, h, hi]
  cases cr.2 with
  | none => exact ⟨rfl, hr, hf, fun h => by simp at h⟩
  | some rej =>
    by_cases ha : all rej = true
    · simp only [ha, if_true]
      exact ⟨hlast, fun i => Or.inl trivial, fun _ _ _ => trivial, fun _ => trivial⟩
    · simp only [ha, Bool.false_eq_true, if_false]
      refine ⟨?_, ?_, ?_, fun h => by simp at h⟩
      · split
        · rfl
        · next hany =>
          funext i
          have : rej i = false := by
            cases hri : rej i with
            | false => rfl
            | true => exact absurd (by simp [any]; exact ⟨i, hri⟩) hany
          simp [errs, this]
      · intro i; split
        · left; rfl
        · exact hr i
      · intro h i hi; split
        · rfl
        · exact hf h i hi

/-- End of a pass. -/
theorem finish_spec {P : Params K} {A : Method K n X D M} {o : Opts} {s : LS K n X M} {Y : Nat → B n X}
    (h : Inv P A o s Y) (y : B n X) (mem : M)
    (hy : ∀ i, y i = s.x i ∨ ∃ m d, computeDelta A o m s.x = some d ∧ y i = A.retract (s.x i) (A.scale (stepOf P o) (d i)))
    (hf : o.implicit = false → ∀ i, s.conv i = true → y i = s.x i) :
    match finish P s y mem (errs A y) with
    | .cont t => Inv P A o t (ext Y s.it y) ∧ t.it = s.it + 1 ∧ t.attempts = 0
    | .brk t => Record P A (ext Y s.it y) (s.it + 1) t.info ∧ Moves P A o (ext Y s.it y) (s.it + 1) ∧ t.x = y ∧
        t.updates = s.it + 1 ∧ t.done = s.it ∧ t.solves ≤ 3 * (s.it + 1) ∧
        (∀ i, fired P A (ext Y s.it y) s.it i = true)
    | _ => False := by
  have hrec := record_update (P := P) (A := A) h.record (by rw [h.last, h.cur]) y s.conv h.conv
  have hmv : Moves P A o (ext Y s.it y) (s.it + 1) := by
    refine ⟨?_, ?_, ?_⟩
    · intro k hk i
      rcases Nat.lt_succ_iff_lt_or_eq.1 hk with hk | rfl
      · rw [ext_le Y s.it y (by omega : k + 1 ≤ s.it), ext_le Y s.it y (by omega : k ≤ s.it)]
        exact h.moves.step k hk i
      · rw [ext_succ, ext_le Y s.it y (Nat.le_refl _), h.cur]
        exact hy i
    · intro hi k hk i
      rcases Nat.lt_succ_iff_lt_or_eq.1 hk with hk | rfl
      · rw [ext_le Y s.it y (by omega : k + 1 ≤ s.it), ext_le Y s.it y (by omega : k ≤ s.it),
          firedBefore_ext P A Y s.it y (by omega)]
        exact h.moves.frozen hi k hk i
      · rw [ext_succ, ext_le Y s.it y (Nat.le_refl _), h.cur, firedBefore_ext P A Y s.it y (Nat.le_refl _), ← h.conv]
        exact hf hi i
    · intro k hk
      obtain ⟨i, hi⟩ := h.go k (by omega)
      exact ⟨i, by rw [fired_ext P A Y s.it y (by omega)]; exact hi⟩
  have hfc : ∀ i, fired P A (ext Y s.it y) s.it i = checkConv P (errs A y) s.info.lastErr i := by
    intro i; unfold fired; rw [ext_succ, ext_le Y s.it y (Nat.le_refl _), h.cur, h.last]
  -- the second assignment of the status changes nothing
  have hst : ({ updateInfo P s.info y s.it (errs A y) s.conv with
      status := fun i => if checkConv P (errs A y) s.info.lastErr i then .converged else
        (updateInfo P s.info y s.it (errs A y) s.conv).status i } : Info K n X) =
      updateInfo P s.info y s.it (errs A y) s.conv := by
    simp only [updateInfo]
    congr 1
    funext i
    split <;> rfl
  unfold finish
  simp only [hst]
  have := h.solves
  have := h.att
  by_cases ha : all (checkConv P (errs A y) s.info.lastErr) = true
  · rw [if_pos ha]
    refine ⟨hrec, hmv, rfl, by simp [h.upd], h.done, by simp only; omega, ?_⟩
    intro i
    rw [hfc]
    simp only [all, decide_eq_true_eq] at ha
    exact ha i
  · rw [if_neg ha]
    refine ⟨⟨⟨hrec.hist, hrec.rest, fun i => (by
      rw [← hrec.status i]; simp only [updateInfo]; split <;> rfl), hrec.convIter, hrec.best⟩, hmv, ext_succ _ _ _, rfl, ?_, ?_, by simp [h.upd], by simp [h.done], by simp, by simp; omega⟩, rfl, rfl⟩
    · intro i
      simp only [firedBefore]
      rw [hfc]
    · intro k hk
      rcases Nat.lt_succ_iff_lt_or_eq.1 hk with hk | rfl
      · obtain ⟨i, hi⟩ := h.go k hk
        exact ⟨i, by rw [fired_ext P A Y s.it y hk]; exact hi⟩
      · simp only [all, decide_eq_true_eq, not_forall] at ha
        obtain ⟨i, hi⟩ := ha
        exact ⟨i, by rw [hfc]; simpa using hi⟩

/-- One pass. -/
theorem pass_spec {P : Params K} {A : Method K n X D M} {o : Opts} {s : LS K n X M} {Y : Nat → B n X}
    (h : Inv P A o s Y) :
    match pass P A o s with
    | .cont t => (∃ Y', Inv P A o t Y' ∧ Y' 0 = Y 0) ∧ ((t.it = s.it + 1 ∧ t.attempts = 0) ∨ (t.it = s.it ∧ t.attempts = s.attempts + 1))
    | .brk t => ∃ Y', Record P A Y' (s.it + 1) t.info ∧ Moves P A o Y' (s.it + 1) ∧ t.x = Y' (s.it + 1) ∧ Y' 0 = Y 0 ∧
        t.updates = s.it + 1 ∧ t.done = s.it ∧ t.solves ≤ 3 * (s.it + 1) ∧ (∀ i, fired P A Y' s.it i = true)
    | .failed t => t.x = s.x ∧ t.info = { s.info with status := fun _ => .fail } ∧ t.updates = s.it ∧ t.done = s.it ∧
        t.solves ≤ 3 * (s.it + 1) ∧ (∀ m, computeDelta A o s.mem s.x ≠ some m) ∧ o.grad = false
    | .raised => o.grad = true := by
  unfold pass
  cases hd : computeDelta A o s.mem s.x with
  | none =>
    simp only
    by_cases hg : o.grad = true
    · simp [hg]
    · have := h.solves; have := h.att
      simp only [hg]
      exact ⟨rfl, rfl, h.upd, h.done, by simp; omega, by simp, by simp⟩
  | some d =>
    simp only
    have hs := step_spec A o s (fun i => A.scale (stepOf P o) (d i)) h.last
    rcases hst : step A o s (fun i => A.scale (stepOf P o) (d i)) with ⟨y, mem, err, b⟩
    rw [hst] at hs
    simp only at hs
    obtain ⟨h1, h2, h3, h4⟩ := hs
    subst h1
    have hy : ∀ i, y i = s.x i ∨ ∃ m d, computeDelta A o m s.x = some d ∧ y i = A.retract (s.x i) (A.scale (stepOf P o) (d i)) := by
      intro i
      rcases h2 i with e | e
      · exact Or.inl e
      · exact Or.inr ⟨s.mem, d, hd, e⟩
    have hfin := finish_spec h y mem hy h3
    have conclude : (match finish P s y mem (errs A y) with
        | .cont t => (∃ Y', Inv P A o t Y' ∧ Y' 0 = Y 0) ∧ ((t.it = s.it + 1 ∧ t.attempts = 0) ∨ (t.it = s.it ∧ t.attempts = s.attempts + 1))
        | .brk t => ∃ Y', Record P A Y' (s.it + 1) t.info ∧ Moves P A o Y' (s.it + 1) ∧ t.x = Y' (s.it + 1) ∧ Y' 0 = Y 0 ∧
            t.updates = s.it + 1 ∧ t.done = s.it ∧ t.solves ≤ 3 * (s.it + 1) ∧ (∀ i, fired P A Y' s.it i = true)
        | .failed t => t.x = s.x ∧ t.info = { s.info with status := fun _ => .fail } ∧ t.updates = s.it ∧ t.done = s.it ∧
            t.solves ≤ 3 * (s.it + 1) ∧ (∀ m, computeDelta A o s.mem s.x ≠ some m) ∧ o.grad = false
        | .raised => o.grad = true) := by
      cases hf : finish P s y mem (errs A y) with
      | cont t => rw [hf] at hfin; exact ⟨⟨_, hfin.1, ext_le _ _ _ (Nat.zero_le _)⟩, Or.inl hfin.2⟩
      | brk t =>
        rw [hf] at hfin
        obtain ⟨a, b, c, d, e, f, g⟩ := hfin
        exact ⟨_, a, b, by rw [ext_succ]; exact c, ext_le _ _ _ (Nat.zero_le _), d, e, f, g⟩
      | failed t => rw [hf] at hfin; exact hfin.elim
      | raised => rw [hf] at hfin; exact hfin.elim
    cases b with
    | true =>
      simp only
      by_cases hlt : s.attempts + 1 < 3
      · rw [if_pos hlt]
        have := h.solves
        exact ⟨⟨Y, ⟨h.record, h.moves, h.cur, h.last, h.conv, h.go, h.upd, h.done, hlt, by simp; omega⟩, rfl⟩, Or.inr ⟨rfl, rfl⟩⟩
      · rw [if_neg hlt]
        simpa only [hd] using conclude
    | false => simpa only [hd] using conclude

/-- How the loop ends, in terms of the sequence of values of the variables. -/
theorem loop_spec {P : Params K} {A : Method K n X D M} {o : Opts} {num : Nat} :
    ∀ (fuel : Nat) (s : LS K n X M) (Y : Nat → B n X), Inv P A o s Y → s.it ≤ num →
    (s.it < num ∨ s.attempts = 0) → 3 * (num - s.it) ≤ fuel + s.attempts →
    match loop P A o num fuel s with
    | .finished t => ∃ Y' u info, Record P A Y' u info ∧ Moves P A o Y' u ∧ t.x = Y' u ∧ Y' 0 = Y 0 ∧
        t.info = { info with status := fun i => if info.status i = .start then .maxIterations else info.status i } ∧
        t.updates = u ∧ u ≤ num ∧ t.solves ≤ 3 * num ∧
        ((u = num ∧ t.done = u) ∨ (0 < u ∧ t.done + 1 = u ∧ ∀ i, fired P A Y' (u - 1) i = true))
    | .failed t => ∃ Y' u info, Record P A Y' u info ∧ Moves P A o Y' u ∧ t.x = Y' u ∧ Y' 0 = Y 0 ∧
        t.info = { info with status := fun _ => .fail } ∧ t.updates = u ∧ u < num ∧ t.solves ≤ 3 * num ∧
        t.done = u ∧ o.grad = false
    | .raised => o.grad = true
    | .outOfFuel => False := by
  intro fuel
  induction fuel with
  | zero =>
    intro s Y h hle hz hfuel
    have := h.att
    have hn : num ≤ s.it := by omega
    unfold loop
    rw [if_pos hn]
    have hs := h.solves
    refine ⟨Y, s.it, s.info, h.record, h.moves, h.cur.symm, rfl, rfl, h.upd, hle, ?_, Or.inl ⟨by omega, h.done⟩⟩
    simp only [markMax]
    have : s.it = num := by omega
    omega
  | succ f ih =>
    intro s Y h hle hz hfuel
    unfold loop
    have hs := h.solves
    have hatt := h.att
    by_cases hn : num ≤ s.it
    · rw [if_pos hn]
      refine ⟨Y, s.it, s.info, h.record, h.moves, h.cur.symm, rfl, rfl, h.upd, hle, ?_, Or.inl ⟨by omega, h.done⟩⟩
      simp only [markMax]; omega
    · rw [if_neg hn]
      have hp := pass_spec h
      simp only
      cases hc : pass P A o s with
      | cont t =>
        rw [hc] at hp
        obtain ⟨⟨Y', hi, h0⟩, hcase⟩ := hp
        simp only
        have := ih t Y' hi (by omega) (by omega) (by omega)
        rw [h0] at this
        exact this
      | brk t =>
        rw [hc] at hp
        obtain ⟨Y', a, b, c, d, e, f, g, k⟩ := hp
        simp only
        refine ⟨Y', s.it + 1, t.info, a, b, c, d, rfl, e, by omega, by simp only [markMax]; omega, Or.inr ⟨by omega, by simp only [markMax]; omega, k⟩⟩
      | failed t =>
        rw [hc] at hp
        obtain ⟨a, b, c, d, e, f, g⟩ := hp
        simp only
        exact ⟨Y, s.it, s.info, h.record, h.moves, by rw [a, h.cur], rfl, b, c, by omega, by omega, d, g⟩
      | raised => rw [hc] at hp; exact hp

end Verif.Nlopt
