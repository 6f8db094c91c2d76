import Verif.Util.Timer
import Mathlib.Tactic.Ring
import Mathlib.Tactic.Linarith
import Mathlib.Tactic.Positivity
import Mathlib.Algebra.Order.Field.Basic

/-!
# `Timer`, `gather_from_rows_cols` and `build_mlp`: properties (C96)
-/

set_option linter.unusedSimpArgs false

namespace Verif.Util
open Timer

/-! ### Specification -/

/-- One timed section of a program: `start`/`end` around it, `with timer(caller, deactivate):`, or
`with timer:`; `t0` and `t1` are the readings of the clock. -/
inductive Section where
  | startEnd (caller : Option String) (deactivate : Bool) (t0 t1 : ℤ)
  | withCall (caller : Option String) (deactivate : Bool) (t0 t1 : ℤ)
  | withBare (t0 t1 : ℤ)

/-- The calls of a section. -/
def Section.ops : Section → List Op
  | .startEnd c d t0 t1 => [.start c d t0, .end t1]
  | .withCall c d t0 t1 => [.call c d, .enter t0, .exit t1]
  | .withBare t0 t1 => [.enter t0, .exit t1]

/-- The calls of a program that times one section after the other. -/
def program (l : List Section) : List Op := (l.map Section.ops).flatten

/-- The duration in seconds. -/
def Section.seconds : Section → ℚ
  | .startEnd _ _ t0 t1 | .withCall _ _ t0 t1 | .withBare t0 t1 => ((t1 - t0 : ℤ) : ℚ) / 1000000000

/-- The name given to a section. -/
def Section.name : Section → Option String
  | .startEnd c _ _ _ | .withCall c _ _ _ => c
  | .withBare _ _ => none

/-- The section is not deactivated. -/
def Section.on : Section → Bool
  | .startEnd _ d _ _ | .withCall _ d _ _ => !d
  | .withBare _ _ => true

/-- The section is timed without a call of the timer. -/
def Section.bare : Section → Bool
  | .withBare _ _ => true
  | _ => false

/-- The durations that belong to `c`: those of the sections of this name that are not deactivated, in order. -/
def durations (l : List Section) (c : String) : List ℚ :=
  (l.filter fun s => s.on && s.name == some c).map Section.seconds

/-- The duration of the last section that is not deactivated, 0 if there is none. -/
def lastDuration (l : List Section) : ℚ := ((l.filter Section.on).map Section.seconds).getLastD 0

/-! ### Sections -/

theorem run_append (t : Timer) (a b : List Op) :
    run t (a ++ b) = match run t a with
      | .ok t' => run t' b
      | .error e => .error e := by
  induction a generalizing t with
  | nil => rfl
  | cons o os ih =>
    simp only [List.cons_append, run]
    cases t.step o with
    | ok t' => exact ih t'
    | error e => rfl

/-- The effect of one section on an active timer between sections. -/
theorem section_effect (t : Timer) (ha : t.active = true) (hd : t.tmpDeactivated = false) (s : Section)
    (hs : s.bare = false) : ∃ t', run t s.ops = .ok t' ∧ t'.active = true ∧ t'.tmpDeactivated = false ∧
      t'.elapsed = (if s.on then s.seconds else t.elapsed) ∧
      ∀ c, t'.stats c = t.stats c ++ (if s.on && s.name == some c then [s.seconds] else []) := by
  obtain ⟨ac, el, st, ca, td, sti⟩ := t
  simp only at ha hd
  subst ha hd
  cases s with
  | withBare _ _ => cases hs
  | startEnd c d t0 t1 =>
    cases d
    · cases c with
      | none => exact ⟨_, rfl, rfl, rfl, rfl, fun c => by simp [Section.name, Timer.start, Timer.call, Timer.enter]⟩
      | some n =>
        refine ⟨_, rfl, rfl, rfl, rfl, fun c => ?_⟩
        by_cases h : c = n
        · simp [h, Section.on, Section.name, Section.seconds, Timer.start, Timer.call, Timer.enter]
        · simp [h, Ne.symm h, Section.name, Timer.start, Timer.call, Timer.enter]
    · exact ⟨_, rfl, rfl, rfl, rfl, fun c => by simp [Section.on, Timer.start]⟩
  | withCall c d t0 t1 =>
    cases d
    · cases c with
      | none => exact ⟨_, rfl, rfl, rfl, rfl, fun c => by simp [Section.name, Timer.start, Timer.call, Timer.enter]⟩
      | some n =>
        refine ⟨_, rfl, rfl, rfl, rfl, fun c => ?_⟩
        by_cases h : c = n
        · simp [h, Section.on, Section.name, Section.seconds, Timer.start, Timer.call, Timer.enter]
        · simp [h, Ne.symm h, Section.name, Timer.start, Timer.call, Timer.enter]
    · exact ⟨_, rfl, rfl, rfl, rfl, fun c => by simp [Section.on, Timer.start, Timer.call, Timer.enter]⟩

theorem sections_effect (l : List Section) (hl : ∀ s ∈ l, s.bare = false) (t : Timer) (ha : t.active = true)
    (hd : t.tmpDeactivated = false) :
    ∃ t', run t (program l) = .ok t' ∧ t'.active = true ∧ t'.tmpDeactivated = false ∧
      t'.elapsed = ((l.filter Section.on).map Section.seconds).getLastD t.elapsed ∧
      ∀ c, t'.stats c = t.stats c ++ durations l c := by
  induction l generalizing t with
  | nil => exact ⟨t, rfl, ha, hd, rfl, fun c => by simp [durations]⟩
  | cons s l ih =>
    obtain ⟨t1, h1, a1, d1, e1, s1⟩ := section_effect t ha hd s (hl s (by simp))
    obtain ⟨t2, h2, a2, d2, e2, s2⟩ := ih (fun s hs => hl s (by simp [hs])) t1 a1 d1
    refine ⟨t2, ?_, a2, d2, ?_, fun c => ?_⟩
    · show run t (s.ops ++ program l) = _
      rw [run_append, h1]
      exact h2
    · rw [e2, e1, List.filter_cons]
      split
      · rw [List.map_cons, List.getLastD_cons]
      · rfl
    · rw [s2, s1, List.append_assoc]
      congr 1
      simp only [durations, List.filter_cons]
      split <;> simp

/-- **An active timer records exactly the sections.** After any sequence of timed sections, with `start` and `end`
or `with timer(…)`, also if their bodies raise, `stats()` holds for every name the durations of the sections of
that name that were not deactivated, in order, and `elapsed_time` is that of the last section that was not
deactivated. -/
theorem timer_records_partial (l : List Section) (hl : ∀ s ∈ l, s.bare = false) :
    ∃ t, run (Timer.init true) (program l) = .ok t ∧ (∀ c, t.stats c = durations l c) ∧
      t.elapsed = lastDuration l := by
  obtain ⟨t, h, -, -, e, s⟩ := sections_effect l hl (Timer.init true) rfl rfl
  exact ⟨t, h, fun c => by rw [s]; rfl, e⟩

/-- Also the first section of a program may be `with timer:`. -/
theorem timer_fresh_bare (t0 t1 : ℤ) (l : List Section) (hl : ∀ s ∈ l, s.bare = false) :
    ∃ t, run (Timer.init true) (program (.withBare t0 t1 :: l)) = .ok t ∧
      (∀ c, t.stats c = durations (.withBare t0 t1 :: l) c) ∧ t.elapsed = lastDuration (.withBare t0 t1 :: l) := by
  obtain ⟨t, h, -, -, e, s⟩ := sections_effect l hl
    { Timer.init true with elapsed := ((t1 - t0 : ℤ) : ℚ) / 1000000000, startTime := some t0 } rfl rfl
  exact ⟨t, h, fun c => by rw [s]; rfl, by
    rw [e]
    show _ = ((((t1 - t0 : ℤ) : ℚ) / 1000000000) :: (l.filter Section.on).map Section.seconds).getLastD 0
    rw [List.getLastD_cons]⟩

/-- Three sections, two of one name, one deactivated. -/
example : durations [.startEnd (some "f") false 0 2000000000, .withCall (some "g") true 3 4,
    .withCall (some "f") false 0 1000000000] "f" = [2, 1] := by
  simp [durations, Section.on, Section.name, Section.seconds]; norm_num

/-- **An unnamed section is charged to the last name**: after any section with a name that is not deactivated,
`with timer:` adds its duration to that name, although it was given none. -/
theorem timer_bare_charged (l : List Section) (hl : ∀ s ∈ l, s.bare = false) (n : String) (u0 u1 t0 t1 : ℤ)
    (s : Section) (hs : s = .startEnd (some n) false u0 u1 ∨ s = .withCall (some n) false u0 u1) :
    ∃ t, run (Timer.init true) (program (l ++ [s, .withBare t0 t1])) = .ok t ∧
      t.stats n = durations (l ++ [s, .withBare t0 t1]) n ++ [((t1 - t0 : ℤ) : ℚ) / 1000000000] := by
  obtain ⟨t, h, a, d, -, st⟩ := sections_effect l hl (Timer.init true) rfl rfl
  have hp : program (l ++ [s, .withBare t0 t1]) = program l ++ program [s, .withBare t0 t1] := by simp [program]
  have hdur : durations (l ++ [s, .withBare t0 t1]) n = durations l n ++ [((u1 - u0 : ℤ) : ℚ) / 1000000000] := by
    rcases hs with rfl | rfl <;> simp [durations, Section.on, Section.name, Section.seconds, List.filter_cons]
  rw [hp, run_append, h, hdur]
  have st' : t.stats n = durations l n := by rw [st]; rfl
  rw [← st']
  clear st st' h hdur
  obtain ⟨ac, el, sts, ca, td, sti⟩ := t
  simp only at a d
  subst a d
  rcases hs with rfl | rfl
  · exact ⟨_, rfl, by simp [Timer.start, Timer.call, Timer.enter]⟩
  · exact ⟨_, rfl, by simp [Timer.start, Timer.call, Timer.enter]⟩

/-- **Nested sections are lost**: with `with timer(a): with timer(b): …` both durations go to `b`, and the outer
one is measured from the start of the inner one. -/
theorem timer_nested (a b : String) (hab : a ≠ b) (t0 t1 t2 t3 : ℤ) :
    ∃ t, run (Timer.init true) [.call (some a) false, .enter t0, .call (some b) false, .enter t1, .exit t2, .exit t3] =
      .ok t ∧ t.stats a = [] ∧
      t.stats b = [((t2 - t1 : ℤ) : ℚ) / 1000000000, ((t3 - t1 : ℤ) : ℚ) / 1000000000] := by
  refine ⟨_, rfl, ?_, ?_⟩
  · simp [Timer.init, hab, Timer.enter, Timer.start, Timer.call]
  · simp [Timer.init, Timer.enter, Timer.start, Timer.call]

/-- A call that is not followed by `with` deactivates the next section. -/
theorem timer_call_lost (a b : String) (t0 t1 : ℤ) :
    ∃ t, run (Timer.init true) [.call (some a) true, .start (some b) false t0, .end t1] = .ok t ∧ ∀ c, t.stats c = [] :=
  ⟨_, rfl, fun _ => rfl⟩

/-! ### Arbitrary histories -/

theorem step_active (t t' : Timer) (o : Op) (h : t.step o = .ok t') : t'.active = t.active := by
  cases o with
  | start c d n => cases h; simp only [Timer.start]; split <;> rfl
  | call c d => cases h; rfl
  | enter n => cases h; simp only [Timer.enter, Timer.start]; split <;> rfl
  | «end» n =>
    simp only [Timer.step, Timer.end] at h
    split at h
    · cases h; rfl
    · split at h
      · cases h
      · split at h <;> cases h <;> rfl
  | exit n =>
    simp only [Timer.step, Timer.exit, Timer.end] at h
    split at h
    · cases h; rfl
    · split at h
      · cases h
      · split at h <;> cases h <;> rfl

/-- **An inactive timer does nothing**, whatever is called: no exception, no record. -/
theorem timer_inactive (l : List Op) : ∃ t, run (Timer.init false) l = .ok t ∧ t.elapsed = 0 ∧ ∀ c, t.stats c = [] := by
  suffices H : ∀ t : Timer, t.active = false → t.elapsed = 0 → (∀ c, t.stats c = []) →
      ∃ t', run t l = .ok t' ∧ t'.elapsed = 0 ∧ ∀ c, t'.stats c = [] from H _ rfl rfl fun _ => rfl
  induction l with
  | nil => exact fun t _ he hs => ⟨t, rfl, he, hs⟩
  | cons o os ih =>
    intro t ha he hs
    have : ∃ t', t.step o = .ok t' ∧ t'.elapsed = 0 ∧ ∀ c, t'.stats c = [] := by
      cases o <;> simp [Timer.step, Timer.start, Timer.end, Timer.call, Timer.enter, Timer.exit, ha, he, hs]
    obtain ⟨t', h, he', hs'⟩ := this
    obtain ⟨t'', h'', r⟩ := ih t' ((step_active t t' o h).trans ha) he' hs'
    exact ⟨t'', by simp only [run, h]; exact h'', r⟩

/-- `end` raises exactly if the timer is active, is not deactivated and was never started. -/
theorem timer_end_raises (t : Timer) (now : ℤ) :
    (∃ e, t.end now = .error e) ↔ t.active = true ∧ t.tmpDeactivated = false ∧ t.startTime = none := by
  unfold Timer.end
  cases ha : t.active <;> cases hd : t.tmpDeactivated <;> cases hs : t.startTime <;>
    first
    | exact iff_of_true ⟨.attribute, rfl⟩ ⟨rfl, rfl, rfl⟩
    | (simp; try (split <;> simp))

/-! ### `gather_from_rows_cols` -/

/-- It returns exactly if the batch sizes fit, that of the matrix may be 1, the numbers of points are equal and
not zero, and all indices are inside the matrix. -/
theorem gather_returns {α : Type} {B R C B₁ P₁ B₂ P₂ : ℕ} (m : Fin B → Fin R → Fin C → α) (rows : Fin B₁ → Fin P₁ → ℤ)
    (cols : Fin B₂ → Fin P₂ → ℤ) : (∃ d, gather m rows cols = .ok d) ↔
      (B = 1 ∨ B = B₁) ∧ B₁ = B₂ ∧ P₁ = P₂ ∧ 0 < B₁ ∧ 0 < P₁ ∧ (∀ i j, 0 ≤ rows i j ∧ rows i j < R) ∧
      ∀ i j, 0 ≤ cols i j ∧ cols i j < C := by
  unfold gather
  split
  · rename_i h
    split
    · rename_i hP
      split
      · rename_i h0
        refine iff_of_false (by simp) ?_
        rintro ⟨-, -, -, a, b, -⟩
        have := Nat.mul_pos a b
        omega
      · rename_i h0
        have hp : 0 < B₁ ∧ 0 < P₁ := by
          constructor <;> refine Nat.pos_of_ne_zero fun e => h0 (by simp [e])
        split
        · rename_i hr
          split
          · rename_i hc
            exact iff_of_true ⟨_, rfl⟩ ⟨h.1, h.2, hP, hp.1, hp.2, hr, hc⟩
          · rename_i hc
            exact iff_of_false (by simp) fun q => hc q.2.2.2.2.2.2
        · rename_i hr
          exact iff_of_false (by simp) fun q => hr q.2.2.2.2.2.1
    · rename_i hP
      exact iff_of_false (by simp) fun q => hP q.2.2.1
  · rename_i h
    exact iff_of_false (by simp) fun q => h ⟨q.1, q.2.1⟩

/-- The entries: `data[i, j] = matrix[i, rows[i, j], cols[i, j]]`, with the only matrix for every `i` if there is
one. -/
theorem gather_entries {α : Type} {B R C B₁ P₁ : ℕ} {m : Fin B → Fin R → Fin C → α} {rows cols : Fin B₁ → Fin P₁ → ℤ}
    {d : Fin B₁ → Fin P₁ → α} (h : gather m rows cols = .ok d) (i : Fin B₁) (j : Fin P₁) :
    ∃ (k : Fin B) (r : Fin R) (c : Fin C), (k : ℕ) = (if B = 1 then 0 else (i : ℕ)) ∧ (r : ℤ) = rows i j ∧
      (c : ℤ) = cols i j ∧ d i j = m k r c := by
  unfold gather at h
  split at h
  · rename_i hB
    split at h
    · split at h
      · cases h
      · split at h
        · rename_i hr
          split at h
          · rename_i hc
            cases h
            refine ⟨_, _, _, ?_, ?_, ?_, rfl⟩
            · by_cases h1 : B = B₁
              · rw [dif_pos h1]
                split
                · have := i.2
                  simp only [Fin.val_cast]
                  omega
                · rfl
              · rw [dif_neg h1, if_pos (by have := hB.1; omega)]
            · exact Int.toNat_of_nonneg (hr i j).1
            · exact Int.toNat_of_nonneg (hc i j).1
          · cases h
        · cases h
    · cases h
  · cases h

/-- Three points in each of two elements, from one matrix. -/
example : ∃ d, gather (B := 1) (R := 2) (C := 2) (fun _ r c => (r.1, c.1)) (fun (_ : Fin 2) (j : Fin 3) => if j = 0 then 0 else 1)
    (fun (i : Fin 2) (_ : Fin 3) => (i : ℤ)) = .ok d := by
  refine (gather_returns _ _ _).2 ⟨.inl rfl, rfl, rfl, by decide, by decide, ?_, ?_⟩ <;> decide

/-! ### `build_mlp` -/

/-- The modules can be applied one after the other, from `i` to `o` numbers. -/
def Chain : List Mod → ℤ → ℤ → Prop
  | [], i, o => i = o
  | .linear a b :: l, i, o => a = i ∧ Chain l b o
  | .act _ :: l, i, o => Chain l i o

/-- **`build_mlp`** accepts exactly three names of activations. For every non-negative depth the modules can be
applied one after the other from `input_dim` to `output_dim`; there are `hidden_depth + 1` linear layers, with an
activation between any two of them and nowhere else, and all dimensions between are `hidden_dim`. -/
theorem build_mlp_chain (i h o : ℤ) (d : ℕ) (a : String) :
    ((∃ l, buildMlp i h o d a = .ok l) ↔ a = "relu" ∨ a = "elu" ∨ a = "tanh") ∧
    ∀ l, buildMlp i h o d a = .ok l → Chain l i o ∧ l.length = 2 * d + 1 ∧
      ∀ (k : ℕ) (hk : k < l.length), l[k] = if k % 2 = 1 then Mod.act a
        else Mod.linear (if k = 0 then i else h) (if k + 1 = l.length then o else h) := by
  have hrep : ∀ m : ℕ, Chain ((List.replicate m [Mod.linear h h, .act a]).flatten ++ [Mod.linear h o]) h o := by
    intro m
    induction m with
    | zero => simp [Chain]
    | succ m ih => rw [List.replicate_succ, List.flatten_cons]; exact ⟨rfl, ih⟩
  have hlen : ∀ m : ℕ, (List.replicate m [Mod.linear h h, .act a]).flatten.length = 2 * m := by
    intro m
    simp [Nat.mul_comm]
  have hget : ∀ (m k : ℕ) (hk : k < ((List.replicate m [Mod.linear h h, .act a]).flatten ++ [Mod.linear h o]).length),
      ((List.replicate m [Mod.linear h h, .act a]).flatten ++ [Mod.linear h o])[k] =
        if k % 2 = 1 then Mod.act a else Mod.linear h (if k = 2 * m then o else h) := by
    intro m
    induction m with
    | zero =>
      intro k hk
      have : k = 0 := by simpa using hk
      subst this
      simp
    | succ m ih =>
      intro k hk
      match k with
      | 0 => simp [List.replicate_succ]
      | 1 => simp [List.replicate_succ]
      | k + 2 =>
        have e : (List.replicate (m + 1) [Mod.linear h h, .act a]).flatten ++ [Mod.linear h o] =
            Mod.linear h h :: Mod.act a :: ((List.replicate m [Mod.linear h h, .act a]).flatten ++ [Mod.linear h o]) := by
          simp [List.replicate_succ]
        simp only [e, List.getElem_cons_succ]
        rw [ih]
        have e1 : (k + 2) % 2 = k % 2 := by omega
        have e2 : (k + 2 = 2 * (m + 1)) ↔ (k = 2 * m) := by omega
        simp only [e1, e2]
  unfold buildMlp
  by_cases ha : a = "relu" ∨ a = "elu" ∨ a = "tanh"
  · rw [if_pos ha]
    cases d with
    | zero =>
      simp only [Nat.cast_zero, if_true]
      refine ⟨iff_of_true ⟨_, rfl⟩ ha, ?_⟩
      rintro _ ⟨rfl⟩
      refine ⟨⟨rfl, rfl⟩, rfl, fun k hk => ?_⟩
      have : k = 0 := by simpa using hk
      subst this
      simp
    | succ d =>
      have hd : ((d + 1 : ℕ) : ℤ) ≠ 0 := by omega
      have hd' : (((d + 1 : ℕ) : ℤ) - 1).toNat = d := by omega
      rw [if_neg hd, hd']
      refine ⟨iff_of_true ⟨_, rfl⟩ ha, ?_⟩
      rintro _ ⟨rfl⟩
      rw [List.append_assoc]
      have hl : ([Mod.linear i h, .act a] ++ ((List.replicate d [Mod.linear h h, .act a]).flatten ++ [Mod.linear h o])).length =
          2 * (d + 1) + 1 := by
        simp only [List.length_append, hlen, List.length_cons, List.length_nil]
        omega
      refine ⟨⟨rfl, hrep d⟩, hl, fun k hk => ?_⟩
      rw [hl] at *
      match k with
      | 0 =>
        simp
      | 1 => simp
      | k + 2 =>
        simp only [List.cons_append, List.nil_append, List.getElem_cons_succ]
        rw [hget]
        have e1 : (k + 2) % 2 = k % 2 := by omega
        have e3 : (k + 2 = 2 * (d + 1)) ↔ (k = 2 * d) := by omega
        simp [e1, e3]
  · rw [if_neg ha]
    exact ⟨iff_of_false (by simp) ha, fun l hl => by cases hl⟩

/-- A negative depth is taken for 1. -/
theorem build_mlp_negative (i h o d : ℤ) (hd : d < 0) (a : String) : buildMlp i h o d a = buildMlp i h o 1 a := by
  unfold buildMlp
  have e : (d - 1).toNat = 0 := by omega
  rw [if_neg (by omega : d ≠ 0), if_neg (by decide : (1 : ℤ) ≠ 0), e]
  rfl

example : buildMlp 4 8 2 2 "elu" =
    .ok [.linear 4 8, .act "elu", .linear 8 8, .act "elu", .linear 8 2] := by decide

end Verif.Util
