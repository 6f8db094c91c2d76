import Verif.Nlopt.Props
/-!
# Error histories of optimizers that reject bad steps (C57)
-/
namespace Verif.Nlopt
set_option linter.unusedSectionVars false
variable {K : Type} [Field K] [LinearOrder K] {n : Nat} {X D M : Type}

/-- An optimizer is *monotone* (as long as its memory satisfies `good`) if `_complete_step` always returns
rejected indices, and rejects every element whose error would increase. -/
structure Monotone (P : Params K) (A : Method K n X D M) (good : M → Prop) : Prop where
  keeps : ∀ m x d e p, good m → good (A.complete m x d e p).1
  some_rej : ∀ m x d e p, (A.complete m x d e p).2.isSome = true
  rejects : ∀ m x d, good m → A.delta m x = some d → ∀ (e p : B n (Fl K)) (rej : B n Bool) (i : Fin n),
    p i = A.metric (x i) →
    (A.complete m x (fun j => A.scale P.stepSize (d j)) e p).2 = some rej →
    rej i = false → (p i).lt (e i) = false

/-- Consecutive errors of a recorded history never increase. -/
def NonIncreasing (h : Nat → Option (B n (Fl K))) : Prop :=
  ∀ k e e', h k = some e → h (k + 1) = some e' → ∀ i, (e i).lt (e' i) = false

/-- The loop invariant. -/
structure DInv (A : Method K n X D M) (good : M → Prop) (s : LS K n X M) : Prop where
  mem : good s.mem
  last : s.info.lastErr = errs A s.x
  cur : s.info.errHist s.it = some s.info.lastErr
  rest : ∀ k > s.it, s.info.errHist k = none
  mono : NonIncreasing s.info.errHist

theorem step_descends {P : Params K} {A : Method K n X D M} {good : M → Prop} (hA : Monotone P A good) (grad : Bool)
    {s : LS K n X M} (h : DInv A good s) {d : B n D} (hd : A.delta s.mem s.x = some d)
    {y : B n X} {mem : M} {err : B n (Fl K)} {b : Bool}
    (hs : step A { grad := grad } s (fun i => A.scale P.stepSize (d i)) = (y, mem, err, b)) :
    good mem ∧ err = errs A y ∧ ∀ i, (s.info.lastErr i).lt (err i) = false := by
  have hspec := step_spec A { grad := grad } s (fun i => A.scale P.stepSize (d i)) h.last
  rw [hs] at hspec
  have herr : err = errs A y := hspec.1
  have hg : good mem := by
    have : mem = (A.complete s.mem s.x (fun i => A.scale P.stepSize (d i))
        (fun i => A.metric (retracted A false s.x (fun i => A.scale P.stepSize (d i)) s.conv i)) s.info.lastErr).1 := by
      unfold step at hs
      simp only [Bool.false_eq_true, if_false] at hs
      split at hs
      · exact (congrArg (fun z => z.2.1) hs).symm
      · split at hs <;> exact (congrArg (fun z => z.2.1) hs).symm
    rw [this]
    exact hA.keeps _ _ _ _ _ h.mem
  refine ⟨hg, herr, ?_⟩
  intro i
  unfold step at hs
  simp only [Bool.false_eq_true, if_false] at hs
  have hsome := hA.some_rej s.mem s.x (fun i => A.scale P.stepSize (d i))
    (fun i => A.metric (retracted A false s.x (fun i => A.scale P.stepSize (d i)) s.conv i)) s.info.lastErr
  obtain ⟨rej, hrej⟩ := Option.isSome_iff_exists.1 hsome
  rw [hrej] at hs
  simp only at hs
  have hpi : s.info.lastErr i = A.metric (s.x i) := congrFun h.last i
  split at hs
  · have : s.info.lastErr = err := congrArg (fun z => z.2.2.1) hs
    rw [← this]; exact Fl.lt_irrefl _
  · have hy := (congrArg (fun z => z.1) hs).symm
    simp only at hy
    have hei : err i = A.metric (y i) := congrFun herr i
    rw [hei, congrFun hy i]
    cases hri : rej i with
    | true => simp only [if_true]; rw [hpi]; exact Fl.lt_irrefl _
    | false =>
      simp only [Bool.false_eq_true, if_false]
      exact hA.rejects s.mem s.x d h.mem hd _ _ rej i hpi hrej hri

theorem finish_descends {P : Params K} {A : Method K n X D M} {good : M → Prop}
    {s : LS K n X M} (h : DInv A good s) {y : B n X} {mem : M} {err : B n (Fl K)}
    (hg : good mem) (he : err = errs A y) (hle : ∀ i, (s.info.lastErr i).lt (err i) = false) :
    match finish P s y mem err with
    | .cont t => DInv A good t
    | .brk t => NonIncreasing t.info.errHist ∧ good t.mem
    | _ => False := by
  have hmono : NonIncreasing (fun k => if k = s.it + 1 then some err else s.info.errHist k) := by
    intro k e e' h1 h2 i
    simp only at h1 h2
    by_cases hk : k = s.it + 1
    · subst hk
      rw [if_neg (by omega), h.rest _ (by omega)] at h2
      simp at h2
    · rw [if_neg hk] at h1
      by_cases hk' : k = s.it
      · subst hk'
        rw [if_pos rfl] at h2
        rw [h.cur] at h1
        simp only [Option.some.injEq] at h1 h2
        rw [← h1, ← h2]; exact hle i
      · rw [if_neg (by omega)] at h2
        exact h.mono k e e' h1 h2 i
  unfold finish
  simp only
  split
  · rename_i hx
    split at hx
    · simp at hx
    · simp only [Out.cont.injEq] at hx
      subst hx
      refine ⟨hg, he, ?_, ?_, hmono⟩
      · simp [updateInfo]
      · intro k hk
        simp only [updateInfo]
        simp only at hk
        rw [if_neg (by omega)]
        exact h.rest k (by omega)
  · rename_i hx
    split at hx
    · simp only [Out.brk.injEq] at hx
      subst hx
      exact ⟨hmono, hg⟩
    · simp at hx
  · rename_i h1 h2
    split at h2 <;> simp_all

theorem loop_descends {P : Params K} {A : Method K n X D M} {good : M → Prop} (hA : Monotone P A good) (grad : Bool) (num : Nat) :
    ∀ (fuel : Nat) (s : LS K n X M), DInv A good s →
    match loop P A { grad := grad } num fuel s with
    | .finished t => NonIncreasing t.info.errHist ∧ good t.mem
    | .failed t => NonIncreasing t.info.errHist ∧ good t.mem
    | _ => True := by
  intro fuel
  induction fuel with
  | zero =>
    intro s h
    unfold loop
    by_cases hn : num ≤ s.it
    · rw [if_pos hn]; exact ⟨h.mono, h.mem⟩
    · rw [if_neg hn]; trivial
  | succ f ih =>
    intro s h
    unfold loop
    by_cases hn : num ≤ s.it
    · rw [if_pos hn]; exact ⟨h.mono, h.mem⟩
    · rw [if_neg hn]
      simp only
      unfold pass
      have hcd : computeDelta A { grad := grad } s.mem s.x = A.delta s.mem s.x := rfl
      rw [hcd]
      cases hd : A.delta s.mem s.x with
      | none =>
        simp only
        by_cases hg : grad = true
        · simp [hg]
        · simp only [hg]; exact ⟨h.mono, h.mem⟩
      | some d =>
        simp only
        have hso : stepOf P { grad := grad } = P.stepSize := rfl
        rw [hso]
        rcases hst : step A { grad := grad } s (fun i => A.scale P.stepSize (d i)) with ⟨y, mem, err, b⟩
        obtain ⟨hg, he, hle⟩ := step_descends hA grad h hd hst
        have hfin := finish_descends (P := P) h hg he hle
        have conclude : (match (match finish P s y mem err with
              | .cont s => loop P A { grad := grad } num f s
              | .brk s => .finished (markMax s)
              | .failed s => .failed s
              | .raised => .raised) with
            | .finished t => NonIncreasing t.info.errHist ∧ good t.mem
            | .failed t => NonIncreasing t.info.errHist ∧ good t.mem
            | _ => True) := by
          cases hf : finish P s y mem err with
          | cont t => rw [hf] at hfin; exact ih t hfin
          | brk t => rw [hf] at hfin; exact hfin
          | failed t => rw [hf] at hfin; exact hfin.elim
          | raised => rw [hf] at hfin; exact hfin.elim
        cases b with
        | true =>
          simp only
          by_cases hlt : s.attempts + 1 < 3
          · rw [if_pos hlt]
            exact ih _ ⟨hg, h.last, h.cur, h.rest, h.mono⟩
          · rw [if_neg hlt]; exact conclude
        | false => exact conclude

theorem start_descends {A : Method K n X D M} {good : M → Prop} (x : B n X) (mem : M) (hg : good mem) :
    DInv A good (startLS x mem (initInfo A x)) := by
  refine ⟨hg, rfl, by simp [startLS, initInfo], ?_, ?_⟩
  · intro k hk
    simp only [startLS] at hk
    simp only [startLS, initInfo]
    rw [if_neg (by omega)]
  · intro k e e' h1 h2
    simp [startLS, initInfo] at h2

/-- C57 (loop): a single run of the optimization loop, with a monotone optimizer, records errors that never
increase, for any element. -/
theorem loop_never_increases {P : Params K} {A : Method K n X D M} {good : M → Prop} (hA : Monotone P A good)
    (grad : Bool) (num : Int) (x : B n X) (mem : M) (hg : good mem) (s : LS K n X M)
    (h : optimizeLoop P A { grad := grad } num x mem (initInfo A x) = .finished s ∨
      optimizeLoop P A { grad := grad } num x mem (initInfo A x) = .failed s) : NonIncreasing s.info.errHist := by
  have := loop_descends hA grad num.toNat (3 * num.toNat) _ (start_descends x mem hg)
  unfold optimizeLoop at h
  rcases h with h | h <;> rw [h] at this <;> exact this.1

/-- C57: with a monotone optimizer, in the modes `UNROLL` and `DLM`, the recorded error of no element ever
increases, whatever the other elements do. -/
theorem never_increases {P : Params K} {A : Method K n X D M} {good : M → Prop} (hA : Monotone P A good)
    (m : Mode) (hm : m = .unroll ∨ m = .dlm) (bwd : Option Int) (grad : Bool) (x : B n X) (mem : M) (hg : good mem)
    (xf : B n X) (info : Info K n X) (h : optimizeImpl P A m bwd grad x mem = .ok xf info) :
    NonIncreasing info.errHist := by
  unfold optimizeImpl at h
  have hsp : splitIters P.maxIter m bwd = some (P.maxIter, P.maxIter - P.maxIter) := by
    rcases hm with rfl | rfl <;> rfl
  rw [hsp] at h
  simp only [if_pos hm] at h
  have hl := loop_descends hA grad P.maxIter.toNat (3 * P.maxIter.toNat) _ (start_descends x mem hg)
  unfold optimizeLoop at h
  split at h <;> rename_i hr <;> rw [hr] at hl
  · simp only [OptRes.ok.injEq] at h
    rw [← h.2]; exact hl.1
  · simp only [OptRes.ok.injEq] at h
    rw [← h.2]; exact hl.1
  · simp at h
  · simp at h

/-- C57 in mode `TRUNCATED`: the same for the merged history of the two runs, if no error is `nan`. -/
theorem never_increases_truncated {P : Params K} {A : Method K n X D M} {good : M → Prop} (hA : Monotone P A good)
    (hnn : ∀ x, A.metric x ≠ .nan) (bwd : Option Int) (grad : Bool) (x : B n X) (mem : M) (hg : good mem)
    (xf : B n X) (info : Info K n X) (h : optimizeImpl P A .truncated bwd grad x mem = .ok xf info) :
    NonIncreasing info.errHist := by
  unfold optimizeImpl at h
  split at h
  · simp at h
  next nb nn hsp =>
  simp only [reduceCtorEq, or_self, if_false, decide_false] at h
  have hloop : ∀ (grad : Bool) (num : Int) (x : B n X) (mem : M), good mem → ∀ t : LS K n X M,
      (optimizeLoop P A { grad := grad } num x mem (initInfo A x) = .finished t ∨
       optimizeLoop P A { grad := grad } num x mem (initInfo A x) = .failed t) →
      NonIncreasing t.info.errHist ∧ good t.mem ∧ t.info.errHist 0 = some (errs A x) ∧
      (t.info.errHist t.done = some (errs A t.x) ∧ (∀ k > t.done, t.info.errHist k = none) ∨
       t.info.errHist (t.done + 1) = some (errs A t.x) ∧ (∀ k > t.done + 1, t.info.errHist k = none)) := by
    intro grad num x mem hg t ht
    have hl := loop_spec (P := P) (A := A) (o := { grad := grad }) (num := num.toNat) (3 * num.toNat) _ _
      (inv_start P A { grad := grad } x mem) (Nat.zero_le _) (Or.inr rfl) (by simp [startLS])
    have hd := loop_descends hA grad num.toNat (3 * num.toNat) _ (start_descends x mem hg)
    unfold optimizeLoop at ht
    rcases ht with ht | ht <;> rw [ht] at hl hd
    · obtain ⟨Y, u, i0, h1, h2, h3, h4, h5, _, h6, _, h7⟩ := hl
      refine ⟨hd.1, hd.2, ?_, ?_⟩
      · rw [h5]; simp only []; rw [(h1.hist 0 (Nat.zero_le _)).2, h4]
      · rw [h3, h5]
        rcases h7 with ⟨_, h7⟩ | ⟨_, h7, _⟩
        · left; rw [h7]; exact ⟨(h1.hist u (Nat.le_refl _)).2, fun k hk => (h1.rest k hk).2⟩
        · right; rw [h7]; exact ⟨(h1.hist u (Nat.le_refl _)).2, fun k hk => (h1.rest k hk).2⟩
    · obtain ⟨Y, u, i0, h1, h2, h3, h4, h5, _, h6, _, h7, _⟩ := hl
      refine ⟨hd.1, hd.2, ?_, ?_⟩
      · rw [h5]; simp only []; rw [(h1.hist 0 (Nat.zero_le _)).2, h4]
      · rw [h3, h5]
        left; rw [h7]; exact ⟨(h1.hist u (Nat.le_refl _)).2, fun k hk => (h1.rest k hk).2⟩
  have key : ∀ s : LS K n X M, (optimizeLoop P A { grad := false } nn x mem (initInfo A x) = .finished s ∨
       optimizeLoop P A { grad := false } nn x mem (initInfo A x) = .failed s) → ∀ t : LS K n X M,
      (optimizeLoop P A { grad := grad } nb s.x s.mem (initInfo A s.x) = .finished t ∨
       optimizeLoop P A { grad := grad } nb s.x s.mem (initInfo A s.x) = .failed t) →
      (match mergeInfos t.info s.done t.done s.info with
        | some info => OptRes.ok t.x info | none => .assertionError) = .ok xf info →
      NonIncreasing info.errHist := by
    intro s hs t ht hh
    obtain ⟨a1, a2, a3, a4⟩ := hloop _ _ _ _ hg _ hs
    obtain ⟨b1, b2, b3, b4⟩ := hloop _ _ _ _ a2 _ ht
    split at hh
    · next inf hmi =>
      simp only [OptRes.ok.injEq] at hh
      rw [← hh.2]
      unfold mergeInfos at hmi
      simp only at hmi
      split at hmi
      · simp only [Option.some.injEq] at hmi
        rw [← hmi]
        simp only
        intro k e e' h1 h2 i
        simp only at h1 h2
        by_cases c1 : s.done + 1 ≤ k
        · by_cases c2 : k + 1 < s.done + t.done + 1
          · rw [if_pos ⟨c1, by omega⟩] at h1
            rw [if_pos ⟨by omega, c2⟩, show k + 1 - s.done = (k - s.done) + 1 by omega] at h2
            exact b1 _ _ _ h1 h2 i
          · rw [if_neg (by omega)] at h2
            have : s.info.errHist (k + 1) = none := by
              rcases a4 with ⟨_, a4⟩ | ⟨_, a4⟩ <;> exact a4 _ (by omega)
            rw [this] at h2; simp at h2
        · rw [if_neg (by omega)] at h1
          by_cases c2 : s.done + 1 ≤ k + 1 ∧ k + 1 < s.done + t.done + 1
          · rw [if_pos c2] at h2
            have hk : k = s.done := by omega
            subst hk
            rw [show s.done + 1 - s.done = 0 + 1 by omega] at h2
            have hlast := b1 0 _ _ b3 h2 i
            rcases a4 with ⟨a4, _⟩ | ⟨a4, _⟩
            · rw [a4] at h1
              simp only [Option.some.injEq] at h1
              rw [← h1]; exact hlast
            · exact Fl.not_lt_trans (hnn _) (a1 _ _ _ h1 a4 i) hlast
          · rw [if_neg c2] at h2
            exact a1 _ _ _ h1 h2 i
      · simp at hmi
    · simp at hh
  split at h <;> rename_i hr
  · split at h <;> rename_i hr2
    · exact key _ (Or.inl hr) _ (Or.inl hr2) h
    · exact key _ (Or.inl hr) _ (Or.inr hr2) h
    · simp at h
    · simp at h
  · split at h <;> rename_i hr2
    · exact key _ (Or.inr hr) _ (Or.inl hr2) h
    · exact key _ (Or.inr hr) _ (Or.inr hr2) h
    · simp at h
    · simp at h
  · simp at h
  · simp at h

end Verif.Nlopt
