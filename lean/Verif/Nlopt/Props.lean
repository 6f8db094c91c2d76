import Verif.Nlopt.Lemmas
import Mathlib.Tactic.NormNum
/-!
# Properties of the optimization loop (C27–C32)
-/
namespace Verif.Nlopt
set_option linter.unusedSectionVars false
variable {K : Type} [Field K] [LinearOrder K] {n : Nat} {X D M : Type}

/-! ### C27 -/

/-- C27: for every optimizer, every sequence of rejections and solver outcomes, the loop ends; it makes at
most `num` updates and at most `3 * num` passes (each with one linear solve). -/
theorem loop_terminates (P : Params K) (A : Method K n X D M) (o : Opts) (num : Int) (x : B n X) (mem : M) :
    match optimizeLoop P A o num x mem (initInfo A x) with
    | .finished t => t.updates ≤ num.toNat ∧ t.solves ≤ 3 * num.toNat
    | .failed t => t.updates < num.toNat ∧ t.solves ≤ 3 * num.toNat ∧ o.grad = false
    | .raised => o.grad = true
    | .outOfFuel => False := by
  have := loop_spec (P := P) (A := A) (o := o) (num := num.toNat) (3 * num.toNat) _ _ (inv_start P A o x mem)
    (Nat.zero_le _) (Or.inr rfl) (by simp [startLS])
  unfold optimizeLoop
  split <;> rename_i h <;> rw [h] at this
  · obtain ⟨_, _, _, _, _, _, _, _, h1, h2, h3, _⟩ := this
    exact ⟨by omega, h3⟩
  · obtain ⟨_, _, _, _, _, _, _, _, h1, h2, h3, _, h4⟩ := this
    exact ⟨by omega, h3, h4⟩
  · exact this
  · exact this

/-- C27: more fuel changes nothing, so the bound of the model is not a bound on the program. -/
theorem fuel_irrelevant (P : Params K) (A : Method K n X D M) (o : Opts) (num : Nat) :
    ∀ (f g : Nat) (s : LS K n X M), (∀ r, loop P A o num f s = r → r ≠ .outOfFuel) →
    f ≤ g → loop P A o num g s = loop P A o num f s := by
  intro f
  induction f with
  | zero =>
    intro g s h _
    by_cases hn : num ≤ s.it
    · unfold loop; rw [if_pos hn, if_pos hn]
    · exact absurd (by unfold loop; rw [if_neg hn]) (h _ rfl)
  | succ f ih =>
    intro g s h hle
    obtain ⟨g, rfl⟩ : ∃ g', g = g' + 1 := ⟨g - 1, by omega⟩
    unfold loop
    by_cases hn : num ≤ s.it
    · rw [if_pos hn, if_pos hn]
    · rw [if_neg hn, if_neg hn]
      simp only
      cases hp : pass P A o s with
      | cont t =>
        simp only
        apply ih g t _ (by omega)
        rintro r rfl hr
        exact h (.outOfFuel) (by unfold loop; rw [if_neg hn]; simp only [hp]; exact hr) rfl
      | brk t => rfl
      | failed t => rfl
      | raised => rfl

/-! ### C28, C29, C30: the record of a run -/

/-- What `optimize()` returns in the modes `UNROLL` and `DLM`: there are values `Y 0, …, Y u` of the
variables, `u ≤ max_iterations`, such that `Y 0` are the initial values, the final values are `Y u` and
the info is the exact record of this sequence; the statuses are all `FAIL` after a solver failure, and
otherwise `CONVERGED` for the elements whose test fired and `MAX_ITERATIONS` for the others. -/
theorem unroll_record (P : Params K) (A : Method K n X D M) (m : Mode) (hm : m = .unroll ∨ m = .dlm)
    (bwd : Option Int) (grad : Bool) (x : B n X) (mem : M) (xf : B n X) (info : Info K n X)
    (h : optimizeImpl P A m bwd grad x mem = .ok xf info) :
    ∃ Y u info0, Record P A Y u info0 ∧ Moves P A {} Y u ∧ Y 0 = x ∧ xf = Y u ∧ u ≤ P.maxIter.toNat ∧
      info = clearConvIter { info0 with status := info.status } ∧
      ((∀ i, info.status i = .fail) ∨
       ((∀ i, info.status i = if info0.status i = .start then .maxIterations else info0.status i) ∧
        (u = P.maxIter.toNat ∨ (0 < u ∧ ∀ i, fired P A Y (u - 1) i = true)))) := by
  unfold optimizeImpl at h
  have hsp : splitIters P.maxIter m bwd = some (P.maxIter, P.maxIter - P.maxIter) := by
    rcases hm with rfl | rfl <;> rfl
  rw [hsp] at h
  simp only [if_pos hm] at h
  have hl := loop_spec (P := P) (A := A) (o := { grad := grad }) (num := P.maxIter.toNat) (3 * P.maxIter.toNat) _ _
    (inv_start P A { grad := grad } x mem) (Nat.zero_le _) (Or.inr rfl) (by simp [startLS])
  unfold optimizeLoop at h
  have hmoves : ∀ {Y u}, Moves P A { grad := grad } Y u → Moves P A {} Y u :=
    fun hm => ⟨hm.step, hm.frozen, hm.goOn⟩
  split at h <;> rename_i hr <;> rw [hr] at hl
  · obtain ⟨Y, u, i0, h1, h2, h3, h4, h5, h6, h7, h8, h9⟩ := hl
    simp only [OptRes.ok.injEq] at h
    obtain ⟨e1, e2⟩ := h
    refine ⟨Y, u, i0, h1, hmoves h2, h4, by rw [← e1, h3], h7, ?_, Or.inr ⟨?_, ?_⟩⟩
    · rw [← e2, h5]; rfl
    · intro i; rw [← e2, h5]; rfl
    · rcases h9 with h9 | h9
      · exact Or.inl h9.1
      · exact Or.inr ⟨h9.1, h9.2.2⟩
  · obtain ⟨Y, u, i0, h1, h2, h3, h4, h5, h6, h7, h8, h9⟩ := hl
    simp only [OptRes.ok.injEq] at h
    obtain ⟨e1, e2⟩ := h
    refine ⟨Y, u, i0, h1, hmoves h2, h4, by rw [← e1, h3], by omega, ?_, Or.inl ?_⟩
    · rw [← e2, h5]; rfl
    · intro i; rw [← e2, h5]; rfl
  · simp at h
  · simp at h

theorem Fl.sub_self_fin (q : K) : (Fl.fin q).sub (.fin q) = .fin 0 := by simp [Fl.sub]

theorem Fl.fin_of_test {a b : Fl K} {t r : K}
    (h : (Fl.lt ((a.sub b).abs) (.fin t) || Fl.lt (((a.sub b).div a).abs) (.fin r)) = true) : ∃ q, b = .fin q := by
  rcases a with _ | s | a <;> rcases b with _ | s' | b
  · simp [Fl.sub, Fl.abs, Fl.div, Fl.lt] at h
  · simp [Fl.sub, Fl.abs, Fl.div, Fl.lt] at h
  · exact ⟨_, rfl⟩
  · simp [Fl.sub, Fl.abs, Fl.div, Fl.lt] at h
  · cases s <;> cases s' <;> simp [Fl.sub, Fl.abs, Fl.div, Fl.lt] at h
  · exact ⟨_, rfl⟩
  · simp [Fl.sub, Fl.abs, Fl.div, Fl.lt] at h
  · simp [Fl.sub, Fl.abs, Fl.div, Fl.lt] at h
  · exact ⟨_, rfl⟩

/-- If the test of an element fires at `k` in a loop that goes on, and the element is then left alone, it
fires again. -/
theorem fired_again {P : Params K} [IsStrictOrderedRing K] (hpos : 0 < P.absTol) {A : Method K n X D M}
    {Y : Nat → B n X} {k : Nat} {i : Fin n} (hf : fired P A Y k i = true) (hgo : ∃ j, fired P A Y k j = false)
    (hfr : Y (k + 2) i = Y (k + 1) i) : fired P A Y (k + 1) i = true := by
  have hfin : ∃ q, A.metric (Y (k + 1) i) = .fin q := by
    obtain ⟨j, hj⟩ := hgo
    unfold fired checkConv at hf hj
    split at hj
    · simp at hj
    · next hm =>
      rw [if_neg hm] at hf
      exact Fl.fin_of_test hf
  obtain ⟨q, hq⟩ := hfin
  unfold fired checkConv
  split
  · rfl
  · simp only [errs, hfr, hq, Fl.sub_self_fin, Bool.or_eq_true]
    left
    simp [Fl.abs, Fl.lt, hpos]

/-- Once the test of an element has fired, its value does not change and its test fires at every later
iteration, if `abs_err_tolerance > 0`. -/
theorem frozen_aux {P : Params K} [IsStrictOrderedRing K] (hpos : 0 < P.absTol) {A : Method K n X D M} {o : Opts}
    (ho : o.implicit = false) {Y : Nat → B n X} {u : Nat} (hm : Moves P A o Y u) {k : Nat} {i : Fin n}
    (hf : fired P A Y k i = true) : ∀ j, k + 1 + j ≤ u → Y (k + 1 + j) i = Y (k + 1) i ∧
      (k + j < u → fired P A Y (k + j) i = true) := by
  intro j
  induction j with
  | zero => intro _; exact ⟨rfl, fun _ => hf⟩
  | succ j ih =>
    intro hj
    obtain ⟨a, b⟩ := ih (by omega)
    have hb := b (by omega)
    have hfr := hm.frozen ho (k + j + 1) (by omega) i hb
    have e1 : k + 1 + (j + 1) = k + j + 2 := by omega
    have e2 : k + 1 + j = k + j + 1 := by omega
    rw [e2] at a
    refine ⟨by rw [e1, hfr, a], ?_⟩
    intro _
    have := fired_again hpos hb (hm.goOn (k + j) (by omega)) hfr
    exact this

/-- C30 (modes `UNROLL` and `DLM`, positive absolute tolerance): read off the recorded histories: if the
convergence test fires for element `i` between columns `k` and `k + 1` of the error history, then in all
later columns of the state history, and in the final variables, the element has the value it had in column
`k + 1`.  Missing from C30: the modes `IMPLICIT` and `TRUNCATED` (`truncated_moves_converged`). -/
theorem converged_frozen_partial [IsStrictOrderedRing K] (P : Params K) (hpos : 0 < P.absTol) (A : Method K n X D M)
    (m : Mode) (hm : m = .unroll ∨ m = .dlm) (bwd : Option Int) (grad : Bool) (x : B n X) (mem : M) (xf : B n X)
    (info : Info K n X) (h : optimizeImpl P A m bwd grad x mem = .ok xf info)
    (i : Fin n) (k : Nat) (e0 e1 : B n (Fl K)) (he0 : info.errHist k = some e0) (he1 : info.errHist (k + 1) = some e1)
    (hf : checkConv P e1 e0 i = true) (yk : B n X) (hyk : info.stateHist (k + 1) = some yk) :
    xf i = yk i ∧ ∀ j yj, k + 1 ≤ j → info.stateHist j = some yj → yj i = yk i := by
  obtain ⟨Y, u, i0, hr, hmv, h0, hx, hu, hinfo, _⟩ := unroll_record P A m hm bwd grad x mem xf info h
  have hE : info.errHist = i0.errHist := by rw [hinfo]; rfl
  have hS : info.stateHist = i0.stateHist := by rw [hinfo]; rfl
  rw [hE] at he0 he1
  rw [hS] at hyk ⊢
  have hk1 : k + 1 ≤ u := by
    by_contra hc
    rw [(hr.rest (k + 1) (by omega)).2] at he1
    simp at he1
  obtain ⟨a1, a2⟩ := hr.hist k (by omega)
  obtain ⟨b1, b2⟩ := hr.hist (k + 1) hk1
  rw [a2] at he0; rw [b2] at he1; rw [b1] at hyk
  simp only [Option.some.injEq] at he0 he1 hyk
  subst he0; subst he1; subst hyk
  have key : ∀ j, k + 1 ≤ j → j ≤ u → Y j i = Y (k + 1) i := by
    intro j h1 h2
    have := (frozen_aux hpos rfl hmv hf (j - (k + 1)) (by omega)).1
    rwa [show k + 1 + (j - (k + 1)) = j by omega] at this
  refine ⟨by rw [hx]; exact key u hk1 (Nat.le_refl _), ?_⟩
  intro j yj hj hyj
  have hju : j ≤ u := by
    by_contra hc
    rw [(hr.rest j (by omega)).1] at hyj
    simp at hyj
  rw [(hr.hist j hju).1] at hyj
  simp only [Option.some.injEq] at hyj
  subst hyj
  exact key j hj hju

/-- C28: in every mode and for every run that returns, no element's final status is `START`. -/
theorem final_status_not_start (P : Params K) (A : Method K n X D M) (m : Mode) (bwd : Option Int) (grad : Bool)
    (x : B n X) (mem : M) (xf : B n X) (info : Info K n X)
    (h : optimizeImpl P A m bwd grad x mem = .ok xf info) (i : Fin n) : info.status i ≠ .start := by
  have hloop : ∀ (o : Opts) (num : Int) (x : B n X) (mem : M) (t : LS K n X M),
      (optimizeLoop P A o num x mem (initInfo A x) = .finished t ∨
       optimizeLoop P A o num x mem (initInfo A x) = .failed t) → ∀ i, t.info.status i ≠ .start := by
    intro o num x mem t ht i
    have hl := loop_spec (P := P) (A := A) (o := o) (num := num.toNat) (3 * num.toNat) _ _
      (inv_start P A o x mem) (Nat.zero_le _) (Or.inr rfl) (by simp [startLS])
    unfold optimizeLoop at ht
    rcases ht with ht | ht <;> rw [ht] at hl
    · obtain ⟨Y, u, i0, h1, h2, h3, h4, h5, _⟩ := hl
      rw [h5]
      simp only
      split
      · simp
      · assumption
    · obtain ⟨Y, u, i0, h1, h2, h3, h4, h5, _⟩ := hl
      rw [h5]; simp
  unfold optimizeImpl at h
  split at h
  · simp at h
  · next nb nn _ =>
    split at h
    · split at h <;> rename_i hr
      · simp only [OptRes.ok.injEq] at h; rw [← h.2]; exact hloop _ _ _ _ _ (Or.inl hr) i
      · simp only [OptRes.ok.injEq] at h; rw [← h.2]; exact hloop _ _ _ _ _ (Or.inr hr) i
      · simp at h
      · simp at h
    · have hmerge : ∀ (g : Info K n X) a b (f inf : Info K n X), mergeInfos g a b f = some inf →
          (∀ i, f.status i ≠ .start) → inf.status i ≠ .start := by
        intro g a b f inf hh hf
        unfold mergeInfos at hh
        simp only at hh
        split at hh
        · next hc =>
          simp only [Option.some.injEq] at hh
          rw [← hh]
          simp only
          split
          · next hmi => rcases hc i hmi with e | e <;> rw [e] <;> simp
          · exact hf i
        · simp at hh
      have hsecond : ∀ (s : LS K n X M), (∀ i, s.info.status i ≠ .start) →
          (match optimizeLoop P A { implicit := decide (m = .implicit), grad := grad } nb s.x s.mem (initInfo A s.x) with
            | .finished t => (match mergeInfos t.info s.done t.done s.info with
              | some info => OptRes.ok t.x info | none => .assertionError)
            | .failed t => (match mergeInfos t.info s.done t.done s.info with
              | some info => OptRes.ok t.x info | none => .assertionError)
            | .raised => .runtimeError
            | .outOfFuel => .runtimeError) = .ok xf info → info.status i ≠ .start := by
        intro s hs hh
        split at hh
        · split at hh
          · next hmm => simp only [OptRes.ok.injEq] at hh; rw [← hh.2]; exact hmerge _ _ _ _ _ hmm hs
          · simp at hh
        · split at hh
          · next hmm => simp only [OptRes.ok.injEq] at hh; rw [← hh.2]; exact hmerge _ _ _ _ _ hmm hs
          · simp at hh
        · simp at hh
        · simp at hh
      simp only at h
      split at h <;> rename_i hr
      · exact hsecond _ (hloop _ _ _ _ _ (Or.inl hr)) h
      · exact hsecond _ (hloop _ _ _ _ _ (Or.inr hr)) h
      · simp at h
      · simp at h

/-- C28 (modes `UNROLL` and `DLM`): unless the solver failed (then every status is `FAIL`), an element's
status is `CONVERGED` exactly if its convergence test fired between two consecutive columns of the error
history, and otherwise `MAX_ITERATIONS`, which happens only after `max_iterations` iterations. -/
theorem final_status_exact (P : Params K) (A : Method K n X D M) (m : Mode) (hm : m = .unroll ∨ m = .dlm)
    (bwd : Option Int) (grad : Bool) (x : B n X) (mem : M) (xf : B n X) (info : Info K n X)
    (h : optimizeImpl P A m bwd grad x mem = .ok xf info) :
    (∀ i, info.status i = .fail) ∨
    ∀ i, (info.status i = .converged ↔ ∃ k e0 e1, info.errHist k = some e0 ∧ info.errHist (k + 1) = some e1 ∧
        checkConv P e1 e0 i = true) ∧
      (info.status i ≠ .converged → info.status i = .maxIterations ∧ info.convIter i = -1 ∧
        info.errHist P.maxIter.toNat ≠ none) := by
  obtain ⟨Y, u, i0, hr, hmv, h0, hx, hu, hinfo, hst⟩ := unroll_record P A m hm bwd grad x mem xf info h
  rcases hst with hst | ⟨hst, hend⟩
  · exact Or.inl hst
  right
  have hE : info.errHist = i0.errHist := by rw [hinfo]; rfl
  intro i
  have h1 := hst i
  rw [hr.status i] at h1
  have hiff : (∃ k < u, fired P A Y k i = true) ↔ ∃ k e0 e1, info.errHist k = some e0 ∧ info.errHist (k + 1) = some e1 ∧
        checkConv P e1 e0 i = true := by
    rw [hE]
    constructor
    · rintro ⟨k, hk, hf⟩
      exact ⟨k, _, _, (hr.hist k (by omega)).2, (hr.hist (k + 1) (by omega)).2, hf⟩
    · rintro ⟨k, e0, e1, a, b, c⟩
      have hk1 : k + 1 ≤ u := by
        by_contra hc
        rw [(hr.rest (k + 1) (by omega)).2] at b
        simp at b
      rw [(hr.hist k (by omega)).2] at a
      rw [(hr.hist (k + 1) hk1).2] at b
      simp only [Option.some.injEq] at a b
      subst a; subst b
      exact ⟨k, by omega, c⟩
  by_cases hex : ∃ k < u, fired P A Y k i = true
  · rw [if_pos hex] at h1
    simp only [reduceCtorEq, if_false] at h1
    exact ⟨⟨fun _ => hiff.1 hex, fun _ => h1⟩, fun hc => absurd h1 hc⟩
  · rw [if_neg hex] at h1
    simp only [if_true] at h1
    refine ⟨⟨fun hc => by rw [h1] at hc; simp at hc, fun hc => absurd (hiff.2 hc) hex⟩, fun _ => ⟨h1, ?_, ?_⟩⟩
    · rw [hinfo]
      simp [clearConvIter, h1]
    · rcases hend with rfl | ⟨h2, h3⟩
      · rw [hE, (hr.hist _ (Nat.le_refl _)).2]; simp
      · exact absurd ⟨u - 1, by omega, h3 i⟩ hex

/-- If the test of element `i` fires at iteration `k` for the first time, `converged_iter` counts `k + 1`
iterations. -/
theorem count_first [IsStrictOrderedRing K] {P : Params K} (hpos : 0 < P.absTol) {A : Method K n X D M} {o : Opts}
    {Y : Nat → B n X} {u : Nat} (ho : o.implicit = false ∨ u ≤ 1) (hmv : Moves P A o Y u) {i : Fin n} {k : Nat}
    (hku : k < u) (hkf : fired P A Y k i = true) (hmin : ∀ j < k, fired P A Y j i = false) :
    ((List.range u).filter fun j => !firedBefore P A Y j i).length = k + 1 := by
  have hkey : ∀ j, j < u → firedBefore P A Y j i = decide (k < j) := by
    intro j hj
    cases j with
    | zero => simp [firedBefore]
    | succ j =>
      simp only [firedBefore]
      rcases ho with ho | ho
      · by_cases hkj : k < j + 1
        · have := (frozen_aux hpos ho hmv hkf (j - k) (by omega)).2 (by omega)
          rw [show k + (j - k) = j by omega] at this
          rw [this, decide_eq_true hkj]
        · rw [hmin j (by omega), decide_eq_false hkj]
      · omega
  have hcount : ∀ v, v ≤ u → k < v → ((List.range v).filter fun j => !firedBefore P A Y j i).length = k + 1 := by
    intro v
    induction v with
    | zero => intro _ h; omega
    | succ v ih =>
      intro hv hkv
      rw [List.range_succ, List.filter_append, List.length_append]
      by_cases e : k < v
      · rw [ih (by omega) e]
        simp [hkey v (by omega), e]
      · have hkv' : k = v := by omega
        have : (List.range v).filter (fun j => !firedBefore P A Y j i) = List.range v := by
          rw [List.filter_eq_self]
          intro j hj
          have := List.mem_range.1 hj
          rw [hkey j (by omega), decide_eq_false (by omega)]
          rfl
        rw [this]
        simp [hkey v (by omega), hkv']
  exact hcount u (Nat.le_refl _) hku

/-- C28: `converged_iter` of a converged element is the column of the error history at which its test
fired for the first time (modes `UNROLL` and `DLM`, positive absolute tolerance). -/
theorem converged_iter_exact [IsStrictOrderedRing K] (P : Params K) (hpos : 0 < P.absTol) (A : Method K n X D M)
    (m : Mode) (hm : m = .unroll ∨ m = .dlm) (bwd : Option Int) (grad : Bool) (x : B n X) (mem : M) (xf : B n X)
    (info : Info K n X) (h : optimizeImpl P A m bwd grad x mem = .ok xf info) (i : Fin n)
    (hc : info.status i = .converged) :
    ∃ k e0 e1, info.convIter i = (k + 1 : Nat) ∧ info.errHist k = some e0 ∧ info.errHist (k + 1) = some e1 ∧
      checkConv P e1 e0 i = true ∧
      ∀ j < k, ∀ f0 f1, info.errHist j = some f0 → info.errHist (j + 1) = some f1 → checkConv P f1 f0 i = false := by
  obtain ⟨Y, u, i0, hr, hmv, h0, hx, hu, hinfo, hst⟩ := unroll_record P A m hm bwd grad x mem xf info h
  have hE : info.errHist = i0.errHist := by rw [hinfo]; rfl
  have hC : info.convIter i = i0.convIter i := by
    rw [hinfo]; simp [clearConvIter, hc]
  rcases hst with hst | ⟨hst, _⟩
  · rw [hst i] at hc; simp at hc
  have h1 := hst i
  rw [hc, hr.status i] at h1
  have hex : ∃ k < u, fired P A Y k i = true := by
    by_contra hn
    rw [if_neg hn] at h1
    simp at h1
  -- the first iteration at which it fired
  classical
  have hex' : ∃ k, k < u ∧ fired P A Y k i = true := hex
  let k := Nat.find hex'
  obtain ⟨hku, hkf⟩ := Nat.find_spec hex'
  have hmin : ∀ j < k, fired P A Y j i = false := by
    intro j hj
    have := Nat.find_min hex' hj
    cases hfj : fired P A Y j i with
    | false => rfl
    | true => exact absurd ⟨by omega, hfj⟩ this
  refine ⟨k, _, _, ?_, by rw [hE]; exact (hr.hist k (by omega)).2, by rw [hE]; exact (hr.hist (k + 1) (by omega)).2, hkf, ?_⟩
  · rw [hC, hr.convIter i, count_first hpos (Or.inl rfl) hmv hku hkf hmin]
  · intro j hj f0 f1 a b
    rw [hE] at a b
    rw [(hr.hist j (by omega)).2] at a
    rw [(hr.hist (j + 1) (by omega)).2] at b
    simp only [Option.some.injEq] at a b
    subst a; subst b
    exact hmin j hj

/-- C29 (modes `UNROLL` and `DLM`): if no error is `nan`, then for each element there is a column `k` of
the histories with `best_err = error[k]`, `best_solution = state[k]`, no column has a smaller error, and
all earlier ones have larger errors. -/
theorem best_is_minimum (P : Params K) (A : Method K n X D M) (hnn : ∀ x, A.metric x ≠ .nan) (m : Mode)
    (hm : m = .unroll ∨ m = .dlm) (bwd : Option Int) (grad : Bool) (x : B n X) (mem : M) (xf : B n X)
    (info : Info K n X) (h : optimizeImpl P A m bwd grad x mem = .ok xf info) (i : Fin n) :
    ∃ k e y, info.errHist k = some e ∧ info.stateHist k = some y ∧ info.bestErr i = e i ∧ info.bestSol i = y i ∧
      (∀ j f, info.errHist j = some f → (f i).lt (e i) = false) ∧
      (∀ j f, j < k → info.errHist j = some f → (e i).lt (f i) = true) := by
  obtain ⟨Y, u, i0, hr, hmv, h0, hx, hu, hinfo, _⟩ := unroll_record P A m hm bwd grad x mem xf info h
  obtain ⟨k, hk, b1, b2, b3, b4, b5⟩ := hr.best hnn i
  have hE : info.errHist = i0.errHist := by rw [hinfo]; rfl
  have hS : info.stateHist = i0.stateHist := by rw [hinfo]; rfl
  have hB : info.bestErr = i0.bestErr := by rw [hinfo]; rfl
  have hB' : info.bestSol = i0.bestSol := by rw [hinfo]; rfl
  rw [hE, hS, hB, hB']
  refine ⟨k, _, _, (hr.hist k hk).2, (hr.hist k hk).1, b1, b2, ?_, ?_⟩
  · intro j f hf
    have hj : j ≤ u := by
      by_contra hc
      rw [(hr.rest j (by omega)).2] at hf
      simp at hf
    rw [(hr.hist j hj).2] at hf
    simp only [Option.some.injEq] at hf
    subst hf
    exact b4 j hj
  · intro j f hjk hf
    rw [(hr.hist j (by omega)).2] at hf
    simp only [Option.some.injEq] at hf
    subst hf
    exact b5 j hjk

theorem Fl.eq_of_not_lt {a b : Fl K} (ha : a ≠ .nan) (hb : b ≠ .nan) (h1 : a.lt b = false) (h2 : b.lt a = false) :
    a = b := by
  rcases a with _ | s | a <;> rcases b with _ | s' | b <;> simp_all [Fl.lt]
  · cases s <;> cases s' <;> simp_all
  · exact le_antisymm h2 h1

/-- Merging keeps the better of the two records. -/
theorem best_of_merge (g info inf : Info K n X) (a b : Nat) (h : mergeInfos g a b info = some inf)
    (i : Fin n) (h1 : info.bestErr i ≠ .nan) (h2 : g.bestErr i ≠ .nan) :
    ((info.bestErr i).lt (g.bestErr i) = true ∧ inf.bestErr i = info.bestErr i ∧ inf.bestSol i = info.bestSol i) ∨
    ((info.bestErr i).lt (g.bestErr i) = false ∧ inf.bestErr i = g.bestErr i ∧ inf.bestSol i = g.bestSol i) := by
  unfold mergeInfos at h
  simp only at h
  split at h
  · simp only [Option.some.injEq] at h
    rw [← h]
    simp only
    rw [Fl.minimum_eq h1 h2]
    by_cases hlt : (info.bestErr i).lt (g.bestErr i) = true
    · rw [if_pos hlt, if_neg (by rw [Fl.not_lt_of_lt hlt]; simp)]
      exact Or.inl ⟨hlt, rfl, rfl⟩
    · rw [if_neg hlt]
      refine Or.inr ⟨by simpa using hlt, ?_, rfl⟩
      by_cases hgt : (g.bestErr i).lt (info.bestErr i) = true
      · rw [if_pos hgt]
      · rw [if_neg hgt]
        exact Fl.eq_of_not_lt h1 h2 (by simpa using hlt) (by simpa using hgt)
  · simp at h

/-- What `optimize()` returns in the modes `IMPLICIT` and `TRUNCATED`: two runs, the first without
gradients and the second starting where the first ends; the returned info merges the records of the two. -/
theorem two_phase_record (P : Params K) (A : Method K n X D M) (m : Mode) (hm : ¬ (m = .unroll ∨ m = .dlm))
    (bwd : Option Int) (grad : Bool) (x : B n X) (mem : M) (xf : B n X) (info : Info K n X)
    (h : optimizeImpl P A m bwd grad x mem = .ok xf info) :
    ∃ nb nn, splitIters P.maxIter m bwd = some (nb, nn) ∧
    ∃ Y u i1 st1 Y' u' i2 st2 d d', Record P A Y u i1 ∧ Moves P A {} Y u ∧ Y 0 = x ∧ u ≤ nn.toNat ∧
      Record P A Y' u' i2 ∧ Moves P A { implicit := decide (m = .implicit) } Y' u' ∧ Y' 0 = Y u ∧ u' ≤ nb.toNat ∧
      xf = Y' u' ∧ mergeInfos { i2 with status := st2 } d d' { i1 with status := st1 } = some info ∧
      ((∀ i, st1 i = .fail) ∨ ((∀ i, st1 i = if i1.status i = .start then .maxIterations else i1.status i) ∧
        (u = nn.toNat ∨ ∀ i, fired P A Y (u - 1) i = true ∧ 0 < u))) ∧
      ((∀ i, st2 i = .fail) ∨ (∀ i, st2 i = if i2.status i = .start then .maxIterations else i2.status i)) := by
  unfold optimizeImpl at h
  split at h
  · simp at h
  next nb nn hsp =>
  refine ⟨nb, nn, hsp, ?_⟩
  rw [if_neg hm] at h
  simp only at h
  have hloop : ∀ (o : Opts) (num : Int) (x : B n X) (mem : M) (t : LS K n X M),
      (optimizeLoop P A o num x mem (initInfo A x) = .finished t ∨
       optimizeLoop P A o num x mem (initInfo A x) = .failed t) →
      ∃ Y u i st, Record P A Y u i ∧ Moves P A o Y u ∧ Y 0 = x ∧ u ≤ num.toNat ∧ t.x = Y u ∧
        t.info = { i with status := st } ∧
        ((∀ j, st j = .fail) ∨ ((∀ j, st j = if i.status j = .start then .maxIterations else i.status j) ∧
          (u = num.toNat ∨ ∀ i, fired P A Y (u - 1) i = true ∧ 0 < u))) := by
    intro o num x mem t ht
    have hl := loop_spec (P := P) (A := A) (o := o) (num := num.toNat) (3 * num.toNat) _ _
      (inv_start P A o x mem) (Nat.zero_le _) (Or.inr rfl) (by simp [startLS])
    unfold optimizeLoop at ht
    rcases ht with ht | ht <;> rw [ht] at hl
    · obtain ⟨Y, u, i0, h1, h2, h3, h4, h5, _, h6, _, h7⟩ := hl
      refine ⟨Y, u, i0, _, h1, h2, h4, h6, h3, h5, Or.inr ⟨fun _ => rfl, ?_⟩⟩
      rcases h7 with h7 | h7
      · exact Or.inl h7.1
      · exact Or.inr fun i => ⟨h7.2.2 i, h7.1⟩
    · obtain ⟨Y, u, i0, h1, h2, h3, h4, h5, _, h6, _⟩ := hl
      exact ⟨Y, u, i0, _, h1, h2, h4, by omega, h3, h5, Or.inl fun _ => rfl⟩
  have key : ∀ s : LS K n X M, (optimizeLoop P A { grad := false } nn x mem (initInfo A x) = .finished s ∨
       optimizeLoop P A { grad := false } nn x mem (initInfo A x) = .failed s) → ∀ t : LS K n X M,
      (optimizeLoop P A { implicit := decide (m = .implicit), grad := grad } nb s.x s.mem (initInfo A s.x) = .finished t ∨
       optimizeLoop P A { implicit := decide (m = .implicit), grad := grad } nb s.x s.mem (initInfo A s.x) = .failed t) →
      (match mergeInfos t.info s.done t.done s.info with
        | some info => OptRes.ok t.x info | none => .assertionError) = .ok xf info →
      ∃ Y u i1 st1 Y' u' i2 st2 d d', Record P A Y u i1 ∧ Moves P A {} Y u ∧ Y 0 = x ∧ u ≤ nn.toNat ∧
        Record P A Y' u' i2 ∧ Moves P A { implicit := decide (m = .implicit) } Y' u' ∧ Y' 0 = Y u ∧ u' ≤ nb.toNat ∧
        xf = Y' u' ∧ mergeInfos { i2 with status := st2 } d d' { i1 with status := st1 } = some info ∧
        ((∀ i, st1 i = .fail) ∨ ((∀ i, st1 i = if i1.status i = .start then .maxIterations else i1.status i) ∧
          (u = nn.toNat ∨ ∀ i, fired P A Y (u - 1) i = true ∧ 0 < u))) ∧
        ((∀ i, st2 i = .fail) ∨ (∀ i, st2 i = if i2.status i = .start then .maxIterations else i2.status i)) := by
    intro s hs t ht hh
    obtain ⟨Y, u, i1, st1, a1, a2, a3, a4, a5, a6, a7⟩ := hloop _ _ _ _ _ hs
    obtain ⟨Y', u', i2, st2, b1, b2, b3, b4, b5, b6, b7⟩ := hloop _ _ _ _ _ ht
    split at hh
    · next inf hmi =>
      simp only [OptRes.ok.injEq] at hh
      refine ⟨Y, u, i1, st1, Y', u', i2, st2, s.done, t.done, a1, ⟨a2.step, a2.frozen, a2.goOn⟩, a3, a4, b1,
        ⟨b2.step, b2.frozen, b2.goOn⟩, by rw [b3, a5], b4, by rw [← hh.1, b5], ?_, a7, b7.imp id fun h => h.1⟩
      rw [← a6, ← b6, hmi, hh.2]
    · simp at hh
  split at h <;> rename_i hr
  · split at h <;> rename_i hr2
    · exact key _ (Or.inl hr) _ (Or.inl hr2) h
    · exact key _ (Or.inl hr) _ (Or.inr hr2) h
    · simp at h
    · simp at h
  · split at h <;> rename_i hr2
    · exact key _ (Or.inr hr) _ (Or.inl hr2) h
    · exact key _ (Or.inr hr) _ (Or.inr hr2) h
    · simp at h
    · simp at h
  · simp at h
  · simp at h

/-- C29 in the modes `IMPLICIT` and `TRUNCATED`: if no error is `nan`, `best_err` is the smallest error of
all the values the variables take during both runs, and `best_solution` a value that attains it. -/
theorem best_is_minimum_two_phase (P : Params K) (A : Method K n X D M) (hnn : ∀ x, A.metric x ≠ .nan) (m : Mode)
    (hm : ¬ (m = .unroll ∨ m = .dlm)) (bwd : Option Int) (grad : Bool) (x : B n X) (mem : M) (xf : B n X)
    (info : Info K n X) (h : optimizeImpl P A m bwd grad x mem = .ok xf info) :
    ∃ nb nn, splitIters P.maxIter m bwd = some (nb, nn) ∧
    ∃ Y u Y' u', Moves P A {} Y u ∧ Y 0 = x ∧ u ≤ nn.toNat ∧
      Moves P A { implicit := decide (m = .implicit) } Y' u' ∧ Y' 0 = Y u ∧ u' ≤ nb.toNat ∧ xf = Y' u' ∧
      ∀ i, info.bestErr i = A.metric (info.bestSol i) ∧
        ((∃ k ≤ u, info.bestSol i = Y k i) ∨ (∃ k ≤ u', info.bestSol i = Y' k i)) ∧
        (∀ k ≤ u, (A.metric (Y k i)).lt (info.bestErr i) = false) ∧
        (∀ k ≤ u', (A.metric (Y' k i)).lt (info.bestErr i) = false) := by
  obtain ⟨nb, nn, hsp, Y, u, i1, st1, Y', u', i2, st2, d, d', a1, a2, a3, a4, b1, b2, b3, b4, hx, hmi, _⟩ :=
    two_phase_record P A m hm bwd grad x mem xf info h
  refine ⟨nb, nn, hsp, Y, u, Y', u', a2, a3, a4, b2, b3, b4, hx, ?_⟩
  intro i
  obtain ⟨k, hk, p1, p2, _, p3, _⟩ := a1.best hnn i
  obtain ⟨k', hk', q1, q2, _, q3, _⟩ := b1.best hnn i
  have hb := best_of_merge _ _ _ _ _ hmi i (by simp only; rw [p1]; exact hnn _) (by simp only; rw [q1]; exact hnn _)
  simp only at hb
  rcases hb with ⟨c1, c2, c3⟩ | ⟨c1, c2, c3⟩
  · refine ⟨by rw [c2, c3, p1, p2], Or.inl ⟨k, hk, by rw [c3, p2]⟩, ?_, ?_⟩
    · intro j hj; rw [c2, p1]; exact p3 j hj
    · intro j hj; rw [c2]
      exact Fl.not_lt_trans (b := i2.bestErr i) (by rw [q1]; exact hnn _) (by rw [q1]; exact q3 j hj)
        (Fl.not_lt_of_lt c1)
  · refine ⟨by rw [c2, c3, q1, q2], Or.inr ⟨k', hk', by rw [c3, q2]⟩, ?_, ?_⟩
    · intro j hj; rw [c2]
      exact Fl.not_lt_trans (b := i1.bestErr i) (by rw [p1]; exact hnn _) (by rw [p1]; exact p3 j hj) c1
    · intro j hj; rw [c2, q1]; exact q3 j hj

/-- C28 in the modes `IMPLICIT` and `TRUNCATED` (positive absolute tolerance): each element is in one of
these cases: the first run failed and its status is `FAIL`; its test fired in the first run and it is
`CONVERGED`, with `converged_iter` the iteration at which it fired first; it fired first in the second run,
which follows the `u` iterations of the first; it never fired and has status `MAX_ITERATIONS` and
`converged_iter = -1`. -/
theorem final_status_two_phase [IsStrictOrderedRing K] (P : Params K) (hpos : 0 < P.absTol) (A : Method K n X D M)
    (m : Mode) (hm : ¬ (m = .unroll ∨ m = .dlm)) (bwd : Option Int) (grad : Bool) (x : B n X) (mem : M) (xf : B n X)
    (info : Info K n X) (h : optimizeImpl P A m bwd grad x mem = .ok xf info) :
    ∃ nb nn, splitIters P.maxIter m bwd = some (nb, nn) ∧
    ∃ Y u Y' u', Moves P A {} Y u ∧ Y 0 = x ∧ u ≤ nn.toNat ∧
      Moves P A { implicit := decide (m = .implicit) } Y' u' ∧ Y' 0 = Y u ∧ u' ≤ nb.toNat ∧ xf = Y' u' ∧
      ((∀ i, info.status i = .fail) ∨ ∀ i,
        (∃ k < u, fired P A Y k i = true ∧ (∀ j < k, fired P A Y j i = false) ∧
          info.status i = .converged ∧ info.convIter i = (k + 1 : Nat)) ∨
        (u = nn.toNat ∧ (∀ k < u, fired P A Y k i = false) ∧
          ∃ k < u', fired P A Y' k i = true ∧ (∀ j < k, fired P A Y' j i = false) ∧
            info.status i = .converged ∧ info.convIter i = (u + (k + 1) : Nat)) ∨
        (u = nn.toNat ∧ (∀ k < u, fired P A Y k i = false) ∧ (∀ k < u', fired P A Y' k i = false) ∧
          info.status i = .maxIterations ∧ info.convIter i = -1)) := by
  obtain ⟨nb, nn, hsp, Y, u, i1, st1, Y', u', i2, st2, d, d', a1, a2, a3, a4, b1, b2, b3, b4, hx, hmi, hs1, hs2⟩ :=
    two_phase_record P A m hm bwd grad x mem xf info h
  refine ⟨nb, nn, hsp, Y, u, Y', u', a2, a3, a4, b2, b3, b4, hx, ?_⟩
  have ho : decide (m = .implicit) = false ∨ u' ≤ 1 := by
    cases m
    · simp
    · right
      simp only [splitIters, Option.some.injEq, Prod.mk.injEq] at hsp
      omega
    · simp
    · simp
  unfold mergeInfos at hmi
  simp only at hmi
  split at hmi
  · next hassert =>
    simp only [Option.some.injEq] at hmi
    rcases hs1 with hs1 | ⟨hs1, hend⟩
    · left
      intro i
      rw [← hmi]
      simp [hs1 i]
    · right
      intro i
      have hfirst : ∀ (Z : Nat → B n X) (v : Nat), (∃ k < v, fired P A Z k i = true) →
          ∃ k < v, fired P A Z k i = true ∧ ∀ j < k, fired P A Z j i = false := by
        classical
        intro Z v hex
        refine ⟨Nat.find hex, (Nat.find_spec hex).1, (Nat.find_spec hex).2, ?_⟩
        intro j hj
        have := Nat.find_min hex hj
        cases hfj : fired P A Z j i with
        | false => rfl
        | true => exact absurd ⟨by have := (Nat.find_spec hex).1; omega, hfj⟩ this
      have e1 := hs1 i
      rw [a1.status i] at e1
      by_cases hex : ∃ k < u, fired P A Y k i = true
      · left
        rw [if_pos hex] at e1
        simp only [reduceCtorEq, if_false] at e1
        obtain ⟨k, hk, hf, hmin⟩ := hfirst Y u hex
        refine ⟨k, hk, hf, hmin, ?_, ?_⟩
        · rw [← hmi]; simp [e1]
        · rw [← hmi]
          simp only [e1]
          rw [a1.convIter i, count_first hpos (Or.inl rfl) a2 hk hf hmin]
          simp
      · right
        rw [if_neg hex] at e1
        simp only [if_true] at e1
        have hun : u = nn.toNat := by
          rcases hend with e | e
          · exact e
          · exact absurd ⟨u - 1, by have := (e i).2; omega, (e i).1⟩ hex
        have hnf : ∀ k < u, fired P A Y k i = false := by
          intro k hk
          cases hfk : fired P A Y k i with
          | false => rfl
          | true => exact absurd ⟨k, hk, hfk⟩ hex
        have hci : i1.convIter i = (u : Int) := by
          rw [a1.convIter i]
          congr 1
          rw [List.filter_eq_self.2, List.length_range]
          intro k hk
          have := List.mem_range.1 hk
          cases k with
          | zero => rfl
          | succ k => simp only [firedBefore]; rw [hnf k (by omega)]; rfl
        have ha := hassert i (by simp [e1])
        have e2 : st2 i = if i2.status i = .start then .maxIterations else i2.status i := by
          rcases hs2 with hs2 | hs2
          · rw [hs2 i] at ha; simp at ha
          · exact hs2 i
        rw [b1.status i] at e2
        by_cases hex2 : ∃ k < u', fired P A Y' k i = true
        · left
          rw [if_pos hex2] at e2
          simp only [reduceCtorEq, if_false] at e2
          obtain ⟨k, hk, hf, hmin⟩ := hfirst Y' u' hex2
          refine ⟨hun, hnf, k, hk, hf, hmin, ?_, ?_⟩
          · rw [← hmi]; simp [e1, e2]
          · rw [← hmi]
            simp only [e1, e2]
            rw [b1.convIter i, count_first hpos ho b2 hk hf hmin, hci]
            simp
        · right
          rw [if_neg hex2] at e2
          simp only [if_true] at e2
          refine ⟨hun, hnf, ?_, ?_, ?_⟩
          · intro k hk
            cases hfk : fired P A Y' k i with
            | false => rfl
            | true => exact absurd ⟨k, hk, hfk⟩ hex2
          · rw [← hmi]; simp [e1, e2]
          · rw [← hmi]; simp [e1, e2]
  · simp at hmi

/-! ### C32 -/

/-- C32: for `max_iterations ≥ 1` and (in mode `TRUNCATED`) `backward_num_iterations ≥ 0`, the iterations
without and with gradients add up to `max_iterations`; all carry gradients in the modes `UNROLL` and
`DLM`, one in mode `IMPLICIT` and `min(backward_num_iterations, max_iterations)` in mode `TRUNCATED`, which
raises ValueError exactly if `backward_num_iterations` is missing. -/
theorem split_budget (maxIter : Int) (hpos : 1 ≤ maxIter) (m : Mode) (bwd : Option Int) (hb : ∀ b, bwd = some b → 0 ≤ b) :
    (splitIters maxIter m bwd = none ↔ m = .truncated ∧ bwd = none) ∧
    ∀ g ng, splitIters maxIter m bwd = some (g, ng) →
      g + ng = maxIter ∧ 0 ≤ g ∧ 0 ≤ ng ∧
      (m = .unroll ∨ m = .dlm → g = maxIter) ∧ (m = .implicit → g = 1) ∧
      (∀ b, m = .truncated → bwd = some b → g ≤ b ∧ (g = b ∨ g = maxIter)) := by
  constructor
  · cases m <;> cases bwd <;> simp [splitIters]
  · intro g ng h
    cases m <;> simp only [splitIters, Option.some.injEq, Prod.mk.injEq] at h
    · obtain ⟨rfl, rfl⟩ := h
      refine ⟨by omega, by omega, by omega, fun _ => rfl, by simp, by simp⟩
    · obtain ⟨rfl, rfl⟩ := h
      refine ⟨by omega, by omega, by omega, by simp, fun _ => rfl, by simp⟩
    · cases bwd with
      | none => simp at h
      | some b =>
        simp only [Option.some.injEq, Prod.mk.injEq] at h
        obtain ⟨rfl, rfl⟩ := h
        have := hb b rfl
        refine ⟨by omega, by omega, by omega, by simp, by simp, ?_⟩
        intro b' _ e
        simp only [Option.some.injEq] at e
        omega
    · obtain ⟨rfl, rfl⟩ := h
      refine ⟨by omega, by omega, by omega, fun _ => rfl, by simp, by simp⟩

end Verif.Nlopt
