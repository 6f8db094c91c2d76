import Verif.Nlopt.Props
/-!
# Independence of batch elements: lemmas
-/
namespace Verif.Nlopt
set_option linter.unusedSectionVars false
variable {K : Type} [Field K] [LinearOrder K] {n : Nat} {X D μ : Type}

/-- Invariant: element `i` follows its own run as long as the mean test does not fire. -/
structure RowInv (P : Params K) (r : RowMethod K X D μ) (m : B n μ) (x : B n X) (s : LS K n X (B n μ)) : Prop where
  mem : s.mem = m
  last : s.info.lastErr = errs (r.batched n) s.x
  hist : NoMeanStop P s.info → ∀ i k y, k ≤ s.it → s.info.stateHist k = some y → y i = (rowRun P r (m i) (x i) k).1
  cur : NoMeanStop P s.info → ∀ i, s.x i = (rowRun P r (m i) (x i) s.it).1 ∧ s.conv i = (rowRun P r (m i) (x i) s.it).2
  rest : ∀ k > s.it, s.info.errHist k = none ∧ s.info.stateHist k = none

theorem rowFinish {P : Params K} {r : RowMethod K X D μ} {m : B n μ} {x : B n X} {s : LS K n X (B n μ)}
    (h : RowInv P r m x s) (d : B n D) (hd : ∀ i, r.delta (m i) (s.x i) = some (d i)) :
    match finish P s (retracted (r.batched n) false s.x (fun i => r.scale P.stepSize (d i)) s.conv) m
      (errs (r.batched n) (retracted (r.batched n) false s.x (fun i => r.scale P.stepSize (d i)) s.conv)) with
    | .cont t => RowInv P r m x t
    | .brk t => NoMeanStop P t.info → ∀ i k y, t.info.stateHist k = some y → y i = (rowRun P r (m i) (x i) k).1
    | _ => False := by
  let y := retracted (r.batched n) false s.x (fun i => r.scale P.stepSize (d i)) s.conv
  have hsub : ∀ inf : Info K n X, inf.errHist = (updateInfo P s.info y s.it (errs (r.batched n) y) s.conv).errHist →
      NoMeanStop P inf → NoMeanStop P s.info ∧ Fl.lt (meanAbs (errs (r.batched n) y)) (.fin P.absTol) = false := by
    intro inf he hn
    refine ⟨?_, ?_⟩
    · intro k e hk
      by_cases hkk : k = s.it
      · rw [(h.rest (k + 1) (by omega)).1] at hk; simp at hk
      · apply hn k e
        rw [he]
        simp [updateInfo, hkk, hk]
    · apply hn s.it
      rw [he]
      simp [updateInfo]
  have hy : NoMeanStop P s.info → ∀ i, y i = (rowRun P r (m i) (x i) (s.it + 1)).1 := by
    intro hn i
    obtain ⟨c1, c2⟩ := h.cur hn i
    have hdi := hd i
    rw [c1] at hdi
    simp only [y, retracted, rowRun, Bool.not_false, Bool.true_and, c2, hdi, c1]
    rfl
  have hc : NoMeanStop P s.info → Fl.lt (meanAbs (errs (r.batched n) y)) (.fin P.absTol) = false →
      ∀ i, checkConv P (errs (r.batched n) y) s.info.lastErr i = (rowRun P r (m i) (x i) (s.it + 1)).2 := by
    intro hn hm i
    have h1 := hy hn i
    obtain ⟨c1, c2⟩ := h.cur hn i
    have e1 : (rowRun P r (m i) (x i) (s.it + 1)).2 =
        rowTest P (r.metric (rowRun P r (m i) (x i) (s.it + 1)).1) (r.metric (rowRun P r (m i) (x i) s.it).1) := rfl
    rw [e1, ← h1, ← c1]
    unfold checkConv
    rw [if_neg (by rw [hm]; simp), h.last]
    rfl
  have hh : NoMeanStop P s.info → ∀ i k z, k ≤ s.it + 1 →
      (updateInfo P s.info y s.it (errs (r.batched n) y) s.conv).stateHist k = some z → z i = (rowRun P r (m i) (x i) k).1 := by
    intro hn i k z hk hz
    by_cases hkk : k = s.it + 1
    · subst hkk
      simp only [updateInfo, if_true, Option.some.injEq] at hz
      rw [← hz]; exact hy hn i
    · simp only [updateInfo, if_neg hkk] at hz
      exact h.hist hn i k z (by omega) hz
  have hr : ∀ k > s.it + 1, (updateInfo P s.info y s.it (errs (r.batched n) y) s.conv).errHist k = none ∧
      (updateInfo P s.info y s.it (errs (r.batched n) y) s.conv).stateHist k = none := by
    intro k hk
    simp only [updateInfo, if_neg (show k ≠ s.it + 1 by omega)]
    exact h.rest k (by omega)
  unfold finish
  simp only
  by_cases ha : all (checkConv P (errs (r.batched n) y) s.info.lastErr) = true
  · rw [if_pos ha]
    intro hn i k z hz
    have hn' := (hsub _ rfl hn).1
    by_cases hk : k ≤ s.it + 1
    · exact hh hn' i k z hk hz
    · have := (hr k (by omega)).2
      exact absurd (hz.symm.trans this) (by simp)
  · rw [if_neg ha]
    refine ⟨rfl, rfl, ?_, ?_, hr⟩
    · intro hn i k z hk hz
      exact hh (hsub _ rfl hn).1 i k z hk hz
    · intro hn i
      obtain ⟨a, b⟩ := hsub _ rfl hn
      exact ⟨hy a i, hc a b i⟩

theorem rowPass {P : Params K} {r : RowMethod K X D μ} (hcomp : r.comp = none) {m : B n μ} {x : B n X}
    {s : LS K n X (B n μ)} (h : RowInv P r m x s) (grad : Bool) :
    match pass P (r.batched n) { grad := grad } s with
    | .cont t => RowInv P r m x t
    | .brk t => NoMeanStop P t.info → ∀ i k y, t.info.stateHist k = some y → y i = (rowRun P r (m i) (x i) k).1
    | .failed t => ∀ i, t.info.status i = .fail
    | .raised => True := by
  unfold pass
  simp only [computeDelta, Bool.false_eq_true, if_false]
  cases hd : (r.batched n).delta s.mem s.x with
  | none =>
    simp only
    cases grad <;> simp
  | some d =>
    simp only
    have hd' : ∀ i, r.delta (m i) (s.x i) = some (d i) := by
      intro i
      unfold RowMethod.batched at hd
      simp only at hd
      split at hd
      · next hh =>
        simp only [Option.some.injEq] at hd
        rw [← hd]
        have hmi : m i = s.mem i := by rw [h.mem]
        rw [hmi]
        simp
      · simp at hd
    have := rowFinish h d hd'
    have hstep : step (r.batched n) { grad := grad } s (fun i => (r.batched n).scale (stepOf P { grad := grad }) (d i)) =
        (retracted (r.batched n) false s.x (fun i => r.scale P.stepSize (d i)) s.conv, m,
         errs (r.batched n) (retracted (r.batched n) false s.x (fun i => r.scale P.stepSize (d i)) s.conv), false) := by
      simp only [step, RowMethod.batched, hcomp, stepOf, Bool.false_and, Bool.false_eq_true, if_false, h.mem]
      rfl
    rw [hstep]
    simp only
    generalize finish P s _ m _ = o at this ⊢
    cases o with
    | cont t => exact this
    | brk t => exact this
    | failed t => exact this.elim
    | raised => trivial

theorem rowLoop {P : Params K} {r : RowMethod K X D μ} (hcomp : r.comp = none) {m : B n μ} {x : B n X} {grad : Bool}
    {num : Nat} : ∀ (fuel : Nat) (s : LS K n X (B n μ)), RowInv P r m x s →
    match loop P (r.batched n) { grad := grad } num fuel s with
    | .finished t => NoMeanStop P t.info → ∀ i k y, t.info.stateHist k = some y → y i = (rowRun P r (m i) (x i) k).1
    | .failed t => ∀ i, t.info.status i = .fail
    | _ => True := by
  have hfin : ∀ s : LS K n X (B n μ), RowInv P r m x s → NoMeanStop P (markMax s).info → ∀ i k y,
      (markMax s).info.stateHist k = some y → y i = (rowRun P r (m i) (x i) k).1 := by
    intro s h hn i k y hk
    by_cases hkk : k ≤ s.it
    · exact h.hist hn i k y hkk hk
    · exact absurd (hk.symm.trans (h.rest k (by omega)).2) (by simp)
  intro fuel
  induction fuel with
  | zero =>
    intro s h
    unfold loop
    by_cases hn : num ≤ s.it
    · rw [if_pos hn]; exact hfin s h
    · rw [if_neg hn]; trivial
  | succ f ih =>
    intro s h
    unfold loop
    by_cases hn : num ≤ s.it
    · rw [if_pos hn]; exact hfin s h
    · rw [if_neg hn]
      have hp := rowPass hcomp h grad
      simp only
      cases hc : pass P (r.batched n) { grad := grad } s with
      | cont t => rw [hc] at hp; exact ih t hp
      | brk t => rw [hc] at hp; exact hp
      | failed t => rw [hc] at hp; exact hp
      | raised => trivial

theorem rowStart (P : Params K) (r : RowMethod K X D μ) (m : B n μ) (x : B n X) :
    RowInv P r m x (startLS x m (initInfo (r.batched n) x)) := by
  refine ⟨rfl, rfl, ?_, fun _ i => ⟨rfl, rfl⟩, ?_⟩
  · intro _ i k y hk hy
    simp only [startLS, Nat.le_zero] at hk
    subst hk
    simp only [startLS, initInfo, if_true, Option.some.injEq] at hy
    rw [← hy]; rfl
  · intro k hk
    simp only [startLS] at hk
    simp [startLS, initInfo]; omega

/-- In the modes `UNROLL` and `DLM`, without rejections and with no mean stop, every column of the state
history holds the elements' own runs. -/
theorem unroll_rows (P : Params K) (r : RowMethod K X D μ) (hcomp : r.comp = none) (md : Mode)
    (hm : md = .unroll ∨ md = .dlm) (bwd : Option Int) (grad : Bool) (x : B n X) (m : B n μ) (xf : B n X)
    (info : Info K n X) (h : optimizeImpl P (r.batched n) md bwd grad x m = .ok xf info) :
    (∀ i, info.status i = .fail) ∨ (NoMeanStop P info → ∀ i k y, info.stateHist k = some y →
      y i = (rowRun P r (m i) (x i) k).1) := by
  unfold optimizeImpl at h
  have hsp : splitIters P.maxIter md bwd = some (P.maxIter, P.maxIter - P.maxIter) := by
    rcases hm with rfl | rfl <;> rfl
  rw [hsp] at h
  simp only [if_pos hm] at h
  have hl := rowLoop (P := P) (r := r) hcomp (m := m) (x := x) (grad := grad) (num := P.maxIter.toNat)
    (3 * P.maxIter.toNat) _ (rowStart P r m x)
  unfold optimizeLoop at h
  split at h <;> rename_i hr <;> rw [hr] at hl
  · simp only [OptRes.ok.injEq] at h
    rw [← h.2]; exact Or.inr hl
  · simp only [OptRes.ok.injEq] at h
    rw [← h.2]; exact Or.inl hl
  · simp at h
  · simp at h

end Verif.Nlopt

namespace Verif.Nlopt
set_option linter.unusedSectionVars false
variable {K : Type} [Field K] [LinearOrder K] {n : Nat} {X D μ : Type}

/-- What a run records about an element, in terms of the element's own run. -/
structure RowFacts (P : Params K) (r : RowMethod K X D μ) (m : μ) (x : X) (xf : X) (st : Status) (ci : Int)
    (be : Fl K) (bs : X) (u : Nat) : Prop where
  le : u ≤ P.maxIter.toNat
  fin : xf = (rowRun P r m x u).1
  stop : u = P.maxIter.toNat ∨ (0 < u ∧ (rowRun P r m x u).2 = true)
  status : st = if ∃ k < u, (rowRun P r m x (k + 1)).2 = true then .converged else .maxIterations
  iter : ci = if st = .maxIterations then -1 else
    (((List.range u).filter fun k => !(rowRun P r m x k).2).length : Int)
  best : (∀ x, r.metric x ≠ .nan) → ∃ k ≤ u, be = r.metric (rowRun P r m x k).1 ∧ bs = (rowRun P r m x k).1 ∧
    (∀ j ≤ u, (r.metric (rowRun P r m x j).1).lt (r.metric (rowRun P r m x k).1) = false) ∧
    (∀ j < k, (r.metric (rowRun P r m x k).1).lt (r.metric (rowRun P r m x j).1) = true)

theorem row_facts (P : Params K) (r : RowMethod K X D μ) (hcomp : r.comp = none) (md : Mode)
    (hm : md = .unroll ∨ md = .dlm) (bwd : Option Int) (grad : Bool) (x : B n X) (m : B n μ) (xf : B n X)
    (info : Info K n X) (h : optimizeImpl P (r.batched n) md bwd grad x m = .ok xf info) (hmean : NoMeanStop P info)
    (i : Fin n) (hfail : info.status i ≠ .fail) :
    ∃ u, RowFacts P r (m i) (x i) (xf i) (info.status i) (info.convIter i) (info.bestErr i) (info.bestSol i) u := by
  obtain ⟨Y, u, i0, hr, hmv, h0, hx, hu, hinfo, hst⟩ := unroll_record P _ md hm bwd grad x m xf info h
  rcases hst with hst | ⟨hst, hend⟩
  · exact absurd (hst i) hfail
  have hrows : ∀ i k y, info.stateHist k = some y → y i = (rowRun P r (m i) (x i) k).1 := by
    rcases unroll_rows P r hcomp md hm bwd grad x m xf info h with hh | hh
    · exact absurd (hh i) hfail
    · exact hh hmean
  have hE : info.errHist = i0.errHist := by rw [hinfo]; rfl
  have hS : info.stateHist = i0.stateHist := by rw [hinfo]; rfl
  have hY : ∀ k ≤ u, ∀ i, Y k i = (rowRun P r (m i) (x i) k).1 := by
    intro k hk i
    exact hrows i k _ (by rw [hS]; exact (hr.hist k hk).1)
  have hF : ∀ k < u, ∀ i, fired P (r.batched n) Y k i = (rowRun P r (m i) (x i) (k + 1)).2 := by
    intro k hk i
    have hm1 := hmean k _ (by rw [hE]; exact (hr.hist (k + 1) (by omega)).2)
    unfold fired checkConv
    rw [if_neg (by rw [hm1]; simp)]
    have e1 : (rowRun P r (m i) (x i) (k + 1)).2 =
        rowTest P (r.metric (rowRun P r (m i) (x i) (k + 1)).1) (r.metric (rowRun P r (m i) (x i) k).1) := rfl
    rw [e1, ← hY k (by omega) i, ← hY (k + 1) (by omega) i]
    rfl
  have hFB : ∀ k ≤ u, ∀ i, firedBefore P (r.batched n) Y k i = (rowRun P r (m i) (x i) k).2 := by
    intro k hk i
    cases k with
    | zero => rfl
    | succ k => exact hF k (by omega) i
  refine ⟨u, hu, by rw [hx, hY u (Nat.le_refl _)], ?_, ?_, ?_, ?_⟩
  · rcases hend with e | ⟨e1, e2⟩
    · exact Or.inl e
    · have := hF (u - 1) (by omega) i
      rw [show u - 1 + 1 = u by omega] at this
      exact Or.inr ⟨e1, by rw [← this]; exact e2 i⟩
  · rw [hst i, hr.status i]
    have : (∃ k < u, fired P (r.batched n) Y k i = true) ↔ ∃ k < u, (rowRun P r (m i) (x i) (k + 1)).2 = true := by
      constructor
      · rintro ⟨k, hk, hh⟩; exact ⟨k, hk, by rw [← hF k hk i]; exact hh⟩
      · rintro ⟨k, hk, hh⟩; exact ⟨k, hk, by rw [hF k hk i]; exact hh⟩
    by_cases hc : ∃ k < u, (rowRun P r (m i) (x i) (k + 1)).2 = true
    · rw [if_pos (this.2 hc), if_pos hc]; simp
    · rw [if_neg (fun e => hc (this.1 e)), if_neg hc]; simp
  · have : info.convIter i = if info.status i = .maxIterations then -1 else i0.convIter i := by
      conv_lhs => rw [hinfo]
      rfl
    rw [this, hr.convIter i]
    congr 3
    apply List.filter_congr
    intro k hk
    rw [hFB k (Nat.le_of_lt (List.mem_range.1 hk))]
  · intro hnn
    obtain ⟨k, hk, b1, b2, b3, b4, b5⟩ := hr.best hnn i
    have hB : info.bestErr i = i0.bestErr i := by rw [hinfo]; rfl
    have hB' : info.bestSol i = i0.bestSol i := by rw [hinfo]; rfl
    refine ⟨k, hk, by rw [hB, b1, hY k hk]; rfl, by rw [hB', b2, hY k hk], ?_, ?_⟩
    · intro j hj
      rw [← hY j hj, ← hY k hk]; exact b4 j hj
    · intro j hj
      rw [← hY j (by omega), ← hY k hk]; exact b5 j hj

/-- A converged element's own run stands still. -/
theorem rowRun_stable [IsStrictOrderedRing K] {P : Params K} (hpos : 0 < P.absTol) (r : RowMethod K X D μ) (m : μ) (x : X)
    {k : Nat} (h : (rowRun P r m x k).2 = true) : ∀ j, rowRun P r m x (k + j) = rowRun P r m x k := by
  intro j
  induction j with
  | zero => rfl
  | succ j ih =>
    have hfin : ∃ q, r.metric (rowRun P r m x k).1 = .fin q := by
      cases k with
      | zero => simp [rowRun] at h
      | succ k => exact Fl.fin_of_test h
    obtain ⟨q, hq⟩ := hfin
    rw [← Nat.add_assoc]
    show (_, _) = _
    simp only [ih, h, if_true, rowTest, hq, Fl.sub_self_fin]
    ext
    · rfl
    · rw [h]
      simp [Fl.abs, Fl.lt, hpos]

theorem facts_unique_le [IsStrictOrderedRing K] {P : Params K} (hpos : 0 < P.absTol) {r : RowMethod K X D μ} {m : μ} {x : X}
    {xf xf' : X} {st st' : Status} {ci ci' : Int} {be be' : Fl K} {bs bs' : X} {u u' : Nat}
    (h : RowFacts P r m x xf st ci be bs u) (h' : RowFacts P r m x xf' st' ci' be' bs' u') (hle : u ≤ u') :
    xf = xf' ∧ st = st' ∧ ci = ci' ∧ ((∀ x, r.metric x ≠ .nan) → be = be' ∧ bs = bs') := by
  -- after `u` nothing moves
  have hst : ∀ k, u ≤ k → k ≤ u' → rowRun P r m x k = rowRun P r m x u := by
    intro k h1 h2
    rcases h.stop with e | ⟨_, e⟩
    · have := h'.le
      have : k = u := by omega
      rw [this]
    · have := rowRun_stable hpos r m x e (k - u)
      rwa [show u + (k - u) = k by omega] at this
  have hS : st = st' := by
    rw [h.status, h'.status]
    congr 1
    apply propext
    constructor
    · rintro ⟨k, hk, hh⟩; exact ⟨k, by omega, hh⟩
    · rintro ⟨k, hk, hh⟩
      by_cases hku : k < u
      · exact ⟨k, hku, hh⟩
      · rcases h.stop with e | ⟨e1, e⟩
        · have := h'.le; omega
        · exact ⟨u - 1, by omega, by rw [show u - 1 + 1 = u by omega]; exact e⟩
  refine ⟨by rw [h.fin, h'.fin, hst u' hle (Nat.le_refl _)], hS, ?_, ?_⟩
  · rw [h.iter, h'.iter, ← hS]
    congr 2
    rcases h.stop with e | ⟨_, e⟩
    · have := h'.le
      have : u = u' := by omega
      rw [this]
    · obtain ⟨d, rfl⟩ := Nat.exists_eq_add_of_le hle
      rw [List.range_add, List.filter_append, List.length_append]
      have : ((List.range d).map (u + ·)).filter (fun k => !(rowRun P r m x k).2) = [] := by
        rw [List.filter_eq_nil_iff]
        intro k hk
        obtain ⟨j, _, rfl⟩ := List.mem_map.1 hk
        rw [rowRun_stable hpos r m x e j, e]
        simp
      rw [this]; simp
  · intro hnn
    obtain ⟨k, hk, b1, b2, b3, b4⟩ := h.best hnn
    obtain ⟨k', hk', c1, c2, c3, c4⟩ := h'.best hnn
    have hk'u : k' ≤ u := by
      by_contra hc
      have := c4 u (by omega)
      rw [hst k' (by omega) hk', Fl.lt_irrefl] at this
      simp at this
    have : k = k' := by
      rcases Nat.lt_trichotomy k k' with hlt | rfl | hlt
      · have a := c4 k hlt
        have b := b3 k' hk'u
        rw [a] at b; simp at b
      · rfl
      · have a := b4 k' hlt
        have b := c3 k (by omega)
        rw [a] at b; simp at b
    subst this
    exact ⟨by rw [b1, c1], by rw [b2, c2]⟩

end Verif.Nlopt
