import Verif.Dcem.LmlBatch

/-!
# Whole batches of the limited multi-label projection (C114)
-/

namespace Verif.Dcem
open Real

/-! ## One iteration -/

theorem lmlStep_count {N branch : ℕ} (w : LmlRow) : lmlStep w.x N branch w.lo w.hi =
    if w.count N branch = 0 then
      some (lmlGrid branch w.lo (w.hi - w.lo) 0 - 7, lmlGrid branch w.lo (w.hi - w.lo) 1)
    else if w.count N branch < branch then
      some (lmlGrid branch w.lo (w.hi - w.lo) (w.count N branch - 1),
        lmlGrid branch w.lo (w.hi - w.lo) (w.count N branch))
    else none := rfl

/-- What one iteration does to a row. -/
def RowStep (N branch : ℕ) (eps : ℝ) (w w' : LmlRow) : Prop :=
  w'.x = w.x ∧ if w.active eps then lmlStep w.x N branch w.lo w.hi = some (w'.lo, w'.hi) else w' = w

theorem lmlBatchStep_rows {N branch : ℕ} {eps : ℝ} {ws ws' : List LmlRow}
    (h : lmlBatchStep N branch eps ws = .ok ws') : List.Forall₂ (RowStep N branch eps) ws ws' := by
  simp only [lmlBatchStep] at h
  split at h
  · simp at h
  rename_i hg
  rw [List.any_eq_true] at hg
  push Not at hg
  have hg' : ∀ w ∈ ws, w.active eps = true → (if w.count N branch = 0 then 0 else w.count N branch - 1) + 1 < branch := by
    intro w hw ha
    have := hg w (List.mem_filter.2 ⟨hw, ha⟩)
    simpa using this
  clear hg
  split at h
  · rename_i hj
    split at h
    · rename_i hlen
      rw [Except.ok.injEq] at h
      subst h
      have hall : ∀ w ∈ ws, w.active eps = true := by
        rw [List.length_filter_eq_length_iff] at hlen
        exact hlen
      clear hj hlen
      induction ws with
      | nil => exact .nil
      | cons w ws ih =>
        rw [List.map_cons, List.zipWith_cons_cons]
        refine .cons ?_ (ih (fun w' hw' => hg' w' (by simp [hw'])) fun w' hw' => hall w' (by simp [hw']))
        have ha := hall w (by simp)
        have hc := hg' w (by simp) ha
        rw [RowStep, if_pos ha, if_pos ha, lmlStep_count]
        by_cases h0 : w.count N branch = 0
        · simp [h0, LmlRow.update]
        · have h1 : w.count N branch < branch := by rw [if_neg h0] at hc; omega
          have h2 : w.count N branch - 1 + 1 = w.count N branch := by omega
          simp [h0, h1, h2, LmlRow.update]
    · simp at h
  · rename_i hj
    rw [Except.ok.injEq] at h
    subst h
    have hj' : ∀ w ∈ ws, w.active eps = true → w.count N branch ≠ 0 := by
      rw [List.any_eq_true] at hj
      push Not at hj
      intro w hw ha
      have := hj w (List.mem_filter.2 ⟨hw, ha⟩)
      simpa using this
    clear hj
    induction ws with
    | nil => exact .nil
    | cons w ws ih =>
      rw [List.map_cons]
      refine .cons ?_ (ih (fun w' hw' => hg' w' (by simp [hw'])) fun w' hw' => hj' w' (by simp [hw']))
      by_cases ha : w.active eps = true
      · have hc := hg' w (by simp) ha
        have h0 := hj' w (by simp) ha
        rw [RowStep, if_pos ha, if_pos ha, lmlStep_count]
        have h1 : w.count N branch < branch := by rw [if_neg h0] at hc; omega
        have h2 : w.count N branch - 1 + 1 = w.count N branch := by omega
        simp [h0, h1, h2, LmlRow.update]
      · rw [RowStep, if_neg ha, if_neg ha]
        exact ⟨rfl, rfl⟩

/-! ## The loop -/

/-- What the loop does to a row: with `n` iterations left, the search of the row alone returns the middle. -/
def RowLoop (N branch : ℕ) (eps : ℝ) (n : ℕ) (w : LmlRow) (r : ℝ) (p : LmlRow × ℝ) : Prop :=
  p.1.x = w.x ∧ lmlLoop w.x N branch eps n w.lo w.hi r = some (p.1.lo + p.2 / 2)

theorem lmlLoop_frozen {x : List ℝ} {N branch : ℕ} {eps lo hi : ℝ} (h : ¬ hi - lo > eps) (n : ℕ) :
    lmlLoop x N branch eps n lo hi (hi - lo) = some (lo + (hi - lo) / 2) := by
  cases n with
  | zero => rfl
  | succ n => rw [lmlLoop, if_neg h]

theorem forall₂_zip {α β γ : Type} {R : α → β → Prop} {l : List α} {m : List β} (h : List.Forall₂ R l m)
    (f : α → γ) : (l.map f).length = m.length := by rw [List.length_map, h.length_eq]

theorem active_iff {eps : ℝ} {w : LmlRow} : w.active eps = true ↔ w.hi - w.lo > eps := by
  simp [LmlRow.active]

theorem lmlBatchLoop_rows {N branch : ℕ} {eps : ℝ} (n : ℕ) : ∀ {ws ws' : List LmlRow} {r r' : List ℝ},
    r.length = ws.length → lmlBatchLoop N branch eps n ws (some r) = .ok (ws', r') →
    ws'.length = ws.length ∧ r'.length = ws.length ∧ ∀ (i : ℕ) (w : LmlRow) (ρ : ℝ), ws[i]? = some w → r[i]? = some ρ →
      ∃ w' ρ', ws'[i]? = some w' ∧ r'[i]? = some ρ' ∧ RowLoop N branch eps n w ρ (w', ρ') := by
  induction n with
  | zero =>
    intro ws ws' r r' hl h
    simp only [lmlBatchLoop, Except.ok.injEq, Prod.mk.injEq] at h
    obtain ⟨rfl, rfl⟩ := h
    exact ⟨rfl, hl, fun i w ρ e1 e2 => ⟨w, ρ, e1, e2, rfl, rfl⟩⟩
  | succ n ih =>
    intro ws ws' r r' _ h
    simp only [lmlBatchLoop] at h
    split at h
    · rename_i hz
      simp only [Except.ok.injEq, Prod.mk.injEq] at h
      obtain ⟨rfl, rfl⟩ := h
      refine ⟨rfl, by simp, fun i w ρ e1 _ => ⟨w, w.hi - w.lo, e1, by simp [e1], rfl, ?_⟩⟩
      have hna : ¬ w.hi - w.lo > eps := by
        rw [← active_iff]
        intro ha
        have hm : w ∈ ws.filter (LmlRow.active eps) := List.mem_filter.2 ⟨List.mem_of_getElem? e1, ha⟩
        rw [List.length_eq_zero_iff.1 hz] at hm
        simp at hm
      rw [lmlLoop, if_neg hna]
    · split at h
      · simp at h
      · rename_i ws1 hs
        have hr := lmlBatchStep_rows hs
        have hlen := hr.length_eq
        obtain ⟨h1, h2, h3⟩ := ih (r := ws.map fun w => w.hi - w.lo) (by simp [hlen]) h
        refine ⟨h1.trans hlen.symm, h2.trans hlen.symm, fun i w ρ e1 _ => ?_⟩
        have hi : i < ws.length := by
          by_contra hn
          rw [List.getElem?_eq_none (by omega)] at e1
          simp at e1
        have hi' : i < ws1.length := hlen ▸ hi
        have hw : ws[i] = w := by
          rw [List.getElem?_eq_getElem hi, Option.some.injEq] at e1; exact e1
        have hstep : RowStep N branch eps w ws1[i] := by
          have := List.Forall₂.get hr hi hi'
          simpa [hw] using this
        obtain ⟨w', ρ', f1, f2, f3, f4⟩ := h3 i ws1[i] (w.hi - w.lo) (List.getElem?_eq_getElem hi') (by simp [e1])
        refine ⟨w', ρ', f1, f2, f3.trans hstep.1, ?_⟩
        by_cases ha : w.hi - w.lo > eps
        · have h5 := hstep.2
          rw [if_pos (active_iff.2 ha)] at h5
          rw [lmlLoop, if_pos ha, h5]
          dsimp only
          rw [hstep.1] at f4
          exact f4
        · have h5 := hstep.2
          rw [if_neg (fun h => ha (active_iff.1 h))] at h5
          rw [h5, lmlLoop_frozen ha] at f4
          rw [lmlLoop, if_neg ha]
          exact f4

/-- **A batch is projected row by row**: when the forward pass of a batch returns, every row of the result is
that of the row alone; the mask of the rows still searched makes no difference. -/
theorem lml_batch_rows {N branch n_iter : ℕ} {eps : ℝ} {nx : ℕ} {xs ys : List (List ℝ)}
    (hnx : ∀ x ∈ xs, x.length = nx) (h : lmlBatch N branch n_iter eps nx xs = .ok ys) :
    List.Forall₂ (fun x y => lml N branch n_iter eps x = some y) xs ys := by
  rw [lmlBatch] at h
  split at h
  · rename_i hle
    simp only [Except.ok.injEq] at h
    subst h
    rw [List.forall₂_map_right_iff, List.forall₂_same]
    intro x hx
    rw [lml, if_pos (by rw [hnx x hx]; exact hle)]
  · rename_i hle
    split at h
    · simp at h
    rename_i ws r hl
    simp only [Except.ok.injEq] at h
    subst h
    have key : ws.length = xs.length ∧ r.length = xs.length ∧ ∀ (i : ℕ) (x : List ℝ), xs[i]? = some x →
        ∃ w' ρ', ws[i]? = some w' ∧ r[i]? = some ρ' ∧
          RowLoop N branch eps n_iter (lmlRow N x) ((lmlRow N x).hi - (lmlRow N x).lo) (w', ρ') := by
      cases n_iter with
      | zero => simp [lmlBatchLoop] at hl
      | succ n =>
        have hl' : lmlBatchLoop N branch eps (n + 1) (xs.map (lmlRow N))
            (some ((xs.map (lmlRow N)).map fun w => w.hi - w.lo)) = .ok (ws, r) := hl
        obtain ⟨h1, h2, h3⟩ := lmlBatchLoop_rows (n + 1) (by simp) hl'
        refine ⟨by simpa using h1, by simpa using h2, fun i x e => h3 i _ _ (by simp [e]) (by simp [e])⟩
    obtain ⟨k1, k2, k3⟩ := key
    rw [List.forall₂_iff_get]
    refine ⟨by simp [k1, k2], fun i hi hi' => ?_⟩
    have hx : xs[i]? = some xs[i] := List.getElem?_eq_getElem hi
    obtain ⟨w', ρ', f1, f2, f3, f4⟩ := k3 i xs[i] hx
    have hw' : ws[i]'(by omega) = w' := by
      rw [List.getElem?_eq_getElem (by omega), Option.some.injEq] at f1; exact f1
    have hr' : r[i]'(by omega) = ρ' := by
      rw [List.getElem?_eq_getElem (by omega), Option.some.injEq] at f2; exact f2
    simp only [List.get_eq_getElem, List.getElem_zipWith, hw', hr']
    rw [lml, if_neg (by rw [hnx _ (List.getElem_mem hi)]; exact hle)]
    simp only [lmlRow] at f4 f3
    simp only [f4, f3]

/-! ## When the batch is accepted -/

theorem count_eq {N branch : ℕ} (w : LmlRow) : open Classical in w.count N branch =
    ((List.range branch).filter fun j => decide (lmlF w.x N (lmlGrid branch w.lo (w.hi - w.lo) j) < 0)).length := by
  unfold LmlRow.count
  congr!

theorem count_bracket {N branch : ℕ} {w : LmlRow} (hb : 2 ≤ branch) (hx : w.x ≠ []) (h : Bracket w.x N w.lo w.hi) :
    w.count N branch ≠ 0 ∧ w.count N branch < branch := by
  classical
  obtain ⟨lo', hi', e, -, -⟩ := lmlStep_bracket hx hb h
  rw [lmlStep_count] at e
  by_cases h0 : w.count N branch = 0
  · exfalso
    have hmem : (0 : ℕ) ∈ (List.range branch).filter
        fun j => decide (lmlF w.x N (lmlGrid branch w.lo (w.hi - w.lo) j) < 0) := by
      refine List.mem_filter.2 ⟨List.mem_range.2 (by omega), ?_⟩
      rw [decide_eq_true_eq]
      simpa [lmlGrid] using h.lo
    rw [count_eq, List.length_eq_zero_iff] at h0
    have hmem' := List.mem_filter.1 hmem
    have : (0 : ℕ) ∈ ([] : List ℕ) := by
      rw [← h0]
      refine List.mem_filter.2 ⟨hmem'.1, ?_⟩
      simpa using hmem'.2
    simp at this
  · rw [if_neg h0] at e
    refine ⟨h0, ?_⟩
    by_contra hn
    rw [if_neg hn] at e
    simp at e

theorem count_high {N branch : ℕ} {w : LmlRow} (hx : w.x ≠ []) (hlt : w.lo < w.hi) (hb : 2 ≤ branch)
    (h : 0 ≤ lmlF w.x N w.lo) : w.count N branch = 0 := by
  have hbr : (0 : ℝ) < branch - 1 := by
    have : (2 : ℝ) ≤ branch := by exact_mod_cast hb
    linarith
  rw [count_eq, List.length_eq_zero_iff, List.filter_eq_nil_iff]
  intro j _
  rw [decide_eq_true_eq, not_lt]
  refine h.trans ((lmlF_strictMono hx N).monotone ?_)
  unfold lmlGrid
  have : 0 ≤ (w.hi - w.lo) * ((j : ℝ) / (branch - 1)) := by
    have : 0 < w.hi - w.lo := by linarith
    positivity
  linarith

theorem lmlBatchStep_bracket {N branch : ℕ} {eps : ℝ} {ws : List LmlRow} (hb : 2 ≤ branch)
    (h : ∀ w ∈ ws, w.x ≠ [] ∧ Bracket w.x N w.lo w.hi) :
    ∃ ws', lmlBatchStep N branch eps ws = .ok ws' ∧ ∀ w ∈ ws', w.x ≠ [] ∧ Bracket w.x N w.lo w.hi := by
  have hc : ∀ w ∈ ws, w.count N branch ≠ 0 ∧ w.count N branch < branch :=
    fun w hw => count_bracket hb (h w hw).1 (h w hw).2
  have hok : lmlBatchStep N branch eps ws = .ok (ws.map fun w => if w.active eps then w.update N branch else w) := by
    simp only [lmlBatchStep]
    rw [if_neg, if_neg]
    · rw [List.any_eq_true]
      push Not
      intro w hw
      simpa using (hc w (List.mem_filter.1 hw).1).1
    · rw [List.any_eq_true]
      push Not
      intro w hw
      obtain ⟨h0, h1⟩ := hc w (List.mem_filter.1 hw).1
      rw [if_neg h0]
      simp only [ne_eq, decide_eq_true_eq, not_le]
      omega
  refine ⟨_, hok, ?_⟩
  have hrows := lmlBatchStep_rows hok
  intro w' hw'
  obtain ⟨i, hi, rfl⟩ := List.getElem_of_mem hw'
  have hi0 : i < ws.length := hrows.length_eq ▸ hi
  have hs : RowStep N branch eps ws[i] _ := List.Forall₂.get hrows hi0 hi
  simp only [List.get_eq_getElem] at hs
  obtain ⟨h1, h2⟩ := h _ (List.getElem_mem hi0)
  rw [hs.1]
  refine ⟨h1, ?_⟩
  have h3 := hs.2
  split at h3
  · obtain ⟨lo', hi', e, hB, -⟩ := lmlStep_bracket h1 hb h2
    rw [e, Option.some.injEq, Prod.mk.injEq] at h3
    rw [← h3.1, ← h3.2]
    exact hB
  · rw [h3]; exact h2

theorem lmlBatchLoop_bracket {N branch : ℕ} {eps : ℝ} (hb : 2 ≤ branch) (n : ℕ) : ∀ {ws : List LmlRow} (r : List ℝ),
    (∀ w ∈ ws, w.x ≠ [] ∧ Bracket w.x N w.lo w.hi) → ∃ p, lmlBatchLoop N branch eps n ws (some r) = .ok p := by
  induction n with
  | zero => intro ws r _; exact ⟨_, rfl⟩
  | succ n ih =>
    intro ws r h
    simp only [lmlBatchLoop]
    split
    · exact ⟨_, rfl⟩
    · obtain ⟨ws', e, h'⟩ := lmlBatchStep_bracket (eps := eps) hb h
      rw [e]
      exact ih _ h'

/-- **Batches of rows of fewer than `e ^ 7` entries are projected**, whatever the tolerance and the number of
iterations. -/
theorem lml_batch_returns {N branch n_iter : ℕ} {eps : ℝ} {nx : ℕ} {xs : List (List ℝ)} (hN : 1 ≤ N)
    (hnx : ∀ x ∈ xs, x.length = nx) (h1 : (N : ℝ) < exp 7) (h2 : (nx : ℝ) - N < exp 7) (hb : 2 ≤ branch)
    (hn : 1 ≤ n_iter) : ∃ ys, lmlBatch N branch n_iter eps nx xs = .ok ys := by
  rw [lmlBatch]
  split
  · exact ⟨_, rfl⟩
  rename_i hle
  obtain ⟨m, rfl⟩ : ∃ m, n_iter = m + 1 := ⟨n_iter - 1, by omega⟩
  obtain ⟨p, hp⟩ := lmlBatchLoop_bracket (N := N) (eps := eps) hb (m + 1) (ws := xs.map (lmlRow N)) []
    (by
      intro w hw
      obtain ⟨x, hx, rfl⟩ := List.mem_map.1 hw
      have hlen : N < x.length := by rw [hnx x hx]; omega
      refine ⟨fun h => ?_, initial_bracket hN hlen h1 (by
        show (x.length : ℝ) - N < exp 7
        rw [hnx x hx]; exact h2)⟩
      have : x = [] := h
      subst this
      simp at hlen)
  have hp' : lmlBatchLoop N branch eps (m + 1) (xs.map (lmlRow N)) none = .ok p := hp
  rw [hp']
  exact ⟨_, rfl⟩

/-- **C114 (observable effect)**: the weights of every row of a batch. -/
theorem lml_batch_weights {N branch n_iter : ℕ} {eps : ℝ} {nx : ℕ} {xs : List (List ℝ)} (hN : 1 ≤ N)
    (hnx : ∀ x ∈ xs, x.length = nx) (hlen : N < nx) (h1 : (N : ℝ) < exp 7) (h2 : (nx : ℝ) - N < exp 7)
    (hb : 2 ≤ branch) (hn : 1 ≤ n_iter) (hw : ∀ x ∈ xs, (sortDesc x).getD (N - 1) 0 - (sortDesc x).getD N 0 + 14
      ≤ eps * (branch - 1 : ℝ) ^ (n_iter - 1)) :
    ∃ ys, lmlBatch N branch n_iter eps nx xs = .ok ys ∧ List.Forall₂ (fun x y => GoodWeights x N eps y) xs ys := by
  obtain ⟨ys, e⟩ := lml_batch_returns (eps := eps) hN hnx h1 h2 hb hn
  refine ⟨ys, e, ?_⟩
  have hr := lml_batch_rows hnx e
  rw [List.forall₂_iff_get] at hr ⊢
  refine ⟨hr.1, fun i hi hi' => ?_⟩
  have hx : xs.get ⟨i, hi⟩ ∈ xs := List.get_mem _ _
  have hlen' : N < (xs.get ⟨i, hi⟩).length := by rw [hnx _ hx]; exact hlen
  obtain ⟨nu, nuS, e2, hS, -, hd⟩ := lml_forward hN hlen' h1 (by rw [hnx _ hx]; exact h2) hb hn (hw _ hx)
  have h3 := hr.2 i hi hi'
  rw [e2, Option.some.injEq] at h3
  rw [← h3]
  exact weights_of_shift hS hd

/-! ## Single vectors -/

theorem lmlBatchStep_single {N branch : ℕ} {eps : ℝ} {w : LmlRow} (hb : 2 ≤ branch) (ha : w.active eps = true) :
    lmlBatchStep N branch eps [w] = match lmlStep w.x N branch w.lo w.hi with
      | none => .error .gather
      | some p => .ok [⟨w.x, p.1, p.2⟩] := by
  rw [lmlStep_count]
  by_cases h0 : w.count N branch = 0
  · have hnot : ¬ branch ≤ 1 := by omega
    simp [lmlBatchStep, ha, h0, LmlRow.update, hnot]
  · by_cases h1 : w.count N branch < branch
    · have h2 : w.count N branch - 1 + 1 = w.count N branch := by omega
      have h3 : ¬ branch ≤ w.count N branch := by omega
      simp [lmlBatchStep, ha, h0, h1, h2, h3, LmlRow.update]
    · have h2 : w.count N branch - 1 + 1 = w.count N branch := by omega
      simp [lmlBatchStep, ha, h0, h1, h2, Nat.not_lt.1 h1]

theorem lmlBatchLoop_single {N branch : ℕ} {eps : ℝ} (hb : 2 ≤ branch) (n : ℕ) : ∀ (w : LmlRow) (r : ℝ),
    (∃ w' ρ, lmlBatchLoop N branch eps n [w] (some [r]) = .ok ([w'], [ρ]) ∧ RowLoop N branch eps n w r (w', ρ)) ∨
    (lmlBatchLoop N branch eps n [w] (some [r]) = .error .gather ∧
      lmlLoop w.x N branch eps n w.lo w.hi r = none) := by
  induction n with
  | zero => intro w r; exact .inl ⟨w, r, rfl, rfl, rfl⟩
  | succ n ih =>
    intro w r
    by_cases ha : w.active eps = true
    · have ha' := active_iff.1 ha
      simp only [lmlBatchLoop, List.filter_cons, ha, if_true, List.filter_nil, List.length_singleton, one_ne_zero,
        if_false, lmlBatchStep_single hb ha, RowLoop, lmlLoop, if_pos ha', List.map_cons, List.map_nil]
      cases hs : lmlStep w.x N branch w.lo w.hi with
      | none => exact .inr ⟨rfl, rfl⟩
      | some p =>
        dsimp only
        rcases ih ⟨w.x, p.1, p.2⟩ (w.hi - w.lo) with ⟨w', ρ, e1, e2, e3⟩ | ⟨e1, e2⟩
        · exact .inl ⟨w', ρ, e1, e2, e3⟩
        · exact .inr ⟨e1, e2⟩
    · have ha' := fun h => ha (active_iff.2 h)
      refine .inl ⟨w, w.hi - w.lo, by simp [lmlBatchLoop, ha], rfl, ?_⟩
      rw [lmlLoop, if_neg ha']

/-- **A single vector** is projected as `lml` describes (C67), and raises exactly where it does not return. -/
theorem lml_single {N branch n_iter : ℕ} {eps : ℝ} (x : List ℝ) (hb : 2 ≤ branch) (hn : 1 ≤ n_iter) :
    lmlSingle N branch n_iter eps x = match lml N branch n_iter eps x with
      | none => .error .gather
      | some y => .ok (some y) := by
  rw [lmlSingle, lmlBatch, lml]
  by_cases hle : x.length ≤ N
  · rw [if_pos hle, if_pos hle]; rfl
  · rw [if_neg hle, if_neg hle]
    obtain ⟨m, rfl⟩ : ∃ m, n_iter = m + 1 := ⟨n_iter - 1, by omega⟩
    have hl : lmlBatchLoop N branch eps (m + 1) ([x].map (lmlRow N)) none =
        lmlBatchLoop N branch eps (m + 1) [lmlRow N x] (some [(lmlRow N x).hi - (lmlRow N x).lo]) := rfl
    rw [hl]
    rcases lmlBatchLoop_single (N := N) (eps := eps) hb (m + 1) (lmlRow N x) ((lmlRow N x).hi - (lmlRow N x).lo) with
      ⟨w', ρ, e1, e2, e3⟩ | ⟨e1, e2⟩
    · rw [e1]
      simp only [lmlRow] at e3 e2
      simp only [e3]
      simp [Except.map, e2]
    · rw [e1]
      simp only [lmlRow] at e2
      simp only [e2]
      rfl

/-! ## What can go wrong -/

theorem lmlLoop_total {x : List ℝ} {N branch : ℕ} {eps : ℝ} (hx : x ≠ []) (hb : 2 ≤ branch) (n : ℕ) :
    ∀ {lo hi r : ℝ}, lo < hi → 0 ≤ lmlF x N hi → ∃ nu, lmlLoop x N branch eps n lo hi r = some nu := by
  have hbr : (0 : ℝ) < branch - 1 := by
    have : (2 : ℝ) ≤ branch := by exact_mod_cast hb
    linarith
  induction n with
  | zero => intro lo hi r _ _; exact ⟨_, rfl⟩
  | succ n ih =>
    intro lo hi r hlt h
    by_cases ha : hi - lo > eps
    · rw [lmlLoop, if_pos ha]
      by_cases hlo : lmlF x N lo < 0
      · obtain ⟨lo', hi', e, hB, -⟩ := lmlStep_bracket hx hb ⟨hlo, h⟩
        rw [e]
        exact ih (hB.lt hx) hB.hi
      · rw [not_lt] at hlo
        rw [lmlStep_high hx hlt hb hlo]
        have hd : 0 < (hi - lo) / (branch - 1 : ℝ) := by
          have : 0 < hi - lo := by linarith
          positivity
        exact ih (by linarith) (hlo.trans ((lmlF_strictMono hx N).monotone (by linarith)))
    · rw [lmlLoop, if_neg ha]
      exact ⟨_, rfl⟩

/-- A single row is projected whatever its length, the tolerance and the number of iterations, if `N` is below
`e ^ 7`. -/
theorem lml_returns {N branch n_iter : ℕ} {eps : ℝ} (x : List ℝ) (h1 : (N : ℝ) < exp 7) (hb : 2 ≤ branch) :
    ∃ y, lml N branch n_iter eps x = some y := by
  rw [lml]
  split
  · exact ⟨_, rfl⟩
  rename_i hle
  have hx : x ≠ [] := by rintro rfl; simp at hle
  obtain ⟨nu, e⟩ := lmlLoop_total (N := N) (eps := eps) (r := -(sortDesc x).getD N 0 + 7 - (-(sortDesc x).getD (N - 1) 0 - 7))
    hx hb n_iter (initial_lt (by omega)) (initial_upper (by omega) h1)
  simp only [e]
  exact ⟨_, rfl⟩

theorem sortDesc_self {x : List ℝ} (h : x.Pairwise fun a b => b ≤ a) : sortDesc x = x := by
  refine List.Perm.eq_of_pairwise (le := fun a b : ℝ => b ≤ a) ?_ (sortDesc_sorted x) h (sortDesc_perm x)
  intro a b _ _ h1 h2
  exact le_antisymm h2 h1

/-- **Finding**: the mask `J` of the rows with only positive iterates has one entry for each row that is still
searched, but it is used on all rows; if another row is finished, the forward pass raises, although each row
alone is projected. -/
theorem lml_batch_mask_wrong {m : ℕ} (h1 : exp 14 ≤ m) (h2 : (m : ℝ) ≤ 2 * exp 14) (n : ℕ) :
    lmlBatch 1 10 (n + 2) 5 (m + 1) [0 :: List.replicate m (-20), List.replicate (m + 1) 0] = .error .mask ∧
    (∃ y, lml 1 10 (n + 2) 5 (0 :: List.replicate m (-20)) = some y) ∧
    ∃ y, lml 1 10 (n + 2) 5 (List.replicate (m + 1) 0) = some y := by
  have h7 := exp_seven_gt
  have hN : ((1 : ℕ) : ℝ) < exp 7 := by rw [Nat.cast_one]; linarith
  refine ⟨?_, lml_returns _ hN (by norm_num), lml_returns _ hN (by norm_num)⟩
  have e14 : exp 14 = exp 7 * exp 7 := by rw [← exp_add]; norm_num
  have hm1 : (1 : ℝ) ≤ m := by nlinarith
  have hm : 1 ≤ m := by exact_mod_cast hm1
  have sig : ∀ c : ℝ, sigmoid (-c) * (1 + exp c) = 1 := by
    intro c
    rw [sigmoid_def, neg_neg]
    exact inv_mul_cancel₀ (by positivity)
  set A : List ℝ := 0 :: List.replicate m (-20) with hA
  set B : List ℝ := List.replicate (m + 1) 0 with hB
  have hAx : A ≠ [] := by simp [hA]
  have hBx : B ≠ [] := by simp [hB]
  have sA : sortDesc A = A := by
    refine sortDesc_self (List.pairwise_cons.2 ⟨fun a ha => ?_, ?_⟩)
    · rw [List.eq_of_mem_replicate ha]; norm_num
    · rw [List.pairwise_replicate]; right; exact le_refl _
  have sB : sortDesc B = B := List.perm_replicate.mp (sortDesc_perm _)
  have fA : ∀ nu, lmlF A 1 nu = sigmoid (0 + nu) + m * sigmoid (-20 + nu) - 1 := by
    intro nu
    simp [lmlF, hA, List.map_replicate, List.sum_replicate]
  have fB : ∀ nu, lmlF B 1 nu = (m + 1) * sigmoid nu - 1 := by
    intro nu
    simp [lmlF, hB, List.map_replicate, List.sum_replicate]
  have rA : lmlRow 1 A = ⟨A, -7, 27⟩ := by
    have : (List.replicate m (-20 : ℝ)).getD 0 0 = -20 := by
      rw [List.getD_eq_getElem?_getD, List.getElem?_replicate, if_pos (by omega)]; rfl
    simp only [lmlRow, sA, LmlRow.mk.injEq, true_and]
    constructor
    · simp [hA]
    · rw [hA, List.getD_cons_succ, this]; norm_num
  have rB : lmlRow 1 B = ⟨B, -7, 7⟩ := by
    have : ∀ i, B.getD i 0 = 0 := by
      intro i
      rw [hB, List.getD_eq_getElem?_getD, List.getElem?_replicate]
      split <;> rfl
    simp only [lmlRow, sB, this, LmlRow.mk.injEq, true_and]
    norm_num
  have hBr : Bracket A 1 (-7) 27 := by
    constructor
    · rw [fA]
      have a1 := sig 7
      have a2 := sig 27
      have p1 := sigmoid_pos (-7)
      have p2 := sigmoid_pos (-27)
      have e27 : exp 27 = exp 14 * exp 13 := by rw [← exp_add]; norm_num
      have e13 : exp 7 ≤ exp 13 := exp_le_exp.2 (by norm_num)
      have q1 : sigmoid (-7) * 1000 ≤ 1 := by nlinarith
      have q2 : sigmoid (-27) * exp 14 * 1000 ≤ 1 := by
        have : sigmoid (-27) * exp 14 * exp 13 ≤ 1 := by rw [e27] at a2; nlinarith
        have p3 : 0 < sigmoid (-27) * exp 14 := by positivity
        nlinarith
      have q3 : m * sigmoid (-27) ≤ 2 * exp 14 * sigmoid (-27) := by gcongr
      rw [show (-20 : ℝ) + -7 = -27 by norm_num, zero_add]
      nlinarith
    · rw [fA]
      have b1 : (1 : ℝ) / 2 ≤ sigmoid (0 + 27) := by
        have := sigmoid_le (show (0 : ℝ) ≤ 0 + 27 by norm_num)
        rw [sigmoid_zero] at this; linarith
      have b2 : (1 : ℝ) / 2 ≤ sigmoid (-20 + 27) := by
        have := sigmoid_le (show (0 : ℝ) ≤ -20 + 27 by norm_num)
        rw [sigmoid_zero] at this; linarith
      have : (1 : ℝ) * (1 / 2) ≤ m * sigmoid (-20 + 27) := mul_le_mul hm1 b2 (by norm_num) (by linarith)
      generalize sigmoid (0 + 27) = u at *
      generalize (m : ℝ) * sigmoid (-20 + 27) = v at *
      linarith
  have high : ∀ c : ℝ, c ≤ 14 → 0 ≤ lmlF B 1 (-c) := by
    intro c hc
    rw [fB]
    have := sig c
    have p := sigmoid_pos (-c)
    have : exp c ≤ exp 14 := exp_le_exp.2 hc
    nlinarith
  -- the first iteration
  obtain ⟨lo', hi', eA, -, wA⟩ := lmlStep_bracket hAx (show 2 ≤ 10 by norm_num) hBr
  have cA := count_bracket (w := ⟨A, -7, 27⟩) (show 2 ≤ 10 by norm_num) hAx hBr
  have cB := count_high (N := 1) (w := ⟨B, -7, 7⟩) (show B ≠ [] from hBx) (by norm_num) (show 2 ≤ 10 by norm_num)
    (high 7 (by norm_num))
  have aA : LmlRow.active 5 ⟨A, -7, 27⟩ = true := active_iff.2 (by norm_num)
  have aB : LmlRow.active 5 ⟨B, -7, 7⟩ = true := active_iff.2 (by norm_num)
  have step1 : lmlBatchStep 1 10 5 [⟨A, -7, 27⟩, ⟨B, -7, 7⟩] =
      .ok [⟨A, lo', hi'⟩, ⟨B, -14, -7 + 14 / 9⟩] := by
    rw [show lmlStep A 1 10 (-7) 27 = lmlStep (⟨A, -7, 27⟩ : LmlRow).x 1 10 (⟨A, -7, 27⟩ : LmlRow).lo
      (⟨A, -7, 27⟩ : LmlRow).hi from rfl, lmlStep_count, if_neg cA.1, if_pos cA.2, Option.some.injEq,
      Prod.mk.injEq] at eA
    have c1 : (LmlRow.count 1 10 ⟨A, -7, 27⟩) - 1 + 1 = LmlRow.count 1 10 ⟨A, -7, 27⟩ := by
      have := cA.1; omega
    have c2 : ¬ 10 ≤ LmlRow.count 1 10 ⟨A, -7, 27⟩ := Nat.not_le.2 cA.2
    obtain ⟨eA1, eA2⟩ := eA
    dsimp only at eA1 eA2
    have gB1 : lmlGrid 10 (-7) (7 - -7) 1 = -7 + 14 / 9 := by unfold lmlGrid; norm_num
    have gB0 : lmlGrid 10 (-7) (7 - -7) 0 - 7 = -14 := by unfold lmlGrid; norm_num
    simp only [lmlBatchStep, List.filter_cons, aA, aB, if_true, List.filter_nil, List.any_cons, List.any_nil, cA.1,
      cB, if_false, c1, c2, List.length_cons, List.length_nil, List.map_cons, List.map_nil, LmlRow.update,
      List.zipWith_cons_cons, List.zipWith_nil_left]
    simp only [eA1, eA2, gB1, gB0]
    norm_num
  -- the second iteration
  have aA' : ¬ LmlRow.active 5 ⟨A, lo', hi'⟩ = true := by
    rw [active_iff]
    show ¬ hi' - lo' > 5
    rw [wA]; norm_num
  have aB' : LmlRow.active 5 ⟨B, -14, -7 + 14 / 9⟩ = true := active_iff.2 (by norm_num)
  have cB' := count_high (N := 1) (w := ⟨B, -14, -7 + 14 / 9⟩) (show B ≠ [] from hBx) (by norm_num) (show 2 ≤ 10 by norm_num)
    (high 14 le_rfl)
  have step2 : lmlBatchStep 1 10 5 [⟨A, lo', hi'⟩, ⟨B, -14, -7 + 14 / 9⟩] = .error .mask := by
    simp [lmlBatchStep, aA', aB', cB']
  rw [lmlBatch, if_neg (by omega)]
  rw [List.map_cons, List.map_cons, List.map_nil, rA, rB]
  have loop : lmlBatchLoop 1 10 5 (n + 2) [⟨A, -7, 27⟩, ⟨B, -7, 7⟩] none = .error .mask := by
    rw [lmlBatchLoop]
    simp only [List.filter_cons, aA, aB, if_true, List.filter_nil, List.length_cons, List.length_nil]
    rw [if_neg (by norm_num), step1]
    dsimp only
    rw [lmlBatchLoop]
    simp only [List.filter_cons, aA', aB', if_true, List.filter_nil]
    rw [if_neg (by simp), step2]
  rw [loop]

/-- Non-vacuity: such an `m` exists. -/
example : ∃ m : ℕ, exp 14 ≤ m ∧ (m : ℝ) ≤ 2 * exp 14 := by
  refine ⟨⌈exp 14⌉₊, Nat.le_ceil _, ?_⟩
  have h1 := Nat.ceil_lt_add_one (exp_pos 14).le
  have h2 : (1 : ℝ) ≤ exp 14 := by
    have := add_one_le_exp (14 : ℝ)
    linarith
  linarith

/-- Non-vacuity: a batch of two rows with different spreads (so that one is finished before the other), with the
default settings. -/
example : ∃ ys, lmlBatch 1 10 100 1e-3 3 [[5, 5, 5], [1000, 0, -1000]] = .ok ys ∧
    List.Forall₂ (fun x y => GoodWeights x 1 1e-3 y) [[5, 5, 5], [1000, 0, -1000]] ys := by
  have h7 := exp_seven_gt
  refine lml_batch_weights (by norm_num) (by simp) (by norm_num) (by norm_num) (by norm_num; linarith)
    (by norm_num) (by norm_num) ?_
  intro x hx
  rw [sortDesc_self]
  · fin_cases hx <;> norm_num
  · fin_cases hx <;> simp

/-! ## Gradients -/

/-- **The backward pass of a batch** is the derivative of the exact projections of its rows: along every
differentiable curve of batches, the loss changes at the rate of the returned gradient. -/
theorem lml_batch_backward {b n N : ℕ} (hlen : N < n) (x : ℝ → Fin b → Fin n → ℝ) (nu : ℝ → Fin b → ℝ)
    (x' g : Fin b → Fin n → ℝ) (t₀ : ℝ) (hx : ∀ r i, HasDerivAt (fun t => x t r i) (x' r i) t₀)
    (hnu : ∀ t r, ∑ i, sigmoid (x t r i + nu t r) = N) :
    HasDerivAt (fun t => ∑ r, ∑ i, g r i * sigmoid (x t r i + nu t r))
      (∑ r, ∑ i, lmlBatchBackward N (fun r i => sigmoid (x t₀ r i + nu t₀ r)) g r i * x' r i) t₀ := by
  have hne : NeZero n := ⟨by omega⟩
  refine HasDerivAt.fun_sum fun r _ => ?_
  have := lml_backward (fun t => x t r) (fun t => nu t r) (x' r) (g r) t₀ (hx r) fun t => hnu t r
  simp only [lmlBatchBackward, if_neg (Nat.not_le.2 hlen)]
  exact this

/-- Rows of at most `N` entries have constant weights, and the backward pass returns zero. -/
theorem lml_batch_backward_short {b n N : ℕ} (hlen : n ≤ N) (y g : Fin b → Fin n → ℝ) (r : Fin b) (i : Fin n) :
    lmlBatchBackward N y g r i = 0 := by simp [lmlBatchBackward, hlen]

end Verif.Dcem
