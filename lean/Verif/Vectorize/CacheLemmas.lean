import Verif.Vectorize.CacheSpec
import Verif.Vectorize.Props
/-!
# Lemmas on the vectorization cache
-/
namespace Verif.Vectorize
open Verif Verif.Objective Verif.Update

variable {ρ ε R δ : Type}

/-! ### Tensors change only together with their counters -/

/-- from `h` to `h'` counters only grow, and a tensor changes only with its counter -/
def Mono (h h' : Heap ρ) : Prop :=
  ∀ v, (h v).numUpdates ≤ (h' v).numUpdates ∧
    ((h v).numUpdates = (h' v).numUpdates → (h v).tensor = (h' v).tensor)

theorem Mono.refl (h : Heap ρ) : Mono h h := fun _ => ⟨Nat.le_refl _, fun _ => rfl⟩

theorem Mono.trans {h1 h2 h3 : Heap ρ} (a : Mono h1 h2) (b : Mono h2 h3) : Mono h1 h3 := by
  intro v
  obtain ⟨a1, a2⟩ := a v
  obtain ⟨b1, b2⟩ := b v
  refine ⟨by omega, fun e => ?_⟩
  rw [a2 (by omega), b2 (by omega)]

theorem varUpdate_count {st st' : VarSt ρ} {t : Tensor ρ} {m : Option (List Bool)}
    (h : varUpdate st t m = .ok st') : st'.numUpdates = st.numUpdates + 1 := by
  unfold varUpdate at h
  split at h
  · cases h
  split at h
  · cases h
  split at h
  · cases h; rfl
  split at h
  · split at h
    · cases h
    · cases h; rfl
  · cases h; rfl

theorem Mono.put {h : Heap ρ} {v : Var} {st : VarSt ρ} {t : Tensor ρ} {m : Option (List Bool)}
    (hu : varUpdate (h v) t m = .ok st) : Mono h (h.put v st) := by
  intro u
  unfold Heap.put
  by_cases e : u = v
  · subst e
    rw [if_pos rfl, varUpdate_count hu]
    exact ⟨by omega, fun e => by omega⟩
  · rw [if_neg e]; exact ⟨Nat.le_refl _, fun _ => rfl⟩

theorem updLoop_mono (mask : Option (List Bool)) (inp : List (Nat × Tensor ρ)) (e : Env ρ) :
    Mono e.heap (updLoop e mask inp).1.heap := by
  induction inp generalizing e with
  | nil => exact Mono.refl _
  | cons p inp ih =>
    obtain ⟨n, t⟩ := p
    unfold updLoop
    split
    · exact Mono.refl _
    split
    · exact Mono.refl _
    split
    · exact ih e
    · split
      · exact Mono.refl _
      · rename_i st hst
        exact (Mono.put hst).trans (ih { e with heap := e.heap.put _ st })

theorem resolve_heap (e : Env ρ) : (resolveBatchSize e).1.heap = e.heap ∧
    (resolveBatchSize e).1.obj = e.obj := by
  unfold resolveBatchSize
  simp only
  split <;> exact ⟨rfl, rfl⟩

theorem update_mono (e : Env ρ) (inp : List (Nat × Tensor ρ)) (mask : Option (List Bool)) :
    Mono e.heap (update e inp mask).1.heap ∧ (update e inp mask).1.obj = e.obj := by
  have h1 := updLoop_mono mask inp e
  have h2 := (updLoop_obj mask inp e).1
  unfold update
  cases hl : updLoop e mask inp with
  | mk e' x =>
    rw [hl] at h1 h2
    cases x with
    | some x => exact ⟨h1, h2⟩
    | none =>
      simp only
      rw [(resolve_heap e').1, (resolve_heap e').2]
      exact ⟨h1, h2⟩

theorem error_mono {α : Type} (ev : Env ρ → Except Err α) (e : Env ρ)
    (inp : Option (List (Nat × Tensor ρ))) (also : Bool) :
    Mono e.heap (Update.error ev e inp also).1.heap ∧ (Update.error ev e inp also).1.obj = e.obj := by
  unfold Update.error
  cases inp with
  | none => exact ⟨Mono.refl _, rfl⟩
  | some inp =>
    simp only
    have h1 := update_mono e inp none
    cases hu : update e inp none with
    | mk e' x =>
      rw [hu] at h1
      cases x with
      | some x => exact h1
      | none =>
        simp only
        cases ev e' with
        | error x => exact h1
        | ok r =>
          simp only
          split
          · exact h1
          · have h2 := update_mono e' (savedTensors e) none
            cases hu2 : update e' (savedTensors e) none with
            | mk e'' x =>
              rw [hu2] at h2
              cases x with
              | some x => exact ⟨h1.1.trans h2.1, h2.2.trans h1.2⟩
              | none => exact ⟨h1.1.trans h2.1, h2.2.trans h1.2⟩

theorem retractFrom_mono (rf : RetractFn ρ δ) (mask : Option (List Bool)) (force : Bool)
    (delta : List (List δ)) (idx : Nat) (ord : List (Var × Nat)) (h : Heap ρ) :
    Mono h (retractFrom rf mask force delta idx ord h).1 := by
  induction ord generalizing idx h with
  | nil => exact Mono.refl _
  | cons p ord ih =>
    obtain ⟨v, d⟩ := p
    unfold retractFrom
    split
    · exact Mono.refl _
    · split
      · exact Mono.refl _
      · rename_i st hst
        exact (Mono.put hst).trans (ih _ _)

theorem scatter_mono (B : Nat) (mask : Option (List Bool)) (force : Bool) (new : Tensor ρ)
    (start : Nat) (vs : List Var) (h : Heap ρ) : Mono h (scatter B mask force new start vs h).1 := by
  induction vs generalizing start h with
  | nil => exact Mono.refl _
  | cons v vs ih =>
    unfold scatter
    split
    · exact Mono.refl _
    · rename_i st hst
      exact (Mono.put hst).trans (ih _ _)

theorem retractGroup_mono (rf : ClsRetract ρ δ) (B : Nat) (mask : Option (List Bool)) (force : Bool)
    (k : Nat × Nat) (g : List (Var × List (List δ))) (h : Heap ρ) :
    Mono h (retractGroup rf B mask force k g h).1 := by
  unfold retractGroup
  split
  · exact Mono.refl _
  · simp only
    split
    · exact Mono.refl _
    · split
      · exact Mono.refl _
      · exact scatter_mono _ _ _ _ _ _ _

theorem retractGroups_mono (rf : ClsRetract ρ δ) (B : Nat) (mask : Option (List Bool)) (force : Bool)
    (gs : List ((Nat × Nat) × List (Var × List (List δ)))) (h : Heap ρ) :
    Mono h (retractGroups rf B mask force gs h).1 := by
  induction gs generalizing h with
  | nil => exact Mono.refl _
  | cons p gs ih =>
    obtain ⟨k, g⟩ := p
    have h1 := retractGroup_mono rf B mask force k g h
    unfold retractGroups
    cases hg : retractGroup rf B mask force k g h with
    | mk h' x =>
      rw [hg] at h1
      cases x with
      | some x => exact h1
      | none => exact h1.trans (ih h')

theorem doRetract_mono (S : Sys ρ ε R δ) (wr : Option (List CostFn)) (h : Heap ρ)
    (delta : List (List δ)) (ord : List Var) (mask : Option (List Bool)) (force : Bool) :
    Mono h (doRetract S wr h delta ord mask force).1 := by
  unfold doRetract
  cases wr with
  | some _ =>
    simp only
    unfold retractVec
    split
    · exact Mono.refl _
    · exact retractGroups_mono _ _ _ _ _ _
  | none => exact retractFrom_mono _ _ _ _ _ _ _

/-! ### Counters -/

theorem counts_get (e : Env ρ) (n : Nat) :
    (counts e).get? n = (e.obj.allVars.get? n).map fun v => (e.heap v).numUpdates := by
  unfold counts
  induction e.obj.allVars with
  | nil => rfl
  | cons p l ih =>
    obtain ⟨k, v⟩ := p
    simp only [List.map_cons, Dict.get?]
    by_cases h : k = n
    · simp [h]
    · simp [h, ih]

theorem dictEq_get {d d' : Dict Nat Nat} (h : dictEq d d' = true) {n k : Nat}
    (hk : d.get? n = some k) : d'.get? n = some k := by
  unfold dictEq at h
  rw [Bool.and_eq_true] at h
  have := List.all_eq_true.1 h.1 _ (Dict.get?_eq_some_mem hk)
  simpa using this

/-- facts about an objective built by successful calls -/
structure Facts (o : State) : Prop where
  good : Update.Good o
  all : ∀ v, IsVar o v → o.allVars.get? v.name = some v
  uses : ∀ c ∈ iter o, ∀ v ∈ allVars c, IsVar o v

theorem facts_of_run (dt : Nat) (hist : List Call) (hok : Succeeds (init dt false) hist) :
    Facts (run (init dt false) hist) := by
  obtain ⟨reg, hi, _, _⟩ := run_inv (init_inv dt) hok
  refine ⟨(good_run dt hist hok).1, ?_, ?_⟩
  · intro v hv
    rw [hi.rg.all]
    refine ⟨rfl, ?_⟩
    rcases hv with h1 | h1
    · left; rw [used_optim_iff]; exact ((hi.hasOptim _ _).1 h1).2
    · right; rw [used_aux_iff]; exact ((hi.hasAux _ _).1 h1).2
  · intro c hc v hv
    rw [iter_eq_spec dt hist hok] at hc
    have : Uses reg v := by
      refine ⟨c, hi.sub c hc, ?_⟩
      unfold allVars at hv
      unfold CostFn.vars CostFn.optims CostFn.auxs
      simpa [or_assoc] using hv
    rw [uses_iff] at this
    rcases this with h1 | h1
    · exact Or.inl ((hi.hasOptim v.name v).2 ⟨rfl, h1⟩)
    · exact Or.inr ((hi.hasAux v.name v).2 ⟨rfl, h1⟩)

theorem agree_unique {l : List Nat} {a b : Nat} (ha : Agree l a) (hb : Agree l b) : a = b :=
  Nat.le_antisymm (hb.2.2 a ha.1) (ha.2.2 b hb.1)

theorem batchSizes_congr {e e' : Env ρ} (ho : e'.obj = e.obj)
    (hg : Update.Good e.obj)
    (hv : ∀ v, IsVar e.obj v → (e.heap v).tensor = (e'.heap v).tensor) (B : Nat) :
    Agree (batchSizes e) B ↔ Agree (batchSizes e') B := by
  have h1 := mem_batchSizes hg e rfl
  have h2 := mem_batchSizes hg e' ho
  have : ∀ n, n ∈ batchSizes e ↔ n ∈ batchSizes e' := by
    intro n
    rw [h1, h2]
    constructor
    · rintro ⟨v, a, b⟩; exact ⟨v, a, by rw [← hv v a]; exact b⟩
    · rintro ⟨v, a, b⟩; exact ⟨v, a, by rw [hv v a]; exact b⟩
  unfold Agree
  simp only [this]

theorem Good.congr {f : CostFn → List ρ → ε} {h h' : Heap ρ} {B : Nat} {c : CostFn} {r : List ε}
    (hg : Good f h B c r) (he : ∀ v ∈ allVars c, (h v).tensor = (h' v).tensor) :
    Good f h' B c r := by
  have hr : ∀ v ∈ allVars c, rowsOf h v = rowsOf h' v := fun v hv => by
    unfold rowsOf; rw [he v hv]
  refine ⟨hg.1, ?_, ?_⟩
  · rintro ⟨v, hv, hl⟩
    exact hg.2.1 ⟨v, hv, by rw [hr v hv]; exact hl⟩
  · intro i hi
    rw [hg.2.2 i hi]
    congr 2
    apply List.filterMap_congr
    intro v hv
    rw [hr v hv]

/-! ### The invariant -/

/-- The cache was computed from the tensors of some earlier moment, whose counters were recorded. -/
def Recorded (f : CostFn → List ρ → ε) (o : State) (s : VEnv ρ ε) : Prop :=
  ∃ h0 B0, Mono h0 s.env.heap ∧
    (∀ v, IsVar o v → s.seen.get? v.name = some (h0 v).numUpdates) ∧
    Agree (batchSizes { s.env with heap := h0 }) B0 ∧
    (∀ c r, Dict.get? s.cache c = some r → Good f h0 B0 c r) ∧
    (s.lastGrad = true → s.cacheGrad = true)

structure CInv (f : CostFn → List ρ → ε) (o : State) (s : VEnv ρ ε) : Prop where
  obj : s.env.obj = o
  wr : ∀ cs, s.wrappers = some cs → cs = iter o
  rcd : s.cache = [] ∨ Recorded f o s

/-- What holds right after a refresh. -/
def Current (f : CostFn → List ρ → ε) (s : VEnv ρ ε) : Prop :=
  ∀ cs, s.wrappers = some cs → s.cache = [] ∨
    ((∀ B, Agree (batchSizes s.env) B → ∀ c ∈ cs, ∀ r, Dict.get? s.cache c = some r →
      Good f s.env.heap B c r) ∧ (s.grad = true → s.cacheGrad = true))

theorem CInv.move {f : CostFn → List ρ → ε} {o : State} {s : VEnv ρ ε} (h : CInv f o s) (e : Env ρ)
    (hm : Mono s.env.heap e.heap) (ho : e.obj = s.env.obj) : CInv f o { s with env := e } := by
  refine ⟨ho.trans h.obj, h.wr, ?_⟩
  rcases h.rcd with h1 | ⟨h0, B0, a, b, c, d, g⟩
  · exact Or.inl h1
  · refine Or.inr ⟨h0, B0, a.trans hm, b, ?_, d, g⟩
    have : batchSizes { e with heap := h0 } = batchSizes { s.env with heap := h0 } := by
      unfold batchSizes; simp only [ho]
    show Agree (batchSizes { e with heap := h0 }) B0
    rw [this]; exact c

theorem recompute_env (S : Sys ρ ε R δ) (s : VEnv ρ ε) (cs : List CostFn) {B : Nat}
    (hB : s.env.batchSize = some B) : (recompute S s cs).1.env = s.env := by
  unfold recompute
  rw [if_neg (by simp [hB])]
  simp only
  split <;> rfl

theorem refresh_steady (S : Sys ρ ε R δ) (s : VEnv ρ ε) (hst : Steady (refresh S s).1) : Steady s := by
  intro B hB
  have henv : (refresh S s).1.env = s.env := by
    unfold refresh
    cases s.wrappers with
    | none => rfl
    | some cs =>
      simp only
      split
      · exact recompute_env S _ cs hB
      split
      · exact recompute_env S _ cs hB
      · rfl
  have := hst B (by rw [henv]; exact hB)
  rwa [henv] at this

theorem recompute_inv {S : Sys ρ ε R δ} {f : CostFn → List ρ → ε} {dt : Nat} {hist : List Call}
    (hok : Succeeds (init dt false) hist) (hS : SysOk S f (run (init dt false) hist))
    {s s' : VEnv ρ ε} (hobj : s.env.obj = run (init dt false) hist) (hst : Steady s)
    (hw : s.wrappers = some (iter (run (init dt false) hist)))
    (hseen : ∀ v, IsVar (run (init dt false) hist) v →
      s.seen.get? v.name = some (s.env.heap v).numUpdates)
    (hr : recompute S s (iter (run (init dt false) hist)) = (s', none)) :
    CInv f (run (init dt false) hist) s' ∧ Current f s' ∧ s'.env.heap = s.env.heap ∧
      s'.wrappers = s.wrappers ∧ s'.grad = s.grad ∧ s'.env.obj = s.env.obj := by
  set o := run (init dt false) hist with ho
  have hF : Facts o := facts_of_run dt hist hok
  unfold recompute at hr
  cases he : (if s.env.batchSize = none then resolveBatchSize s.env else (s.env, none)) with
  | mk e x =>
  rw [he] at hr
  cases x with
  | some x => simp at hr
  | none =>
    simp only at hr
    have hheap : e.heap = s.env.heap ∧ e.obj = s.env.obj := by
      split at he
      · have := resolve_heap s.env; rw [he] at this; exact this
      · cases he; exact ⟨rfl, rfl⟩
    have hBe : ∃ B, e.batchSize = some B ∧ Agree (batchSizes s.env) B := by
      split at he
      · unfold resolveBatchSize at he
        simp only at he
        have hb : batchSizes { s.env with batchSize := none } = batchSizes s.env := rfl
        rw [hb] at he
        cases hgb : getBatchSize (batchSizes s.env) with
        | error x => rw [hgb] at he; simp at he
        | ok b =>
          rw [hgb] at he
          simp only [Prod.mk.injEq, and_true] at he
          exact ⟨b, by rw [← he], (getBatchSize_iff _ _).1 hgb⟩
      · rename_i hnn
        cases he
        obtain ⟨B, hB⟩ := Option.ne_none_iff_exists'.1 hnn
        exact ⟨B, hB, hst B hB⟩
    obtain ⟨B, hB, hAg⟩ := hBe
    have hsz : ∀ v, IsVar o v →
        (e.heap v).tensor.rows.length = 1 ∨ (e.heap v).tensor.rows.length = B := by
      intro v hv
      rw [hheap.1]
      exact hAg.2.1 _ ((mem_batchSizes hF.good s.env hobj _).2 ⟨v, hv, rfl⟩)
    have hRd : Ready S.N S.ev f e.heap B (iter o) :=
      ready_of_run dt hist hok hS.optim hsz hS.code hS.same
    obtain ⟨v1, v2, v3⟩ := vectorize_spec hRd
    unfold runVec at hr
    rw [hB] at hr
    simp only at hr
    cases hv : vectorize S.N S.ev e.heap B (iter o) with
    | mk rs x =>
    rw [hv] at hr v1 v2 v3
    simp only at v1
    subst v1
    simp only [Prod.mk.injEq, and_true] at hr
    subst hr
    have hentry : ∀ c r, Dict.get? rs c = some r → Good f e.heap B c r := fun c r hh =>
      v3 (c, r) (Dict.get?_eq_some_mem hh)
    have hAg' : Agree (batchSizes e) B := by
      have : batchSizes e = batchSizes s.env := by unfold batchSizes; rw [hheap.1, hheap.2]
      rw [this]; exact hAg
    refine ⟨⟨hheap.2.trans hobj, ?_, Or.inr ⟨e.heap, B, Mono.refl _, ?_, hAg', hentry,
      fun x => x⟩⟩, ?_, hheap.1, rfl, rfl, hheap.2⟩
    · intro cs hcs
      simp only [hw, Option.some.injEq] at hcs
      exact hcs.symm
    · intro v hv
      simp only
      rw [hheap.1]
      exact hseen v hv
    · intro cs' hcs'
      right
      refine ⟨fun B' hB' c _ r hcr => ?_, fun x => x⟩
      rw [agree_unique hB' hAg']
      exact hentry c r hcr

theorem refresh_inv {S : Sys ρ ε R δ} {f : CostFn → List ρ → ε} {dt : Nat} {hist : List Call}
    (hok : Succeeds (init dt false) hist) (hS : SysOk S f (run (init dt false) hist))
    {s s' : VEnv ρ ε} (h : CInv f (run (init dt false) hist) s) (hst : Steady s)
    (hr : refresh S s = (s', none)) :
    CInv f (run (init dt false) hist) s' ∧ Current f s' ∧ s'.env.heap = s.env.heap ∧
      s'.wrappers = s.wrappers ∧ s'.grad = s.grad ∧ s'.env.obj = s.env.obj := by
  set o := run (init dt false) hist with ho
  have hF : Facts o := facts_of_run dt hist hok
  unfold refresh at hr
  cases hw : s.wrappers with
  | none =>
    rw [hw] at hr
    simp only [Prod.mk.injEq, and_true] at hr
    subst hr
    exact ⟨h, (by intro cs hcs; rw [hw] at hcs; cases hcs), rfl, hw, rfl, rfl⟩
  | some cs =>
    have hcs := h.wr cs hw
    subst hcs
    rw [hw] at hr
    simp only at hr
    rw [← hw] at hr ⊢
    have hcnt : ∀ v, IsVar o v → (counts s.env).get? v.name = some (s.env.heap v).numUpdates := by
      intro v hv; rw [counts_get, h.obj, hF.all v hv]; rfl
    split at hr
    · exact recompute_inv (s := { s with seen := counts s.env }) hok hS h.obj hst hw
        (fun v hv => hcnt v hv) hr
    · rename_i hch
      have hch : dictEq (counts s.env) s.seen = true := by simpa using hch
      split at hr
      · exact recompute_inv hok hS h.obj hst hw (fun v hv => dictEq_get hch (hcnt v hv)) hr
      · rename_i hgr
        simp only [Prod.mk.injEq, and_true] at hr
        subst hr
        refine ⟨h, ?_, rfl, rfl, rfl, rfl⟩
        intro cs' hcs'
        rcases h.rcd with h1 | ⟨h0, B0, a, b, c, d, g⟩
        · exact Or.inl h1
        · right
          have heq : ∀ v, IsVar o v → (h0 v).tensor = (s.env.heap v).tensor := by
            intro v hv
            apply (a v).2
            have h1 := b v hv
            have h2 := dictEq_get hch (hcnt v hv)
            rw [h1] at h2; simpa using h2
          refine ⟨?_, ?_⟩
          · intro B hB c' hc' r hr
            have hBB : B = B0 := by
              apply agree_unique hB
              rw [← batchSizes_congr (e := { s.env with heap := h0 }) (e' := s.env) rfl (by
                show Update.Good s.env.obj
                rw [h.obj]; exact hF.good)
                (by intro v hv; exact heq v (by rw [← h.obj]; exact hv))]
              exact c
            rw [hBB]
            refine (d c' r hr).congr fun v hv => heq v ?_
            rw [hcs'] at hw
            cases hw
            exact hF.uses c' hc' v hv
          · intro hgrad
            apply g
            simpa [hgrad] using hgr

theorem step_inv {S : Sys ρ ε R δ} {f : CostFn → List ρ → ε} {dt : Nat} {hist : List Call}
    (hok : Succeeds (init dt false) hist) (hS : SysOk S f (run (init dt false) hist))
    {s : VEnv ρ ε} (h : CInv f (run (init dt false) hist) s) {op : Op ρ δ}
    (hop : ∀ c, op ≠ .edit c) (hs : (step S s op).2 = none) (hst : Steady (step S s op).1) :
    CInv f (run (init dt false) hist) (step S s op).1 := by
  have key : ∀ s1 : VEnv ρ ε, CInv f (run (init dt false) hist) s1 → (refresh S s1).2 = none →
      Steady (refresh S s1).1 → CInv f (run (init dt false) hist) (refresh S s1).1 := by
    intro s1 h1 h2 h3
    exact (refresh_inv hok hS h1 (refresh_steady S s1 h3) (by rw [← h2])).1
  cases op with
  | edit c => exact absurd rfl (hop c)
  | update inp mask =>
    have hm := update_mono s.env inp mask
    simp only [step] at hs hst ⊢
    cases hu : update s.env inp mask with
    | mk e x =>
      rw [hu] at hs hst hm
      cases x with
      | some x => simp at hs
      | none => exact key _ (h.move e hm.1 hm.2) hs hst
  | error inp also =>
    cases inp with
    | none =>
      simp only [step] at hs ⊢
      split <;> exact h
    | some inp =>
      cases also with
      | true =>
        have hm := update_mono s.env inp none
        simp only [step] at hs hst ⊢
        cases hu : update s.env inp none with
        | mk e x =>
          rw [hu] at hs hst hm
          cases x with
          | some x => simp at hs
          | none =>
            simp only at hs hst ⊢
            cases hr : refresh S { s with env := e } with
            | mk s1 x =>
              rw [hr] at hs hst
              cases x with
              | some x => simp at hs
              | none =>
                simp only at hs hst ⊢
                have hst1 : Steady s1 := by
                  cases hev : evalError S s1.wrappers s1.env with
                  | error x => rw [hev] at hst; exact hst
                  | ok r => rw [hev] at hst; exact hst
                have := key { s with env := e } (h.move e hm.1 hm.2) (by rw [hr])
                  (by rw [hr]; exact hst1)
                rw [hr] at this
                cases evalError S s1.wrappers s1.env with
                | error x => exact this
                | ok r => exact this
      | false =>
        have hm := error_mono (evalError S s.wrappers) s.env (some inp) false
        simp only [step] at hs ⊢
        cases hu : Update.error (evalError S s.wrappers) s.env (some inp) false with
        | mk e x =>
          rw [hu] at hs hm
          cases x with
          | error x => simp at hs
          | ok r => exact h.move e hm.1 hm.2
  | retract delta ord mask force =>
    have hm := doRetract_mono S s.wrappers s.env.heap delta ord mask force
    simp only [step] at hs hst ⊢
    cases hu : doRetract S s.wrappers s.env.heap delta ord mask force with
    | mk h' x =>
      rw [hu] at hs hst hm
      cases x with
      | some x => simp at hs
      | none => exact key _ (h.move { s.env with heap := h' } hm rfl) hs hst
  | setVar v t mask =>
    simp only [step] at hs ⊢
    cases hu : varUpdate (s.env.heap v) t mask with
    | error x => rw [hu] at hs; simp at hs
    | ok st => exact h.move { s.env with heap := s.env.heap.put v st } (Mono.put hu) rfl
  | jacobians => exact key s h hs hst
  | setGrad b =>
    refine ⟨h.obj, h.wr, ?_⟩
    rcases h.rcd with h1 | h1
    · exact Or.inl h1
    · exact Or.inr h1
  | enable =>
    refine ⟨h.obj, ?_, Or.inl rfl⟩
    intro cs hcs
    simp only [step, Option.some.injEq] at hcs
    rw [← hcs, h.obj]
  | disable =>
    refine ⟨h.obj, ?_, ?_⟩
    · intro cs hcs; simp [step] at hcs
    · rcases h.rcd with h1 | h1
      · exact Or.inl h1
      · exact Or.inr h1

theorem exec_inv {S : Sys ρ ε R δ} {f : CostFn → List ρ → ε} {dt : Nat} {hist : List Call}
    (hok : Succeeds (init dt false) hist) (hS : SysOk S f (run (init dt false) hist))
    (ops : List (Op ρ δ)) {s : VEnv ρ ε} (h : CInv f (run (init dt false) hist) s) (hst : Steady s)
    (hl : Legal S s ops) : CInv f (run (init dt false) hist) (exec S s ops) ∧ Steady (exec S s ops) := by
  induction ops generalizing s with
  | nil => exact ⟨h, hst⟩
  | cons o os ih =>
    obtain ⟨l1, l2, l3, l4⟩ := hl
    exact ih (step_inv hok hS h l1 l2 l3) l3 l4

theorem fresh_inv (f : CostFn → List ρ → ε) (o : State) (h : Heap ρ) (dev : Nat) :
    CInv f o (fresh o h dev) ∧ Steady (fresh o h dev : VEnv ρ ε) :=
  ⟨⟨rfl, fun cs hcs => by simp [fresh] at hcs, Or.inl rfl⟩, fun B hB => by simp [fresh] at hB⟩

theorem refresh_ok {S : Sys ρ ε R δ} {f : CostFn → List ρ → ε} {dt : Nat} {hist : List Call}
    (hok : Succeeds (init dt false) hist) (hS : SysOk S f (run (init dt false) hist))
    {s : VEnv ρ ε} (h : CInv f (run (init dt false) hist) s) (hst : Steady s) {B : Nat}
    (hAg : Agree (batchSizes s.env) B) : (refresh S s).2 = none := by
  have hF := facts_of_run dt hist hok
  have hrec : ∀ s1 : VEnv ρ ε, s1.env = s.env →
      (recompute S s1 (iter (run (init dt false) hist))).2 = none := by
    intro s1 he1
    unfold recompute
    rw [he1]
    have hrun : ∀ e : Env ρ, e.heap = s.env.heap → e.batchSize = some B →
        (runVec S.N S.ev e (iter (run (init dt false) hist))).2 = none := by
      intro e h1 h2
      unfold runVec
      rw [h2, h1]
      apply (vectorize_spec (ready_of_run dt hist hok hS.optim ?_ hS.code hS.same)).1
      intro v hv
      exact hAg.2.1 _ ((mem_batchSizes hF.good s.env h.obj _).2 ⟨v, hv, rfl⟩)
    by_cases hb : s.env.batchSize = none
    · rw [if_pos hb]
      have hgb := (getBatchSize_iff _ _).2 hAg
      have hb' : batchSizes { s.env with batchSize := none } = batchSizes s.env := rfl
      have hres : resolveBatchSize s.env = ({ s.env with batchSize := some B }, none) := by
        unfold resolveBatchSize
        simp only [hb', hgb]
      rw [hres]
      simp only
      have := hrun { s.env with batchSize := some B } rfl rfl
      split
      · rename_i hh; rw [hh] at this; simp at this
      · rfl
    · rw [if_neg hb]
      simp only
      obtain ⟨B', hB'⟩ := Option.ne_none_iff_exists'.1 hb
      have : B' = B := agree_unique (hst B' hB') hAg
      have := hrun s.env rfl (by rw [hB', this])
      split
      · rename_i hh; rw [hh] at this; simp at this
      · rfl
  unfold refresh
  cases hw : s.wrappers with
  | none => rfl
  | some cs =>
    simp only
    rw [h.wr cs hw]
    split
    · exact hrec _ rfl
    split
    · exact hrec _ rfl
    · rfl

end Verif.Vectorize
