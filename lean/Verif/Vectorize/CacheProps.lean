import Verif.Vectorize.CacheLemmas
/-!
# Cached results are never stale (C21); cost functions added after vectorization (C58)

`exec S (fresh o h dev) ops` is an objective with the cost functions of `o` and any tensors `h`, after
an arbitrary history of calls: updates, error evaluations, retractions, direct updates of variables,
Jacobian evaluations, switches of the grad mode, enabling and disabling vectorization.
-/
namespace Verif.Vectorize
open Verif Verif.Objective Verif.Update

variable {ρ ε R δ : Type}

namespace Ex
def S : Sys Int (List Int) Int Int where
  N := N
  ev := ev
  evE := ev
  fb := fun h c => own ev h c
  G := ⟨fun _ => 0, fun _ => 1⟩
  rf := fun _ _ t dl => .ok { t with rows := List.zipWith (fun a d => a + d.sum) t.rows dl }
theorem sysOk : SysOk S f o := by
  refine ⟨by decide, fun c _ => batched_batchwise _, ?_, fun _ _ _ => rfl⟩
  intro c _ c' _ hh
  unfold schema S N at hh
  simp only [List.cons_append, List.cons.injEq, Item.fn.injEq] at hh
  funext r; unfold f; rw [hh.1]
/-- values of the served results (an exception shows as the empty list) -/
def vals (s : VEnv Int (List Int)) : List (List (List Int)) :=
  match (jacobians S s).2 with
  | .ok l => l.map fun p => match p.val with
    | .ok r => r
    | .error _ => []
  | .error _ => []
def three (a : Int) : Tensor Int := { rows := [a, a + 1, a + 2] }
def two (a : Int) : Tensor Int := { rows := [a, a + 1] }
/-- enable, update the batch size to 3, evaluate without keeping, retract, change `t` directly, look at
the Jacobians without grad -/
def ops : List (Op Int Int) :=
  [.enable, .update [(1, three 5), (2, three 7), (3, three 9)] none,
   .error (some [(1, three 50)]) false, .retract [[1, 2, 3], [4, 5, 6], [7, 8, 9]] [x, y, z] none false,
   .setVar t { rows := [77] } none, .setGrad false, .jacobians, .setGrad true]
end Ex

/-- C21: after any legal history, evaluating the Jacobians succeeds, and each cost function of the
objective, in insertion order, is served a result that agrees in every batch element with what it
computes from the *current* tensors; and when gradients are enabled, the result served was computed
with gradients enabled.

Missing for the full claim: histories in which a call raises or in which the batch size changes behind
the objective's back (`Legal`), and wrappers whose fallback differs from the cost function (`SysOk`);
for these the claim is false, as shown below. -/
theorem jacobians_current_partial (dt : Nat) (hist : List Call) (hok : Succeeds (init dt false) hist)
    (S : Sys ρ ε R δ) (f : CostFn → List ρ → ε) (hS : SysOk S f (run (init dt false) hist))
    (h : Heap ρ) (dev : Nat) (ops : List (Op ρ δ))
    (hl : Legal S (fresh (run (init dt false) hist) h dev) ops) (B : Nat)
    (hB : Agree (batchSizes (exec S (fresh (run (init dt false) hist) h dev) ops).env) B) :
    ∃ s' out, jacobians S (exec S (fresh (run (init dt false) hist) h dev) ops) = (s', .ok out) ∧
      out.map Served.cf = specRun [] hist ∧
      ∀ p ∈ out,
        (∃ r r', p.val = .ok r ∧
          own S.ev (exec S (fresh (run (init dt false) hist) h dev) ops).env.heap p.cf = .ok r' ∧
          AgreeOn B r r') ∧
        ((exec S (fresh (run (init dt false) hist) h dev) ops).grad = true → p.grad = true) := by
  set s := exec S (fresh (run (init dt false) hist) h dev) ops with hs
  obtain ⟨i1, i2⟩ := fresh_inv f (run (init dt false) hist) h dev
  obtain ⟨hinv, hst⟩ := exec_inv hok hS ops i1 i2 hl
  rw [← hs] at hinv hst
  have hF := facts_of_run dt hist hok
  have hro := refresh_ok hok hS hinv hst hB
  cases hr : refresh S s with
  | mk s' x =>
  rw [hr] at hro
  simp only at hro
  subst hro
  obtain ⟨_, hcur, hheap, hwr, hgr, hobj⟩ := refresh_inv hok hS hinv hst hr
  have hBs : Agree (batchSizes s'.env) B := by
    have : batchSizes s'.env = batchSizes s.env := by unfold batchSizes; rw [hheap, hobj]
    rw [this]; exact hB
  have hready : Ready S.N S.ev f s.env.heap B (iter (run (init dt false) hist)) := by
    apply ready_of_run dt hist hok hS.optim ?_ hS.code hS.same
    intro v hv
    exact hB.2.1 _ ((mem_batchSizes hF.good s.env hinv.obj _).2 ⟨v, hv, rfl⟩)
  unfold jacobians
  rw [hr]
  simp only
  cases hw : s'.wrappers with
  | none =>
    refine ⟨s', _, rfl, ?_, ?_⟩
    · rw [List.map_map, hobj, hinv.obj, iter_eq_spec dt hist hok]
      simp [Function.comp_def]
    · intro p hp
      obtain ⟨c, hc, rfl⟩ := List.mem_map.1 hp
      rw [hobj, hinv.obj] at hc
      obtain ⟨r, o1, o2⟩ := good_own hready hc
      refine ⟨⟨r, r, ?_, o1, o2.agree o2⟩, fun hg => ?_⟩
      · simp only; rw [hheap]; exact o1
      · simp only; rw [hgr]; exact hg
  | some cs =>
    have hcs : cs = iter (run (init dt false) hist) := by
      apply hinv.wr; rw [← hwr, hw]
    refine ⟨s', _, rfl, ?_, ?_⟩
    · rw [List.map_map, hcs, iter_eq_spec dt hist hok]
      conv_rhs => rw [← List.map_id (specRun [] hist)]
      apply List.map_congr_left
      intro c _
      simp only [Function.comp, id]
      split <;> rfl
    · intro p hp
      obtain ⟨c, hc, rfl⟩ := List.mem_map.1 hp
      have hc' := hc
      rw [hcs] at hc'
      obtain ⟨r', o1, o2⟩ := good_own hready hc'
      cases hg : Dict.get? s'.cache c with
      | none =>
        simp only
        refine ⟨⟨r', r', ?_, o1, o2.agree o2⟩, fun h => by rw [hgr]; exact h⟩
        rw [hS.fallback _ c hc', hheap]; exact o1
      | some r =>
        simp only
        rcases hcur cs hw with hnil | ⟨q1, q2⟩
        · rw [hnil] at hg; simp at hg
        · have hgood := q1 B hBs c hc r hg
          rw [hheap] at hgood
          exact ⟨⟨r, r', rfl, o1, hgood.agree o2⟩, fun h => q2 (by rw [hgr]; exact h)⟩

instance (l : List Nat) (B : Nat) : Decidable (Agree l B) := by unfold Agree; infer_instance

theorem steady_of {s : VEnv ρ ε} {B : Nat} (h1 : s.env.batchSize = some B)
    (h2 : Agree (batchSizes s.env) B) : Steady s := fun B' h => by rw [h1] at h; cases h; exact h2

example : Legal Ex.S (fresh Ex.o Ex.hp 0) Ex.ops := by
  refine ⟨fun c => by simp, rfl, fun B h => by simp [step, fresh] at h, ?_⟩
  refine ⟨fun c => by simp, by decide, steady_of (B := 3) (by decide) (by decide), ?_⟩
  refine ⟨fun c => by simp, by decide, steady_of (B := 3) (by decide) (by decide), ?_⟩
  refine ⟨fun c => by simp, by decide, steady_of (B := 3) (by decide) (by decide), ?_⟩
  refine ⟨fun c => by simp, by decide, steady_of (B := 3) (by decide) (by decide), ?_⟩
  refine ⟨fun c => by simp, by decide, steady_of (B := 3) (by decide) (by decide), ?_⟩
  refine ⟨fun c => by simp, by decide, steady_of (B := 3) (by decide) (by decide), ?_⟩
  refine ⟨fun c => by simp, by decide, steady_of (B := 3) (by decide) (by decide), trivial⟩
example : SysOk Ex.S Ex.f Ex.o ∧
    Agree (batchSizes (exec Ex.S (fresh Ex.o Ex.hp 0 : VEnv Int (List Int)) Ex.ops).env) 3 :=
  ⟨Ex.sysOk, by decide⟩
example : Ex.vals (exec Ex.S (fresh Ex.o Ex.hp 0) Ex.ops) =
    [[[-85, -85], [-85, -85], [-85, -85]], [[4], [8], [12]], [[-85, -85], [-85, -85], [-85, -85]]] := by
  decide

/-- C21, where it stops (1): when variables are updated directly to another batch size, the recorded
batch size is stale and cost functions of one schema are served rows of one another. -/
theorem jacobians_stale_batch_size : ∃ ops : List (Op Int Int),
    (∀ k, ((step Ex.S (exec Ex.S (fresh Ex.o Ex.hp 0) (ops.take k)) (ops.getD k .jacobians)).2 = none)) ∧
    (let s := exec Ex.S (fresh Ex.o Ex.hp 0) ops
     Ex.vals s ≠ [] ∧ own Ex.ev s.env.heap Ex.a2 = .ok [[-9, -9], [-9, -9], [-9, -9]] ∧
     (Ex.vals s)[2]? = some [[-11, -11], [-9, -9]]) := by
  refine ⟨[.enable, .update [] none, .setVar Ex.x (Ex.three 3) none, .setVar Ex.y (Ex.three 5) none,
    .setVar Ex.z (Ex.three 5) none], ?_, ?_⟩
  · intro k
    match k with
    | 0 => decide
    | 1 => decide
    | 2 => decide
    | 3 => decide
    | 4 => decide
    | k + 5 => simp [List.getD]; decide
  · decide

/-- C21, where it stops (2): after an `update` that raised because of inconsistent batch sizes, the
first evaluation of the Jacobians raises too, but has recorded the counters; the second one silently
serves the results of the *old* tensors. -/
theorem jacobians_stale_after_failure :
    let s := exec Ex.S (fresh Ex.o Ex.hp 0) [.enable, .jacobians]
    let s1 := exec Ex.S s [.update [(1, Ex.three 5)] none]
    (step Ex.S s (.update [(1, Ex.three 5)] none)).2 = some .valueError ∧
    (step Ex.S s1 .jacobians).2 = some .valueError ∧
    (step Ex.S (exec Ex.S s1 [.jacobians]) .jacobians).2 = none ∧
    Ex.vals (exec Ex.S s1 [.jacobians]) = Ex.vals s := by decide

/-- C21, where it stops (3): re-creating the vectorization while no variable changes serves the
fallback of the wrappers (`vectorizer.py:92-93`) instead of the cost functions' own results; the two
differ for `RobustCostFunction` (see C40). -/
theorem recreated_vectorization_serves_fallback (S : Sys Int (List Int) Int Int)
    (hS : S.N = Ex.N ∧ S.ev = Ex.ev) :
    let s := exec S (fresh Ex.o Ex.hp 0) [.enable, .jacobians, .enable]
    ∃ out, (jacobians S s).2 = .ok out ∧ out.map Served.val = (iter Ex.o).map (S.fb Ex.hp) := by
  obtain ⟨N, ev, evE, fb, G, rf⟩ := S
  obtain ⟨rfl, rfl⟩ := hS
  exact ⟨_, rfl, rfl⟩

/-! ### C58 -/

/-- C58: as long as the cost functions have not been edited since vectorization was enabled (or
vectorization is off), `error()` and the Jacobians range over exactly the cost functions of the
objective: one more call of `enable` after edits restores this. -/
theorem vectorized_covers_objective_partial (S : Sys ρ ε R δ) (s : VEnv ρ ε) (ops : List (Op ρ δ))
    (hne : ∀ op ∈ ops, ∀ c, op ≠ .edit c) :
    ∀ cs, (exec S (step S s .enable).1 ops).wrappers = some cs →
      cs = iter (exec S (step S s .enable).1 ops).env.obj := by
  suffices hgen : ∀ (ops : List (Op ρ δ)) (s : VEnv ρ ε), (∀ op ∈ ops, ∀ c, op ≠ .edit c) →
      (∀ cs, s.wrappers = some cs → cs = iter s.env.obj) →
      ∀ cs, (exec S s ops).wrappers = some cs → cs = iter (exec S s ops).env.obj by
    apply hgen ops _ hne
    intro cs hcs
    simp only [step, Option.some.injEq] at hcs
    exact hcs.symm
  have hrec : ∀ (s : VEnv ρ ε) (cs : List CostFn), (recompute S s cs).1.wrappers = s.wrappers ∧
      (recompute S s cs).1.env.obj = s.env.obj := by
    intro s cs
    unfold recompute
    have hob : (if s.env.batchSize = none then resolveBatchSize s.env else (s.env, none)).1.obj
        = s.env.obj := by
      split
      · exact (resolve_heap s.env).2
      · rfl
    cases he : (if s.env.batchSize = none then resolveBatchSize s.env else (s.env, none)) with
    | mk e x =>
      rw [he] at hob
      cases x with
      | some x => exact ⟨rfl, hob⟩
      | none => simp only; split <;> exact ⟨rfl, hob⟩
  have hrefr : ∀ s : VEnv ρ ε, (refresh S s).1.wrappers = s.wrappers ∧
      (refresh S s).1.env.obj = s.env.obj := by
    intro s
    unfold refresh
    cases hw : s.wrappers with
    | none => exact ⟨hw, rfl⟩
    | some cs =>
      simp only
      split
      · exact ⟨(hrec _ _).1, (hrec _ _).2⟩
      split
      · exact ⟨(hrec _ _).1.trans hw, (hrec _ _).2⟩
      · exact ⟨hw, rfl⟩
  intro ops
  induction ops with
  | nil => intro s _ h; exact h
  | cons op ops ih =>
    intro s hne h
    apply ih _ (fun o ho => hne o (by simp [ho]))
    have hop := hne op (by simp)
    have same : ∀ s1 : VEnv ρ ε, s1.wrappers = s.wrappers → s1.env.obj = s.env.obj →
        ∀ cs, s1.wrappers = some cs → cs = iter s1.env.obj := by
      intro s1 h1 h2 cs hcs; rw [h2]; exact h cs (by rw [← h1]; exact hcs)
    cases op with
    | edit c => exact absurd rfl (hop c)
    | update inp mask =>
      have hm := (update_mono s.env inp mask).2
      simp only [step]
      cases hu : update s.env inp mask with
      | mk e x =>
        rw [hu] at hm
        cases x with
        | some x => exact same _ rfl hm
        | none => exact same _ (hrefr _).1 ((hrefr _).2.trans hm)
    | error inp also =>
      cases inp with
      | none => simp only [step]; split <;> exact same _ rfl rfl
      | some inp =>
        cases also with
        | true =>
          have hm := (update_mono s.env inp none).2
          simp only [step]
          cases hu : update s.env inp none with
          | mk e x =>
            rw [hu] at hm
            cases x with
            | some x => exact same _ rfl hm
            | none =>
              have h3 := hrefr { s with env := e }
              simp only
              cases hr : refresh S { s with env := e } with
              | mk s1 x =>
                rw [hr] at h3
                cases x with
                | some x => exact same _ h3.1 (h3.2.trans hm)
                | none =>
                  simp only
                  split <;> exact same _ h3.1 (h3.2.trans hm)
        | false =>
          have hm := (error_mono (evalError S s.wrappers) s.env (some inp) false).2
          simp only [step]
          cases hu : Update.error (evalError S s.wrappers) s.env (some inp) false with
          | mk e x =>
            rw [hu] at hm
            cases x <;> exact same _ rfl hm
    | retract delta ord mask force =>
      simp only [step]
      cases hu : doRetract S s.wrappers s.env.heap delta ord mask force with
      | mk h' x =>
        cases x with
        | some x => exact same _ rfl rfl
        | none => exact same _ (hrefr _).1 (hrefr _).2
    | setVar v t mask => simp only [step]; split <;> exact same _ rfl rfl
    | jacobians => exact same _ (hrefr _).1 (hrefr _).2
    | setGrad b => exact same _ rfl rfl
    | enable =>
      intro cs hcs
      simp only [step, Option.some.injEq] at hcs
      exact hcs.symm
    | disable => intro cs hcs; simp [step] at hcs

/-- another cost function of the first kind, on the same variables -/
def Ex.a3 : CostFn := { id := 14, name := 14, optimVars := [Ex.z, Ex.x], auxVars := [Ex.t], weight := Ex.w }

/-- C58 is false in general: a cost function added after vectorization was enabled is silently left out
of `error()` and of the Jacobians, although every call succeeds and the objective contains it; without
vectorization it is there. -/
theorem vectorized_ignores_added :
    let s := exec Ex.S (fresh Ex.o Ex.hp 0) [.enable, .edit (.add Ex.a3), .update [] none]
    iter s.env.obj = [Ex.a1, Ex.b, Ex.a2, Ex.a3] ∧ (Ex.vals s).length = 3 ∧
    evalError Ex.S s.wrappers s.env = .ok [[-19, -19, -19, -19, 15], [-109, -109, -109, -109, 195]] ∧
    evalError Ex.S none s.env =
      .ok [[-19, -19, 15, -19, -19, 11, 11], [-109, -109, 195, -109, -109, 191, 191]] := by decide

end Verif.Vectorize
