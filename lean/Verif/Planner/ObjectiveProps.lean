import Verif.Planner.Objective

/-!
# The motion planner's objective: properties (C102)
-/

namespace Verif.Planner
open Verif.Objective

theorem VName.code_inj {m n : VName} (h : m.code = n.code) : m = n := by
  cases m <;> cases n <;> simp only [VName.code] at h <;> first | rfl | omega | (congr 1; omega)

theorem CName.cnum_inj {m n : CName} (h : m.cnum = n.cnum) : m = n := by
  cases m <;> cases n <;> simp only [CName.cnum] at h <;> first | rfl | omega | (congr 1; omega)

/-! ### Specification -/

/-- The cost functions of time step `i`: its name, the variables it depends on and those that are data. -/
structure Entry where
  name : CName
  optim : List VName
  aux : List VName
deriving DecidableEq, Repr

/-- The weights' variables. -/
def collisionVar (single : Bool) (i : ℕ) : VName := if single then .collW else .collWAt i

/-- The cost functions that a planner with `n` time steps should have, in the order in which they are added. -/
def entries (single nh pv : Bool) (n : ℕ) : List Entry :=
  [⟨.pose0, [.pose 0], [.start, .boundaryW]⟩, ⟨.vel0, [.vel 0], [.zeroFirst, .boundaryW]⟩,
   ⟨.poseN, [.pose n], [.goal, .boundaryW]⟩, ⟨.velN, [.vel n], [.zeroLast, .boundaryW]⟩] ++
  (List.range n).flatMap fun k =>
    [⟨.collision (k + 1), [.pose (k + 1)], [.sdfOrigin, .sdfData, .cellSize, .costEps, collisionVar single (k + 1)]⟩,
     ⟨.gp (k + 1), [.pose k, .vel k, .pose (k + 1), .vel (k + 1)], [.dt, .qcInv, .dt]⟩] ++
    (if nh then [⟨.nonholonomic (k + 1), [.pose (k + 1), .vel (k + 1)], [.nhScale]⟩] else []) ++
    (if pv then [⟨.positiveVel (k + 1), [.vel k], [.down (k + 1), .up (k + 1), .thres (k + 1), .pvScale]⟩] else [])

/-- A cost function of the objective is the given entry. -/
def IsEntry (e : Entry) (c : CostFn) : Prop :=
  c.name = e.name.cnum ∧ c.optims.map Var.name = e.optim.map VName.code ∧ c.auxs.map Var.name = e.aux.map VName.code

/-- The order of the optimization variables: the ends first. -/
def varOrder (n : ℕ) : List VName :=
  [.pose 0, .vel 0, .pose n, .vel n] ++ (List.range (n - 1)).flatMap fun k => [.pose (k + 1), .vel (k + 1)]

/-! ### Lemmas -/

open Classical in
/-- The cost functions of a time step. -/
noncomputable def stepCosts (a : Args) (i : ℕ) : List CostFn :=
  [Args.cost (.collision i) [a.var (.pose i)] [a.var .sdfOrigin, a.var .sdfData, a.var .cellSize, a.var .costEps]
      (a.collisionWeight i) 1,
   Args.cost (.gp i) [a.var (.pose (i - 1)), a.var (.vel (i - 1)), a.var (.pose i), a.var (.vel i)] [a.var .dt] a.gpW
      (2 * a.dof)] ++
  (if 0 < a.nonholonomicW then [Args.cost (.nonholonomic i) [a.var (.pose i), a.var (.vel i)] [] a.nhWeight 1] else []) ++
  (if 0 < a.positiveVelW then
    [Args.cost (.positiveVel i) [a.var (.vel (i - 1))] [a.pyVar (.down i), a.pyVar (.up i), a.pyVar (.thres i)] a.pvWeight 3]
   else [])

theorem step_eq (a : Args) (h : 0 ≤ a.positiveVelW) (i : ℕ) : a.step i = (stepCosts a i).map .ok := by
  unfold Args.step stepCosts
  rcases h.eq_or_lt with h0 | h0
  · rw [if_pos h0.symm, if_neg h0.not_lt]
    split <;> simp
  · rw [if_neg h0.ne', if_neg h0.not_gt, if_pos h0]
    split <;> simp

theorem fine_cost {d : ℕ} {n : CName} {optim aux : List Var} {w : Weight} {dim : ℕ} (hw : w.optimVars = [])
    (h1 : ∀ v ∈ optim, v.name % 20 < 2 ∧ v = ⟨v.name, v.name, d⟩)
    (h2 : ∀ v ∈ aux ++ w.auxVars, 2 ≤ v.name % 20 ∧ v = ⟨v.name, v.name, d⟩) : Fine d (Args.cost n optim aux w dim) := by
  refine ⟨hw, fun v hv => ?_, fun v hv => (h1 v hv).1, fun v hv => (h2 v hv).1⟩
  rcases List.mem_append.1 hv with h | h
  · exact (h1 v h).2
  · exact (h2 v h).2

theorem code_pose (i : ℕ) : (VName.pose i).code % 20 < 2 := by simp only [VName.code]; omega
theorem code_vel (i : ℕ) : (VName.vel i).code % 20 < 2 := by simp only [VName.code]; omega

theorem fine_start (a : Args) : ∀ c ∈ a.boundaryStart, Fine a.dtype c := by
  intro c hc
  simp only [Args.boundaryStart, List.mem_cons, List.not_mem_nil, or_false] at hc
  rcases hc with rfl | rfl <;> refine fine_cost rfl ?_ ?_ <;>
    simp [Args.var, Args.boundaryWeight, VName.code]

theorem fine_end (a : Args) (n : ℕ) : ∀ c ∈ a.boundaryEnd n, Fine a.dtype c := by
  intro c hc
  simp only [Args.boundaryEnd, List.mem_cons, List.not_mem_nil, or_false] at hc
  rcases hc with rfl | rfl <;> refine fine_cost rfl ?_ ?_ <;>
    simp [Args.var, Args.boundaryWeight, VName.code]

theorem fine_collision (a : Args) (i : ℕ) : Fine a.dtype (Args.cost (.collision i) [a.var (.pose i)]
    [a.var .sdfOrigin, a.var .sdfData, a.var .cellSize, a.var .costEps] (a.collisionWeight i) 1) := by
  refine fine_cost ?_ ?_ ?_
  · unfold Args.collisionWeight; split <;> rfl
  · simp [Args.var, VName.code]
  · unfold Args.collisionWeight
    split <;> simp [Args.var, VName.code]

theorem fine_gp (a : Args) (i : ℕ) : Fine a.dtype (Args.cost (.gp i)
    [a.var (.pose (i - 1)), a.var (.vel (i - 1)), a.var (.pose i), a.var (.vel i)] [a.var .dt] a.gpW (2 * a.dof)) := by
  refine fine_cost rfl ?_ ?_ <;> simp [Args.var, VName.code, Args.gpW]

theorem fine_step (a : Args) (hn : 0 < a.nonholonomicW → a.dflt = a.dtype) (hp : 0 < a.positiveVelW → a.dflt = a.dtype)
    (i : ℕ) : ∀ c ∈ stepCosts a i, Fine a.dtype c := by
  intro c hc
  simp only [stepCosts, List.mem_append, List.mem_cons, List.not_mem_nil, or_false] at hc
  rcases hc with ((rfl | rfl) | h) | h
  · exact fine_collision a i
  · exact fine_gp a i
  · split at h
    · rename_i h0
      simp only [List.mem_cons, List.not_mem_nil, or_false] at h
      subst h
      refine fine_cost rfl ?_ ?_ <;> simp [Args.var, Args.pyVar, VName.code, Args.nhWeight, hn h0]
    · simp at h
  · split at h
    · rename_i h0
      simp only [List.mem_cons, List.not_mem_nil, or_false] at h
      subst h
      refine fine_cost rfl ?_ ?_ <;> simp [Args.var, Args.pyVar, VName.code, Args.pvWeight, hp h0]
    · simp at h

/-- All cost functions. -/
noncomputable def allCosts (a : Args) (last n : ℕ) : List CostFn :=
  a.boundaryStart ++ a.boundaryEnd last ++ (List.range n).flatMap fun k => stepCosts a (k + 1)

theorem step_names (a : Args) (i : ℕ) : ((stepCosts a i).map CostFn.name).Pairwise (· < ·) ∧
    ∀ c ∈ stepCosts a i, 8 * i + 4 ≤ c.name ∧ c.name < 8 * i + 8 := by
  unfold stepCosts
  split <;> split <;> simp [Args.cost, CName.cnum]

theorem allCosts_names (a : Args) (last n : ℕ) : ((allCosts a last n).map CostFn.name).Pairwise (· < ·) ∧
    ∀ c ∈ allCosts a last n, c.name < 8 * n + 8 := by
  induction n with
  | zero => simp [allCosts, Args.boundaryStart, Args.boundaryEnd, Args.cost, CName.cnum]
  | succ n ih =>
    have e : allCosts a last (n + 1) = allCosts a last n ++ stepCosts a (n + 1) := by
      simp [allCosts, List.range_succ]
    rw [e]
    obtain ⟨h1, h2⟩ := step_names a (n + 1)
    refine ⟨?_, fun c hc => ?_⟩
    · rw [List.map_append, List.pairwise_append]
      refine ⟨ih.1, h1, fun x hx y hy => ?_⟩
      obtain ⟨c, hc, rfl⟩ := List.mem_map.1 hx
      obtain ⟨c', hc', rfl⟩ := List.mem_map.1 hy
      have := ih.2 c hc
      have := (h2 c' hc').1
      omega
    · rcases List.mem_append.1 hc with hc | hc
      · have := ih.2 c hc; omega
      · have := (h2 c hc).2; omega

theorem allCosts_nodup (a : Args) (last n : ℕ) : ((allCosts a last n).map CostFn.name).Nodup :=
  (allCosts_names a last n).1.imp fun h => h.ne

/-! ### The constructor -/

theorem start_added (a : Args) : ∃ s, addAll (init a.dtype false) (a.boundaryStart.map .ok) = .ok s ∧
    Inv s a.boundaryStart a.boundaryStart ∧ s.dtype = a.dtype ∧
    s.optimVars = (a.boundaryStart.flatMap CostFn.optimVars).foldl (fun (d : Dict ℕ Var) v => d.set v.name v) ([] : Dict ℕ Var) := by
  have := addAll_ok (init_inv a.dtype) rfl a.boundaryStart (by simp [Args.boundaryStart, Args.cost, CName.cnum])
    (fun c hc => fine_start a c (by simpa using hc))
  simpa [init] using this

theorem end_added (a : Args) (n : ℕ) : ∃ s s', addAll (init a.dtype false) (a.boundaryStart.map .ok) = .ok s ∧
    addAll s ((a.boundaryEnd n).map .ok) = .ok s' ∧
    Inv s' (a.boundaryStart ++ a.boundaryEnd n) (a.boundaryStart ++ a.boundaryEnd n) ∧ s'.dtype = a.dtype ∧
    s'.optimVars = ((a.boundaryStart ++ a.boundaryEnd n).flatMap CostFn.optimVars).foldl (fun (d : Dict ℕ Var) v => d.set v.name v) ([] : Dict ℕ Var) := by
  obtain ⟨s, h1, h2, h3, h4⟩ := start_added a
  obtain ⟨s', h5, h6, h7, h8⟩ := addAll_ok h2 h3 (a.boundaryEnd n)
    (by simp [Args.boundaryStart, Args.boundaryEnd, Args.cost, CName.cnum])
    (fun c hc => by
      rcases List.mem_append.1 hc with h | h
      · exact fine_start a c h
      · exact fine_end a n c h)
  exact ⟨s, s', h1, h5, h6, h7, by rw [h8, h4, List.flatMap_append, List.foldl_append]⟩

/-- What the arguments must satisfy. -/
structure Legal (a : Args) : Prop where
  given : a.given = true
  steps : 1 ≤ a.numSteps
  gp : Embodied.gpAccepts [a.totalTime / a.numSteps] [a.qcInv] = true
  pose : a.poseType = .point2 ∨ a.poseType = .se2
  nh : 0 < a.nonholonomicW → a.poseType = .se2 ∧ a.dflt = a.dtype
  pv : a.positiveVelW ≠ 0 → 0 < a.positiveVelW ∧ a.poseType = .se2 ∧ a.dflt = a.dtype

theorem build_legal {a : Args} (h : Legal a) : ∃ s, build a = .ok s ∧
    Inv s (allCosts a a.numSteps.toNat a.numSteps.toNat) (allCosts a a.numSteps.toNat a.numSteps.toNat) ∧ s.dtype = a.dtype ∧
    s.optimVars = ((allCosts a a.numSteps.toNat a.numSteps.toNat).flatMap CostFn.optimVars).foldl
      (fun (d : Dict ℕ Var) v => d.set v.name v) ([] : Dict ℕ Var) := by
  set n := a.numSteps.toNat with hn
  have hpv : 0 ≤ a.positiveVelW := by
    by_contra hc
    push Not at hc
    exact absurd (h.pv hc.ne).1 hc.not_gt
  obtain ⟨s, s', h1, h2, h3, h4, h5⟩ := end_added a n
  obtain ⟨s'', h6, h7, h8, h9⟩ := addAll_ok h3 h4 ((List.range n).flatMap fun k => stepCosts a (k + 1))
    (allCosts_nodup a n n) (fun c hc => by
      rcases List.mem_append.1 hc with h' | h'
      · rcases List.mem_append.1 h' with h' | h'
        · exact fine_start a c h'
        · exact fine_end a n c h'
      · obtain ⟨k, -, hk⟩ := List.mem_flatMap.1 h'
        exact fine_step a (fun h0 => (h.nh h0).2) (fun h0 => (h.pv h0.ne').2.2) _ c hk)
  refine ⟨s'', ?_, h7, h8, ?_⟩
  · have e : (List.range n).flatMap (fun k => a.step (k + 1)) =
        ((List.range n).flatMap fun k => stepCosts a (k + 1)).map .ok := by
      rw [List.map_flatMap]
      exact List.flatMap_congr fun k _ => step_eq a hpv (k + 1)
    have hs := h.steps
    unfold build
    rw [if_neg (by simp [h.given]), if_neg (by omega), if_neg (by simp [h.gp]), if_neg (by omega)]
    simp only [h1]
    rw [if_neg (by rcases h.pose with hp | hp <;> simp [hp])]
    rw [← hn]
    simp only [h2]
    rw [if_neg (fun h0 => h0.2 (h.nh h0.1).1), if_neg (fun h0 => h0.2 (h.pv h0.1.ne').2.1), e, h6]
  · rw [h9, h5, allCosts]
    simp only [List.flatMap_append, List.foldl_append]

/-- **When the planner's objective can be built**: all arguments are given, at least one time step of positive length, a legal
`Qc_inv`, poses of type `Point2` or `SE2`; the weights of the two optional costs need `SE2`, and, since their values become tensors
of torch's default dtype, that the objective has this dtype. A negative `positive_vel_w` raises. -/
theorem build_returns (a : Args) : (∃ s, build a = .ok s) ↔ Legal a := by
  refine ⟨fun ⟨s, hs⟩ => ?_, fun h => ?_⟩
  swap
  · obtain ⟨s, h1, -⟩ := build_legal h
    exact ⟨s, h1⟩
  unfold build at hs
  split at hs
  · cases hs
  rename_i hg
  split at hs
  · cases hs
  rename_i h0
  split at hs
  · cases hs
  rename_i hgp
  split at hs
  · cases hs
  rename_i hneg
  have hsteps : 1 ≤ a.numSteps := by omega
  dsimp only at hs
  set n := a.numSteps.toNat with hn
  obtain ⟨s1, s2, h1, h2, h3, h4, -⟩ := end_added a n
  rw [h1] at hs
  dsimp only at hs
  split at hs
  · cases hs
  rename_i hpose
  rw [h2] at hs
  dsimp only at hs
  split at hs
  · cases hs
  rename_i hnh
  split at hs
  · cases hs
  rename_i hpv
  -- the first time step
  have hn1 : 1 ≤ n := by omega
  obtain ⟨m, hm⟩ : ∃ m, n = m + 1 := ⟨n - 1, by omega⟩
  rw [hm, List.range_succ_eq_map, List.flatMap_cons] at hs
  have key : (0 < a.nonholonomicW → a.dflt = a.dtype) ∧ (a.positiveVelW ≠ 0 → 0 < a.positiveVelW ∧ a.dflt = a.dtype) := by
    set rest := List.flatMap (fun k => a.step (k + 1)) (List.map Nat.succ (List.range m))
    set c1 := Args.cost (.collision (0 + 1)) [a.var (.pose (0 + 1))]
      [a.var .sdfOrigin, a.var .sdfData, a.var .cellSize, a.var .costEps] (a.collisionWeight (0 + 1)) 1 with hc1
    set c2 := Args.cost (.gp (0 + 1)) [a.var (.pose (0 + 1 - 1)), a.var (.vel (0 + 1 - 1)), a.var (.pose (0 + 1)),
      a.var (.vel (0 + 1))] [a.var .dt] a.gpW (2 * a.dof) with hc2
    set c3 := Args.cost (.nonholonomic (0 + 1)) [a.var (.pose (0 + 1)), a.var (.vel (0 + 1))] [] a.nhWeight 1 with hc3
    set c4 := Args.cost (.positiveVel (0 + 1)) [a.var (.vel (0 + 1 - 1))]
      [a.pyVar (.down (0 + 1)), a.pyVar (.up (0 + 1)), a.pyVar (.thres (0 + 1))] a.pvWeight 3 with hc4
    have hsub : ∀ c ∈ [c1, c2], Fine a.dtype c := by
      intro c hc
      simp only [List.mem_cons, List.not_mem_nil, or_false] at hc
      rcases hc with rfl | rfl
      · exact fine_collision a _
      · exact fine_gp a _
    have hbase : ∀ c ∈ a.boundaryStart ++ a.boundaryEnd n, Fine a.dtype c := fun c hc => by
      rcases List.mem_append.1 hc with h | h
      · exact fine_start a c h
      · exact fine_end a n c h
    obtain ⟨s3, h5, h6, h7, -⟩ := addAll_ok h3 h4 [c1, c2]
      (by simp [Args.boundaryStart, Args.boundaryEnd, Args.cost, CName.cnum, hc1, hc2])
      (fun c hc => by
        rcases List.mem_append.1 hc with h | h
        · exact hbase c h
        · exact hsub c h)
    have e : a.step (0 + 1) ++ rest = [c1, c2].map .ok ++ ((if 0 < a.nonholonomicW then [.ok c3] else []) ++
        (if a.positiveVelW = 0 then [] else if a.positiveVelW < 0 then [.error .unboundLocal] else [.ok c4]) ++ rest) := by
      unfold Args.step
      simp [hc1, hc2, hc3, hc4]
    rw [e, addAll_append, h5] at hs
    dsimp only at hs
    by_cases h8 : 0 < a.nonholonomicW
    · rw [if_pos h8] at hs
      have hd : a.dflt = a.dtype := by
        by_contra hne
        rw [show ([.ok c3] : List (Except Exc CostFn)) ++
            (if a.positiveVelW = 0 then [] else if a.positiveVelW < 0 then [.error .unboundLocal] else [.ok c4]) ++ rest =
            .ok c3 :: ((if a.positiveVelW = 0 then [] else if a.positiveVelW < 0 then [.error .unboundLocal] else [.ok c4]) ++
              rest) by simp] at hs
        rw [addAll_bad h6 h7 (v := a.pyVar .nhScale) (by simp [hc3, CostFn.vars, CostFn.auxs, Args.cost, Args.nhWeight])
          hne] at hs
        cases hs
      refine ⟨fun _ => hd, fun h9 => ⟨?_, hd⟩⟩
      by_contra h10
      have h11 : a.positiveVelW < 0 := lt_of_le_of_ne (not_lt.1 h10) h9
      rw [if_neg h9, if_pos h11] at hs
      simp only [List.cons_append, List.nil_append, addAll] at hs
      cases hadd : add s3 c3 with
      | mk s' e =>
        rw [hadd] at hs
        cases e <;> simp at hs
    · rw [if_neg h8] at hs
      refine ⟨fun h => absurd h h8, fun h9 => ?_⟩
      rw [if_neg h9] at hs
      by_cases h10 : a.positiveVelW < 0
      · rw [if_pos h10] at hs
        simp [addAll] at hs
      · rw [if_neg h10] at hs
        refine ⟨lt_of_le_of_ne (not_lt.1 h10) (Ne.symm h9), ?_⟩
        by_contra hne
        rw [show ([] : List (Except Exc CostFn)) ++ [.ok c4] ++ rest = .ok c4 :: rest by simp] at hs
        rw [addAll_bad h6 h7 (v := a.pyVar .pvScale) (by simp [hc4, CostFn.vars, CostFn.auxs, Args.cost, Args.pvWeight])
          hne] at hs
        cases hs
  refine ⟨by simpa using hg, hsteps, by simpa using hgp, ?_, fun h5 => ⟨?_, key.1 h5⟩, fun h5 => ?_⟩
  · cases hp : a.poseType with
    | point2 => exact .inl rfl
    | se2 => exact .inr rfl
    | other => exact absurd hp hpose
  · by_contra hc; exact hnh ⟨h5, hc⟩
  · obtain ⟨h6, h7⟩ := key.2 h5
    refine ⟨h6, ?_, h7⟩
    by_contra hc; exact hpv ⟨h6, hc⟩

/-! ### The cost functions -/

theorem forall₂_flatMap {α β γ : Type} {R : β → γ → Prop} {f : α → List β} {g : α → List γ}
    (h : ∀ x, List.Forall₂ R (f x) (g x)) (l : List α) : List.Forall₂ R (l.flatMap f) (l.flatMap g) := by
  induction l with
  | nil => exact .nil
  | cons x l ih =>
    rw [List.flatMap_cons, List.flatMap_cons]
    exact List.rel_append (h x) ih

open Classical in
theorem allCosts_entries (a : Args) (n : ℕ) : List.Forall₂ IsEntry
    (entries a.single (decide (0 < a.nonholonomicW)) (decide (0 < a.positiveVelW)) n) (allCosts a n n) := by
  unfold entries allCosts
  refine List.rel_append ?_ (forall₂_flatMap (fun k => ?_) _)
  · simp [Args.boundaryStart, Args.boundaryEnd, IsEntry, Args.cost, CostFn.optims, CostFn.auxs, Args.var, Args.boundaryWeight]
  · unfold stepCosts
    refine List.rel_append (List.rel_append ?_ ?_) ?_
    · simp only [List.forall₂_cons, List.forall₂_nil_right_iff, and_true]
      refine ⟨?_, ?_⟩
      · unfold Args.collisionWeight collisionVar
        split <;> simp [IsEntry, Args.cost, CostFn.optims, CostFn.auxs, Args.var]
      · simp [IsEntry, Args.cost, CostFn.optims, CostFn.auxs, Args.var, Args.gpW]
    · by_cases h : 0 < a.nonholonomicW
      · rw [if_pos (by simpa using h), if_pos h]
        simp [IsEntry, Args.cost, CostFn.optims, CostFn.auxs, Args.var, Args.pyVar, Args.nhWeight]
      · rw [if_neg (by simpa using h), if_neg h]
        exact .nil
    · by_cases h : 0 < a.positiveVelW
      · rw [if_pos (by simpa using h), if_pos h]
        simp [IsEntry, Args.cost, CostFn.optims, CostFn.auxs, Args.var, Args.pyVar, Args.pvWeight]
      · rw [if_neg (by simpa using h), if_neg h]
        exact .nil

open Classical in
/-- **The cost functions of the planner**, in the order in which the objective lists them: the four end constraints, and for each
time step `1, …, N` a collision cost of that step's pose and a motion cost that links it to the previous one (and, if asked for, the
two optional costs), each with the data it should use. -/
theorem build_costs {a : Args} {s : State} (hs : build a = .ok s) : List.Forall₂ IsEntry
    (entries a.single (decide (0 < a.nonholonomicW)) (decide (0 < a.positiveVelW)) a.numSteps.toNat) (iter s) := by
  obtain ⟨s', h1, h2, -⟩ := build_legal ((build_returns a).1 ⟨s, hs⟩)
  have : s' = s := by rw [hs] at h1; cases h1; rfl
  subst this
  have e : iter s' = allCosts a a.numSteps.toNat a.numSteps.toNat := by
    rw [iter, h2.costs]
    simp [Dict.vals, Function.comp_def]
  rw [e]
  exact allCosts_entries a _

/-! ### The order of the variables -/

/-- Insert a name that is not there yet. -/
def ins (l : List VName) (x : VName) : List VName := if x ∈ l then l else l ++ [x]

theorem set_var (a : Args) (l : List VName) (x : VName) :
    Dict.set (l.map fun y => (y.code, a.var y)) (a.var x).name (a.var x) = (ins l x).map fun y => (y.code, a.var y) := by
  have hget : ∀ l : List VName, Dict.get? (l.map fun y => (y.code, a.var y)) x.code = if x ∈ l then some (a.var x) else none := by
    intro l
    induction l with
    | nil => rfl
    | cons y l ih =>
      rw [List.map_cons, Dict.get?, ih]
      by_cases h : y = x
      · subst h; simp
      · rw [if_neg (fun e => h (VName.code_inj e))]
        simp [Ne.symm h]
  unfold ins
  split
  · rename_i h
    exact set_same (by rw [show (a.var x).name = x.code from rfl, hget, if_pos h])
  · rename_i h
    rw [show (a.var x).name = x.code from rfl, Dict.set_eq_append _ (by rw [hget, if_neg h]), List.map_append]
    rfl

theorem set_vars (a : Args) (new l : List VName) :
    (new.map a.var).foldl (fun (d : Dict ℕ Var) v => d.set v.name v) (l.map fun y => (y.code, a.var y)) =
      (new.foldl ins l).map fun y => (y.code, a.var y) := by
  induction new generalizing l with
  | nil => rfl
  | cons x new ih =>
    rw [List.map_cons, List.foldl_cons, set_var, ih, List.foldl_cons]

open Classical in
/-- The variables of the cost functions of a time step. -/
noncomputable def stepNames (a : Args) (i : ℕ) : List VName :=
  [.pose i, .pose (i - 1), .vel (i - 1), .pose i, .vel i] ++ (if 0 < a.nonholonomicW then [.pose i, .vel i] else []) ++
  (if 0 < a.positiveVelW then [.vel (i - 1)] else [])

theorem step_optim (a : Args) (i : ℕ) : (stepCosts a i).flatMap CostFn.optimVars = (stepNames a i).map a.var := by
  unfold stepCosts stepNames
  split <;> split <;> simp [Args.cost]

theorem ins_mem {l : List VName} {x : VName} (h : x ∈ l) : ins l x = l := if_pos h
theorem ins_not {l : List VName} {x : VName} (h : x ∉ l) : ins l x = l ++ [x] := if_neg h

/-- The order after `m` time steps. -/
def orderAt (n m : ℕ) : List VName :=
  [.pose 0, .vel 0, .pose n, .vel n] ++ (List.range m).flatMap fun k => [.pose (k + 1), .vel (k + 1)]

theorem mem_orderAt_pose {n m i : ℕ} : VName.pose i ∈ orderAt n m ↔ i ≤ m ∨ i = n := by
  simp only [orderAt, List.mem_append, List.mem_cons, List.mem_flatMap, List.mem_range, VName.pose.injEq, reduceCtorEq,
    List.not_mem_nil, or_false, false_or]
  constructor
  · rintro ((h | h) | ⟨k, hk, h⟩) <;> omega
  · rintro (h | h)
    · rcases Nat.eq_zero_or_pos i with h0 | h0
      · exact .inl (.inl h0)
      · exact .inr ⟨i - 1, by omega, by omega⟩
    · exact .inl (.inr h)

theorem mem_orderAt_vel {n m i : ℕ} : VName.vel i ∈ orderAt n m ↔ i ≤ m ∨ i = n := by
  simp only [orderAt, List.mem_append, List.mem_cons, List.mem_flatMap, List.mem_range, VName.vel.injEq, reduceCtorEq,
    List.not_mem_nil, or_false, false_or]
  constructor
  · rintro ((h | h) | ⟨k, hk, h⟩) <;> omega
  · rintro (h | h)
    · rcases Nat.eq_zero_or_pos i with h0 | h0
      · exact .inl (.inl h0)
      · exact .inr ⟨i - 1, by omega, by omega⟩
    · exact .inl (.inr h)

theorem ins_all {l new : List VName} (h : ∀ x ∈ new, x ∈ l) : new.foldl ins l = l := by
  induction new with
  | nil => rfl
  | cons x new ih =>
    rw [List.foldl_cons, ins_mem (h x (by simp))]
    exact ih fun y hy => h y (by simp [hy])

theorem ins_step (a : Args) {n m : ℕ} (h : m + 1 < n) : (stepNames a (m + 1)).foldl ins (orderAt n m) = orderAt n (m + 1) := by
  have e : orderAt n (m + 1) = orderAt n m ++ [.pose (m + 1)] ++ [.vel (m + 1)] := by
    simp [orderAt, List.range_succ]
  have h1 : ins (orderAt n m) (.pose (m + 1)) = orderAt n m ++ [.pose (m + 1)] :=
    ins_not (by rw [mem_orderAt_pose]; omega)
  have h2 : ∀ x ∈ [VName.pose m, .vel m, .pose (m + 1)], x ∈ orderAt n m ++ [VName.pose (m + 1)] := by
    have := (mem_orderAt_pose (n := n) (m := m) (i := m)).2 (.inl le_rfl)
    have := (mem_orderAt_vel (n := n) (m := m) (i := m)).2 (.inl le_rfl)
    simp [*]
  have h3 : ins (orderAt n m ++ [.pose (m + 1)]) (.vel (m + 1)) = orderAt n (m + 1) := by
    rw [e]
    refine ins_not ?_
    have : VName.vel (m + 1) ∉ orderAt n m := by rw [mem_orderAt_vel]; omega
    simp [this]
  rw [stepNames, List.foldl_append, List.foldl_append]
  have h4 : [VName.pose (m + 1), .pose (m + 1 - 1), .vel (m + 1 - 1), .pose (m + 1), .vel (m + 1)].foldl ins (orderAt n m) =
      orderAt n (m + 1) := by
    have := ins_all h2
    simp only [List.foldl_cons, List.foldl_nil] at this ⊢
    rw [h1, Nat.add_sub_cancel, this, h3]
  rw [h4]
  have h5 : ∀ i ≤ m + 1, VName.pose i ∈ orderAt n (m + 1) ∧ VName.vel i ∈ orderAt n (m + 1) := fun i hi =>
    ⟨mem_orderAt_pose.2 (.inl hi), mem_orderAt_vel.2 (.inl hi)⟩
  rw [← List.foldl_append]
  refine ins_all fun x hx => ?_
  rcases List.mem_append.1 hx with hx | hx
  · split at hx
    · simp only [List.mem_cons, List.not_mem_nil, or_false] at hx
      rcases hx with rfl | rfl
      · exact (h5 _ le_rfl).1
      · exact (h5 _ le_rfl).2
    · simp at hx
  · split at hx
    · simp only [List.mem_cons, List.not_mem_nil, or_false] at hx
      subst hx
      exact (h5 _ (by omega)).2
    · simp at hx

theorem ins_steps (a : Args) {n : ℕ} (hn : 1 ≤ n) : ∀ m ≤ n,
    ((List.range m).flatMap fun k => stepNames a (k + 1)).foldl ins (orderAt n 0) = orderAt n (min m (n - 1)) := by
  intro m
  induction m with
  | zero => intro _; rw [Nat.zero_min]; rfl
  | succ m ih =>
    intro hm
    rw [List.range_succ, List.flatMap_append, List.foldl_append, ih (by omega), List.flatMap_cons, List.flatMap_nil,
      List.append_nil]
    by_cases h : m + 1 < n
    · rw [min_eq_left (by omega), min_eq_left (by omega)]
      exact ins_step a h
    · have e : m + 1 = n := by omega
      rw [min_eq_left (by omega), min_eq_right (by omega), show n - 1 = m by omega]
      refine ins_all fun x hx => ?_
      have h5 : ∀ i ≤ m + 1, VName.pose i ∈ orderAt n m ∧ VName.vel i ∈ orderAt n m := fun i hi =>
        ⟨mem_orderAt_pose.2 (by omega), mem_orderAt_vel.2 (by omega)⟩
      have : ∃ i ≤ m + 1, x = .pose i ∨ x = .vel i := by
        unfold stepNames at hx
        simp only [List.mem_append, List.mem_cons, List.not_mem_nil, or_false] at hx
        rcases hx with ((rfl | rfl | rfl | rfl | rfl) | hx) | hx
        · exact ⟨_, le_rfl, .inl rfl⟩
        · exact ⟨_, by omega, .inl rfl⟩
        · exact ⟨_, by omega, .inr rfl⟩
        · exact ⟨_, le_rfl, .inl rfl⟩
        · exact ⟨_, le_rfl, .inr rfl⟩
        · split at hx
          · simp only [List.mem_cons, List.not_mem_nil, or_false] at hx
            rcases hx with rfl | rfl
            · exact ⟨_, le_rfl, .inl rfl⟩
            · exact ⟨_, le_rfl, .inr rfl⟩
          · simp at hx
        · split at hx
          · simp only [List.mem_cons, List.not_mem_nil, or_false] at hx
            subst hx
            exact ⟨_, by omega, .inr rfl⟩
          · simp at hx
      obtain ⟨i, hi, rfl | rfl⟩ := this
      · exact (h5 i hi).1
      · exact (h5 i hi).2

/-- **The optimization variables of the planner**: a pose and a velocity for each of the `N + 1` time points; the objective, and with
it the columns of the linear systems, list the two ends first. -/
theorem build_vars {a : Args} {s : State} (hs : build a = .ok s) :
    s.optimVars.keys = (varOrder a.numSteps.toNat).map VName.code ∧
    (Linear.mkOrdering s true).order.map Var.name = (varOrder a.numSteps.toNat).map VName.code := by
  have hl := (build_returns a).1 ⟨s, hs⟩
  obtain ⟨s', h1, h2, -, h3⟩ := build_legal hl
  have : s' = s := by rw [hs] at h1; cases h1; rfl
  subst this
  have h4 := hl.steps
  set n := a.numSteps.toNat with hn
  have e : (allCosts a n n).flatMap CostFn.optimVars =
      ([VName.pose 0, .vel 0, .pose n, .vel n] ++ (List.range n).flatMap fun k => stepNames a (k + 1)).map a.var := by
    unfold allCosts
    rw [List.flatMap_append, List.flatMap_assoc, List.map_append, List.map_flatMap]
    congr 1
    exact List.flatMap_congr fun k _ => step_optim a (k + 1)
  have h5 : s'.optimVars = (varOrder n).map fun y => (y.code, a.var y) := by
    have := set_vars a ([.pose 0, .vel 0, .pose n, .vel n] ++ (List.range n).flatMap fun k => stepNames a (k + 1)) []
    rw [h3, e]
    refine this.trans ?_
    congr 1
    rw [List.foldl_append]
    have h6 : [VName.pose 0, .vel 0, .pose n, .vel n].foldl ins [] = orderAt n 0 := by
      have : n ≠ 0 := by omega
      simp [ins, orderAt, this]
    rw [h6, ins_steps a (by omega) n le_rfl, min_eq_right (by omega)]
    rfl
  refine ⟨?_, ?_⟩
  · rw [h5]; simp [Dict.keys, Function.comp_def]
  · rw [(Linear.default_inv (Update.good_of_inv h2) true).2.2, h5]
    simp [Dict.vals, Function.comp_def, Args.var]

end Verif.Planner
