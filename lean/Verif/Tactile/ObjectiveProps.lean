import Verif.Tactile.InputProps
import Verif.Planner.ObjectiveProps

/-!
# Tactile pose estimation: the objective (C107)
-/

namespace Verif.Tactile
open Verif.Objective
open Verif.Planner (Exc addAll Fine addAll_ok addAll_bad forall₂_flatMap fine_cost)

theorem VName.code_inj {m n : VName} (h : m.code = n.code) : m = n := by
  cases m <;> cases n <;> simp only [VName.code] at h <;> first
    | rfl | omega | (congr 1; omega)
    | (rename_i s t s' t'; obtain ⟨h1, h2⟩ := Nat.pair_eq_pair.1 (show Nat.pair s t = Nat.pair s' t' by omega); rw [h1, h2])

theorem CName.cnum_inj {m n : CName} (h : m.cnum = n.cnum) : m = n := by
  cases m <;> cases n <;> simp only [CName.cnum] at h <;> first
    | rfl | omega | (congr 1; omega)
    | (rename_i s t s' t'; obtain ⟨h1, h2⟩ := Nat.pair_eq_pair.1 (show Nat.pair s t = Nat.pair s' t' by omega); rw [h1, h2])

/-! ### Specification -/

/-- A cost function: its name, the variables it depends on and those that are data. -/
structure Entry where
  name : CName
  optim : List VName
  aux : List VName
deriving DecidableEq, Repr

/-- The cost functions of step `i` of `T`, with measurements from the steps `i - o` for the given offsets `o`. -/
def stepEntries (T i : ℕ) (offsets : List ℕ) : List Entry :=
  (if i = 0 then [⟨.objPrior, [.obj 0], [.start, .mcW]⟩] else []) ++
  (if i + 1 < T then [⟨.qsp i, [.obj i, .obj (i + 1), .eff i, .eff (i + 1)], [.csquare i, .qspW]⟩] else []) ++
  (offsets.map fun o => ⟨.mfBetween (i - o) i, [.obj (i - o), .obj i, .eff (i - o), .eff i], [.meas (i - o) i, .mfW]⟩) ++
  [⟨.intersect i, [.obj i, .eff i], [.sdfOrigin, .sdfData, .cellSize, .radius, .intersectW]⟩,
   ⟨.effPrior i, [.eff i], [.capture i, .mcW]⟩]

/-- The cost functions that the estimator should have, in the order in which they are added. -/
def entries (w : Win) (T : ℕ) (reg : Bool) : List Entry :=
  ((List.range T).flatMap fun i => stepEntries T i (pyRange w.min (min i w.max) w.step)) ++
  if reg then ((List.range T).map fun i => ⟨.regObj i, [.obj i], [.identity, .regW]⟩) ++
    ((List.range T).map fun i => ⟨.regEff i, [.eff i], [.identity, .regW]⟩)
  else []

/-- A cost function of the objective is the given entry. -/
def IsEntry (e : Entry) (c : CostFn) : Prop :=
  c.name = e.name.cnum ∧ c.optims.map Var.name = e.optim.map VName.code ∧ c.auxs.map Var.name = e.aux.map VName.code

/-! ### The cost functions -/

/-- The cost functions of step `i`. -/
def stepCosts (a : Args) (i : ℕ) : List CostFn :=
  (if i = 0 then [Args.cost .objPrior [a.dvar (.obj i)] [a.fvar .start] a.mcWeight 3] else []) ++
  (if i + 1 < a.steps then
    [Args.cost (.qsp i) [a.dvar (.obj i), a.dvar (.obj (i + 1)), a.dvar (.eff i), a.dvar (.eff (i + 1))] [a.dvar (.csquare i)]
      a.qspWeight 3] else []) ++
  ((a.offsetsAt i).map fun o => Args.cost (.mfBetween (i - o) i)
    [a.dvar (.obj (i - o)), a.dvar (.obj i), a.dvar (.eff (i - o)), a.dvar (.eff i)] [a.fvar (.meas (i - o) i)] a.mfWeight 3) ++
  [Args.cost (.intersect i) [a.dvar (.obj i), a.dvar (.eff i)]
     [a.fvar .sdfOrigin, a.dvar .sdfData, a.fvar .cellSize, a.fvar .radius] a.intersectWeight 1,
   Args.cost (.effPrior i) [a.dvar (.eff i)] [a.fvar (.capture i)] a.mcWeight 3]

theorem mfCosts_eq (a : Args) (i : ℕ) (os : List ℕ) (idx : ℕ)
    (h : ∀ k o, os[k]? = some o → a.measurements[idx + k]? = some (a.fvar (.meas (i - o) i))) :
    a.mfCosts i idx os = (os.map fun o => Args.cost (.mfBetween (i - o) i)
      [a.dvar (.obj (i - o)), a.dvar (.obj i), a.dvar (.eff (i - o)), a.dvar (.eff i)] [a.fvar (.meas (i - o) i)] a.mfWeight 3).map
      .ok := by
  induction os generalizing idx with
  | nil => rfl
  | cons o os ih =>
    rw [Args.mfCosts, ih (idx + 1) fun k o' hk => by rw [show idx + 1 + k = idx + (k + 1) by ring]; exact h (k + 1) o' (by simpa using hk)]
    have := h 0 o rfl
    rw [Nat.add_zero] at this
    rw [this]; rfl

/-- Number of measurements that end before step `i`. -/
def before (a : Args) (i : ℕ) : ℕ := ((List.range i).flatMap a.offsetsAt).length

theorem pairs_eq (a : Args) : a.win.pairs a.steps =
    (List.range a.steps).flatMap fun i => (a.offsetsAt i).map fun o => (i - o, i) := by
  unfold Win.pairs
  have h : ∀ n, (List.range' a.win.min (n - a.win.min)).flatMap (fun i => (a.win.offsets i).map fun o => (i - o, i)) =
      (List.range n).flatMap fun i => (a.offsetsAt i).map fun o => (i - o, i) := by
    intro n
    induction n with
    | zero => simp
    | succ n ih =>
      rw [List.range_succ, List.flatMap_append, ← ih]
      by_cases hn : a.win.min ≤ n
      · rw [show n + 1 - a.win.min = n - a.win.min + 1 by omega, List.range'_concat, List.flatMap_append]
        simp only [List.flatMap_cons, List.flatMap_nil, List.append_nil, one_mul, Args.offsetsAt]
        rw [show a.win.min + (n - a.win.min) = n by omega, if_pos hn]
      · rw [show n + 1 - a.win.min = 0 by omega, show n - a.win.min = 0 by omega]
        simp [Args.offsetsAt, hn]
  exact h _

theorem measurements_get (a : Args) {i k o : ℕ} (hi : i < a.steps) (h : (a.offsetsAt i)[k]? = some o) :
    a.measurements[before a i + k]? = some (a.fvar (.meas (i - o) i)) := by
  unfold Args.measurements
  rw [pairs_eq, List.getElem?_map]
  obtain ⟨m, hm⟩ : ∃ m, a.steps = i + 1 + m := ⟨a.steps - i - 1, by omega⟩
  rw [hm, List.range_add, List.flatMap_append, List.range_succ, List.flatMap_append]
  have hl : ((List.range i).flatMap fun i => (a.offsetsAt i).map fun o => (i - o, i)).length = before a i := by
    unfold before
    simp [List.length_flatMap]
  have hk := (List.getElem?_eq_some_iff.1 h).1
  rw [List.append_assoc, List.getElem?_append_right (by omega), hl, Nat.add_sub_cancel_left]
  rw [List.getElem?_append_left (by simpa using hk)]
  simp [h]

theorem loop_eq (a : Args) (m i : ℕ) (h : i + m ≤ a.steps) :
    a.loop (before a i) (List.range' i m) = ((List.range' i m).flatMap (stepCosts a)).map .ok := by
  induction m generalizing i with
  | zero => rfl
  | succ m ih =>
    rw [List.range'_succ, Args.loop, List.flatMap_cons, List.map_append]
    have hb : before a i + (a.offsetsAt i).length = before a (i + 1) := by
      unfold before; rw [List.range_succ]; simp
    rw [hb, ih (i + 1) (by omega), mfCosts_eq a i _ _ fun k o hk => measurements_get a (by omega) hk]
    congr 1
    unfold stepCosts
    rw [List.map_append, List.map_append, List.map_append]
    congr 3
    · split <;> rfl
    · split <;> rfl

open Classical in
/-- All cost functions. -/
noncomputable def allCosts (a : Args) : List CostFn :=
  (List.range a.steps).flatMap (stepCosts a) ++
  if 0 < a.reg then
    ((List.range a.steps).map fun i => Args.cost (.regObj i) [a.dvar (.obj i)] [a.fvar .identity] a.regWeight 3) ++
    ((List.range a.steps).map fun i => Args.cost (.regEff i) [a.dvar (.eff i)] [a.fvar .identity] a.regWeight 3)
  else []

theorem loop_costs (a : Args) : a.loop 0 (List.range a.steps) ++ a.regCosts = (allCosts a).map .ok := by
  have := loop_eq a a.steps 0 (by omega)
  rw [show before a 0 = 0 from rfl, ← List.range_eq_range'] at this
  rw [this, allCosts, List.map_append]
  congr 1
  unfold Args.regCosts
  split <;> simp [Function.comp_def]

open Classical in
theorem costs_entries (a : Args) :
    List.Forall₂ IsEntry (entries a.win a.steps (decide (0 < a.reg))) (allCosts a) := by
  unfold entries allCosts
  refine List.rel_append ?_ ?_
  · have key : ∀ l : List ℕ, (∀ i ∈ l, i < a.steps) → List.Forall₂ IsEntry
        (l.flatMap fun i => stepEntries a.steps i (pyRange a.win.min (min i a.win.max) a.win.step)) (l.flatMap (stepCosts a)) := by
      intro l
      induction l with
      | nil => intro _; exact .nil
      | cons i l ih =>
        intro hl
        rw [List.flatMap_cons, List.flatMap_cons]
        refine List.rel_append ?_ (ih fun j hj => hl j (by simp [hj]))
        have hi := hl i (by simp)
        have ho : pyRange a.win.min (min i a.win.max) a.win.step = a.offsetsAt i := by
          unfold Args.offsetsAt
          split
          · rfl
          · rename_i h
            unfold pyRange
            rw [show min i a.win.max - a.win.min = 0 by omega]
            rcases Nat.eq_zero_or_pos a.win.step with h0 | h0
            · simp [h0]
            · rw [Nat.div_eq_of_lt (by omega)]; rfl
        rw [ho]
        unfold stepEntries stepCosts
        refine List.rel_append (List.rel_append (List.rel_append ?_ ?_) ?_) ?_
        · split
          · rename_i h; subst h
            simp [IsEntry, Args.cost, CostFn.optims, CostFn.auxs, Args.dvar, Args.fvar, Args.mcWeight]
          · exact .nil
        · split
          · simp [IsEntry, Args.cost, CostFn.optims, CostFn.auxs, Args.dvar, Args.fvar, Args.qspWeight]
          · exact .nil
        · rw [List.forall₂_map_left_iff, List.forall₂_map_right_iff, List.forall₂_same]
          intro o _
          simp [IsEntry, Args.cost, CostFn.optims, CostFn.auxs, Args.dvar, Args.fvar, Args.mfWeight]
        · simp [IsEntry, Args.cost, CostFn.optims, CostFn.auxs, Args.dvar, Args.fvar, Args.intersectWeight, Args.mcWeight]
    exact key _ fun i hi => by simpa using hi
  · by_cases h : 0 < a.reg
    · rw [if_pos (by simpa using h), if_pos h]
      refine List.rel_append ?_ ?_ <;>
      · rw [List.forall₂_map_left_iff, List.forall₂_map_right_iff, List.forall₂_same]
        intro o _
        simp [IsEntry, Args.cost, CostFn.optims, CostFn.auxs, Args.dvar, Args.fvar, Args.regWeight]
    · rw [if_neg (by simpa using h), if_neg h]
      exact .nil

/-! ### Names -/

/-- The step of a cost function. -/
def CName.stepOf : CName → ℕ
  | .objPrior => 0
  | .qsp i => i | .mfBetween _ t => t | .intersect i => i | .effPrior i => i | .regObj i => i | .regEff i => i

/-- Names of the costs of a step. -/
def stepCNames (a : Args) (i : ℕ) : List CName :=
  (if i = 0 then [.objPrior] else []) ++ (if i + 1 < a.steps then [.qsp i] else []) ++
  ((a.offsetsAt i).map fun o => .mfBetween (i - o) i) ++ [.intersect i, .effPrior i]

theorem stepCNames_eq (a : Args) (i : ℕ) : (stepCosts a i).map CostFn.name = (stepCNames a i).map CName.cnum := by
  unfold stepCosts stepCNames
  split <;> split <;> simp [Function.comp_def, Args.cost]

theorem stepCNames_step {a : Args} {i : ℕ} {n : CName} (h : n ∈ stepCNames a i) : n.stepOf = i ∧
    (∀ j, n ≠ .regObj j) ∧ ∀ j, n ≠ .regEff j := by
  simp only [stepCNames, List.mem_append, List.mem_map, List.mem_cons, List.not_mem_nil, or_false] at h
  rcases h with ((h | h) | ⟨o, -, rfl⟩) | rfl | rfl
  · split at h
    · simp only [List.mem_singleton] at h; subst h; rename_i h; exact ⟨h.symm, by simp, by simp⟩
    · simp at h
  · split at h
    · simp only [List.mem_singleton] at h; subst h; exact ⟨rfl, by simp, by simp⟩
    · simp at h
  · exact ⟨rfl, by simp, by simp⟩
  · exact ⟨rfl, by simp, by simp⟩
  · exact ⟨rfl, by simp, by simp⟩

theorem offsets_nodup {a : Args} (hw : 1 ≤ a.win.step) (i : ℕ) : ((a.offsetsAt i).map fun o => i - o).Nodup := by
  unfold Args.offsetsAt
  split
  · refine List.Nodup.map_on (fun o ho o' ho' h => ?_) (nodup_pyRange hw)
    obtain ⟨k, -, h1⟩ := (mem_pyRange hw).1 ho
    obtain ⟨k', -, h1'⟩ := (mem_pyRange hw).1 ho'
    omega
  · simp

theorem offsetsAt_nil {a : Args} {i : ℕ} (h : a.steps ≤ a.win.min) (hi : i < a.steps) : a.offsetsAt i = [] := by
  unfold Args.offsetsAt
  rw [if_neg (by omega)]

theorem stepCNames_nodup {a : Args} (hw : 1 ≤ a.win.step ∨ a.steps ≤ a.win.min) {i : ℕ} (hi : i < a.steps) :
    (stepCNames a i).Nodup := by
  have ho : ((a.offsetsAt i).map fun o => CName.mfBetween (i - o) i).Nodup := by
    rcases hw with h | h
    · have := offsets_nodup h i
      have e : ((a.offsetsAt i).map fun o => CName.mfBetween (i - o) i) =
          ((a.offsetsAt i).map fun o => i - o).map fun s => CName.mfBetween s i := by simp [Function.comp_def]
      rw [e]
      exact this.map fun x y h => by simpa using h
    · rw [offsetsAt_nil h hi]; simp
  unfold stepCNames
  refine List.Nodup.append (List.Nodup.append (List.Nodup.append ?_ ?_ ?_) ho ?_) (by simp) ?_
  · split <;> simp
  · split <;> simp
  · split <;> split <;> simp
  · intro x hx hy
    obtain ⟨o, -, rfl⟩ := List.mem_map.1 hy
    rcases List.mem_append.1 hx with h | h <;> · split at h <;> simp at h
  · intro x hx hy
    simp only [List.mem_cons, List.not_mem_nil, or_false] at hy
    rcases List.mem_append.1 hx with h | h
    · rcases List.mem_append.1 h with h | h
      all_goals
        split at h
        · simp only [List.mem_singleton] at h; subst h; simp at hy
        · simp at h
    · obtain ⟨o, -, rfl⟩ := List.mem_map.1 h
      simp at hy

theorem allCosts_nodup {a : Args} (hw : 1 ≤ a.win.step ∨ a.steps ≤ a.win.min) : ((allCosts a).map CostFn.name).Nodup := by
  have h1 : ((List.range a.steps).flatMap (stepCNames a)).Nodup := by
    rw [List.nodup_flatMap]
    refine ⟨fun i hi => stepCNames_nodup hw (by simpa using hi), ?_⟩
    refine List.Pairwise.imp ?_ List.nodup_range
    intro i j hij x hx hy
    exact hij ((stepCNames_step hx).1.symm.trans (stepCNames_step hy).1)
  unfold allCosts
  rw [List.map_append, List.map_flatMap]
  have e : ((List.range a.steps).flatMap fun i => (stepCosts a i).map CostFn.name) =
      ((List.range a.steps).flatMap (stepCNames a)).map CName.cnum := by
    rw [List.map_flatMap]
    exact List.flatMap_congr fun i _ => stepCNames_eq a i
  rw [e]
  have h2 := h1.map fun _ _ h => CName.cnum_inj h
  split
  · have e2 : ((((List.range a.steps).map fun i => Args.cost (.regObj i) [a.dvar (.obj i)] [a.fvar .identity] a.regWeight 3) ++
        ((List.range a.steps).map fun i => Args.cost (.regEff i) [a.dvar (.eff i)] [a.fvar .identity] a.regWeight 3)).map
          CostFn.name) = (((List.range a.steps).map CName.regObj) ++ ((List.range a.steps).map CName.regEff)).map CName.cnum := by
      simp [Function.comp_def, Args.cost]
    rw [e2, ← List.map_append]
    refine List.Nodup.map (fun _ _ h => CName.cnum_inj h) (List.Nodup.append h1 (List.Nodup.append ?_ ?_ ?_) ?_)
    · exact List.nodup_range.map fun x y h => by simpa using h
    · exact List.nodup_range.map fun x y h => by simpa using h
    · intro x hx hy
      obtain ⟨i, -, rfl⟩ := List.mem_map.1 hx
      simp at hy
    · intro x hx hy
      obtain ⟨i, -, hi⟩ := List.mem_flatMap.1 hx
      obtain ⟨-, h3, h4⟩ := stepCNames_step hi
      rcases List.mem_append.1 hy with h | h
      · obtain ⟨j, -, rfl⟩ := List.mem_map.1 h; exact h3 j rfl
      · obtain ⟨j, -, rfl⟩ := List.mem_map.1 h; exact h4 j rfl
  · simpa using h2

/-! ### The constructor -/

theorem cost_fine {d : ℕ} {n : CName} {optim aux : List Var} {w : Weight} {dim : ℕ} (hw : w.optimVars = [])
    (h1 : ∀ v ∈ optim, v.name % 20 < 2 ∧ v = ⟨v.name, v.name, d⟩)
    (h2 : ∀ v ∈ aux ++ w.auxVars, 2 ≤ v.name % 20 ∧ v = ⟨v.name, v.name, d⟩) : Fine d (Args.cost n optim aux w dim) := by
  refine ⟨hw, fun v hv => ?_, fun v hv => (h1 v hv).1, fun v hv => (h2 v hv).1⟩
  rcases List.mem_append.1 hv with h | h
  · exact (h1 v h).2
  · exact (h2 v h).2

theorem code_obj (i : ℕ) : (VName.obj i).code % 20 < 2 := by simp only [VName.code]; omega
theorem code_eff (i : ℕ) : (VName.eff i).code % 20 < 2 := by simp only [VName.code]; omega
theorem code_capture (i : ℕ) : 2 ≤ (VName.capture i).code % 20 := by simp only [VName.code]; omega
theorem code_meas (s t : ℕ) : 2 ≤ (VName.meas s t).code % 20 := by simp only [VName.code]; omega
theorem code_csquare (i : ℕ) : 2 ≤ (VName.csquare i).code % 20 := by simp only [VName.code]; omega

theorem allCosts_fine {a : Args} (hd : a.double = a.dflt) : ∀ c ∈ allCosts a, Fine a.dflt c := by
  intro c hc
  unfold allCosts at hc
  rcases List.mem_append.1 hc with hc | hc
  · obtain ⟨i, -, hc⟩ := List.mem_flatMap.1 hc
    simp only [stepCosts, List.mem_append, List.mem_map, List.mem_cons, List.not_mem_nil, or_false] at hc
    rcases hc with ((hc | hc) | ⟨o, -, rfl⟩) | rfl | rfl
    · split at hc
      · simp only [List.mem_singleton] at hc; subst hc
        refine cost_fine rfl ?_ ?_ <;> simp [Args.dvar, Args.fvar, hd, Args.mcWeight, code_obj, VName.code]
      · simp at hc
    · split at hc
      · simp only [List.mem_singleton] at hc; subst hc
        refine cost_fine rfl ?_ ?_ <;>
          simp [Args.dvar, Args.fvar, hd, Args.qspWeight, code_obj, code_eff, code_csquare] <;> simp [VName.code]
      · simp at hc
    · refine cost_fine rfl ?_ ?_ <;>
        simp [Args.dvar, Args.fvar, hd, Args.mfWeight, code_obj, code_eff, code_meas] <;> simp [VName.code]
    · refine cost_fine rfl ?_ ?_ <;>
        simp [Args.dvar, Args.fvar, hd, Args.intersectWeight, code_obj, code_eff] <;> simp [VName.code]
    · refine cost_fine rfl ?_ ?_ <;>
        simp [Args.dvar, Args.fvar, hd, Args.mcWeight, code_obj, code_eff, code_capture] <;> simp [VName.code]
  · split at hc
    · rcases List.mem_append.1 hc with hc | hc <;>
      · obtain ⟨i, -, rfl⟩ := List.mem_map.1 hc
        refine cost_fine rfl ?_ ?_ <;>
          simp [Args.dvar, Args.fvar, hd, Args.regWeight, code_obj, code_eff] <;> simp [VName.code]
    · simp at hc

theorem build_legal {a : Args} (hw : 1 ≤ a.win.step ∨ a.steps ≤ a.win.min) (hd : a.double = a.dflt) :
    ∃ s, build a = .ok s ∧ Inv s (allCosts a) (allCosts a) := by
  obtain ⟨s, h1, h2, -⟩ := addAll_ok (init_inv a.dflt) rfl (allCosts a) (by simpa using allCosts_nodup hw)
    (fun c hc => allCosts_fine hd c (by simpa using hc))
  refine ⟨s, ?_, by simpa using h2⟩
  unfold build
  have hz : ¬ a.win.zeroStep a.steps = true := by
    simp only [Win.zeroStep, Bool.and_eq_true, beq_iff_eq, decide_eq_true_eq]; omega
  rw [if_neg hz, loop_costs, h1]

/-- **When the estimator can be built**: the window step is positive (or there is no window at all) and, unless there are no steps,
torch's default dtype is double. -/
theorem build_returns (a : Args) : (∃ s, build a = .ok s) ↔
    (1 ≤ a.win.step ∨ a.steps ≤ a.win.min) ∧ (a.steps = 0 ∨ a.dflt = a.double) := by
  constructor
  · rintro ⟨s, hs⟩
    unfold build at hs
    split at hs
    · cases hs
    rename_i hz
    have hw : 1 ≤ a.win.step ∨ a.steps ≤ a.win.min := by
      simp only [Win.zeroStep, Bool.and_eq_true, beq_iff_eq, decide_eq_true_eq] at hz; omega
    refine ⟨hw, ?_⟩
    by_contra hc
    push Not at hc
    obtain ⟨n, hn⟩ := Nat.exists_eq_succ_of_ne_zero hc.1
    rw [loop_costs] at hs
    have e : ∃ rest, allCosts a = Args.cost .objPrior [a.dvar (.obj 0)] [a.fvar .start] a.mcWeight 3 :: rest := by
      unfold allCosts
      rw [hn, List.range_succ_eq_map, List.flatMap_cons]
      unfold stepCosts
      rw [if_pos rfl]
      exact ⟨_, rfl⟩
    obtain ⟨rest, e⟩ := e
    rw [e, List.map_cons, addAll_bad (init_inv a.dflt) rfl (v := a.dvar (.obj 0)) (by simp [CostFn.vars, CostFn.optims, Args.cost])
      (Ne.symm hc.2)] at hs
    cases hs
  · rintro ⟨hw, h | h⟩
    · unfold build
      have hz : ¬ a.win.zeroStep a.steps = true := by
        simp only [Win.zeroStep, Bool.and_eq_true, beq_iff_eq, decide_eq_true_eq]; omega
      rw [if_neg hz, loop_costs]
      have : allCosts a = [] := by unfold allCosts; rw [h]; simp
      rw [this]
      exact ⟨_, rfl⟩
    · obtain ⟨s, h1, -⟩ := build_legal hw h.symm
      exact ⟨s, h1⟩

theorem build_inv {a : Args} {s : State} (hs : build a = .ok s) : Inv s (allCosts a) (allCosts a) := by
  obtain ⟨hw, h⟩ := (build_returns a).1 ⟨s, hs⟩
  rcases h with h | h
  · have hz : ¬ a.win.zeroStep a.steps = true := by
      simp only [Win.zeroStep, Bool.and_eq_true, beq_iff_eq, decide_eq_true_eq]; omega
    unfold build at hs
    have h0 : allCosts a = [] := by unfold allCosts; rw [h]; simp
    rw [if_neg hz, loop_costs, h0] at hs
    cases hs
    rw [h0]
    exact init_inv _
  · obtain ⟨s', h1, h2⟩ := build_legal hw h.symm
    rw [hs] at h1
    cases h1
    exact h2

open Classical in
/-- **The cost functions of the estimator**, in the order in which the objective lists them; each measurement cost links the poses
of the two steps in its name, with the measurement of the same two steps. -/
theorem build_costs {a : Args} {s : State} (hs : build a = .ok s) :
    List.Forall₂ IsEntry (entries a.win a.steps (decide (0 < a.reg))) (iter s) := by
  have e : iter s = allCosts a := by
    rw [iter, (build_inv hs).costs]
    simp [Dict.vals, Function.comp_def]
  rw [e]
  exact costs_entries a

theorem forall₂_mem_right {α β : Type} {R : α → β → Prop} {l : List α} {m : List β} (h : List.Forall₂ R l m) {b : β} (hb : b ∈ m) :
    ∃ x ∈ l, R x b := by
  induction h with
  | nil => simp at hb
  | cons h _ ih =>
    rcases List.mem_cons.1 hb with rfl | hb
    · exact ⟨_, List.mem_cons_self, h⟩
    · obtain ⟨x, hx, hr⟩ := ih hb
      exact ⟨x, List.mem_cons_of_mem _ hx, hr⟩

theorem forall₂_mem_left {α β : Type} {R : α → β → Prop} {l : List α} {m : List β} (h : List.Forall₂ R l m) {x : α} (hx : x ∈ l) :
    ∃ b ∈ m, R x b := by
  induction h with
  | nil => simp at hx
  | cons h _ ih =>
    rcases List.mem_cons.1 hx with rfl | hx
    · exact ⟨_, List.mem_cons_self, h⟩
    · obtain ⟨b, hb, hr⟩ := ih hx
      exact ⟨b, List.mem_cons_of_mem _ hb, hr⟩

theorem optim_key_iff {a : Args} {s : State} (hs : build a = .ok s) (n : VName) :
    (n.code ∈ s.optimVars.keys ↔ ∃ e ∈ entries a.win a.steps (@decide (0 < a.reg) (Classical.dec _)), n ∈ e.optim) ∧
    (n.code ∈ s.auxVars.keys ↔ ∃ e ∈ entries a.win a.steps (@decide (0 < a.reg) (Classical.dec _)), n ∈ e.aux) := by
  have hi := build_inv hs
  have hc := costs_entries a
  constructor
  · rw [Dict.mem_keys_iff, Option.isSome_iff_exists]
    have := hi.rg.typ .optim (by simp) n.code
    simp only [State.typed] at this
    constructor
    · rintro ⟨v, hv⟩
      obtain ⟨h1, h2⟩ := (this v).1 hv
      obtain ⟨c, h3, h4⟩ := (used_optim_iff _ v).1 h2
      obtain ⟨e, h5, -, h6, -⟩ := forall₂_mem_right hc h3
      refine ⟨e, h5, ?_⟩
      have h7 : v.name ∈ e.optim.map VName.code := h6 ▸ List.mem_map_of_mem h4
      obtain ⟨m, h8, h9⟩ := List.mem_map.1 h7
      rw [← VName.code_inj (h9.trans h1)]
      exact h8
    · rintro ⟨e, h1, h2⟩
      obtain ⟨c, h3, -, h4, -⟩ := forall₂_mem_left hc h1
      have h5 : n.code ∈ c.optims.map Var.name := h4 ▸ List.mem_map_of_mem h2
      obtain ⟨v, h6, h7⟩ := List.mem_map.1 h5
      exact ⟨v, (this v).2 ⟨h7, (used_optim_iff _ v).2 ⟨c, h3, h6⟩⟩⟩
  · rw [Dict.mem_keys_iff, Option.isSome_iff_exists]
    have := hi.rg.typ .aux (by simp) n.code
    simp only [State.typed] at this
    constructor
    · rintro ⟨v, hv⟩
      obtain ⟨h1, h2⟩ := (this v).1 hv
      obtain ⟨c, h3, h4⟩ := (used_aux_iff _ v).1 h2
      obtain ⟨e, h5, -, -, h6⟩ := forall₂_mem_right hc h3
      refine ⟨e, h5, ?_⟩
      have h7 : v.name ∈ e.aux.map VName.code := h6 ▸ List.mem_map_of_mem h4
      obtain ⟨m, h8, h9⟩ := List.mem_map.1 h7
      rw [← VName.code_inj (h9.trans h1)]
      exact h8
    · rintro ⟨e, h1, h2⟩
      obtain ⟨c, h3, -, -, h4⟩ := forall₂_mem_left hc h1
      have h5 : n.code ∈ c.auxs.map Var.name := h4 ▸ List.mem_map_of_mem h2
      obtain ⟨v, h6, h7⟩ := List.mem_map.1 h5
      exact ⟨v, (this v).2 ⟨h7, (used_aux_iff _ v).2 ⟨c, h3, h6⟩⟩⟩

/-- **The optimization variables of the estimator** are the poses of object and effector at all steps, each once. -/
theorem build_vars {a : Args} {s : State} (hs : build a = .ok s) : s.optimVars.keys.Nodup ∧
    ∀ n : VName, n.code ∈ s.optimVars.keys ↔ ∃ i < a.steps, n = .obj i ∨ n = .eff i := by
  obtain ⟨hw, -⟩ := (build_returns a).1 ⟨s, hs⟩
  refine ⟨(build_inv hs).rg.nodO, fun n => ?_⟩
  rw [(optim_key_iff hs n).1]
  constructor
  · rintro ⟨e, he, hn⟩
    unfold entries at he
    rcases List.mem_append.1 he with he | he
    · obtain ⟨i, hi, he⟩ := List.mem_flatMap.1 he
      rw [List.mem_range] at hi
      simp only [stepEntries, List.mem_append, List.mem_map, List.mem_cons, List.not_mem_nil, or_false] at he
      rcases he with ((he | he) | ⟨o, ho, rfl⟩) | rfl | rfl
      · split at he
        · simp only [List.mem_singleton] at he; subst he
          simp only [List.mem_singleton] at hn
          exact ⟨0, by omega, .inl hn⟩
        · simp at he
      · split at he
        · simp only [List.mem_singleton] at he; subst he
          simp only [List.mem_cons, List.not_mem_nil, or_false] at hn
          rcases hn with hn | hn | hn | hn
          · exact ⟨i, hi, .inl hn⟩
          · exact ⟨i + 1, by omega, .inl hn⟩
          · exact ⟨i, hi, .inr hn⟩
          · exact ⟨i + 1, by omega, .inr hn⟩
        · simp at he
      · simp only [List.mem_cons, List.not_mem_nil, or_false] at hn
        rcases hn with hn | hn | hn | hn
        · exact ⟨i - o, by omega, .inl hn⟩
        · exact ⟨i, hi, .inl hn⟩
        · exact ⟨i - o, by omega, .inr hn⟩
        · exact ⟨i, hi, .inr hn⟩
      · simp only [List.mem_cons, List.not_mem_nil, or_false] at hn
        exact ⟨i, hi, hn⟩
      · simp only [List.mem_singleton] at hn
        exact ⟨i, hi, .inr hn⟩
    · split at he
      · rcases List.mem_append.1 he with he | he
        · obtain ⟨i, hi, rfl⟩ := List.mem_map.1 he
          simp only [List.mem_singleton] at hn
          exact ⟨i, by simpa using hi, .inl hn⟩
        · obtain ⟨i, hi, rfl⟩ := List.mem_map.1 he
          simp only [List.mem_singleton] at hn
          exact ⟨i, by simpa using hi, .inr hn⟩
      · simp at he
  · rintro ⟨i, hi, hn⟩
    refine ⟨⟨.intersect i, [.obj i, .eff i], [.sdfOrigin, .sdfData, .cellSize, .radius, .intersectW]⟩, ?_, by simpa using hn⟩
    unfold entries
    refine List.mem_append_left _ (List.mem_flatMap.2 ⟨i, by simpa using hi, ?_⟩)
    simp [stepEntries]

/-- **The measurements given as inputs are those that the objective waits for**: one for each pair of steps of the window. -/
theorem inputs_match {ρ : Type} {a : Args} {s : State} (hs : build a = .ok s) {B : ℕ} {f : ℕ → ℕ × ℕ → ρ}
    {l : List ((ℕ × ℕ) × List ρ)} (hl : oracleInputs a.win a.steps B f = .ok l ∨ networkInputs a.win a.steps B f = .ok l) :
    (l.map Prod.fst).Nodup ∧ ∀ p : ℕ × ℕ, p ∈ l.map Prod.fst ↔ (VName.meas p.1 p.2).code ∈ s.auxVars.keys := by
  obtain ⟨hw, -⟩ := (build_returns a).1 ⟨s, hs⟩
  have e : l.map Prod.fst = a.win.pairs a.steps := by
    rcases hl with h | h
    · exact (oracle_rows h).1
    · exact (network_rows h).1
  have hne : a.win.pairs a.steps ≠ [] := by
    rcases hl with h | h
    · exact ((measurements_return _ _ _ _).1.1 ⟨l, h⟩).2.1
    · exact ((measurements_return _ _ _ _).2.1 ⟨l, h⟩).2.1
  have hw' : 1 ≤ a.win.step := by
    rcases hw with h | h
    · exact h
    · exfalso
      apply hne
      unfold Win.pairs
      rw [Nat.sub_eq_zero_of_le h]; rfl
  rw [e]
  refine ⟨(pairs_spec _ hw' _).1, fun p => ?_⟩
  rw [(optim_key_iff hs _).2, pairs_eq, List.mem_flatMap]
  constructor
  · rintro ⟨i, hi, hp⟩
    obtain ⟨o, ho, rfl⟩ := List.mem_map.1 hp
    refine ⟨⟨.mfBetween (i - o) i, [.obj (i - o), .obj i, .eff (i - o), .eff i], [.meas (i - o) i, .mfW]⟩, ?_, by simp⟩
    unfold entries
    refine List.mem_append_left _ (List.mem_flatMap.2 ⟨i, hi, ?_⟩)
    have : o ∈ pyRange a.win.min (min i a.win.max) a.win.step := by
      unfold Args.offsetsAt at ho
      split at ho
      · exact ho
      · simp at ho
    simp only [stepEntries, List.mem_append, List.mem_map]
    exact .inl (.inr ⟨o, this, rfl⟩)
  · rintro ⟨e, he, hn⟩
    unfold entries at he
    rcases List.mem_append.1 he with he | he
    · obtain ⟨i, hi, he⟩ := List.mem_flatMap.1 he
      simp only [stepEntries, List.mem_append, List.mem_map, List.mem_cons, List.not_mem_nil, or_false] at he
      rcases he with ((he | he) | ⟨o, ho, rfl⟩) | rfl | rfl
      · split at he
        · simp only [List.mem_singleton] at he; subst he; simp at hn
        · simp at he
      · split at he
        · simp only [List.mem_singleton] at he; subst he; simp at hn
        · simp at he
      · simp only [List.mem_cons, List.not_mem_nil, or_false, VName.meas.injEq, reduceCtorEq] at hn
        refine ⟨i, hi, List.mem_map.2 ⟨o, ?_, by ext <;> simp [hn.1, hn.2]⟩⟩
        unfold Args.offsetsAt
        obtain ⟨k, h1, h2⟩ := (mem_pyRange hw').1 ho
        rw [if_pos (by omega)]
        exact ho
      · simp at hn
      · simp at hn
    · split at he
      · rcases List.mem_append.1 he with he | he <;>
        · obtain ⟨i, hi, rfl⟩ := List.mem_map.1 he
          simp at hn
      · simp at he

/-- Four steps, windows of sizes 1 and 2, everything in double precision; with 32-bit defaults the constructor raises. -/
example : (∃ s, build ⟨4, ⟨1, 3, 1⟩, 0, 1, 1⟩ = .ok s) ∧ ¬ ∃ s, build ⟨4, ⟨1, 3, 1⟩, 0, 0, 1⟩ = .ok s := by
  rw [build_returns, build_returns]
  decide

example : (entries ⟨1, 3, 1⟩ 4 false).map Entry.name = [.objPrior, .qsp 0, .intersect 0, .effPrior 0, .qsp 1, .intersect 1,
    .effPrior 1, .qsp 2, .mfBetween 1 2, .intersect 2, .effPrior 2, .mfBetween 2 3, .mfBetween 1 3, .intersect 3, .effPrior 3] := by
  decide +kernel

end Verif.Tactile
