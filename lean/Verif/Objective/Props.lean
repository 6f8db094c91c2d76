import Verif.Objective.Inv
import Mathlib.Data.List.Dedup
/-!
# Properties of `Objective` book-keeping (C01–C10)

`hist` always ranges over arbitrary histories of `add`/`erase` calls on a fresh objective
(`init dt false`: the experimental mixed flag is off, which is the default).
`specRun [] hist` is the list of cost functions that should be present (`Spec.lean`).
-/
namespace Verif.Objective
open Verif

/-! ### Concrete objects used in the non-vacuity examples and in the refutations -/
namespace Ex
def x : Var := { id := 1, name := 1 }
def y : Var := { id := 2, name := 2 }
def t : Var := { id := 3, name := 3 }
def x2 : Var := { id := 4, name := 1 }         -- another object with `x`'s name
def q : Var := { id := 5, name := 5 }
def w : Weight := { id := 10, auxVars := [q] }
def c1 : CostFn := { id := 20, name := 20, optimVars := [x, y], auxVars := [t], weight := w, dim := 2 }
def c2 : CostFn := { id := 21, name := 21, optimVars := [y], auxVars := [q], weight := w, dim := 3 }
def c3 : CostFn := { id := 22, name := 22, optimVars := [x2], auxVars := [], weight := w }
/-- uses `c1`'s optimization variable `x` as an auxiliary variable -/
def c4 : CostFn := { id := 23, name := 23, optimVars := [], auxVars := [x], weight := w }
def c5 : CostFn := { id := 24, name := 24, optimVars := [x2], auxVars := [], weight := w }
def hist : List Call := [.add c1, .add c2, .erase 20, .add c1, .erase 99]

theorem hist_ok : Succeeds (init 0 false) hist ∧ NoReAdd [] hist := by
  refine ⟨?_, ?_⟩
  · simp only [hist, Succeeds]; decide
  · simp only [hist, NoReAdd]
    refine ⟨?_, ?_, ?_, ?_, ?_, trivial⟩ <;> intro f hf <;> simp at hf <;> subst hf <;> decide
end Ex

/-! ### Refinement to the specification -/

/-- The cost functions an objective iterates over are the ones the specification says, in the same
order, after any history of successful calls. (part of C10) -/
theorem iter_eq_spec (dt : Nat) (hist : List Call) (hok : Succeeds (init dt false) hist) :
    iter (run (init dt false) hist) = specRun [] hist := by
  obtain ⟨reg, h, _, _⟩ := run_inv (init_inv dt) hok
  rw [iter, h.costs]
  simp [Dict.vals, Function.comp_def]

example : iter (run (init 0 false) Ex.hist) = [Ex.c2, Ex.c1] := by decide

/-- `has_cost_function` / `get_cost_function` agree with the specification. -/
theorem getCostFunction_spec (dt : Nat) (hist : List Call) (hok : Succeeds (init dt false) hist)
    (n : Nat) (c : CostFn) :
    getCostFunction (run (init dt false) hist) n = some c ↔ c ∈ specRun [] hist ∧ c.name = n := by
  obtain ⟨reg, h, _, _⟩ := run_inv (init_inv dt) hok
  rw [getCostFunction, h.costs, get?_costs _ h.names]

/-- `add` is accepted exactly when the specification says so. -/
theorem add_accepts_iff (dt : Nat) (hist : List Call) (hok : Succeeds (init dt false) hist)
    (hre : NoReAdd [] hist) (c : CostFn) :
    (add (run (init dt false) hist) c).2 = none ↔ Acceptable dt (specRun [] hist) c := by
  obtain ⟨reg, h, hd, e⟩ := run_inv (init_inv dt) hok
  obtain rfl := e rfl hre
  rw [add_ok_iff h, hd]
  constructor
  · rintro ⟨a, b, c, d, e, f⟩; exact ⟨a, b, c, d, e, f⟩
  · rintro ⟨a, b, c, d, e, f⟩; exact ⟨a, b, c, d, e, f⟩

example : Acceptable 0 [Ex.c1] Ex.c2 ∧ ¬ Acceptable 0 [Ex.c1] Ex.c3 := by
  constructor
  · have := (add_accepts_iff 0 [.add Ex.c1] (by simp only [Succeeds]; decide)
      (by simp [NoReAdd]) Ex.c2).1 (by decide)
    exact this
  · intro h
    have := h.unique Ex.x2 (by decide) Ex.x (Or.inr ⟨Ex.c1, by simp, by decide⟩) rfl
    simp [Ex.x, Ex.x2] at this

/-- `erase` never raises on an objective built by successful calls. -/
theorem erase_never_raises (dt : Nat) (hist : List Call) (hok : Succeeds (init dt false) hist)
    (n : Nat) : (erase (run (init dt false) hist) n).2 = none := by
  obtain ⟨reg, h, _, _⟩ := run_inv (init_inv dt) hok
  obtain ⟨s', e, _⟩ := erase_inv h n
  rw [e]

/-! ### C01 -/

/-- C01: after any history of successful calls (re-adds included) a name denotes one variable
object, whichever container it is looked up in, and that object carries that name. -/
theorem one_name_one_object (dt : Nat) (hist : List Call) (hok : Succeeds (init dt false) hist)
    (n : Nat) (u v : Var)
    (hu : getOptimVar (run (init dt false) hist) n = some u ∨
      getAuxVar (run (init dt false) hist) n = some u)
    (hv : getOptimVar (run (init dt false) hist) n = some v ∨
      getAuxVar (run (init dt false) hist) n = some v) :
    u = v ∧ u.name = n := by
  obtain ⟨reg, h, _, _⟩ := run_inv (init_inv dt) hok
  have key : ∀ z, (getOptimVar (run (init dt false) hist) n = some z ∨
      getAuxVar (run (init dt false) hist) n = some z) → z.name = n ∧ Uses reg z := by
    rintro z (hz | hz)
    · have := (h.hasOptim n z).1 hz; exact ⟨this.1, (uses_iff _ _).2 (Or.inl this.2)⟩
    · have := (h.hasAux n z).1 hz; exact ⟨this.1, (uses_iff _ _).2 (Or.inr this.2)⟩
  obtain ⟨nu, uu⟩ := key u hu
  obtain ⟨nv, uv⟩ := key v hv
  exact ⟨h.uniq uu uv (nu.trans nv.symm), nu⟩

/-- C01: an `add` bringing a second object with a name already in use raises. -/
theorem conflicting_add_raises (dt : Nat) (hist : List Call) (hok : Succeeds (init dt false) hist)
    (c : CostFn) (u v : Var) (hv : v ∈ c.vars) (hne : u ≠ v) (hn : u.name = v.name)
    (hu : u ∈ c.vars ∨ getOptimVar (run (init dt false) hist) u.name = some u ∨
      getAuxVar (run (init dt false) hist) u.name = some u) :
    (add (run (init dt false) hist) c).2 ≠ none := by
  obtain ⟨reg, h, _, _⟩ := run_inv (init_inv dt) hok
  intro hadd
  have := (add_ok_iff h c).1 hadd
  refine hne (this.2.2.2.1 v hv u ?_ hn)
  rcases hu with hu | hu | hu
  · exact Or.inl hu
  · exact Or.inr ((uses_iff _ _).2 (Or.inl ((h.hasOptim _ _).1 hu).2))
  · exact Or.inr ((uses_iff _ _).2 (Or.inr ((h.hasAux _ _).1 hu).2))

example : getOptimVar (run (init 0 false) Ex.hist) 1 = some Ex.x ∧
    getAuxVar (run (init 0 false) Ex.hist) 5 = some Ex.q ∧
    (add (run (init 0 false) Ex.hist) Ex.c3).2 = some .valueError := by decide

/-! ### C02 -/

/-- C02: a name is an optimization variable of the objective exactly when some cost function now in
the objective uses an optimization variable of that name. -/
theorem hasOptimVar_iff_used (dt : Nat) (hist : List Call) (hok : Succeeds (init dt false) hist)
    (hre : NoReAdd [] hist) (n : Nat) :
    hasOptimVar (run (init dt false) hist) n = true ↔
      ∃ c ∈ specRun [] hist, ∃ v ∈ c.optimVars, v.name = n := by
  obtain ⟨reg, h, hd, e⟩ := run_inv (init_inv dt) hok
  obtain rfl := e rfl hre
  rw [hasOptimVar, Dict.has_iff]
  constructor
  · rintro ⟨v, hv⟩
    obtain ⟨hn, c, hc, hvc⟩ := (h.hasOptim _ _).1 hv
    exact ⟨c, hc, v, hvc, hn⟩
  · rintro ⟨c, hc, v, hv, hn⟩
    exact ⟨v, (h.hasOptim _ _).2 ⟨hn, c, hc, hv⟩⟩

/-- C02: likewise for auxiliary variables (of cost functions and of their weights). -/
theorem hasAuxVar_iff_used (dt : Nat) (hist : List Call) (hok : Succeeds (init dt false) hist)
    (hre : NoReAdd [] hist) (n : Nat) :
    hasAuxVar (run (init dt false) hist) n = true ↔
      ∃ c ∈ specRun [] hist, ∃ v, (v ∈ c.auxVars ∨ v ∈ c.weight.auxVars) ∧ v.name = n := by
  obtain ⟨reg, h, hd, e⟩ := run_inv (init_inv dt) hok
  obtain rfl := e rfl hre
  rw [hasAuxVar, Dict.has_iff]
  constructor
  · rintro ⟨v, hv⟩
    obtain ⟨hn, c, hc, hvc⟩ := (h.hasAux _ _).1 hv
    exact ⟨c, hc, v, List.mem_append.1 hvc, hn⟩
  · rintro ⟨c, hc, v, hv, hn⟩
    exact ⟨v, (h.hasAux _ _).2 ⟨hn, c, hc, List.mem_append.2 hv⟩⟩

example : Succeeds (init 0 false) Ex.hist ∧ NoReAdd [] Ex.hist ∧
    hasOptimVar (run (init 0 false) Ex.hist) 2 = true ∧
    hasOptimVar (run (init 0 false) (Ex.hist ++ [.erase 20])) 1 = false :=
  ⟨Ex.hist_ok.1, Ex.hist_ok.2, by decide, by decide⟩

/-! ### C03 -/

/-- C03 is false of the code: after `add c; add c; erase c` the objective has no cost function but
still has `c`'s variables and weight registered (`objective.py:246-250` only warns and goes on, so
`functions_for_*` get a second entry). -/
theorem readd_not_noop :
    ∃ (c : CostFn), Succeeds (init 0 false) [.add c, .add c, .erase c.name] ∧
      iter (run (init 0 false) [.add c, .add c, .erase c.name]) = [] ∧
      hasOptimVar (run (init 0 false) [.add c, .add c, .erase c.name]) 1 = true ∧
      (run (init 0 false) [.add c, .erase c.name]).optimVars = [] := by
  refine ⟨Ex.c1, ?_⟩
  simp only [Succeeds]
  decide

/-- C03 (what does hold): re-adding never raises and leaves the cost functions, optimization
variables and auxiliary variables as they were. Missing: the variable→function links. -/
theorem readd_partial (dt : Nat) (hist : List Call) (hok : Succeeds (init dt false) hist)
    (c : CostFn) (hc : c ∈ specRun [] hist) :
    (add (run (init dt false) hist) c).2 = none ∧
    iter (add (run (init dt false) hist) c).1 = iter (run (init dt false) hist) ∧
    (add (run (init dt false) hist) c).1.optimVars = (run (init dt false) hist).optimVars ∧
    (add (run (init dt false) hist) c).1.auxVars = (run (init dt false) hist).auxVars := by
  obtain ⟨reg, h, _, _⟩ := run_inv (init_inv dt) hok
  obtain ⟨h1, h2⟩ := readd_same h hc
  obtain ⟨h3, _, _⟩ := add_inv h h1
  refine ⟨h1, ?_, h2.optim, h2.aux⟩
  rw [if_pos hc] at h3
  rw [iter, iter, h3.costs, h.costs]

example : Succeeds (init 0 false) Ex.hist ∧ Ex.c2 ∈ specRun [] Ex.hist :=
  ⟨Ex.hist_ok.1, by decide⟩

/-! ### C04 -/

/-- C04: every `erase` increases the version. -/
theorem erase_increases_version (s : State) (n : Nat) : (erase s n).1.version = s.version + 1 :=
  erase_version s n

/-- C04: every `add`, raising or not, either leaves the objective untouched or increases the
version. -/
theorem add_increases_version (s : State) (c : CostFn) :
    (add s c).1 = s ∨ (add s c).1.version = s.version + 1 := by
  rcases add_version s c with h | h
  · left; rw [h]
  · exact Or.inr h

/-- C04: along any history (exceptions caught or not, any starting state) the version never
decreases, and if it did not move then the objective is exactly what it was. -/
theorem version_detects_change (s : State) (hist : List Call) :
    s.version ≤ (run s hist).version ∧ ((run s hist).version = s.version → run s hist = s) := by
  induction hist generalizing s with
  | nil => exact ⟨Nat.le_refl _, fun _ => rfl⟩
  | cons c hist ih =>
    have hc : (call s c).1 = s ∨ (call s c).1.version = s.version + 1 := by
      cases c with
      | add c => exact add_increases_version s c
      | erase n => exact Or.inr (erase_version s n)
    obtain ⟨h1, h2⟩ := ih (call s c).1
    rcases hc with hc | hc
    · simp only [run]; rw [hc] at h1 h2 ⊢; exact ⟨h1, h2⟩
    · simp only [run]
      exact ⟨by omega, fun h => by omega⟩

example : (run (init 0 false) Ex.hist).version = 5 := by decide

/-! ### C05 -/

/-- A call that leaves no trace: an `add` rejected because another object has that name. -/
def Rejected (s : State) : Call → Prop
  | .add c => ∃ c', getCostFunction s c.name = some c' ∧ c' ≠ c
  | .erase _ => False

/-- Every call of the history is rejected outright. -/
def AllRejected (s : State) : List Call → Prop
  | [] => True
  | c :: h => Rejected s c ∧ AllRejected s h

/-- C05: an optimizer/layer built on an objective refuses to run after `hist` if and only if some
call of `hist` was anything but an outright rejected `add`. -/
theorem stale_runner_refused_iff (s : State) (hist : List Call) :
    runGuard (buildRunner s) (run s hist) = some .runtimeError ↔ ¬ AllRejected s hist := by
  have key : (run s hist).version = s.version ↔ AllRejected s hist := by
    induction hist generalizing s with
    | nil => simp [run, AllRejected]
    | cons c hist ih =>
      have hstep : (Rejected s c ∧ (call s c).1 = s) ∨
          (¬ Rejected s c ∧ (call s c).1.version = s.version + 1) := by
        cases c with
        | erase n => exact Or.inr ⟨id, erase_version s n⟩
        | add c =>
          simp only [call, add, Rejected, getCostFunction]
          cases hg : s.costFns.get? c.name with
          | none => exact Or.inr ⟨by simp, addBody_version _ _⟩
          | some c' =>
            by_cases e : c = c'
            · subst e; exact Or.inr ⟨by simp, by simpa using addBody_version s c⟩
            · exact Or.inl ⟨⟨c', rfl, Ne.symm e⟩, by simp [e]⟩
      rcases hstep with ⟨hr, he⟩ | ⟨hr, he⟩
      · simp only [run, AllRejected, hr, true_and]
        rw [he]; exact ih s
      · have := (version_detects_change (call s c).1 hist).1
        simp only [run, AllRejected, hr, false_and, iff_false]
        omega
  unfold runGuard buildRunner
  rw [← key]
  by_cases h : s.version = (run s hist).version
  · simp [h]
  · simp [h, Ne.symm h]

example : runGuard (buildRunner (run (init 0 false) Ex.hist)) (run (init 0 false) (Ex.hist ++ [.erase 99]))
    = some .runtimeError := by decide

/-! ### C06 -/

/-- C06 is false of the code: an `add` that raises (here: the same name for two variables) leaves the
cost function registered. -/
theorem add_not_atomic : ∃ (s : State) (c : CostFn),
    (∃ hist, Succeeds (init 0 false) hist ∧ s = run (init 0 false) hist) ∧
    (add s c).2 = some .valueError ∧ hasCostFunction s c.name = false ∧
    hasCostFunction (add s c).1 c.name = true ∧ (add s c).1 ≠ { s with version := s.version + 1 } := by
  refine ⟨run (init 0 false) [.add Ex.c1], Ex.c3, ⟨[.add Ex.c1], ?_, rfl⟩, ?_⟩
  · simp only [Succeeds]; decide
  · decide

/-- Consequence of C06's failure: if the caller catches the exceptions, one name can come to denote
two different objects (as optimization and as auxiliary variable), so C01 needs its hypothesis. -/
theorem caught_exceptions_break_unique_names : ∃ (hist : List Call) (n : Nat) (u v : Var),
    u ≠ v ∧ getOptimVar (run (init 0 false) hist) n = some u ∧
    getAuxVar (run (init 0 false) hist) n = some v := by
  refine ⟨[.add Ex.c1, .add Ex.c4, .erase 20, .add Ex.c5], 1, Ex.x2, Ex.x, ?_⟩
  decide

/-- C06 (what does hold): rejection of a duplicated cost function name leaves no trace. -/
theorem add_atomic_partial (s : State) (c c' : CostFn) (h : getCostFunction s c.name = some c')
    (hne : c' ≠ c) : add s c = (s, some .valueError) := by
  unfold add
  rw [getCostFunction] at h
  simp [h, Ne.symm hne]

example : getCostFunction (run (init 0 false) Ex.hist) 20 = some Ex.c1 ∧
    Ex.c1 ≠ { Ex.c1 with id := 77 } := by decide

/-! ### C07 -/

/-- C07: adding a fresh cost function and erasing it gives back the same cost functions, variables
and variable→function links; only the version moves. -/
theorem erase_undoes_add (dt : Nat) (hist : List Call) (hok : Succeeds (init dt false) hist)
    (hre : NoReAdd [] hist) (c : CostFn) (hc : c ∉ specRun [] hist)
    (hadd : (add (run (init dt false) hist) c).2 = none) :
    let s := run (init dt false) hist
    let s' := (erase (add s c).1 c.name).1
    iter s' = iter s ∧ s'.version = s.version + 2 ∧
    (∀ n, getCostFunction s' n = getCostFunction s n) ∧
    (∀ n, getOptimVar s' n = getOptimVar s n) ∧ (∀ n, getAuxVar s' n = getAuxVar s n) ∧
    (∀ v f, f ∈ (s'.fnsForOptim.get? v).getD [] ↔ f ∈ (s.fnsForOptim.get? v).getD []) ∧
    (∀ v f, f ∈ (s'.fnsForAux.get? v).getD [] ↔ f ∈ (s.fnsForAux.get? v).getD []) := by
  obtain ⟨reg, h, hd, e⟩ := run_inv (init_inv dt) hok
  obtain rfl := e rfl hre
  generalize run (init dt false) hist = s at *
  generalize specRun [] hist = cs at *
  simp only []
  obtain ⟨h1, v1, _⟩ := add_inv h hadd
  have hnew : ∀ c' ∈ cs, c'.name ≠ c.name := by
    intro c' hc' hn
    have := ((add_ok_iff h c).1 hadd).1 c' hc' hn
    subst this; exact hc hc'
  rw [if_neg hc] at h1
  obtain ⟨s', e2, h2, v2, _⟩ := erase_inv h1 c.name
  rw [specCall_erase_eq h1.names] at h2
  have hf : (cs ++ [c]).filter (fun d => decide (d.name ≠ c.name)) = cs := by
    rw [List.filter_append]
    have : cs.filter (fun d => decide (d.name ≠ c.name)) = cs := by
      apply List.filter_eq_self.2; intro d hd; simpa using hnew d hd
    rw [this]; simp
  rw [hf] at h2
  rw [e2]
  simp only
  have fnm : ∀ k, k ≠ .cwOptim → ∀ v f, f ∈ ((s'.fnMap k).get? v).getD [] ↔
      f ∈ ((s.fnMap k).get? v).getD [] := by
    intro k hk v f
    have a := h2.rg.cnt k hk v f
    have b := h.rg.cnt k hk v f
    rw [← b] at a
    cases g1 : (s'.fnMap k).get? v <;> cases g2 : (s.fnMap k).get? v <;>
      rw [g1, g2] at a <;> simp only [cnt] at a <;>
      simp only [Option.getD_none, Option.getD_some, List.not_mem_nil, false_iff, iff_false]
    · intro hm; have := List.count_pos_iff.2 hm; omega
    · intro hm; have := List.count_pos_iff.2 hm; omega
    · rw [← List.count_pos_iff, ← List.count_pos_iff, a]
  refine ⟨?_, by omega, ?_, ?_, ?_, fnm .optim (by simp), fnm .aux (by simp)⟩
  · rw [iter, iter, h2.costs, h.costs]
  · intro n; rw [getCostFunction, getCostFunction, h2.costs, h.costs]
  · intro n
    apply Option.ext; intro v
    rw [getOptimVar, getOptimVar, h2.hasOptim, h.hasOptim]
  · intro n
    apply Option.ext; intro v
    rw [getAuxVar, getAuxVar, h2.hasAux, h.hasAux]

example : Ex.c1 ∉ specRun [] [.add Ex.c2] ∧
    (add (run (init 0 false) [.add Ex.c2]) Ex.c1).2 = none := by decide

/-! ### C08 -/

theorem mul_pos_iff' (a b : Nat) : 0 < a * b ↔ 0 < a ∧ 0 < b := by
  constructor
  · intro h
    constructor
    · rcases Nat.eq_zero_or_pos a with rfl | h'
      · simp at h
      · exact h'
    · rcases Nat.eq_zero_or_pos b with rfl | h'
      · simp at h
      · exact h'
  · rintro ⟨h1, h2⟩; exact Nat.mul_pos h1 h2

/-- Function `f` of the objective uses `v` as optimization variable. -/
def FnUsesOptim (cs : List CostFn) (v : Var) : Fn → Prop
  | .cost c => c ∈ cs ∧ v ∈ c.optimVars
  | .weight _ => False

/-- Function `f` of the objective (cost function, or weight of one) uses `v` as auxiliary. -/
def FnUsesAux (cs : List CostFn) (v : Var) : Fn → Prop
  | .cost c => c ∈ cs ∧ v ∈ c.auxVars
  | .weight w => (∃ c ∈ cs, c.weight = w) ∧ v ∈ w.auxVars

/-- C08: `get_functions_connected_to_optim_var(v)` returns exactly the functions using `v`, and
raises exactly when there are none. -/
theorem connected_optim_exact (dt : Nat) (hist : List Call) (hok : Succeeds (init dt false) hist)
    (hre : NoReAdd [] hist) (v : Var) :
    match connectedToVar (run (init dt false) hist).fnsForOptim v with
    | .ok l => ∀ f, f ∈ l ↔ FnUsesOptim (specRun [] hist) v f
    | .error e => e = .valueError ∧ ∀ f, ¬ FnUsesOptim (specRun [] hist) v f := by
  obtain ⟨reg, h, hd, e⟩ := run_inv (init_inv dt) hok
  obtain rfl := e rfl hre
  have hc := h.rg.cnt .optim (by simp) v
  have hf : ∀ f, 0 < usage (specRun [] hist) .optim v f ↔ FnUsesOptim (specRun [] hist) v f := by
    intro f
    cases f with
    | cost c => simp only [usage, FnUsesOptim, mul_pos_iff', List.count_pos_iff]
    | weight w => simp [usage, FnUsesOptim]
  simp only [State.fnMap] at hc
  unfold connectedToVar
  cases hg : (run (init dt false) hist).fnsForOptim.get? v with
  | none =>
    rw [hg] at hc
    refine ⟨rfl, fun f hu => ?_⟩
    have := (hf f).2 hu
    rw [← hc f] at this; simp [cnt] at this
  | some l =>
    rw [hg] at hc
    intro f
    rw [← hf f, ← hc f]; simp [cnt, List.count_pos_iff]

/-- C08: likewise for auxiliary variables. -/
theorem connected_aux_exact (dt : Nat) (hist : List Call) (hok : Succeeds (init dt false) hist)
    (hre : NoReAdd [] hist) (v : Var) :
    match connectedToVar (run (init dt false) hist).fnsForAux v with
    | .ok l => ∀ f, f ∈ l ↔ FnUsesAux (specRun [] hist) v f
    | .error e => e = .valueError ∧ ∀ f, ¬ FnUsesAux (specRun [] hist) v f := by
  obtain ⟨reg, h, hd, e⟩ := run_inv (init_inv dt) hok
  obtain rfl := e rfl hre
  have hc := h.rg.cnt .aux (by simp) v
  have hf : ∀ f, 0 < usage (specRun [] hist) .aux v f ↔ FnUsesAux (specRun [] hist) v f := by
    intro f
    cases f with
    | cost c => simp only [usage, FnUsesAux, mul_pos_iff', List.count_pos_iff]
    | weight w =>
      simp only [usage, FnUsesAux, List.mem_map]
      split
      · next hh => simp [List.count_pos_iff, hh]
      · next hh => simp [hh]
  simp only [State.fnMap] at hc
  unfold connectedToVar
  cases hg : (run (init dt false) hist).fnsForAux.get? v with
  | none =>
    rw [hg] at hc
    refine ⟨rfl, fun f hu => ?_⟩
    have := (hf f).2 hu
    rw [← hc f] at this; simp [cnt] at this
  | some l =>
    rw [hg] at hc
    intro f
    rw [← hf f, ← hc f]; simp [cnt, List.count_pos_iff]

/-- C08: querying by name is querying the variable of that name. -/
theorem connected_by_name (dt : Nat) (hist : List Call) (hok : Succeeds (init dt false) hist)
    (hre : NoReAdd [] hist) (n : Nat) :
    match connectedToName (run (init dt false) hist).optimVars (run (init dt false) hist).fnsForOptim n with
    | .ok l => ∀ f, f ∈ l ↔ ∃ v, v.name = n ∧ FnUsesOptim (specRun [] hist) v f
    | .error _ => hasOptimVar (run (init dt false) hist) n = false := by
  have hex := connected_optim_exact dt hist hok hre
  have hon := one_name_one_object dt hist hok n
  obtain ⟨reg, h, hd, e⟩ := run_inv (init_inv dt) hok
  obtain rfl := e rfl hre
  unfold connectedToName
  cases hg : (run (init dt false) hist).optimVars.get? n with
  | none => simp [hasOptimVar, Dict.has, hg]
  | some v =>
    have hv := (h.hasOptim n v).1 hg
    have := hex v
    simp only
    cases hc : connectedToVar (run (init dt false) hist).fnsForOptim v with
    | ok l =>
      rw [hc] at this
      simp only at this ⊢
      intro f
      rw [this f]
      constructor
      · intro hf; exact ⟨v, hv.1, hf⟩
      · rintro ⟨u, hu, hf⟩
        cases f with
        | weight w => exact hf.elim
        | cost c =>
          have : u = v := h.uniq ⟨c, hf.1, by simp [CostFn.vars, CostFn.optims, hf.2]⟩
            ((uses_iff _ _).2 (Or.inl hv.2)) (hu.trans hv.1.symm)
          subst this; exact hf
    | error e =>
      rw [hc] at this
      simp only at this
      obtain ⟨c, hc', hvc⟩ := hv.2
      exact absurd ⟨hc', hvc⟩ (this.2 (.cost c))

example : connectedToName (run (init 0 false) Ex.hist).optimVars
    (run (init 0 false) Ex.hist).fnsForOptim 2 = .ok [.cost Ex.c2, .cost Ex.c1] := by rfl

/-! ### C09 -/

/-- C09: after successful calls no name is both an optimization and an auxiliary variable. -/
theorem optim_aux_disjoint (dt : Nat) (hist : List Call) (hok : Succeeds (init dt false) hist)
    (n : Nat) : ¬ (hasOptimVar (run (init dt false) hist) n = true ∧
      hasAuxVar (run (init dt false) hist) n = true) := by
  obtain ⟨reg, h, _, _⟩ := run_inv (init_inv dt) hok
  rintro ⟨h1, h2⟩
  obtain ⟨u, hu⟩ := Dict.has_iff.1 h1
  obtain ⟨v, hv⟩ := Dict.has_iff.1 h2
  have hu' := (h.hasOptim _ _).1 hu
  have hv' := (h.hasAux _ _).1 hv
  have : u = v := h.uniq ((uses_iff _ _).2 (Or.inl hu'.2)) ((uses_iff _ _).2 (Or.inr hv'.2))
    (hu'.1.trans hv'.1.symm)
  subst this
  exact h.disj hu'.2 hv'.2

/-- C09: an `add` making a variable both optimization and auxiliary raises. -/
theorem dual_add_raises (dt : Nat) (hist : List Call) (hok : Succeeds (init dt false) hist)
    (c : CostFn) (v : Var)
    (hdual : (v ∈ c.optims ∧ v ∈ c.auxs) ∨
      (v ∈ c.auxs ∧ getOptimVar (run (init dt false) hist) v.name = some v) ∨
      (v ∈ c.optims ∧ getAuxVar (run (init dt false) hist) v.name = some v)) :
    (add (run (init dt false) hist) c).2 ≠ none := by
  obtain ⟨reg, h, _, _⟩ := run_inv (init_inv dt) hok
  intro hadd
  have := (add_ok_iff h c).1 hadd
  rcases hdual with ⟨h1, h2⟩ | ⟨h1, h2⟩ | ⟨h1, h2⟩
  · exact (this.2.2.2.2.1 v h1).1 h2
  · exact this.2.2.2.2.2 v h1 ((h.hasOptim _ _).1 h2).2
  · exact (this.2.2.2.2.1 v h1).2 ((h.hasAux _ _).1 h2).2

/-- Observation: the documented `ValueError` of `objective.py:301-310` is not what the user sees;
`objective.py:208` fails first with `KeyError`. -/
theorem dual_add_is_keyError :
    (add (run (init 0 false) [.add Ex.c1]) Ex.c4).2 = some .keyError := by decide

/-- In the experimental mixed mode `erase` can raise `KeyError` (the variable is dropped from
`_all_variables` while still used with the other role, `objective.py:413`). -/
theorem mixed_erase_raises :
    (add (add (init 0 true) Ex.c1).1 Ex.c4).2 = none ∧
    (erase (erase (add (add (init 0 true) Ex.c1).1 Ex.c4).1 20).1 23).2 = some .keyError := by decide

/-! ### C10 -/

theorem length_of_dict (d : Dict Nat Var) (hn : d.keys.Nodup) (hname : ∀ n v, d.get? n = some v → v.name = n)
    (l : List Var) (hl : ∀ v, v ∈ l ↔ d.get? v.name = some v) : d.length = l.dedup.length := by
  have hv : (d.vals).Nodup := by
    have hk : d.keys = d.vals.map Var.name := by
      unfold Dict.keys Dict.vals
      rw [List.map_map]
      apply List.map_congr_left
      rintro ⟨n, v⟩ hm
      exact (hname n v (Dict.get?_of_mem hn hm)).symm
    rw [hk] at hn
    exact List.Nodup.of_map _ hn
  have hp : d.vals.Perm l.dedup := by
    rw [List.perm_ext_iff_of_nodup hv (List.nodup_dedup l)]
    intro v
    rw [List.mem_dedup, hl]
    constructor
    · intro hm
      obtain ⟨⟨n, v'⟩, hm', rfl⟩ := List.mem_map.1 hm
      have := Dict.get?_of_mem hn hm'
      rw [← hname n _ this] at this
      exact this
    · intro hg
      exact List.mem_map.2 ⟨(v.name, v), Dict.get?_eq_some_mem hg, rfl⟩
  have := hp.length_eq
  simpa [Dict.vals] using this

/-- C10: sizes and dimension are the numbers of cost functions and of distinct variables they use,
and the sum of the error dimensions. -/
theorem sizes_and_dim (dt : Nat) (hist : List Call) (hok : Succeeds (init dt false) hist)
    (hre : NoReAdd [] hist) :
    let s := run (init dt false) hist
    let cs := specRun [] hist
    size s = (cs.length, (cs.flatMap CostFn.optims).dedup.length) ∧
    sizeCostFunctions s = cs.length ∧
    sizeVariables s = (cs.flatMap CostFn.optims).dedup.length ∧
    sizeAuxVars s = (cs.flatMap CostFn.auxs).dedup.length ∧
    dim s = (cs.map CostFn.dim).sum ∧
    iter s = cs := by
  have hit := iter_eq_spec dt hist hok
  obtain ⟨reg, h, hd, e⟩ := run_inv (init_inv dt) hok
  obtain rfl := e rfl hre
  simp only []
  have ho : (run (init dt false) hist).optimVars.length =
      ((specRun [] hist).flatMap CostFn.optims).dedup.length := by
    apply length_of_dict _ h.rg.nodO
    · intro n v hv; exact ((h.hasOptim n v).1 hv).1
    · intro v; rw [h.hasOptim]; simp [UsesOptim]
  have ha : (run (init dt false) hist).auxVars.length =
      ((specRun [] hist).flatMap CostFn.auxs).dedup.length := by
    apply length_of_dict _ h.rg.nodA
    · intro n v hv; exact ((h.hasAux n v).1 hv).1
    · intro v; rw [h.hasAux]; simp [UsesAux]
  have hc : (run (init dt false) hist).costFns.length = (specRun [] hist).length := by
    rw [h.costs]; simp
  refine ⟨by simp [size, ho, hc], hc, ho, ha, ?_, hit⟩
  have : dim (run (init dt false) hist) =
      (iter (run (init dt false) hist)).foldl (fun a c => a + c.dim) 0 := rfl
  rw [this, hit]
  generalize specRun [] hist = cs
  have gen : ∀ (a : Nat), cs.foldl (fun a c => a + c.dim) a = a + (cs.map CostFn.dim).sum := by
    induction cs with
    | nil => simp
    | cons c cs ih => intro a; simp [ih, Nat.add_assoc]
  simpa using gen 0

example : size (run (init 0 false) Ex.hist) = (2, 2) ∧ dim (run (init 0 false) Ex.hist) = 5 := by decide

end Verif.Objective
