import Verif.Planner.Model
import Verif.Objective.Inv
import Verif.Linear.Ordering

/-!
# The motion planner's objective: lemmas
-/

namespace Verif.Planner
open Verif.Objective

/-! ### Sequences of `add` -/

/-- What every cost function of the planner satisfies. -/
structure Fine (d : ℕ) (c : CostFn) : Prop where
  weight : c.weight.optimVars = []
  var : ∀ v ∈ c.vars, v = ⟨v.name, v.name, d⟩
  optim : ∀ v ∈ c.optims, v.name % 20 < 2
  aux : ∀ v ∈ c.auxs, 2 ≤ v.name % 20

/-- The new dictionary of optimization variables. -/
def newOptim (s : State) (k : Kind) (v : Var) : Dict ℕ Var :=
  match k with | .optim => s.optimVars.set v.name v | _ => s.optimVars

theorem addVarTail_optim {s : State} {f : Fn} {k : Kind} {v : Var} :
    (addVarTail s f k v).1.optimVars = newOptim s k v := by
  have e1 : (s.setTyped k ((s.typed k).set v.name v)).optimVars = newOptim s k v := by cases k <;> rfl
  have e0 : ∀ (s : State) m, (s.setFnMap k m).optimVars = s.optimVars := by intro s m; cases k <;> rfl
  unfold addVarTail
  dsimp only
  rw [← e1]
  generalize s.setTyped k ((s.typed k).set v.name v) = s1
  have e2 : (if s1.mixed && !(s1.fnMap k).has v then s1.setFnMap k ((s1.fnMap k).set v []) else s1).optimVars =
      s1.optimVars := by split <;> simp [e0]
  rw [← e2]
  generalize (if s1.mixed && !(s1.fnMap k).has v then s1.setFnMap k ((s1.fnMap k).set v []) else s1) = s2
  split
  · rfl
  · exact e0 _ _

theorem addVar_optim {s : State} {f : Fn} {k : Kind} {v : Var} (h : (addVar s f k v).2 = none) :
    (addVar s f k v).1.optimVars = newOptim s k v := by
  unfold addVar at h ⊢
  by_cases hd : v.dtype ≠ s.dtype
  · rw [if_pos hd]
    cases k <;> simp [hd] at h
  · rw [if_neg hd] at h ⊢
    cases hw : s.allVars.get? v.name with
    | some w =>
      rw [hw] at h
      dsimp only at h ⊢
      by_cases hne : w ≠ v
      · rw [if_pos hne] at h; cases h
      · rw [if_neg hne]
        exact addVarTail_optim
    | none =>
      rw [hw] at h
      dsimp only at h ⊢
      split at h
      · cases h
      · rename_i hh
        rw [if_neg hh, addVarTail_optim]
        cases k <;> rfl

theorem addFnVars_optim {s : State} {f : Fn} {k : Kind} {vs : List Var} (h : (addFnVars s f k vs).2 = none) :
    (addFnVars s f k vs).1.optimVars =
      match k with | .optim => vs.foldl (fun d v => d.set v.name v) s.optimVars | _ => s.optimVars := by
  induction vs generalizing s with
  | nil => cases k <;> rfl
  | cons v vs ih =>
    simp only [addFnVars] at h ⊢
    obtain ⟨h1, h2⟩ := Res.andThen_ok.1 h
    have h3 := addVar_optim h1
    rw [Res.andThen_of_ok h1, ih h2]
    cases k with
    | optim => simp only [h3, newOptim, List.foldl_cons]
    | cwOptim => simpa only [newOptim] using h3
    | aux => simpa only [newOptim] using h3

theorem addWeight_optim {s : State} {c : CostFn} (hw : c.weight.optimVars = []) (h : (addWeight s c).2 = none) :
    (addWeight s c).1.optimVars = s.optimVars := by
  unfold addWeight at h ⊢
  rw [hw] at h ⊢
  by_cases hh : s.cfForWeights.has c.weight = true
  · rw [if_pos hh]
  · rw [if_neg hh] at h ⊢
    have e : (addFnVars s (.weight c.weight) .cwOptim []) = (s, none) := rfl
    rw [e] at h ⊢
    obtain ⟨-, h1⟩ := Res.andThen_ok.1 h
    obtain ⟨h2, -⟩ := Res.andThen_ok.1 h1
    have h3 := addFnVars_optim h2
    rw [Res.andThen_of_ok (r := (s, none)) rfl, Res.andThen_of_ok h2]
    simpa using h3

theorem addBody_optim {s : State} {c : CostFn} (hw : c.weight.optimVars = []) (h : (addBody s c).2 = none) :
    (addBody s c).1.optimVars = c.optimVars.foldl (fun d v => d.set v.name v) s.optimVars := by
  unfold addBody at h ⊢
  dsimp only at h ⊢
  obtain ⟨h1, h2⟩ := Res.andThen_ok.1 h
  rw [Res.andThen_of_ok h1]
  obtain ⟨h3, h4⟩ := Res.andThen_ok.1 h2
  rw [Res.andThen_of_ok h3]
  obtain ⟨h5, h6⟩ := Res.andThen_ok.1 h4
  rw [Res.andThen_of_ok h5]
  obtain ⟨h7, h8⟩ := Res.andThen_ok.1 h6
  rw [Res.andThen_of_ok h7]
  have e1 : ∀ s : State, (dualCheck s c).1 = s := by
    intro s; unfold dualCheck; split_ifs <;> rfl
  have e2 : ∀ s : State, (linkWeight s c).1.optimVars = s.optimVars := by
    intro s; unfold linkWeight; split <;> rfl
  rw [e1, e2, addWeight_optim hw h5, addFnVars_optim h3, addFnVars_optim h1]

theorem add_optim {s : State} {c : CostFn} (hw : c.weight.optimVars = []) (h : (add s c).2 = none) :
    (add s c).1.optimVars = c.optimVars.foldl (fun d v => d.set v.name v) s.optimVars := by
  unfold add at h ⊢
  split
  · rename_i c' hc
    simp only [hc] at h
    split
    · rename_i hne; simp [hne] at h
    · rename_i hne
      simp only [hne, if_false] at h
      exact addBody_optim hw h
  · rename_i hc
    simp only [hc] at h
    exact addBody_optim hw h

/-- Adding cost functions with new names, all fine, succeeds. -/
theorem addAll_ok {d : ℕ} {s : State} {cs : List CostFn} (h : Inv s cs cs) (hd : s.dtype = d) (new : List CostFn)
    (hn : ((cs ++ new).map CostFn.name).Nodup) (hf : ∀ c ∈ cs ++ new, Fine d c) :
    ∃ s', addAll s (new.map .ok) = .ok s' ∧ Inv s' (cs ++ new) (cs ++ new) ∧ s'.dtype = d ∧
      s'.optimVars = (new.flatMap CostFn.optimVars).foldl (fun d v => d.set v.name v) s.optimVars := by
  induction new generalizing s cs with
  | nil => exact ⟨s, rfl, by simpa using h, hd, rfl⟩
  | cons c new ih =>
    have hc : Fine d c := hf c (by simp)
    have hnot : c ∉ cs := by
      intro hc
      rw [List.map_append, List.map_cons, List.nodup_append] at hn
      exact hn.2.2 _ (List.mem_map_of_mem hc) _ (by simp) rfl
    have hacc : (add s c).2 = none := by
      rw [add_ok_iff h]
      refine ⟨fun c' hc' e => ?_, hc.weight, fun v hv => by rw [hc.var v hv, hd], ?_, ?_, ?_⟩
      · rw [List.map_append, List.map_cons, List.nodup_append] at hn
        exact absurd e (hn.2.2 _ (List.mem_map_of_mem hc') _ (by simp))
      · intro v hv u hu e
        rw [hc.var v hv]
        rcases hu with hu | ⟨c', hc', hu⟩
        · rw [hc.var u hu, e]
        · rw [(hf c' (by simp [hc'])).var u hu, e]
      · intro v hv
        have h1 := hc.optim v hv
        refine ⟨fun h2 => ?_, fun ⟨c', hc', h2⟩ => ?_⟩
        · have := hc.aux v h2; omega
        · have := (hf c' (by simp [hc'])).aux v h2; omega
      · rintro v hv ⟨c', hc', h2⟩
        have h1 := hc.aux v hv
        have := (hf c' (by simp [hc'])).optim v h2
        omega
    obtain ⟨h1, -, h2⟩ := add_inv h hacc
    rw [if_neg hnot] at h1
    obtain ⟨s', h3, h4, h5, h6⟩ := ih h1 (h2.trans hd) (by simpa using hn) (by simpa using hf)
    refine ⟨s', ?_, by simpa using h4, h5, ?_⟩
    · rw [List.map_cons, addAll]
      have : add s c = ((add s c).1, none) := by rw [← hacc]
      rw [this]
      exact h3
    · rw [h6, add_optim hc.weight hacc, List.flatMap_cons, List.foldl_append]

theorem addAll_append (s : State) (l1 l2 : List (Except Exc CostFn)) : addAll s (l1 ++ l2) =
    match addAll s l1 with | .ok s' => addAll s' l2 | .error e => .error e := by
  induction l1 generalizing s with
  | nil => rfl
  | cons x l1 ih =>
    cases x with
    | error e => rfl
    | ok c =>
      simp only [List.cons_append, addAll]
      cases hadd : add s c with
      | mk s' e =>
        cases e with
        | none => exact ih s'
        | some e => rfl

theorem addAll_bad {d : ℕ} {s : State} {cs : List CostFn} (h : Inv s cs cs) (hd : s.dtype = d) {c : CostFn} {v : Var}
    (hv : v ∈ c.vars) (hne : v.dtype ≠ d) (rest : List (Except Exc CostFn)) : addAll s (.ok c :: rest) = .error .value := by
  rw [addAll]
  have : (add s c).2 ≠ none := by
    rw [Ne, add_ok_iff h]
    rintro ⟨-, -, h3, -⟩
    exact hne ((h3 v hv).trans hd)
  cases hadd : add s c with
  | mk s' e =>
    cases e with
    | none => rw [hadd] at this; exact absurd rfl this
    | some e => rfl

end Verif.Planner
