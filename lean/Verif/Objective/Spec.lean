import Verif.Objective.Model
/-!
# Specification of an objective's structure

An objective is specified by nothing more than the list of cost functions currently in it
(in insertion order).  Everything a user can query is a function of that list.
-/
namespace Verif.Objective

/-- Variables a cost function uses as optimization variables. -/
def CostFn.optims (c : CostFn) : List Var := c.optimVars
/-- Variables a cost function, or its weight, uses as auxiliary variables. -/
def CostFn.auxs (c : CostFn) : List Var := c.auxVars ++ c.weight.auxVars
/-- All the variables of a cost function (and its weight). -/
def CostFn.vars (c : CostFn) : List Var := c.optims ++ c.auxs

/-- Some cost function in `cs` uses `v` as an optimization variable. -/
def UsesOptim (cs : List CostFn) (v : Var) : Prop := ∃ c ∈ cs, v ∈ c.optims
/-- Some cost function in `cs` (or its weight) uses `v` as an auxiliary variable. -/
def UsesAux (cs : List CostFn) (v : Var) : Prop := ∃ c ∈ cs, v ∈ c.auxs
/-- Some cost function in `cs` uses `v`. -/
def Uses (cs : List CostFn) (v : Var) : Prop := ∃ c ∈ cs, v ∈ c.vars

/-- When a cost function may be added to an objective of dtype `dt` holding `cs`. -/
structure Acceptable (dt : Nat) (cs : List CostFn) (c : CostFn) : Prop where
  /-- no *other* cost function has this name -/
  name : ∀ c' ∈ cs, c'.name = c.name → c' = c
  /-- the weight depends on no optimization variable -/
  weight : c.weight.optimVars = []
  /-- variables have the objective's dtype -/
  dtype : ∀ v ∈ c.vars, v.dtype = dt
  /-- one name, one object -/
  unique : ∀ v ∈ c.vars, ∀ u, u ∈ c.vars ∨ Uses cs u → u.name = v.name → u = v
  /-- no variable is both optimization and auxiliary -/
  optim : ∀ v ∈ c.optims, v ∉ c.auxs ∧ ¬ UsesAux cs v
  aux : ∀ v ∈ c.auxs, ¬ UsesOptim cs v

/-- The cost functions present after a call (specification). -/
def specCall (cs : List CostFn) : Call → List CostFn
  | .add c => if c ∈ cs then cs else cs ++ [c]
  | .erase n => cs.filter (fun c => decide (c.name ≠ n))

/-- The cost functions present after a history (specification). -/
def specRun (cs : List CostFn) : List Call → List CostFn
  | [] => cs
  | c :: h => specRun (specCall cs c) h

/-- No call of the history raises. -/
def Succeeds (s : State) : List Call → Prop
  | [] => True
  | c :: h => (call s c).2 = none ∧ Succeeds (call s c).1 h

/-- The history never re-adds a cost function that is present at that moment. -/
def NoReAdd (cs : List CostFn) : List Call → Prop
  | [] => True
  | c :: h => (∀ f, c = .add f → f ∉ cs) ∧ NoReAdd (specCall cs c) h

end Verif.Objective
