import Verif.Vectorize.Cache
import Verif.Vectorize.Spec
import Verif.Update.Spec
/-!
# Specification of histories of calls on a vectorized objective
-/
namespace Verif.Vectorize
open Verif Verif.Objective Verif.Update

variable {ρ ε R δ : Type}

/-- The batch size recorded in the objective, if any, is that of its variables' tensors. -/
def Steady (s : VEnv ρ ε) : Prop :=
  ∀ B, s.env.batchSize = some B → Agree (batchSizes s.env) B

/-- No call of the history raises or changes the set of cost functions, and the batch size is never
changed behind the objective's back (calls of `update` and `error` re-compute it; retractions and
direct calls of `Variable.update` must keep it). -/
def Legal (S : Sys ρ ε R δ) (s : VEnv ρ ε) : List (Op ρ δ) → Prop
  | [] => True
  | o :: os => (∀ c, o ≠ .edit c) ∧ (step S s o).2 = none ∧ Steady (step S s o).1 ∧
      Legal S (step S s o).1 os

/-- What is assumed of the code of the cost functions of `o`: it works batch element by batch element
(`f`), is determined by the schema, and the fallback of an uncached wrapper computes the same. -/
structure SysOk (S : Sys ρ ε R δ) (f : CostFn → List ρ → ε) (o : State) : Prop where
  optim : ∀ c ∈ iter o, c.optimVars ≠ []
  code : ∀ c ∈ iter o, Batchwise (S.ev c) (f c)
  same : ∀ c ∈ iter o, ∀ c' ∈ iter o, schema S.N c = schema S.N c' → f c = f c'
  fallback : ∀ h, ∀ c ∈ iter o, S.fb h c = own S.ev h c

end Verif.Vectorize
