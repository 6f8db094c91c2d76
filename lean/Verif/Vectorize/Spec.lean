import Verif.Vectorize.Model
/-!
# Specification of vectorization

What a cost function's code must satisfy for vectorization to make sense (it works batch element by
batch element), and the order in which vectorized results come out.
-/
namespace Verif.Vectorize
open Verif Verif.Objective Verif.Update

variable {ρ ε : Type}

/-- Batched code: given variables with `N` batch elements, or 1 that is repeated, it returns `N`
results, the `i`-th of which is a function `f` of the `i`-th elements of the variables. -/
def Batchwise (code : List (List ρ) → Except Err (List ε)) (f : List ρ → ε) : Prop :=
  ∀ ts N, (∀ t ∈ ts, t.length = 1 ∨ t.length = N) → (∃ t ∈ ts, t.length = N) →
    code ts = .ok ((List.range N).map fun i => f (ts.filterMap (bget · i)))

/-- Two results agree on all `B` batch elements (a result of one element stands for all of them). -/
def AgreeOn (B : Nat) (r r' : List ε) : Prop :=
  ∀ i < B, ∃ x, bget r i = some x ∧ bget r' i = some x

/-- Cost functions grouped by schema: schemas in order of first appearance, and within a schema the
cost functions in their order. -/
def grouped (N : Naming) (cs : List CostFn) : List CostFn :=
  (cs.map (schema N)).eraseDups.flatMap fun s => cs.filter fun c => decide (schema N c = s)

/-- Cost functions of one schema follow one another. -/
def Contiguous (N : Naming) (cs : List CostFn) : Prop :=
  ∀ l1 c l2 c' l3, cs = l1 ++ c :: (l2 ++ c' :: l3) → schema N c = schema N c' →
    ∀ d ∈ l2, schema N d = schema N c

/-- The error matrix made of the given blocks, side by side in the given order: row `i` is the
concatenation of the `i`-th rows of the blocks. -/
def sideBySide {R : Type} (B : Nat) (block : CostFn → List (List R)) (cs : List CostFn) :
    List (List R) :=
  (List.range B).map fun i => cs.flatMap fun c => (block c).getD i []

end Verif.Vectorize
