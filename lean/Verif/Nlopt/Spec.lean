import Verif.Nlopt.Model
/-!
# Specification of the nonlinear optimization loop

A run is described by the sequence `Y 0, Y 1, …, Y u` of values of the variables: `Y 0` the initial ones
and `Y (k+1)` those after iteration `k`.
-/
namespace Verif.Nlopt
variable {K : Type} [Field K] [LinearOrder K] {n : Nat} {X D M : Type}

/-- Batched error metric. -/
def errs (A : Method K n X D M) (x : B n X) : B n (Fl K) := fun i => A.metric (x i)

/-- The convergence test fired for element `i` at the end of iteration `k`. -/
def fired (P : Params K) (A : Method K n X D M) (Y : Nat → B n X) (k : Nat) (i : Fin n) : Bool :=
  checkConv P (errs A (Y (k + 1))) (errs A (Y k)) i

/-- Element `i` had fired at the end of the iteration before `k`. -/
def firedBefore (P : Params K) (A : Method K n X D M) (Y : Nat → B n X) (k : Nat) (i : Fin n) : Bool :=
  match k with
  | 0 => false
  | k + 1 => fired P A Y k i

/-- The recorded best error and solution of element `i`: attained at some `k ≤ u`, with no smaller error
seen, and strictly smaller than all errors seen before. -/
def BestAt (A : Method K n X D M) (Y : Nat → B n X) (u : Nat) (info : Info K n X) (i : Fin n) : Prop :=
  ∃ k ≤ u, info.bestErr i = A.metric (Y k i) ∧ info.bestSol i = Y k i ∧ info.bestIter i = k - 1 ∧
    (∀ j ≤ u, (A.metric (Y j i)).lt (A.metric (Y k i)) = false) ∧
    (∀ j < k, (A.metric (Y k i)).lt (A.metric (Y j i)) = true)

/-- `info` is the exact record of a run `Y 0, …, Y u`: histories, best values, statuses and
`converged_iter`. -/
structure Record (P : Params K) (A : Method K n X D M) (Y : Nat → B n X) (u : Nat) (info : Info K n X) : Prop where
  hist : ∀ k ≤ u, info.stateHist k = some (Y k) ∧ info.errHist k = some (errs A (Y k))
  rest : ∀ k > u, info.stateHist k = none ∧ info.errHist k = none
  status : ∀ i, info.status i = if ∃ k < u, fired P A Y k i = true then .converged else .start
  convIter : ∀ i, info.convIter i = (((List.range u).filter fun k => !firedBefore P A Y k i).length : Int)
  best : (∀ x, A.metric x ≠ .nan) → ∀ i, BestAt A Y u info i

/-- Each iteration either leaves an element or moves it by a step of the optimizer, and an element whose
test has just fired is left alone (unless the step is forced, in the implicit mode); the loop goes on only
if some element's test did not fire. -/
structure Moves (P : Params K) (A : Method K n X D M) (o : Opts) (Y : Nat → B n X) (u : Nat) : Prop where
  step : ∀ k < u, ∀ i, Y (k + 1) i = Y k i ∨
    ∃ m d, computeDelta A o m (Y k) = some d ∧ Y (k + 1) i = A.retract (Y k i) (A.scale (stepOf P o) (d i))
  frozen : o.implicit = false → ∀ k < u, ∀ i, firedBefore P A Y k i = true → Y (k + 1) i = Y k i
  goOn : ∀ k, k + 1 < u → ∃ i, fired P A Y k i = false

/-- An optimizer that treats the elements of a batch one by one: `comp = none` for optimizers that never
reject a step (Gauss–Newton, Levenberg–Marquardt with fixed damping). -/
structure RowMethod (K X D μ : Type) where
  delta : μ → X → Option D
  comp : Option (μ → X → D → Fl K → Fl K → μ × Bool)
  retract : X → D → X
  scale : K → D → D
  metric : X → Fl K

/-- Its batched version. -/
def RowMethod.batched {μ : Type} (r : RowMethod K X D μ) (n : Nat) : Method K n X D (B n μ) where
  delta := fun m x => if h : ∀ i, (r.delta (m i) (x i)).isSome = true
    then some (fun i => (r.delta (m i) (x i)).get (h i)) else none
  gn := fun _ => none
  complete := fun m x d e p => match r.comp with
    | none => (m, none)
    | some c => (fun i => (c (m i) (x i) (d i) (e i) (p i)).1, some fun i => (c (m i) (x i) (d i) (e i) (p i)).2)
  retract := r.retract
  scale := r.scale
  metric := r.metric

/-- The convergence test of one element without the mean test: its error changed by less than a
tolerance. -/
def rowTest (P : Params K) (new old : Fl K) : Bool :=
  Fl.lt ((old.sub new).abs) (.fin P.absTol) || Fl.lt ((old.sub new).div old).abs (.fin P.relTol)

/-- One element optimized on its own by an optimizer without rejections: value and convergence flag after
`k` iterations. -/
def rowRun {μ : Type} (P : Params K) (r : RowMethod K X D μ) (m : μ) (x : X) : Nat → X × Bool
  | 0 => (x, false)
  | k + 1 =>
    let (z, c) := rowRun P r m x k
    let z' := if c then z else match r.delta m z with
      | some d => r.retract z (r.scale P.stepSize d)
      | none => z
    (z', rowTest P (r.metric z') (r.metric z))

/-- The mean test never fired in the recorded run. -/
def NoMeanStop (P : Params K) (info : Info K n X) : Prop :=
  ∀ k e, info.errHist (k + 1) = some e → Fl.lt (meanAbs e) (.fin P.absTol) = false

end Verif.Nlopt
