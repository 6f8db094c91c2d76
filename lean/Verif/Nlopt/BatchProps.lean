import Verif.Nlopt.Batch
/-!
# Independence of batch elements (C31), and concrete runs showing what fails (C28–C32)
-/
namespace Verif.Nlopt
set_option linter.unusedSectionVars false
variable {K : Type} [Field K] [LinearOrder K] {n n' : Nat} {X D μ : Type}

/-- C31 (partial): take an optimizer that computes steps element by element and never rejects a step, and
two runs (with any batch sizes) in which an element of the first batch and an element of the second start
with the same value and the same optimizer parameters.  If no linear solve failed and the mean of the
errors never fell below `abs_err_tolerance`, then the two elements end with the same value, status,
`converged_iter`, `best_err` and `best_solution`, whatever the other elements are.

Missing: runs stopped by the mean test (`mean_test_couples_batch` shows the claim is false there) and
optimizers that reject steps (`rejection_couples_batch`). -/
theorem batch_independent_partial [IsStrictOrderedRing K] (P : Params K) (hpos : 0 < P.absTol) (r : RowMethod K X D μ)
    (hcomp : r.comp = none) (md : Mode) (hm : md = .unroll ∨ md = .dlm) (bwd : Option Int) (grad : Bool)
    (x : B n X) (m : B n μ) (xf : B n X) (info : Info K n X)
    (h : optimizeImpl P (r.batched n) md bwd grad x m = .ok xf info)
    (x' : B n' X) (m' : B n' μ) (xf' : B n' X) (info' : Info K n' X)
    (h' : optimizeImpl P (r.batched n') md bwd grad x' m' = .ok xf' info')
    (i : Fin n) (j : Fin n') (hx : x i = x' j) (hmem : m i = m' j)
    (hfail : info.status i ≠ .fail) (hfail' : info'.status j ≠ .fail)
    (hmean : NoMeanStop P info) (hmean' : NoMeanStop P info') :
    xf i = xf' j ∧ info.status i = info'.status j ∧ info.convIter i = info'.convIter j ∧
      ((∀ x, r.metric x ≠ .nan) → info.bestErr i = info'.bestErr j ∧ info.bestSol i = info'.bestSol j) := by
  obtain ⟨u, hu⟩ := row_facts P r hcomp md hm bwd grad x m xf info h hmean i hfail
  obtain ⟨u', hu'⟩ := row_facts P r hcomp md hm bwd grad x' m' xf' info' h' hmean' j hfail'
  rw [hx, hmem] at hu
  rcases Nat.le_total u u' with hle | hle
  · exact facts_unique_le hpos hu hu' hle
  · obtain ⟨a, b, c, d⟩ := facts_unique_le hpos hu' hu hle
    exact ⟨a.symm, b.symm, c.symm, fun hnn => ⟨(d hnn).1.symm, (d hnn).2.symm⟩⟩

/-! ### Concrete optimizers -/

/-- Each step removes a quarter of the error `|x|`. -/
def quarter : RowMethod ℚ ℚ ℚ Unit where
  delta := fun _ x => some (-x / 4)
  comp := none
  retract := fun x d => x + d
  scale := fun s d => s * d
  metric := fun x => .fin |x|

/-- An adaptive optimizer: at `x > 5` with damping 0 its step is bad; a step that does not decrease the
error is rejected and increases the damping. -/
def adaptive : RowMethod ℚ ℚ ℚ Nat where
  delta := fun m x => some (if 5 < x ∧ m = 0 then 10 else -x / 2)
  comp := some fun m _ _ e p => if e.lt p then (m, false) else (m + 1, true)
  retract := fun x d => x + d
  scale := fun s d => s * d
  metric := fun x => .fin |x|

/-- Like `quarter`, with an error that overflows to `nan` at one value. -/
def withNan : RowMethod ℚ ℚ ℚ Unit := { quarter with metric := fun x => if x = 3 then .nan else .fin |x| }

/-- Like `quarter`, with a singular linear system at one value. -/
def singular : RowMethod ℚ ℚ ℚ Unit := { quarter with delta := fun _ x => if x = 3 then none else some (-x / 4) }

/-- What the tests below look at: final value, status, `converged_iter`, `best_err` and the recorded
states of element 0. -/
def view {n : Nat} (r : OptRes ℚ (n + 1) ℚ) : Option (ℚ × Status × Int × Fl ℚ × List ℚ) := match r with
  | .ok x info => some (x 0, info.status 0, info.convIter 0, info.bestErr 0,
      (List.range 10).filterMap fun k => (info.stateHist k).map (· 0))
  | _ => none

/-- Decidable form of `NoMeanStop`. -/
def noMeanStopB {n : Nat} (P : Params ℚ) (r : OptRes ℚ n ℚ) : Bool := match r with
  | .ok _ info => (List.range P.maxIter.toNat).all fun k => match info.errHist (k + 1) with
    | some e => !(Fl.lt (meanAbs e) (.fin P.absTol))
    | none => true
  | _ => false

theorem noMeanStop_of {n : Nat} {P : Params ℚ} {A : Method ℚ n ℚ D μ} {bwd : Option Int} {grad : Bool} {x : B n ℚ}
    {m : μ} {xf : B n ℚ} {info : Info ℚ n ℚ} (h : optimizeImpl P A .unroll bwd grad x m = .ok xf info)
    (hb : noMeanStopB P (optimizeImpl P A .unroll bwd grad x m) = true) : NoMeanStop P info := by
  rw [h] at hb
  intro k e he
  obtain ⟨Y, u, i0, hr, _, _, _, hu, hinfo, _⟩ := unroll_record P A .unroll (Or.inl rfl) bwd grad x m xf info h
  have hE : info.errHist = i0.errHist := by rw [hinfo]; rfl
  have hk : k + 1 ≤ u := by
    by_contra hc
    rw [hE, (hr.rest (k + 1) (by omega)).2] at he
    simp at he
  simp only [noMeanStopB, List.all_eq_true] at hb
  have := hb k (List.mem_range.2 (by omega))
  rw [he] at this
  simpa using this

/-- The hypotheses of `batch_independent_partial` are met: the element 4 next to 100 (which keeps the mean
above the tolerance) ends as it does alone. -/
example : ∃ (xf : B 1 ℚ) (info : Info ℚ 1 ℚ) (xf' : B 2 ℚ) (info' : Info ℚ 2 ℚ),
    optimizeImpl ⟨4/5, 0, 3, 1⟩ (quarter.batched 1) .unroll none true ![4] (fun _ => ()) = .ok xf info ∧
    optimizeImpl ⟨4/5, 0, 3, 1⟩ (quarter.batched 2) .unroll none true ![4, 100] (fun _ => ()) = .ok xf' info' ∧
    NoMeanStop ⟨4/5, 0, 3, 1⟩ info ∧ NoMeanStop ⟨4/5, 0, 3, 1⟩ info' ∧
    info.status 0 ≠ .fail ∧ info'.status 0 ≠ .fail := by
  have h1 : view (optimizeImpl ⟨4/5, 0, 3, 1⟩ (quarter.batched 1) .unroll none true ![4] (fun _ => ())) =
      some (9/4, .converged, 2, .fin (9/4), [4, 3, 9/4]) := by decide +kernel
  have h2 : view (optimizeImpl ⟨4/5, 0, 3, 1⟩ (quarter.batched 2) .unroll none true ![4, 100] (fun _ => ())) =
      some (9/4, .converged, 2, .fin (9/4), [4, 3, 9/4, 9/4]) := by decide +kernel
  have b1 : noMeanStopB ⟨4/5, 0, 3, 1⟩ (optimizeImpl ⟨4/5, 0, 3, 1⟩ (quarter.batched 1) .unroll none true ![4] (fun _ => ())) = true := by
    decide +kernel
  have b2 : noMeanStopB ⟨4/5, 0, 3, 1⟩ (optimizeImpl ⟨4/5, 0, 3, 1⟩ (quarter.batched 2) .unroll none true ![4, 100] (fun _ => ())) = true := by
    decide +kernel
  cases e1 : optimizeImpl ⟨4/5, 0, 3, 1⟩ (quarter.batched 1) .unroll none true ![4] (fun _ => ()) with
  | ok xf info =>
    cases e2 : optimizeImpl ⟨4/5, 0, 3, 1⟩ (quarter.batched 2) .unroll none true ![4, 100] (fun _ => ()) with
    | ok xf' info' =>
      refine ⟨xf, info, xf', info', rfl, rfl, noMeanStop_of e1 b1, noMeanStop_of e2 b2, ?_, ?_⟩
      · rw [e1] at h1
        simp only [view, Option.some.injEq, Prod.mk.injEq] at h1
        rw [h1.2.1]; simp
      · rw [e2] at h2
        simp only [view, Option.some.injEq, Prod.mk.injEq] at h2
        rw [h2.2.1]; simp
    | valueError => rw [e2] at h2; simp [view] at h2
    | runtimeError => rw [e2] at h2; simp [view] at h2
    | assertionError => rw [e2] at h2; simp [view] at h2
  | valueError => rw [e1] at h1; simp [view] at h1
  | runtimeError => rw [e1] at h1; simp [view] at h1
  | assertionError => rw [e1] at h1; simp [view] at h1

/-- C31 is false of the code when the mean test fires: the element 4 alone is optimized for two
iterations; next to three elements 0 the mean of the errors is below the tolerance after one, and it stops
with status `CONVERGED` although its own error is 3 and the tolerance is 1. -/
theorem mean_test_couples_batch :
    view (optimizeImpl ⟨1, 0, 2, 1⟩ (quarter.batched 1) .unroll none true ![4] (fun _ => ())) =
      some (9/4, .converged, 2, .fin (9/4), [4, 3, 9/4]) ∧
    view (optimizeImpl ⟨1, 0, 2, 1⟩ (quarter.batched 4) .unroll none true ![4, 0, 0, 0] (fun _ => ())) =
      some (3, .converged, 1, .fin 3, [4, 3]) := by
  constructor <;> decide +kernel

/-- C31 is false of the code when steps are rejected: alone, the rejected step of the element 8 is retried
with more damping, and it descends to 2; next to the element 1, whose step is accepted, it is marked
`CONVERGED` where it started (its error did not change) and stays there. -/
theorem rejection_couples_batch :
    view (optimizeImpl ⟨1/1000, 0, 2, 1⟩ (adaptive.batched 1) .unroll none true ![8] (fun _ => 0)) =
      some (2, .maxIterations, -1, .fin 2, [8, 4, 2]) ∧
    view (optimizeImpl ⟨1/1000, 0, 2, 1⟩ (adaptive.batched 2) .unroll none true ![8, 1] (fun _ => 0)) =
      some (8, .converged, 1, .fin 8, [8, 8, 8]) := by
  constructor <;> decide +kernel

/-- C29 fails when an error is `nan`: `torch.minimum` keeps the `nan` and no later error is recorded as
best, although later errors are smaller than the first. -/
theorem nan_error_spoils_best :
    view (optimizeImpl ⟨1/1000, 0, 2, 1⟩ (withNan.batched 1) .unroll none true ![4] (fun _ => ())) =
      some (9/4, .maxIterations, -1, .nan, [4, 3, 9/4]) := by decide +kernel

/-- C30 fails in mode `TRUNCATED` (and C28, C29's histories are incomplete): the element converges from 4
to 3 in the run without gradients, then the run with gradients starts with no element marked as converged
and moves it to 9/4; the final value appears in no column of the recorded state history. -/
theorem truncated_moves_converged :
    view (optimizeImpl ⟨2, 0, 5, 1⟩ (quarter.batched 1) .truncated (some 1) true ![4] (fun _ => ())) =
      some (9/4, .converged, 1, .fin (9/4), [4, 3]) := by decide +kernel

/-- The same in mode `IMPLICIT` (where the last step is meant to be taken anyway), with a Gauss–Newton
step. -/
theorem implicit_moves_converged :
    view (optimizeImpl ⟨2, 0, 5, 1⟩ { quarter.batched 1 with gn := fun x => some (fun i => - x i / 4) }
      .implicit none true ![4] (fun _ => ())) =
      some (9/4, .converged, 1, .fin (9/4), [4, 3]) := by decide +kernel

/-- C28: with autograd disabled by the caller, a linear solver failure in the second run of mode
`TRUNCATED` does not end in status `FAIL` but in an AssertionError, when an element of the first run
reached its iteration limit. -/
theorem failure_in_second_run_asserts :
    (match optimizeImpl ⟨1/1000, 0, 2, 1⟩ (singular.batched 1) .truncated (some 1) false ![4] (fun _ => ()) with
      | .assertionError => true
      | _ => false) = true ∧
    view (optimizeImpl ⟨1/1000, 0, 2, 1⟩ (singular.batched 1) .unroll none false ![4] (fun _ => ())) =
      some (3, .fail, 1, .fin 3, [4, 3]) := by
  constructor <;> decide +kernel

/-- C32 at the boundary: `max_iterations = 0` in mode `IMPLICIT` still runs one iteration (with gradients). -/
theorem implicit_zero_budget :
    splitIters 0 .implicit none = some (1, -1) ∧
    view (optimizeImpl ⟨1/1000, 0, 0, 1⟩ { quarter.batched 1 with gn := fun x => some (fun i => - x i / 4) }
      .implicit none true ![4] (fun _ => ())) = some (3, .maxIterations, -1, .fin 3, [4, 3]) := by
  constructor <;> decide +kernel

/-- C32 without `backward_num_iterations ≥ 0`: the run without gradients exceeds the budget. -/
theorem negative_backward_exceeds_budget :
    splitIters 1 .truncated (some (-1)) = some (-1, 2) ∧
    view (optimizeImpl ⟨1/1000, 0, 1, 1⟩ (quarter.batched 1) .truncated (some (-1)) true ![4] (fun _ => ())) =
      some (9/4, .maxIterations, -1, .fin (9/4), [4, 3, 9/4]) := by
  constructor <;> decide +kernel


end Verif.Nlopt
