import Verif.Steps.Dogleg
import Verif.Nlopt.Descent
/-!
# Whole runs of adaptive Levenberg–Marquardt and of Dogleg (C57)
-/
namespace Verif.Steps
set_option linter.unusedSectionVars false
open Matrix Verif.Nlopt

variable {p d n : Nat} {X : Type}

/-- A linear solver applied to every element of a batch: it fails as a whole if it fails on one element
(`torch.linalg.cholesky` and the sparse solvers raise for the batch, `dense_solver.py:111-139`). -/
def solveAll {K : Type} (f : Fin n → Option (Fin d → K)) : Option (Fin n → Fin d → K) :=
  if h : ∀ i, (f i).isSome = true then some fun i => (f i).get (h i) else none

theorem solveAll_some {K : Type} {f : Fin n → Option (Fin d → K)} {v : Fin n → Fin d → K} (h : solveAll f = some v) (i : Fin n) :
    f i = some (v i) := by
  unfold solveAll at h
  split at h
  · simp only [Option.some.injEq] at h
    rw [← h]; simp
  · simp at h

section LM
variable {K : Type} [Field K] [LinearOrder K]

/-- `LevenbergMarquardt` with `adaptive_damping=True` as an optimizer for the loop
(`levenberg_marquardt.py:89-201`): the memory is the damping of each element; `lin` is the linearization
of the objective, `solve M b` the linear solver. -/
def lmMethod (n : Nat) (o : LMOpts K) (lin : X → Lin K p d)
    (solve : Matrix (Fin d) (Fin d) K → (Fin d → K) → Option (Fin d → K))
    (retract : X → (Fin d → K) → X) (metric : X → Fl K) : Method K n X (Fin d → K) (B n K) where
  delta := fun m x => solveAll fun i =>
    solve (applyDamping (lin (x i)).AtA (m i) o.ellipsoidal o.eps) (lin (x i)).Atb              -- 111-138
  gn := fun x => solveAll fun i => solve (lin (x i)).AtA (lin (x i)).Atb
  complete := fun m x δ e q =>
    (fun i => (lmCheck o (lin (x i)) (m i) (δ i) (e i) (q i)).1,
     some fun i => (lmCheck o (lin (x i)) (m i) (δ i) (e i) (q i)).2)                           -- 140-201
  retract := retract
  scale := fun s v => s • v
  metric := metric

variable [IsStrictOrderedRing K]

/-- Adaptive LM is monotone: exact solves, `damping_accept ≥ 0`, `damping_eps ≥ 0` and a positive step size. -/
theorem lm_monotone (P : Params K) (hstep : 0 < P.stepSize) (o : LMOpts K) (hacc : 0 ≤ o.accept) (heps : 0 ≤ o.eps)
    (lin : X → Lin K p d) (solve : Matrix (Fin d) (Fin d) K → (Fin d → K) → Option (Fin d → K))
    (hsolve : ∀ m b v, solve m b = some v → m *ᵥ v = b) (retract : X → (Fin d → K) → X) (metric : X → Fl K) :
    Monotone P (lmMethod n o lin solve retract metric) (fun m => ∀ i, 0 < m i) where
  keeps := by
    intro m x δ e q _ i
    have h1 : (0 : K) < minDamping := by unfold minDamping; positivity
    exact lt_of_lt_of_le h1 (clamp_range minDamping_le_max).1
  some_rej := fun _ _ _ _ _ => rfl
  rejects := by
    intro m x dl hg hd e q rej i _ hrej hri
    have h1 := hsolve _ _ _ (solveAll_some hd i)
    simp only [lmMethod, Option.some.injEq] at hrej
    rw [← hrej] at hri
    exact (lm_accept_decreases o hacc (lin (x i)) (m i) (hg i) heps (dl i) h1 P.stepSize hstep (e i) (q i) hri).1

/-- C57 for adaptive Levenberg–Marquardt: whatever the objective, the initial values and the initial positive
damping, the error history of every element is non-increasing. -/
theorem lm_never_increases (P : Params K) (hstep : 0 < P.stepSize) (o : LMOpts K) (hacc : 0 ≤ o.accept) (heps : 0 ≤ o.eps)
    (lin : X → Lin K p d) (solve : Matrix (Fin d) (Fin d) K → (Fin d → K) → Option (Fin d → K))
    (hsolve : ∀ m b v, solve m b = some v → m *ᵥ v = b) (retract : X → (Fin d → K) → X) (metric : X → Fl K)
    (m : Mode) (hm : m = .unroll ∨ m = .dlm ∨ m = .truncated ∧ ∀ x, metric x ≠ .nan) (bwd : Option Int) (grad : Bool)
    (x : B n X) (damping : B n K) (hpos : ∀ i, 0 < damping i) (xf : B n X) (info : Info K n X)
    (h : optimizeImpl P (lmMethod n o lin solve retract metric) m bwd grad x damping = .ok xf info) :
    ∀ k e e', info.errHist k = some e → info.errHist (k + 1) = some e' → ∀ i, (e i).lt (e' i) = false := by
  have hA := lm_monotone (n := n) P hstep o hacc heps lin solve hsolve retract metric
  rcases hm with hm | hm | ⟨rfl, hnn⟩
  · exact never_increases hA m (Or.inl hm) bwd grad x damping hpos xf info h
  · exact never_increases hA m (Or.inr hm) bwd grad x damping hpos xf info h
  · exact never_increases_truncated hA hnn bwd grad x damping hpos xf info h

end LM

/-- `Dogleg` as an optimizer for the loop (`dogleg.py`, `trust_region.py:60-151`): the memory is the radius
of each element; for parameters that pass the check of `tr_params_checked`. -/
noncomputable def doglegMethod (n : Nat) (o : TROpts ℝ) (lin : X → Lin ℝ p d)
    (solve : Matrix (Fin d) (Fin d) ℝ → (Fin d → ℝ) → Option (Fin d → ℝ))
    (retract : X → (Fin d → ℝ) → X) (metric : X → Fl ℝ) : Method ℝ n X (Fin d → ℝ) (B n ℝ) where
  delta := fun m x => (solveAll fun i => solve (lin (x i)).AtA (lin (x i)).Atb).map
    (dogleg (fun i => lin (x i)) m)
  gn := fun x => solveAll fun i => solve (lin (x i)).AtA (lin (x i)).Atb
  complete := fun m x δ e q =>
    (fun i => ((trCheck o (lin (x i)) (m i) (δ i) (e i) (q i)).map Prod.fst).getD (m i),
     some fun i => ((trCheck o (lin (x i)) (m i) (δ i) (e i) (q i)).map Prod.snd).getD false)
  retract := retract
  scale := fun s v => s • v
  metric := metric

theorem trCheck_good {o : TROpts ℝ} (ho : o.good = true) (L : Lin ℝ p d) (r : ℝ) (δ : Fin d → ℝ) (e q : Fl ℝ) :
    ∃ r' b, trCheck o L r δ e q = some (r', b) ∧ r' ∈ Set.range (clamp o.minTR o.maxTR) := by
  unfold trCheck
  rw [if_pos ho]
  exact ⟨_, _, rfl, _, rfl⟩

/-- Dogleg is monotone: exact solves, `accept_threshold ≥ 0`, step size in `[0, 1]`, a non-negative minimum
radius below the maximum, and errors that are not `-∞`. -/
theorem dogleg_monotone (P : Params ℝ) (hs0 : 0 ≤ P.stepSize) (hs1 : P.stepSize ≤ 1) (o : TROpts ℝ) (ho : o.good = true)
    (hacc : 0 ≤ o.accept) (hmin : 0 ≤ o.minTR) (hmax : o.minTR ≤ o.maxTR)
    (lin : X → Lin ℝ p d) (solve : Matrix (Fin d) (Fin d) ℝ → (Fin d → ℝ) → Option (Fin d → ℝ))
    (hsolve : ∀ m b v, solve m b = some v → m *ᵥ v = b) (retract : X → (Fin d → ℝ) → X) (metric : X → Fl ℝ)
    (hfin : ∀ x, metric x ≠ .inf true) :
    Monotone P (doglegMethod n o lin solve retract metric) (fun m => ∀ i, 0 ≤ m i) where
  keeps := by
    intro m x δ e q _ i
    obtain ⟨r', b, h, z, hz⟩ := trCheck_good ho (lin (x i)) (m i) (δ i) (e i) (q i)
    simp only [doglegMethod, h, Option.map_some, Option.getD_some]
    rw [← hz]
    exact le_trans hmin (clamp_range hmax).1
  some_rej := fun _ _ _ _ _ => rfl
  rejects := by
    intro m x dl hg hd e q rej i hq hrej hri
    simp only [doglegMethod, Option.map_eq_some_iff] at hd
    obtain ⟨gn, hgn, rfl⟩ := hd
    simp only [doglegMethod, Option.some.injEq] at hrej
    rw [← hrej] at hri
    obtain ⟨r', b, h, _⟩ := trCheck_good ho (lin (x i)) (m i) (P.stepSize • dogleg (fun i => lin (x i)) m gn i) (e i) (q i)
    simp only [h, Option.map_some, Option.getD_some] at hri
    subst hri
    have hpi : q i ≠ .inf true := by rw [hq]; exact hfin _
    exact dogleg_accept_decreases o hacc (fun i => lin (x i)) m gn i (hg i) (hsolve _ _ _ (solveAll_some hgn i))
      P.stepSize hs0 hs1 (e i) (q i) hpi r' h

/-- C57 for Dogleg. -/
theorem dogleg_never_increases (P : Params ℝ) (hs0 : 0 ≤ P.stepSize) (hs1 : P.stepSize ≤ 1) (o : TROpts ℝ)
    (ho : o.good = true) (hacc : 0 ≤ o.accept) (hmin : 0 ≤ o.minTR) (hmax : o.minTR ≤ o.maxTR)
    (lin : X → Lin ℝ p d) (solve : Matrix (Fin d) (Fin d) ℝ → (Fin d → ℝ) → Option (Fin d → ℝ))
    (hsolve : ∀ m b v, solve m b = some v → m *ᵥ v = b) (retract : X → (Fin d → ℝ) → X) (metric : X → Fl ℝ)
    (hfin : ∀ x, metric x ≠ .inf true)
    (m : Mode) (hm : m = .unroll ∨ m = .dlm ∨ m = .truncated ∧ ∀ x, metric x ≠ .nan) (bwd : Option Int) (grad : Bool)
    (x : B n X) (radius : B n ℝ) (hpos : ∀ i, 0 ≤ radius i) (xf : B n X) (info : Info ℝ n X)
    (h : optimizeImpl P (doglegMethod n o lin solve retract metric) m bwd grad x radius = .ok xf info) :
    ∀ k e e', info.errHist k = some e → info.errHist (k + 1) = some e' → ∀ i, (e i).lt (e' i) = false := by
  have hA := dogleg_monotone (n := n) P hs0 hs1 o ho hacc hmin hmax lin solve hsolve retract metric hfin
  rcases hm with hm | hm | ⟨rfl, hnn⟩
  · exact never_increases hA m (Or.inl hm) bwd grad x radius hpos xf info h
  · exact never_increases hA m (Or.inr hm) bwd grad x radius hpos xf info h
  · exact never_increases_truncated hA hnn bwd grad x radius hpos xf info h

/-- The default options satisfy the hypotheses. -/
example : (TROpts.default : TROpts ℚ).good = true ∧ 0 ≤ (TROpts.default : TROpts ℚ).accept ∧
    0 ≤ (TROpts.default : TROpts ℚ).minTR ∧ (TROpts.default : TROpts ℚ).minTR ≤ (TROpts.default : TROpts ℚ).maxTR ∧
    0 ≤ (LMOpts.default : LMOpts ℚ).accept ∧ 0 ≤ (LMOpts.default : LMOpts ℚ).eps := by
  decide +kernel

/-! A concrete run: minimize `(x - 1)^4/2` from 3, i.e. error `(x - 1)^2`, by adaptive LM. -/

/-- Division as an exact solver of one-dimensional systems. -/
def solve1 (m : Matrix (Fin 1) (Fin 1) ℚ) (b : Fin 1 → ℚ) : Option (Fin 1 → ℚ) :=
  if m 0 0 = 0 then none else some fun _ => b 0 / m 0 0

/-- The linearization of `(x - 1)^2`. -/
def quartLin (x : ℚ) : Lin ℚ 1 1 := ⟨!![2 * (x - 1)], ![-(x - 1) ^ 2]⟩

example : (∀ m b v, solve1 m b = some v → m *ᵥ v = b) ∧
    (match optimizeImpl ⟨1/1000, 1/1000, 2, 1⟩ (lmMethod 1 LMOpts.default quartLin solve1
      (fun x v => x + v 0) (fun x => .fin ((x - 1) ^ 4 / 2))) .unroll none true (fun _ => 3) (fun _ => 1/1000) with
    | .ok _ info => match info.errHist 0, info.errHist 1 with
      | some e, some e' => (e' 0).lt (e 0)
      | _, _ => false
    | _ => false) = true := by
  refine ⟨?_, ?_⟩
  · intro m b v h
    unfold solve1 at h
    split at h
    · simp at h
    · next h0 =>
      simp only [Option.some.injEq] at h
      subst h
      ext i
      fin_cases i
      simp [mulVec, dotProduct]
      field_simp
  · decide +kernel

end Verif.Steps
