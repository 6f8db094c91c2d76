import Verif.Layer.LinOptProps
import Verif.Nlopt.Model
/-!
# Gauss–Newton on affine problems (C79)

The optimization loop is the one of `Verif.Nlopt.Model`; here it is instantiated with `GaussNewton`
(`/repo/theseus/optimizer/nonlinear/gauss_newton.py`) and a dense solver on problems whose cost functions
are affine in vector variables.
-/
namespace Verif.Layer
open Matrix Verif.Steps Verif.Nlopt
open scoped Classical
variable {p d n : Nat}

/-- One batch element of an affine problem: the data of the cost functions (auxiliary variables) and the
value of the optimization variables; the stacked weighted error is `A *ᵥ x - c`. -/
structure Elt (p d : Nat) where
  A : Matrix (Fin p) (Fin d) ℝ
  c : Fin p → ℝ
  x : Fin d → ℝ

/-- The error metric as a function of the value (`objective.py:34-38`). -/
noncomputable def Elt.cost (e : Elt p d) (x : Fin d → ℝ) : ℝ := (∑ r, ((e.A *ᵥ x) r - e.c r) ^ 2) / 2

/-- `linearize()` for one element (`dense_linearization.py:29-56`). -/
noncomputable def Elt.lin (e : Elt p d) : Lin ℝ p d := ⟨e.A, e.c - e.A *ᵥ e.x⟩

/-- The element with another value of the optimization variables. -/
def Elt.at (e : Elt p d) (x : Fin d → ℝ) : Elt p d := { e with x := x }

/-- `GaussNewton` (`gauss_newton.py:53-54`) with a dense solver: `compute_delta` is
`linear_solver.solve()`, steps are never rejected. -/
noncomputable def gnAffine (n p d : Nat) (k : Kind) : Method ℝ n (Elt p d) (Fin d → ℝ) Unit where
  delta := fun _ e => (denseSolve k false true (sysOf fun i => (e i).lin) none true (1 / 100000000)).toOption
  gn := fun e => (denseSolve k false true (sysOf fun i => (e i).lin) none true (1 / 100000000)).toOption
  complete := fun m _ _ _ _ => (m, none)
  retract := fun e v => e.at (e.x + v)
  scale := fun s v => s • v
  metric := fun e => .fin (e.cost e.x)

theorem elt_step (e : Elt p d) (w : Fin d → ℝ) : e.cost (e.x + w) = resid e.lin w / 2 := by
  unfold Elt.cost resid Elt.lin
  congr 1
  refine Finset.sum_congr rfl fun r _ => ?_
  simp only [mulVec_add, Pi.add_apply, Pi.sub_apply]
  ring

/-- For elements with minimizers `m`, the Gauss–Newton step leads to them. -/
theorem gn_delta (k : Kind) (e : Fin n → Elt p d) (hdef : ∀ i, ¬ Deficient (e i).A) (m : Fin n → Fin d → ℝ)
    (hm : ∀ i, StrictMin (e i).cost (m i)) :
    (denseSolve k false true (sysOf fun i => (e i).lin) none true (1 / 100000000)).toOption =
      some fun i => m i - (e i).x := by
  obtain ⟨δ, h1, h2⟩ := (solve_is_least_squares k true (fun i => (e i).lin) true (1 / 100000000)).1 hdef
  rw [h1]
  simp only [Except.toOption, Option.some.injEq]
  funext i
  refine strictMin_unique (h2 i) ?_
  intro w hw
  have e1 := elt_step (e i) w
  have e2 := elt_step (e i) (m i - (e i).x)
  have := hm i ((e i).x + w) (fun hc => hw (by rw [← hc]; abel))
  rw [e1] at this
  rw [show (e i).x + (m i - (e i).x) = m i by abel] at e2
  rw [e2] at this
  linarith

/-- The value after `j` steps: the distance to the minimizer is scaled by `(1 - step_size)^j`. -/
noncomputable def shrunk (s : ℝ) (x m : Fin d → ℝ) (j : Nat) : Fin d → ℝ := m + (1 - s) ^ j • (x - m)

theorem shrunk_succ (s : ℝ) (x m : Fin d → ℝ) (j : Nat) :
    shrunk s x m j + s • (m - shrunk s x m j) = shrunk s x m (j + 1) := by
  unfold shrunk
  rw [pow_succ]
  funext r
  simp only [Pi.add_apply, Pi.smul_apply, Pi.sub_apply, smul_eq_mul]
  ring

/-- Loop invariant: `it` iterations done. -/
structure GInv (P : Params ℝ) (e : Fin n → Elt p d) (m : Fin n → Fin d → ℝ) (it : Nat)
    (s : LS ℝ n (Elt p d) Unit) : Prop where
  val : ∀ i, ∃ j ≤ it, s.x i = (e i).at (shrunk P.stepSize (e i).x (m i) j) ∧
    (s.info.status i ≠ .converged → j = it) ∧ (0 < it → 1 ≤ j)
  conv : ∀ i, s.conv i = true → s.info.status i = .converged
  first : it = 0 → ∀ i, s.conv i = false

theorem gn_pass (P : Params ℝ) (k : Kind) (e : Fin n → Elt p d) (hdef : ∀ i, ¬ Deficient (e i).A)
    (m : Fin n → Fin d → ℝ) (hm : ∀ i, StrictMin (e i).cost (m i)) (grad : Bool) (s : LS ℝ n (Elt p d) Unit)
    (h : GInv P e m s.it s) :
    (∃ t, pass P (gnAffine n p d k) { grad := grad } s = .cont t ∧ t.it = s.it + 1 ∧ GInv P e m t.it t) ∨
    (∃ t, pass P (gnAffine n p d k) { grad := grad } s = .brk t ∧ GInv P e m (s.it + 1) t ∧
      ∀ i, t.info.status i = .converged) := by
  choose j hj hx hst hpos using h.val
  have hA : ∀ i, (s.x i).A = (e i).A := fun i => by rw [hx i]; rfl
  have hc : ∀ i, (s.x i).cost = (e i).cost := fun i => by rw [hx i]; rfl
  have hd : computeDelta (gnAffine n p d k) { grad := grad } s.mem s.x = some fun i => m i - (s.x i).x := by
    have := gn_delta k s.x (fun i => by rw [hA i]; exact hdef i) m (fun i => by rw [hc i]; exact hm i)
    simpa [computeDelta, gnAffine] using this
  set y : Fin n → Elt p d := retracted (gnAffine n p d k) false s.x
    (fun i => P.stepSize • (m i - (s.x i).x)) s.conv with hy
  have hstep : step (gnAffine n p d k) { grad := grad } s
      (fun i => (gnAffine n p d k).scale (stepOf P { grad := grad }) (m i - (s.x i).x)) =
      (y, s.mem, fun i => (gnAffine n p d k).metric (y i), false) := by
    simp [step, gnAffine, stepOf, hy]
  have hyi : ∀ i, ∃ j' ≤ s.it + 1, y i = (e i).at (shrunk P.stepSize (e i).x (m i) j') ∧ 1 ≤ j' ∧
      (s.info.status i ≠ .converged → j' = s.it + 1) := by
    intro i
    by_cases hcv : s.conv i = true
    · have h0 : s.it ≠ 0 := fun h0 => by rw [h.first h0 i] at hcv; cases hcv
      refine ⟨j i, (hj i).trans (Nat.le_succ _), ?_, hpos i (Nat.pos_of_ne_zero h0),
        fun hn => absurd (h.conv i hcv) hn⟩
      rw [hy]; simp [retracted, hcv, hx i]
    · refine ⟨j i + 1, Nat.succ_le_succ (hj i), ?_, Nat.le_add_left _ _, fun hn => by rw [hst i hn]⟩
      rw [hy, ← shrunk_succ]
      simp [retracted, hcv, hx i, gnAffine, Elt.at]
  unfold pass
  rw [hd]
  simp only
  rw [hstep]
  simp only [finish]
  set conv := checkConv P (fun i => (gnAffine n p d k).metric (y i)) s.info.lastErr with hconv
  by_cases hall : all conv = true
  · right
    rw [if_pos hall]
    have hci : ∀ i, conv i = true := by simpa [all] using hall
    refine ⟨_, rfl, ⟨?_, ?_, ?_⟩, ?_⟩
    · intro i
      obtain ⟨j', h1, h2, h3, h4⟩ := hyi i
      exact ⟨j', h1, h2, fun hn => by simp [hci i] at hn, fun _ => h3⟩
    · intro i _; simp [hci i]
    · intro h0; omega
    · intro i; simp [hci i]
  · left
    rw [if_neg hall]
    refine ⟨_, rfl, rfl, ⟨?_, ?_, ?_⟩⟩
    · intro i
      obtain ⟨j', h1, h2, h3, h4⟩ := hyi i
      refine ⟨j', h1, h2, fun hn => h4 fun hs => ?_, fun _ => h3⟩
      apply hn
      simp [updateInfo, hs]
    · intro i hi
      have : conv i = true := hi
      simp [this]
    · intro h0; simp at h0

theorem gn_loop (P : Params ℝ) (k : Kind) (e : Fin n → Elt p d) (hdef : ∀ i, ¬ Deficient (e i).A)
    (m : Fin n → Fin d → ℝ) (hm : ∀ i, StrictMin (e i).cost (m i)) (grad : Bool) (num : Nat) :
    ∀ fuel (s : LS ℝ n (Elt p d) Unit), GInv P e m s.it s → s.it ≤ num → num ≤ s.it + fuel →
      ∃ t it, loop P (gnAffine n p d k) { grad := grad } num fuel s = .finished (markMax t) ∧
        GInv P e m it t ∧ it ≤ num ∧ s.it ≤ it ∧ (s.it < num → s.it < it) ∧
        (∀ i, t.info.status i = .converged ∨ it = num) := by
  intro fuel
  induction fuel with
  | zero =>
    intro s hs hle hf
    refine ⟨s, s.it, ?_, hs, hle, le_refl _, fun h => by omega, fun i => Or.inr (by omega)⟩
    unfold loop
    rw [if_pos (by omega)]
  | succ f ih =>
    intro s hs hle hf
    unfold loop
    by_cases hn : num ≤ s.it
    · rw [if_pos hn]
      exact ⟨s, s.it, rfl, hs, hle, le_refl _, fun h => by omega, fun i => Or.inr (by omega)⟩
    · rw [if_neg hn]
      rcases gn_pass P k e hdef m hm grad s hs with ⟨t, h1, h2, h3⟩ | ⟨t, h1, h2, h3⟩
      · simp only [h1]
        obtain ⟨t', it, g1, g2, g3, g4, _, g5⟩ := ih t h3 (by omega) (by omega)
        exact ⟨t', it, g1, g2, g3, by omega, fun _ => by omega, g5⟩
      · simp only [h1]
        exact ⟨t, s.it + 1, rfl, h2, by omega, by omega, fun _ => by omega, fun i => Or.inl (h3 i)⟩

/-- The unique minimizer of an element. -/
theorem exists_min (e : Elt p d) (h : ¬ Deficient e.A) : ∃ m, StrictMin e.cost m := by
  obtain ⟨δ, _, h2⟩ := (solve_is_least_squares .lu true (fun _ : Fin 1 => e.lin) true 0).1 fun _ => h
  refine ⟨e.x + δ 0, fun z hz => ?_⟩
  have e1 := elt_step e (z - e.x)
  rw [show e.x + (z - e.x) = z by abel] at e1
  rw [e1, elt_step]
  have := h2 0 (z - e.x) (fun hc => hz (by rw [← hc]; abel))
  linarith

/-- On an affine problem with a unique minimum `m i` for every element, Gauss–Newton never fails; after
the call, element `i` has done some number `j` of its steps, at most the iteration limit and at least one
(if there is one), and exactly the iteration limit unless it is reported `CONVERGED`; its final value is
`m i + (1 - step_size)^j (x i - m i)`. -/
theorem gn_affine (P : Params ℝ) (k : Kind) (e : Fin n → Elt p d) (hdef : ∀ i, ¬ Deficient (e i).A)
    (m : Fin n → Fin d → ℝ) (hm : ∀ i, StrictMin (e i).cost (m i)) (md : Mode) (hmd : md = .unroll ∨ md = .dlm)
    (bwd : Option Int) (grad : Bool) :
    ∃ xf info, optimizeImpl P (gnAffine n p d k) md bwd grad e () = .ok xf info ∧
      ∀ i, ∃ j ≤ P.maxIter.toNat, xf i = (e i).at (m i + (1 - P.stepSize) ^ j • ((e i).x - m i)) ∧
        (1 ≤ P.maxIter → 1 ≤ j) ∧ (info.status i ≠ .converged → j = P.maxIter.toNat) := by
  have hsp : splitIters P.maxIter md bwd = some (P.maxIter, P.maxIter - P.maxIter) := by
    rcases hmd with rfl | rfl <;> rfl
  have h0 : GInv P e m (startLS e () (initInfo (gnAffine n p d k) e)).it
      (startLS e () (initInfo (gnAffine n p d k) e)) := by
    refine ⟨fun i => ⟨0, le_refl _, ?_, fun _ => rfl, fun h => absurd h (lt_irrefl _)⟩, ?_, fun _ i => rfl⟩
    · simp [startLS, shrunk, Elt.at]
    · intro i hi; simp [startLS] at hi
  obtain ⟨t, it, h1, h2, h3, _, h4, h5⟩ := gn_loop P k e hdef m hm grad P.maxIter.toNat
    (3 * P.maxIter.toNat) _ h0 (Nat.zero_le _) (by simp only [startLS]; omega)
  refine ⟨(markMax t).x, clearConvIter (markMax t).info, ?_, ?_⟩
  · unfold optimizeImpl
    rw [hsp]
    simp only
    rw [if_pos hmd]
    unfold optimizeLoop
    rw [h1]
  · intro i
    obtain ⟨j, a1, a2, a3, a4⟩ := h2.val i
    refine ⟨j, a1.trans h3, a2, fun hp => a4 (h4 ?_), fun hn => ?_⟩
    · simp only [startLS]; omega
    · have hns : t.info.status i ≠ .converged := by
        intro hc; apply hn; simp [clearConvIter, markMax, hc]
      rw [a3 hns]
      exact (h5 i).resolve_left hns

/-- With step size 1 and at least one iteration, the result is the minimizer, from any initial value. -/
theorem gn_affine_exact (P : Params ℝ) (hs : P.stepSize = 1) (hi : 1 ≤ P.maxIter) (k : Kind)
    (e : Fin n → Elt p d) (hdef : ∀ i, ¬ Deficient (e i).A) (md : Mode) (hmd : md = .unroll ∨ md = .dlm)
    (bwd : Option Int) (grad : Bool) :
    ∃ xf info, optimizeImpl P (gnAffine n p d k) md bwd grad e () = .ok xf info ∧
      ∀ i, (xf i).A = (e i).A ∧ (xf i).c = (e i).c ∧ StrictMin (e i).cost (xf i).x := by
  choose m hm using fun i => exists_min (e i) (hdef i)
  obtain ⟨xf, info, h1, h2⟩ := gn_affine P k e hdef m hm md hmd bwd grad
  refine ⟨xf, info, h1, fun i => ?_⟩
  obtain ⟨j, _, a2, a3, _⟩ := h2 i
  have hj : j ≠ 0 := by have := a3 hi; omega
  rw [hs, sub_self, zero_pow hj, zero_smul, add_zero] at a2
  rw [a2]
  exact ⟨rfl, rfl, hm i⟩

/-- The excess of the error over its minimum is multiplied by `(1 - step_size)^2` at every step. -/
theorem gn_affine_error (e : Elt p d) (m : Fin d → ℝ) (hdef : ¬ Deficient e.A) (hm : StrictMin e.cost m) (s : ℝ)
    (j : Nat) :
    e.cost (m + (1 - s) ^ j • (e.x - m)) - e.cost m = ((1 - s) ^ 2) ^ j * (e.cost e.x - e.cost m) := by
  -- the gradient vanishes at the minimizer
  have hgn := gn_delta .lu (fun _ : Fin 1 => e.at m) (fun _ => hdef) (fun _ => m) (fun _ => hm)
  obtain ⟨δ, h1, _⟩ := (solve_is_least_squares .lu true (fun _ : Fin 1 => (e.at m).lin) true (1 / 100000000)).1
    fun _ => hdef
  have hsplit : ∀ w, e.cost (m + w) = e.cost m + Steps.sq (e.A *ᵥ w) / 2 := by
    intro w
    have hn : (e.at m).lin.AtA *ᵥ (0 : Fin d → ℝ) = (e.at m).lin.Atb := by
      have hδ : δ = fun _ => 0 := by
        rw [h1] at hgn
        simpa [Except.toOption, Elt.at] using hgn
      have hdet : (e.at m).lin.AtA.det ≠ 0 := fun h => hdef ((deficient_iff (e.at m).lin).2 h)
      rw [← solve_unique hdet]
      have h1' := h1
      simp only [denseSolve, dampAndSolve, Bool.false_eq_true, if_false] at h1'
      have hdet' : ∀ i, ((sysOf fun _ : Fin 1 => (e.at m).lin).AtA i).det ≠ 0 := fun _ => hdet
      rw [solveSystem_eq _ _ (sysOf_psd _), if_pos hdet'] at h1'
      injection h1' with h1'
      have := congrFun h1' 0
      rw [hδ] at this
      exact this.symm
    have h2 := residual_split (e.at m).lin hn w
    have h3 := elt_step (e.at m) w
    have h4 := elt_step (e.at m) 0
    rw [resid_eq] at h3 h4
    rw [h2, sub_zero, add_div, ← h4, add_zero] at h3
    exact h3
  have e0 : e.x = m + (e.x - m) := by abel
  have e1 := hsplit ((1 - s) ^ j • (e.x - m))
  have e2 := hsplit (e.x - m)
  rw [← e0] at e2
  rw [e1, e2, mulVec_smul, sq_smul, ← pow_mul, ← pow_mul, mul_comm 2 j]
  ring

example : (¬ Deficient (!![1, 0; 0, 2; 1, 1] : Matrix (Fin 3) (Fin 2) ℝ)) := by
  rintro ⟨w, hw, h⟩
  refine hw ?_
  have h0 := congrFun h 0
  have h1 := congrFun h 1
  simp [Matrix.mulVec, dotProduct, Fin.sum_univ_succ] at h0 h1
  funext j; fin_cases j
  · exact h0
  · exact h1

end Verif.Layer
