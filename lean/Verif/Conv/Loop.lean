import Verif.Nlopt.Model
import Mathlib.Data.Real.Basic
import Mathlib.Tactic.Linarith
import Mathlib.Tactic.Ring
import Mathlib.Tactic.FieldSimp
import Mathlib.Algebra.BigOperators.Fin
import Mathlib.Algebra.Order.BigOperators.Group.Finset
/-!
# The optimization loop as a fixed-point iteration

For optimizers that never reject steps: on a set of values where the linear solver succeeds and the steps
of different elements of the batch do not interact, the loop of `Verif.Nlopt.Model` iterates one map per
element.  The convergence test is spelled out for finite errors.
-/
namespace Verif.Conv
open Verif.Nlopt
variable {n : Nat} {X D M : Type}

/-! ### The convergence test on finite errors -/

theorem foldl_fin (c : Fin n → ℝ) (l : List (Fin n)) (a : ℝ) :
    (l.map fun i => (Fl.fin (c i) : Fl ℝ)).foldl Fl.add (.fin a) = .fin (a + (l.map c).sum) := by
  induction l generalizing a with
  | nil => simp
  | cons i l ih =>
    simp only [List.map_cons, List.foldl_cons, Fl.add, List.sum_cons]
    rw [ih]
    congr 1
    ring

theorem meanAbs_fin (hn : n ≠ 0) (c : Fin n → ℝ) :
    meanAbs (fun i => (Fl.fin (c i) : Fl ℝ)) = .fin ((∑ i, |c i|) / n) := by
  unfold meanAbs
  have h : (List.ofFn fun i => ((Fl.fin (c i) : Fl ℝ)).abs) =
      (List.finRange n).map fun i => (Fl.fin (|c i|) : Fl ℝ) := by
    rw [List.ofFn_eq_map]; rfl
  rw [h, foldl_fin]
  have hz : (n : ℝ) ≠ 0 := by exact_mod_cast hn
  simp only [Fl.div, if_neg hz, zero_add]
  rw [← List.ofFn_eq_map, List.sum_ofFn]

/-- Two consecutive error values satisfy the convergence test of one element
(`nonlinear_optimizer.py:114-119`). -/
def Close (P : Params ℝ) (prev cur : ℝ) : Prop :=
  |prev - cur| < P.absTol ∨ (prev ≠ 0 ∧ |(prev - cur) / prev| < P.relTol)

theorem checkConv_fin (P : Params ℝ) (hn : n ≠ 0) (err last : Fin n → ℝ) (i : Fin n) :
    checkConv P (fun i => (Fl.fin (err i) : Fl ℝ)) (fun i => .fin (last i)) i = true ↔
      (∑ i, |err i|) / n < P.absTol ∨ Close P (last i) (err i) := by
  unfold checkConv
  rw [meanAbs_fin hn]
  by_cases h : (∑ i, |err i|) / n < P.absTol
  · rw [if_pos (by simpa [Fl.lt] using h)]
    simp [h]
  · rw [if_neg (by simpa [Fl.lt] using h)]
    simp only [h, false_or, Bool.or_eq_true]
    unfold Close
    refine or_congr (by simp [Fl.lt, Fl.sub, Fl.abs]) ?_
    show (((Fl.fin (last i - err i) : Fl ℝ).div (.fin (last i))).abs.lt (.fin P.relTol)) = true ↔ _
    by_cases hl : last i = 0
    · by_cases hz : last i - err i = 0
      · simp [Fl.div, hl, Fl.abs, Fl.lt]
        rw [hl] at hz; simp at hz; simp [hz]
      · rw [hl] at hz; simp at hz
        simp [Fl.div, hl, hz, Fl.abs, Fl.lt]
    · simp [Fl.div, hl, Fl.abs, Fl.lt]

/-! ### The loop -/

/-- The optimizer acts on every element by its own map `F i`, as long as the elements stay in the sets
`S i`; its error metric there is the number `c i`. -/
structure Acts (P : Params ℝ) (A : Method ℝ n X D M) (S : Fin n → Set X) (F : Fin n → X → X)
    (c : Fin n → X → ℝ) : Prop where
  noReject : ∀ m x d e p, A.complete m x d e p = (m, none)
  solves : ∀ m (x : Fin n → X), (∀ i, x i ∈ S i) →
    ∃ d, A.delta m x = some d ∧ ∀ i, A.retract (x i) (A.scale P.stepSize (d i)) = F i (x i)
  maps : ∀ i x, x ∈ S i → F i x ∈ S i
  metric : ∀ i x, x ∈ S i → A.metric x = .fin (c i x)

/-- Loop invariant; `x0` is the initial value. -/
structure Inv (P : Params ℝ) (S : Fin n → Set X) (F : Fin n → X → X) (c : Fin n → X → ℝ) (x0 : Fin n → X)
    (it : Nat) (s : LS ℝ n X M) : Prop where
  val : ∀ i, ∃ j ≤ it, s.x i = (F i)^[j] (x0 i) ∧ (0 < it → 1 ≤ j) ∧
    (s.info.status i ≠ .converged → j = it ∧ (0 < it → ¬ Close P (c i ((F i)^[j - 1] (x0 i))) (c i ((F i)^[j] (x0 i))))) ∧
    (s.info.status i = .converged → Close P (c i ((F i)^[j - 1] (x0 i))) (c i ((F i)^[j] (x0 i))))
  conv : ∀ i, s.info.status i = .converged ↔ s.conv i = true
  last : ∀ i, s.info.lastErr i = .fin (c i (s.x i))
  first : it = 0 → ∀ i, s.conv i = false

/-- What holds when the loop ends. -/
structure Final (P : Params ℝ) (F : Fin n → X → X) (c : Fin n → X → ℝ) (x0 : Fin n → X) (num : Nat)
    (x : Fin n → X) (status : Fin n → Status) : Prop where
  val : ∀ i, ∃ j ≤ num, x i = (F i)^[j] (x0 i) ∧ (0 < num → 1 ≤ j) ∧
    (status i ≠ .converged → j = num ∧ (0 < num → ¬ Close P (c i ((F i)^[j - 1] (x0 i))) (c i ((F i)^[j] (x0 i))))) ∧
    (status i = .converged → Close P (c i ((F i)^[j - 1] (x0 i))) (c i ((F i)^[j] (x0 i))) ∨
      (∑ i, |c i (x i)|) / n < P.absTol)

theorem iter_mem {S : Set X} {F : X → X} (h : ∀ x, x ∈ S → F x ∈ S) {x : X} (hx : x ∈ S) (j : Nat) :
    F^[j] x ∈ S := by
  induction j with
  | zero => exact hx
  | succ j ih => rw [Function.iterate_succ_apply']; exact h _ ih

theorem act_pass {P : Params ℝ} {A : Method ℝ n X D M} {S : Fin n → Set X} {F : Fin n → X → X}
    {c : Fin n → X → ℝ} (hA : Acts P A S F c) (hP : 0 < P.absTol) {x0 : Fin n → X} (hx0 : ∀ i, x0 i ∈ S i)
    (grad : Bool) (s : LS ℝ n X M) (h : Inv P S F c x0 s.it s) :
    (∃ t, pass P A { grad := grad } s = .cont t ∧ t.it = s.it + 1 ∧ Inv P S F c x0 t.it t) ∨
    (∃ t, pass P A { grad := grad } s = .brk t ∧ (∀ i, t.info.status i = .converged) ∧
      ∀ num, s.it + 1 ≤ num → Final P F c x0 num t.x t.info.status) := by
  choose j hj hx hpos hnc hcv using h.val
  have hmem : ∀ i, s.x i ∈ S i := fun i => by rw [hx i]; exact iter_mem (hA.maps i) (hx0 i) _
  obtain ⟨δ, hδ, hF⟩ := hA.solves s.mem s.x hmem
  have hd : computeDelta A { grad := grad } s.mem s.x = some δ := by simpa [computeDelta] using hδ
  set y : Fin n → X := fun i => if s.conv i then s.x i else F i (s.x i) with hy
  have hret : retracted A false s.x (fun i => A.scale P.stepSize (δ i)) s.conv = y := by
    funext i
    simp only [retracted, hy, Bool.not_false, Bool.true_and, hF]
  have hstep : step A { grad := grad } s (fun i => A.scale (stepOf P { grad := grad }) (δ i)) =
      (y, s.mem, fun i => A.metric (y i), false) := by
    simp [step, stepOf, hA.noReject, hret]
  -- number of steps done
  set j' : Fin n → Nat := fun i => if s.conv i then j i else j i + 1 with hj'
  have hyj : ∀ i, y i = (F i)^[j' i] (x0 i) := by
    intro i
    simp only [hy, hj']
    split_ifs
    · exact hx i
    · rw [Function.iterate_succ_apply', hx i]
  have hymem : ∀ i, y i ∈ S i := fun i => by rw [hyj i]; exact iter_mem (hA.maps i) (hx0 i) _
  have herr : (fun i => A.metric (y i)) = fun i => (Fl.fin (c i (y i)) : Fl ℝ) := by
    funext i; exact hA.metric i _ (hymem i)
  have hlast : s.info.lastErr = fun i => (Fl.fin (c i (s.x i)) : Fl ℝ) := by
    funext i; exact h.last i
  have hj1 : ∀ i, j' i ≤ s.it + 1 ∧ 1 ≤ j' i ∧ (s.conv i = false → j' i = s.it + 1) := by
    intro i
    simp only [hj']
    cases hci : s.conv i with
    | true =>
      have h0 : s.it ≠ 0 := fun h0 => by rw [h.first h0 i] at hci; cases hci
      simp only [if_true]
      exact ⟨(hj i).trans (Nat.le_succ _), hpos i (Nat.pos_of_ne_zero h0), fun hf => by simp at hf⟩
    | false =>
      simp only [Bool.false_eq_true, if_false]
      have := (hnc i (fun hs => by rw [h.conv i, hci] at hs; cases hs)).1
      omega
  -- the two errors that are compared
  have hclose : ∀ i, Close P (c i (s.x i)) (c i (y i)) ↔
      Close P (c i ((F i)^[j' i - 1] (x0 i))) (c i ((F i)^[j' i] (x0 i))) := by
    intro i
    cases hci : s.conv i with
    | true =>
      have e : j' i = j i := by simp [hj', hci]
      have e2 : y i = s.x i := by simp [hy, hci]
      rw [e, e2]
      exact iff_of_true (Or.inl (by simpa using hP)) (hcv i ((h.conv i).2 hci))
    | false =>
      have e : j' i = j i + 1 := by simp [hj', hci]
      rw [hyj i, hx i, e, Nat.add_sub_cancel]
  unfold pass
  rw [hd]
  simp only
  rw [hstep]
  simp only [finish]
  set conv := checkConv P (fun i => A.metric (y i)) s.info.lastErr with hconv
  have hn : ∀ _ : Fin n, n ≠ 0 := fun i => by have := i.2; omega
  have hc : ∀ i, conv i = true ↔ ((∑ i, |c i (y i)|) / n < P.absTol ∨ Close P (c i (s.x i)) (c i (y i))) := by
    intro i
    rw [hconv, herr, hlast]
    exact checkConv_fin P (hn i) _ _ i
  by_cases hall : all conv = true
  · right
    rw [if_pos hall]
    have hci : ∀ i, conv i = true := by simpa [all] using hall
    refine ⟨_, rfl, fun i => by simp [hci i], fun num hnum => ⟨fun i => ?_⟩⟩
    obtain ⟨a1, a2, a3⟩ := hj1 i
    refine ⟨j' i, a1.trans hnum, hyj i, fun _ => a2, fun hs => ?_, fun _ => ?_⟩
    · simp [hci i] at hs
    · rcases (hc i).1 (hci i) with hm | hm
      · exact Or.inr hm
      · exact Or.inl ((hclose i).1 hm)
  · left
    rw [if_neg hall]
    have hmean : ∀ _ : Fin n, ¬ (∑ i, |c i (y i)|) / n < P.absTol := by
      intro i hm
      apply hall
      have : ∀ i, conv i = true := fun i => (hc i).2 (Or.inl hm)
      simpa [all] using this
    have hc' : ∀ i, conv i = true ↔ Close P (c i (s.x i)) (c i (y i)) := fun i => by
      rw [hc i]; exact or_iff_right (hmean i)
    have hold : ∀ i, s.conv i = true → conv i = true := by
      intro i hi
      rw [hc' i]
      have e2 : y i = s.x i := by simp [hy, hi]
      rw [e2]
      exact Or.inl (by simpa using hP)
    have hstat : ∀ i, (if conv i = true then Status.converged else
        if conv i = true then Status.converged else s.info.status i) = .converged ↔ conv i = true := by
      intro i
      by_cases hi : conv i = true
      · simp [hi]
      · rw [if_neg hi, if_neg hi, h.conv i]
        exact ⟨hold i, fun hs => absurd hs hi⟩
    refine ⟨_, rfl, rfl, ⟨?_, ?_, ?_, ?_⟩⟩
    · intro i
      obtain ⟨a1, a2, a3⟩ := hj1 i
      refine ⟨j' i, a1, hyj i, fun _ => a2, fun hs => ?_, fun hs => ?_⟩
      · have hs' : ¬ conv i = true := fun hc => hs ((hstat i).2 hc)
        have hsf : s.conv i = false := by
          cases hi : s.conv i
          · rfl
          · exact absurd (hold i hi) hs'
        refine ⟨a3 hsf, fun _ hcl => hs' ((hc' i).2 ((hclose i).2 hcl))⟩
      · exact (hclose i).1 ((hc' i).1 ((hstat i).1 hs))
    · intro i; exact hstat i
    · intro i; exact hA.metric i _ (hymem i)
    · intro h0; simp at h0

theorem act_loop {P : Params ℝ} {A : Method ℝ n X D M} {S : Fin n → Set X} {F : Fin n → X → X}
    {c : Fin n → X → ℝ} (hA : Acts P A S F c) (hP : 0 < P.absTol) {x0 : Fin n → X} (hx0 : ∀ i, x0 i ∈ S i)
    (grad : Bool) (num : Nat) :
    ∀ fuel (s : LS ℝ n X M), Inv P S F c x0 s.it s → s.it ≤ num → num ≤ s.it + fuel →
      ∃ t, loop P A { grad := grad } num fuel s = .finished (markMax t) ∧
        Final P F c x0 num t.x t.info.status := by
  have hend : ∀ s : LS ℝ n X M, Inv P S F c x0 s.it s → s.it = num → Final P F c x0 num s.x s.info.status := by
    intro s hs he
    refine ⟨fun i => ?_⟩
    obtain ⟨j, h1, h2, h3, h4, h5⟩ := hs.val i
    rw [he] at h1 h3 h4
    exact ⟨j, h1, h2, h3, h4, fun h => Or.inl (h5 h)⟩
  intro fuel
  induction fuel with
  | zero =>
    intro s hs hle hf
    refine ⟨s, ?_, hend s hs (by omega)⟩
    unfold loop
    rw [if_pos (by omega)]
  | succ f ih =>
    intro s hs hle hf
    unfold loop
    by_cases hn : num ≤ s.it
    · rw [if_pos hn]
      exact ⟨s, rfl, hend s hs (by omega)⟩
    · rw [if_neg hn]
      rcases act_pass hA hP hx0 grad s hs with ⟨t, h1, h2, h3⟩ | ⟨t, h1, h2, h3⟩
      · simp only [h1]
        exact ih t h3 (by omega) (by omega)
      · simp only [h1]
        exact ⟨t, rfl, h3 num (by omega)⟩

/-- The whole call, in the modes that run one loop. -/
theorem act_optimize {P : Params ℝ} {A : Method ℝ n X D M} {S : Fin n → Set X} {F : Fin n → X → X}
    {c : Fin n → X → ℝ} (hA : Acts P A S F c) (hP : 0 < P.absTol) {x0 : Fin n → X} (hx0 : ∀ i, x0 i ∈ S i)
    (md : Mode) (hmd : md = .unroll ∨ md = .dlm) (bwd : Option Int) (grad : Bool) (mem0 : M) :
    ∃ xf info, optimizeImpl P A md bwd grad x0 mem0 = .ok xf info ∧
      Final P F c x0 P.maxIter.toNat xf info.status := by
  have hsp : splitIters P.maxIter md bwd = some (P.maxIter, P.maxIter - P.maxIter) := by
    rcases hmd with rfl | rfl <;> rfl
  have h0 : Inv P S F c x0 (startLS x0 mem0 (initInfo A x0)).it (startLS x0 mem0 (initInfo A x0)) := by
    refine ⟨fun i => ⟨0, le_refl _, rfl, fun h => absurd h (lt_irrefl _), fun _ => ⟨rfl, fun h => absurd h (lt_irrefl _)⟩,
      fun h => ?_⟩, fun i => ?_, fun i => hA.metric i _ (hx0 i), fun _ _ => rfl⟩
    · simp [startLS, initInfo] at h
    · simp [startLS, initInfo]
  obtain ⟨t, h1, h2⟩ := act_loop hA hP hx0 grad P.maxIter.toNat (3 * P.maxIter.toNat) _ h0 (Nat.zero_le _)
    (by simp only [startLS]; omega)
  refine ⟨(markMax t).x, clearConvIter (markMax t).info, ?_, ⟨fun i => ?_⟩⟩
  · unfold optimizeImpl
    rw [hsp]
    simp only
    rw [if_pos hmd]
    unfold optimizeLoop
    rw [h1]
  · obtain ⟨j, a1, a2, a3, a4, a5⟩ := h2.val i
    have hst : (clearConvIter (markMax t).info).status i = .converged ↔ t.info.status i = .converged := by
      by_cases hs : t.info.status i = .start
      · simp [clearConvIter, markMax, hs]
      · simp [clearConvIter, markMax, hs]
    exact ⟨j, a1, a2, a3, fun h => a4 fun hc => h (hst.2 hc), fun h => a5 (hst.1 h)⟩

end Verif.Conv
