import Verif.Dcem.Model
import Verif.Nlopt.Props

/-!
# The loop of DCEM (C68)

The record of a run is that of `Verif.Nlopt.Spec`: values `Y 0, …, Y u`, the initial ones and those
after each iteration; `fired P A Y k i` is the convergence test of element `i` at the end of
iteration `k`.  Unlike in the other optimizers an element that has converged keeps moving.
-/

namespace Verif.Dcem
open Nlopt
variable {K : Type} [Field K] [LinearOrder K] {n : ℕ} {X M : Type}

/-- The values of a run: each iteration applies one sampling step to all elements, with the standard
deviation left by the previous one; it goes on only if some element's test did not fire. -/
structure Run (P : Params K) (A : Sampler K n X M) (Y : ℕ → B n X) (m : ℕ → M) (u : ℕ) : Prop where
  step : ∀ k < u, A.cem k (m k) (Y k) = .ok (m (k + 1), Y (k + 1))
  goOn : ∀ k, k + 1 < u → ∃ i, fired P A.method Y k i = false

/-- Loop invariant. -/
structure LInv (P : Params K) (A : Sampler K n X M) (s : LS K n X M) (Y : ℕ → B n X) (m : ℕ → M) : Prop where
  record : Record P A.method Y s.it s.info
  step : ∀ k < s.it, A.cem k (m k) (Y k) = .ok (m (k + 1), Y (k + 1))
  go : ∀ k < s.it, ∃ i, fired P A.method Y k i = false
  cur : Y s.it = s.x
  mem : m s.it = s.mem
  last : s.info.lastErr = errs A.method s.x
  conv : ∀ i, s.conv i = firedBefore P A.method Y s.it i

theorem linv_start (P : Params K) (A : Sampler K n X M) (x : B n X) (mem : M) :
    LInv P A (startLS x mem (initInfo A.method x)) (fun _ => x) (fun _ => mem) := by
  have h := inv_start P A.method {} x mem
  exact ⟨h.record, fun k hk => by simp [startLS] at hk, fun k hk => by simp [startLS] at hk, rfl, rfl, rfl,
    fun _ => rfl⟩

/-- Extending the sequence of memories. -/
def extM (m : ℕ → M) (u : ℕ) (v : M) : ℕ → M := fun k => if k ≤ u then m k else v

theorem status_twice {P : Params K} (info : Info K n X) (y : B n X) (it : ℕ) (err : B n (Fl K))
    (conv : B n Bool) (last : B n (Fl K)) (h : info.lastErr = last) :
    ({ updateInfo P info y it err conv with
        status := fun i => if checkConv P err last i then .converged
          else (updateInfo P info y it err conv).status i } : Info K n X)
      = updateInfo P info y it err conv := by
  have : (fun i => if checkConv P err last i then Status.converged
      else (updateInfo P info y it err conv).status i) = (updateInfo P info y it err conv).status := by
    funext i
    simp only [updateInfo, h]
    split <;> simp_all
  rw [this]

theorem dcemLoop_spec (P : Params K) (A : Sampler K n X M) : ∀ (k : ℕ) (s t : LS K n X M)
    (Y : ℕ → B n X) (m : ℕ → M), LInv P A s Y m → dcemLoop P A k s = .ok t →
    ∃ Y' m' u info, Record P A.method Y' u info ∧ Run P A Y' m' u ∧ Y' 0 = Y 0 ∧ m' 0 = m 0 ∧ t.x = Y' u ∧
      t.info = { info with status := fun i => if info.status i = .start then .maxIterations else info.status i } ∧
      u ≤ s.it + k ∧ (u = s.it + k ∨ (0 < u ∧ ∀ i, fired P A.method Y' (u - 1) i = true)) := by
  intro k
  induction k with
  | zero =>
    intro s t Y m h he
    simp only [dcemLoop, Except.ok.injEq] at he
    subst he
    exact ⟨Y, m, s.it, s.info, h.record, ⟨h.step, fun k hk => h.go k (by omega)⟩, rfl, rfl, h.cur.symm, rfl,
      le_rfl, Or.inl rfl⟩
  | succ k ih =>
    intro s t Y m h he
    rw [dcemLoop] at he
    cases hc : A.cem s.it s.mem s.x with
    | error e => rw [hc] at he; simp at he
    | ok r =>
      obtain ⟨mem, y⟩ := r
      rw [hc] at he
      simp only at he
      have hrec := record_update h.record (by rw [h.cur]; exact h.last) y s.conv h.conv
      have hst : ∀ j < s.it + 1, A.cem j (extM m s.it mem j) (ext Y s.it y j)
          = .ok (extM m s.it mem (j + 1), ext Y s.it y (j + 1)) := by
        intro j hj
        rcases Nat.lt_succ_iff_lt_or_eq.mp hj with hj | rfl
        · rw [ext_le Y s.it y (by omega), ext_le Y s.it y (by omega), extM, extM, if_pos (by omega),
            if_pos (by omega)]
          exact h.step j hj
        · rw [ext_le Y s.it y le_rfl, ext_succ, extM, extM, if_pos le_rfl, if_neg (by omega), h.cur, h.mem]
          exact hc
      have hfire : ∀ i, fired P A.method (ext Y s.it y) s.it i
          = checkConv P (fun i => A.metric (y i)) s.info.lastErr i := by
        intro i
        unfold fired
        rw [ext_succ, ext_le Y s.it y le_rfl, h.cur, h.last]
        rfl
      have hgo' : ∀ j < s.it, ∃ i, fired P A.method (ext Y s.it y) j i = false := by
        intro j hj
        obtain ⟨i, hi⟩ := h.go j hj
        exact ⟨i, by rw [fired_ext P A.method Y s.it y hj]; exact hi⟩
      have h00 : ext Y s.it y 0 = Y 0 := ext_le _ _ _ (Nat.zero_le _)
      have m00 : extM m s.it mem 0 = m 0 := by simp [extM]
      unfold finish at he
      simp only at he
      rw [status_twice s.info y s.it _ s.conv s.info.lastErr rfl] at he
      by_cases hall : all (checkConv P (fun i => A.metric (y i)) s.info.lastErr) = true
      · rw [if_pos hall] at he
        simp only [Except.ok.injEq] at he
        subst he
        have hall' : ∀ i, checkConv P (fun i => A.metric (y i)) s.info.lastErr i = true := by
          simpa [all] using hall
        refine ⟨ext Y s.it y, extM m s.it mem, s.it + 1, _, hrec, ⟨hst, ?_⟩, h00, m00, ?_, rfl, by omega,
          Or.inr ⟨by omega, ?_⟩⟩
        · intro j hj
          exact hgo' j (by omega)
        · rw [ext_succ]; rfl
        · intro i
          rw [Nat.add_sub_cancel, hfire i]
          exact hall' i
      · rw [if_neg hall] at he
        simp only at he
        have hex : ∃ i, checkConv P (fun i => A.metric (y i)) s.info.lastErr i = false := by
          by_contra hno
          push Not at hno
          exact hall (by simpa [all] using hno)
        refine (ih _ t (ext Y s.it y) (extM m s.it mem) ⟨?_, hst, ?_, ?_, ?_, ?_, ?_⟩ he).imp fun Y' h => ?_
        · refine ⟨hrec.hist, hrec.rest, fun i => ?_, hrec.convIter, hrec.best⟩
          refine Eq.trans ?_ (hrec.status i)
          exact congrFun (congrArg Info.status
            (status_twice s.info y s.it (fun i => A.metric (y i)) s.conv s.info.lastErr rfl)) i
        · intro j hj
          rcases Nat.lt_succ_iff_lt_or_eq.mp hj with hj | rfl
          · exact hgo' j hj
          · obtain ⟨i, hi⟩ := hex
            exact ⟨i, by rw [hfire i]; exact hi⟩
        · exact ext_succ _ _ _
        · simp only [extM]; rw [if_neg (by omega)]
        · rfl
        · intro i
          exact (hfire i).symm
        · obtain ⟨m', u, info, a1, a2, a3, a4, a5, a6, a7, a8⟩ := h
          refine ⟨m', u, info, a1, a2, a3.trans h00, a4.trans m00, a5, a6, ?_, ?_⟩
          · simp only at a7; omega
          · rcases a8 with a8 | a8
            · left; simp only at a8; omega
            · exact Or.inr a8

/-- **C68.** Only the unrolled modes are supported; a run that returns applied at most
`max_iterations` sampling steps, each from the mean and deviation left by the previous one; it stopped
at the limit or because the tests of all elements fired in the same iteration; histories are exactly
the values of the run. -/
theorem dcem_record (P : Params K) (A : Sampler K n X M) (m : Mode) (x : B n X) (mem0 : M) (xf : B n X)
    (info : Info K n X) (h : dcemImpl P A m x mem0 = .ok xf info) :
    (m = .unroll ∨ m = .dlm) ∧ ∃ Y mm u, Run P A Y mm u ∧ Y 0 = x ∧ mm 0 = mem0 ∧ xf = Y u ∧
      u ≤ P.maxIter.toNat ∧ (u = P.maxIter.toNat ∨ (0 < u ∧ ∀ i, fired P A.method Y (u - 1) i = true)) ∧
      (∀ k ≤ u, info.stateHist k = some (Y k) ∧ info.errHist k = some (errs A.method (Y k))) ∧
      (∀ k > u, info.stateHist k = none ∧ info.errHist k = none) ∧
      (∀ i, info.status i = .converged ↔ ∃ k < u, fired P A.method Y k i = true) ∧
      (∀ i, info.status i ≠ .converged → info.status i = .maxIterations ∧ info.convIter i = -1) ∧
      ((∀ x, A.metric x ≠ .nan) → ∀ i, BestAt A.method Y u info i) := by
  unfold dcemImpl at h
  by_cases hm : m = .unroll ∨ m = .dlm
  · rw [if_pos hm] at h
    refine ⟨hm, ?_⟩
    cases hl : dcemLoop P A P.maxIter.toNat (startLS x mem0 (initInfo A.method x)) with
    | error e => rw [hl] at h; simp at h
    | ok t =>
      rw [hl] at h
      simp only [DcemRes.ok.injEq] at h
      obtain ⟨hx, hi⟩ := h
      obtain ⟨Y, mm, u, i0, r, run, y0, m0, tx, ti, hu, hend⟩ :=
        dcemLoop_spec P A _ _ t _ _ (linv_start P A x mem0) hl
      have it0 : (startLS x mem0 (initInfo A.method x) : LS K n X M).it = 0 := rfl
      rw [it0, Nat.zero_add] at hu hend
      have est : ∀ i, info.status i
          = if i0.status i = .start then .maxIterations else i0.status i := by
        intro i; rw [← hi, ti]; rfl
      have e1 : info.stateHist = i0.stateHist := by rw [← hi, ti]; rfl
      have e2 : info.errHist = i0.errHist := by rw [← hi, ti]; rfl
      have hc : ∀ i, info.status i = .converged ↔ ∃ k < u, fired P A.method Y k i = true := by
        intro i
        rw [est i, r.status i]
        by_cases hf : ∃ k < u, fired P A.method Y k i = true
        · rw [if_pos hf]; simp [hf]
        · rw [if_neg hf]; simp [hf]
      refine ⟨Y, mm, u, run, y0, m0, by rw [← hx, tx], hu, hend, ?_, ?_, hc, ?_, ?_⟩
      · rw [e1, e2]; exact r.hist
      · rw [e1, e2]; exact r.rest
      · intro i hn
        have hs : info.status i = .maxIterations := by
          rw [est i, r.status i, if_neg (fun hf => hn ((hc i).mpr hf))]
          rfl
        refine ⟨hs, ?_⟩
        have hs' : t.info.status i = .maxIterations := by rw [← hs, ← hi]; rfl
        rw [← hi]
        simp [clearConvIter, hs']
      · intro hnn i
        obtain ⟨k, hk, b1, b2, b3, b4, b5⟩ := r.best hnn i
        refine ⟨k, hk, ?_, ?_, ?_, b4, b5⟩
        · rw [← b1, ← hi, ti]; rfl
        · rw [← b2, ← hi, ti]; rfl
        · rw [← b3, ← hi, ti]; rfl
  · rw [if_neg hm] at h
    simp at h

/-- The truncated and implicit modes are refused, whatever the problem. -/
theorem dcem_modes (P : Params K) (A : Sampler K n X M) (x : B n X) (mem0 : M) :
    dcemImpl P A .truncated x mem0 = .notImplemented ∧ dcemImpl P A .implicit x mem0 = .notImplemented :=
  ⟨rfl, rfl⟩

/-- `converged_iter` of a converged element counts the iterations that did not directly follow a firing
of its test. -/
theorem dcem_converged_iter (P : Params K) (A : Sampler K n X M) (m : Mode) (x : B n X) (mem0 : M) (xf : B n X)
    (info : Info K n X) (h : dcemImpl P A m x mem0 = .ok xf info) (i : Fin n) (hc : info.status i = .converged) :
    ∃ Y u, Y 0 = x ∧ xf = Y u ∧ (∀ k ≤ u, info.stateHist k = some (Y k)) ∧
      info.convIter i = (((List.range u).filter fun k => !firedBefore P A.method Y k i).length : Int) := by
  unfold dcemImpl at h
  by_cases hm : m = .unroll ∨ m = .dlm
  · rw [if_pos hm] at h
    cases hl : dcemLoop P A P.maxIter.toNat (startLS x mem0 (initInfo A.method x)) with
    | error e => rw [hl] at h; simp at h
    | ok t =>
      rw [hl] at h
      simp only [DcemRes.ok.injEq] at h
      obtain ⟨hx, hi⟩ := h
      obtain ⟨Y, mm, u, i0, r, run, y0, m0, tx, ti, hu, hend⟩ :=
        dcemLoop_spec P A _ _ t _ _ (linv_start P A x mem0) hl
      refine ⟨Y, u, y0, by rw [← hx, tx], ?_, ?_⟩
      · intro k hk
        rw [← hi, ti]
        exact (r.hist k hk).1
      · rw [← r.convIter i, ← hi]
        have : t.info.status i = .converged := by rw [← hc, ← hi]; rfl
        simp only [clearConvIter, this]
        rw [ti]; rfl
  · rw [if_neg hm] at h
    simp at h

/-! ## A converged element keeps moving -/

/-- Two elements on the rationals whose steps follow a fixed table. -/
def demoSampler : Sampler ℚ 2 ℚ Unit where
  cem := fun it _ _ => .ok ((), match it with
    | 0 => ![10, 7]
    | 1 => ![5, 4]
    | _ => ![3, 2])
  metric := fun q => .fin q

/-- Tolerances 1/100 and 1/100, three iterations. -/
def demoParams : Params ℚ := ⟨1/100, 1/100, 3, 1⟩

/-- Finding: an element reported as converged is moved by later iterations, and `converged_iter` is
then not the iteration in which its test fired: the first element (10, 10, 5, 3) fires in the first
iteration only, and is reported as converged at iteration 2 with the final value 3. -/
theorem dcem_converged_moves : ∃ xf, ∃ info : Info ℚ 2 ℚ,
    dcemImpl demoParams demoSampler .unroll ![10, 10] () = .ok xf info ∧ xf 0 = 3 ∧
    info.status 0 = .converged ∧ (info.stateHist 1).map (fun y => y 0) = some 10 ∧ info.convIter 0 = 2 ∧
    info.status 1 = .maxIterations := by
  have hb : (match dcemImpl demoParams demoSampler .unroll ![10, 10] () with
    | .ok xf info => decide (xf 0 = 3 ∧ info.status 0 = .converged ∧
        (info.stateHist 1).map (fun y => y 0) = some 10 ∧ info.convIter 0 = 2 ∧
        info.status 1 = .maxIterations)
    | _ => false) = true := by decide +kernel
  cases h : dcemImpl demoParams demoSampler .unroll ![10, 10] () with
  | ok xf info => rw [h] at hb; exact ⟨xf, info, rfl, of_decide_eq_true hb⟩
  | error e => rw [h] at hb; simp at hb
  | notImplemented => rw [h] at hb; simp at hb

end Verif.Dcem
