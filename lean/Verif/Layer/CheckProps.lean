import Verif.Layer.Check
import Mathlib.Tactic
/-!
# Properties of `check_jacobians` and `verify_jacobians` (C83)
-/
namespace Verif.Check
variable {ρ : Type}

/-! ### Specification -/

/-- The variables of a cost function. -/
def Cost.vars (cf : Cost ρ) : List Nat := cf.optim ++ cf.aux

/-- The tensors with those of the variables of the cost function replaced by the random ones. -/
noncomputable def drawn (cf : Cost ρ) (draw : Nat → ρ) (s : Store ρ) : Store ρ :=
  open Classical in fun v => if v ∈ cf.vars then draw v else s v

/-- At these tensors every Jacobian agrees with the one of autograd: no entry of a difference that contains no
NaN is larger than the tolerance. -/
def Agrees (cf : Cost ρ) (tol : ℝ) (s : Store ρ) : Prop :=
  ∃ ds, cf.diff s = .ok ds ∧ ∀ d ∈ ds, none ∈ d ∨ ∀ x, some x ∈ d → |x| ≤ tol

/-! ### Lemmas -/

theorem fill_eq (draw : Nat → ρ) : ∀ (vs : List Nat) (s : Store ρ) (v : Nat),
    fill draw vs s v = if v ∈ vs then draw v else s v
  | [], s, v => by simp [fill]
  | w :: vs, s, v => by
    rw [fill, fill_eq draw vs]
    by_cases h : v ∈ vs
    · simp [h]
    · by_cases h2 : v = w
      · subst h2; simp [put, h]
      · simp [put, h, h2]

theorem restore_eq (s₀ : Store ρ) : ∀ (vs : List Nat) (s : Store ρ) (v : Nat),
    restore s₀ vs s v = if v ∈ vs then s₀ v else s v
  | [], s, v => by simp [restore]
  | w :: vs, s, v => by
    rw [restore, restore_eq s₀ vs]
    by_cases h : v ∈ vs
    · simp [h]
    · by_cases h2 : v = w
      · subst h2; simp [put, h]
      · simp [put, h, h2]

theorem absMax_none {d : List (Option ℝ)} : absMax d = none ↔ none ∈ d := by
  induction d with
  | nil => simp [absMax]
  | cons x xs ih =>
    cases x with
    | none => simp [absMax]
    | some a =>
      simp only [absMax, Option.bind_eq_bind, Option.bind_some, List.mem_cons, reduceCtorEq, false_or]
      rw [← ih]
      cases absMax xs <;> simp

theorem absMax_le {d : List (Option ℝ)} {tol m : ℝ} (ht : 0 ≤ tol) (h : absMax d = some m) :
    m ≤ tol ↔ ∀ x, some x ∈ d → |x| ≤ tol := by
  induction d generalizing m with
  | nil => simp [absMax] at h; subst h; simpa using ht
  | cons x xs ih =>
    cases x with
    | none => simp [absMax] at h
    | some a =>
      simp only [absMax, Option.bind_eq_bind, Option.bind_some] at h
      cases hx : absMax xs with
      | none => rw [hx] at h; simp at h
      | some m' =>
        rw [hx] at h
        simp only [Option.bind_some, Option.some.injEq] at h
        subst h
        rw [max_le_iff, ih hx]
        constructor
        · rintro ⟨h1, h2⟩ x hm
          rcases List.mem_cons.1 hm with e | hm
          · cases e; exact h1
          · exact h2 x hm
        · intro h
          exact ⟨h a (by simp), fun x hx => h x (by simp [hx])⟩

theorem exceeds_false {d : List (Option ℝ)} {tol : ℝ} (ht : 0 ≤ tol) :
    exceeds tol d = false ↔ none ∈ d ∨ ∀ x, some x ∈ d → |x| ≤ tol := by
  unfold exceeds
  cases h : absMax d with
  | none => simp [absMax_none.1 h]
  | some m =>
    simp only [decide_eq_false_iff_not, not_lt, absMax_le ht h]
    constructor
    · exact Or.inr
    · rintro (h1 | h1)
      · rw [absMax_none.2 h1] at h; cases h
      · exact h1

theorem any_exceeds {ds : List (List (Option ℝ))} {tol : ℝ} (ht : 0 ≤ tol) :
    ds.any (exceeds tol) = false ↔ ∀ d ∈ ds, none ∈ d ∨ ∀ x, some x ∈ d → |x| ≤ tol := by
  rw [List.any_eq_false]
  refine forall₂_congr fun d _ => ?_
  rw [← exceeds_false ht]; simp

theorem fill_drawn (cf : Cost ρ) (draw : Nat → ρ) (s s₀ : Store ρ) (h : ∀ v, v ∉ cf.vars → s v = s₀ v) :
    fill draw (cf.optim ++ cf.aux) s = drawn cf draw s₀ := by
  funext v
  rw [fill_eq]
  unfold drawn
  by_cases hv : v ∈ cf.optim ++ cf.aux
  · rw [if_pos hv, if_pos (show v ∈ cf.vars from hv)]
  · rw [if_neg hv, if_neg (show v ∉ cf.vars from hv)]
    exact h v hv

theorem drawn_out (cf : Cost ρ) (draw : Nat → ρ) (s₀ : Store ρ) {v : Nat} (hv : v ∉ cf.vars) :
    drawn cf draw s₀ v = s₀ v := if_neg hv

theorem drawn_in (cf : Cost ρ) (draw : Nat → ρ) (s₀ : Store ρ) {v : Nat} (hv : v ∈ cf.vars) :
    drawn cf draw s₀ v = draw v := if_pos hv

theorem checks_spec (cf : Cost ρ) (tol : ℝ) (ht : 0 ≤ tol) (draw : Nat → Nat → ρ) (s₀ : Store ρ) :
    ∀ (k n : Nat) (s : Store ρ), (∀ v, v ∉ cf.vars → s v = s₀ v) →
      (∀ v, v ∉ cf.vars → (checks cf tol draw k n s).1 v = s₀ v) ∧
      ((checks cf tol draw k n s).2 = none ↔ ∀ j, n ≤ j → j < n + k → Agrees cf tol (drawn cf (draw j) s₀)) ∧
      (∀ e, (checks cf tol draw k n s).2 = some e →
        ∃ j, n ≤ j ∧ j < n + k ∧ ¬ Agrees cf tol (drawn cf (draw j) s₀) ∧
          (∀ i, n ≤ i → i < j → Agrees cf tol (drawn cf (draw i) s₀)) ∧
          (checks cf tol draw k n s).1 = drawn cf (draw j) s₀)
  | 0, n, s, h => ⟨h, ⟨fun _ j h1 h2 => absurd h2 (by omega), fun _ => rfl⟩, fun e he => by simp [checks] at he⟩
  | k + 1, n, s, h => by
    have hf := fill_drawn cf (draw n) s s₀ h
    cases hd : cf.diff (drawn cf (draw n) s₀) with
    | error e =>
      have hc : checks cf tol draw (k + 1) n s = (drawn cf (draw n) s₀, some e) := by
        simp only [checks, hf, hd]
      have hn : ¬ Agrees cf tol (drawn cf (draw n) s₀) := by rintro ⟨ds, h1, _⟩; rw [hd] at h1; cases h1
      rw [hc]
      refine ⟨fun v hv => drawn_out cf _ _ hv, ⟨fun h => by simp at h, fun h => absurd (h n le_rfl (by omega)) hn⟩,
        fun e' _ => ⟨n, le_rfl, by omega, hn, fun i h1 h2 => absurd h2 (by omega), rfl⟩⟩
    | ok ds =>
      cases ha : ds.any (exceeds tol) with
      | true =>
        have hc : checks cf tol draw (k + 1) n s = (drawn cf (draw n) s₀, some .runtime) := by
          simp only [checks, hf, hd, ha, if_true]
        have hn : ¬ Agrees cf tol (drawn cf (draw n) s₀) := by
          rintro ⟨ds', h1, h2⟩; rw [hd] at h1; cases h1
          rw [(any_exceeds ht).2 h2] at ha; cases ha
        rw [hc]
        refine ⟨fun v hv => drawn_out cf _ _ hv, ⟨fun h => by simp at h, fun h => absurd (h n le_rfl (by omega)) hn⟩,
          fun e' _ => ⟨n, le_rfl, by omega, hn, fun i h1 h2 => absurd h2 (by omega), rfl⟩⟩
      | false =>
        have hA : Agrees cf tol (drawn cf (draw n) s₀) := ⟨ds, hd, (any_exceeds ht).1 ha⟩
        have hc : checks cf tol draw (k + 1) n s = checks cf tol draw k (n + 1) (drawn cf (draw n) s₀) := by
          simp only [checks, hf, hd, ha]; rfl
        obtain ⟨h1, h2, h3⟩ := checks_spec cf tol ht draw s₀ k (n + 1) (drawn cf (draw n) s₀)
          fun v hv => drawn_out cf _ _ hv
        rw [hc]
        refine ⟨h1, h2.trans ⟨fun h j hj1 hj2 => ?_, fun h j hj1 hj2 => h j (by omega) (by omega)⟩, fun e he => ?_⟩
        · by_cases hjn : j = n
          · subst hjn; exact hA
          · exact h j (by omega) (by omega)
        · obtain ⟨j, a1, a2, a3, a4, a5⟩ := h3 e he
          refine ⟨j, by omega, by omega, a3, fun i hi1 hi2 => ?_, a5⟩
          by_cases hin : i = n
          · subst hin; exact hA
          · exact a4 i (by omega) hi2

/-! ### C83 -/

/-- `check_jacobians` ends without exception exactly if the Jacobians agree at all the random tensors drawn,
and then every variable has the tensor it had before. -/
theorem check_passes_iff (cf : Cost ρ) (n : Nat) (tol : ℝ) (ht : 0 ≤ tol) (draw : Nat → Nat → ρ) (s : Store ρ) :
    ((checkJacobians cf n tol draw s).2 = none ↔ ∀ j < n, Agrees cf tol (drawn cf (draw j) s)) ∧
    ((checkJacobians cf n tol draw s).2 = none → (checkJacobians cf n tol draw s).1 = s) := by
  obtain ⟨h1, h2, h3⟩ := checks_spec cf tol ht draw s n 0 s fun _ _ => rfl
  have key : (checkJacobians cf n tol draw s).2 = (checks cf tol draw n 0 s).2 := by
    unfold checkJacobians; rcases hc : checks cf tol draw n 0 s with ⟨s', _ | e⟩ <;> rfl
  refine ⟨?_, fun h => ?_⟩
  · rw [key, h2]
    exact ⟨fun h j hj => h j (Nat.zero_le _) (by omega), fun h j _ hj => h j (by omega)⟩
  · rw [key] at h
    unfold checkJacobians
    rcases hc : checks cf tol draw n 0 s with ⟨s', _ | e⟩
    · funext v
      simp only [restore_eq]
      split_ifs with ha hb
      · rfl
      · rfl
      · have := h1 v (by simp [Cost.vars, ha, hb])
        rw [hc] at this; exact this
    · rw [hc] at h; cases h

/-- Variables of other cost functions never change. -/
theorem check_frame (cf : Cost ρ) (n : Nat) (tol : ℝ) (ht : 0 ≤ tol) (draw : Nat → Nat → ρ) (s : Store ρ) (v : Nat)
    (hv : v ∉ cf.vars) : (checkJacobians cf n tol draw s).1 v = s v := by
  obtain ⟨h1, h2, h3⟩ := checks_spec cf tol ht draw s n 0 s fun _ _ => rfl
  unfold checkJacobians
  have hn : v ∉ cf.optim ∧ v ∉ cf.aux := by simpa [Cost.vars] using hv
  rcases hc : checks cf tol draw n 0 s with ⟨s', _ | e⟩
  · simp only [restore_eq, hn.1, hn.2, if_false]
    have := h1 v hv
    rw [hc] at this; exact this
  · have := h1 v hv
    rw [hc] at this; exact this

/-- **Defect.** When `check_jacobians` raises (a Jacobian is wrong, or the cost function raises), the variables
of the cost function are not restored: they are left with the random tensors of the first failing check. -/
theorem check_failure_corrupts (cf : Cost ρ) (n : Nat) (tol : ℝ) (ht : 0 ≤ tol) (draw : Nat → Nat → ρ) (s : Store ρ)
    (h : ∃ j < n, ¬ Agrees cf tol (drawn cf (draw j) s)) :
    ∃ e, (checkJacobians cf n tol draw s).2 = some e ∧ ∃ j < n, ¬ Agrees cf tol (drawn cf (draw j) s) ∧
      ∀ v ∈ cf.vars, (checkJacobians cf n tol draw s).1 v = draw j v := by
  have hp := (check_passes_iff cf n tol ht draw s).1
  obtain ⟨h1, h2, h3⟩ := checks_spec cf tol ht draw s n 0 s fun _ _ => rfl
  rcases hc : checks cf tol draw n 0 s with ⟨s', _ | e⟩
  · exfalso
    obtain ⟨j, hj, hn⟩ := h
    have : (checkJacobians cf n tol draw s).2 = none := by unfold checkJacobians; rw [hc]
    exact hn (hp.1 this j hj)
  · have hcj : checkJacobians cf n tol draw s = (s', some e) := by unfold checkJacobians; rw [hc]
    obtain ⟨j, _, hj, hn, _, he⟩ := h3 e (by rw [hc])
    refine ⟨e, by rw [hcj], j, by omega, hn, fun v hv => ?_⟩
    rw [hcj]
    rw [hc] at he
    exact (congrFun he v).trans (drawn_in cf _ _ hv)

/-- `verify_jacobians` reports success exactly if every cost function passes, and then no variable has
changed. -/
theorem verify_success_iff (n : Nat) (tol : ℝ) (ht : 0 ≤ tol) (cs : List (Cost ρ × (Nat → Nat → ρ))) (s : Store ρ) :
    ((verifyJacobians n tol cs s).2 = .ok true ↔
      ∀ c ∈ cs, ∀ j < n, Agrees c.1 tol (drawn c.1 (c.2 j) s)) ∧
    ((verifyJacobians n tol cs s).2 = .ok true → (verifyJacobians n tol cs s).1 = s) := by
  induction cs generalizing s with
  | nil => simp [verifyJacobians]
  | cons c cs ih =>
    obtain ⟨cf, draw⟩ := c
    have hp := check_passes_iff cf n tol ht draw s
    rcases hc : checkJacobians cf n tol draw s with ⟨s', _ | e⟩
    · have hs : s' = s := by have := hp.2 (by rw [hc]); rw [hc] at this; exact this
      subst hs
      have hv : verifyJacobians n tol ((cf, draw) :: cs) s' = verifyJacobians n tol cs s' := by
        simp only [verifyJacobians, hc]
      rw [hv]
      refine ⟨(ih s').1.trans ⟨fun h c hm => ?_, fun h c hm => h c (by simp [hm])⟩, (ih s').2⟩
      rcases List.mem_cons.1 hm with rfl | hm
      · exact hp.1.1 (by rw [hc])
      · exact h c hm
    · have hne : (verifyJacobians n tol ((cf, draw) :: cs) s).2 ≠ .ok true := by
        simp only [verifyJacobians, hc]
        cases e
        · rcases hvv : verifyJacobians n tol cs s' with ⟨s'', e' | b⟩ <;> simp [hvv]
        · simp
      refine ⟨⟨fun h => absurd h hne, fun h => ?_⟩, fun h => absurd h hne⟩
      have := hp.1.2 fun j hj => h (cf, draw) (by simp) j hj
      rw [hc] at this; cases this

/-- **Defect.** `verify_jacobians` catches the failure of a check and returns normally, with the variables of
the last cost function, if its check fails, overwritten by random tensors. -/
theorem verify_failure_corrupts (cs : List (Cost ρ × (Nat → Nat → ρ))) (cf : Cost ρ) (draw : Nat → Nat → ρ) (n : Nat)
    (tol : ℝ) (ht : 0 ≤ tol) (s : Store ρ) (hcs : ∀ c ∈ cs, ∀ j < n, Agrees c.1 tol (drawn c.1 (c.2 j) s))
    (hd : ∀ s, ∃ ds, cf.diff s = .ok ds)
    (h : ∃ j < n, ¬ Agrees cf tol (drawn cf (draw j) s)) :
    (verifyJacobians n tol (cs ++ [(cf, draw)]) s).2 = .ok false ∧
      ∃ j < n, ∀ v ∈ cf.vars, (verifyJacobians n tol (cs ++ [(cf, draw)]) s).1 v = draw j v := by
  induction cs with
  | nil =>
    obtain ⟨e, he, j, hj, _, hv⟩ := check_failure_corrupts cf n tol ht draw s h
    have hrt : ∀ (k m : Nat) (t : Store ρ), (checks cf tol draw k m t).2 = none ∨
        (checks cf tol draw k m t).2 = some .runtime := by
      intro k
      induction k with
      | zero => intro m t; left; rfl
      | succ k ih =>
        intro m t
        simp only [checks]
        obtain ⟨ds, hds⟩ := hd (fill (draw m) (cf.optim ++ cf.aux) t)
        rw [hds]
        simp only
        split_ifs
        · right; rfl
        · exact ih _ _
    have hc2 : (checkJacobians cf n tol draw s).2 = (checks cf tol draw n 0 s).2 := by
      unfold checkJacobians; rcases checks cf tol draw n 0 s with ⟨s', _ | e⟩ <;> rfl
    have her : e = .runtime := by
      rcases hrt n 0 s with h0 | h0
      · rw [hc2, h0] at he; cases he
      · rw [hc2, h0] at he; exact (Option.some.inj he).symm
    subst her
    rcases hc : checkJacobians cf n tol draw s with ⟨s', o⟩
    rw [hc] at he hv
    simp only at he hv
    subst he
    simp only [List.nil_append, verifyJacobians, hc]
    exact ⟨trivial, j, hj, hv⟩
  | cons c cs ih =>
    obtain ⟨cf', draw'⟩ := c
    have hp := check_passes_iff cf' n tol ht draw' s
    have h0 := hp.1.2 fun j hj => hcs (cf', draw') (by simp) j hj
    have h1 := hp.2 h0
    rcases hc : checkJacobians cf' n tol draw' s with ⟨s', o⟩
    rw [hc] at h0 h1
    simp only at h0 h1
    subst h0 h1
    simp only [List.cons_append, verifyJacobians, hc]
    exact ih fun c hm => hcs c (by simp [hm])

/-- A cost function whose Jacobian is off by 1: one variable with tensor 7, random tensor 0.3. -/
example : (verifyJacobians 1 (1 / 1000) [((⟨[0], [], fun _ => .ok [[some 1]]⟩ : Cost ℝ), fun _ _ => 3 / 10)]
    (fun _ => 7)).2 = .ok false ∧
    (verifyJacobians 1 (1 / 1000) [((⟨[0], [], fun _ => .ok [[some 1]]⟩ : Cost ℝ), fun _ _ => 3 / 10)]
    (fun _ => 7)).1 0 = 3 / 10 := by
  have := verify_failure_corrupts [] (⟨[0], [], fun _ => .ok [[some 1]]⟩ : Cost ℝ) (fun _ _ => 3 / 10) 1 (1 / 1000)
    (by norm_num) (fun _ => 7) (by simp) (fun _ => ⟨_, rfl⟩) ⟨0, by norm_num, by
      rintro ⟨ds, h1, h2⟩
      cases h1
      rcases h2 [some 1] (by simp) with h | h
      · simp at h
      · have := h 1 (by simp); norm_num at this⟩
  obtain ⟨h1, j, _, h2⟩ := this
  exact ⟨h1, h2 0 (by simp [Cost.vars])⟩

/-- A cost function with a right Jacobian passes and the tensor stays. -/
example : checkJacobians (⟨[0], [1], fun _ => .ok [[some 0]]⟩ : Cost ℝ) 3 (1 / 1000) (fun j _ => j) (fun _ => 7) =
    (fun _ => 7, none) := by
  have := check_passes_iff (⟨[0], [1], fun _ => .ok [[some 0]]⟩ : Cost ℝ) 3 (1 / 1000) (by norm_num) (fun j _ => j) (fun _ => 7)
  have h : (checkJacobians (⟨[0], [1], fun _ => .ok [[some 0]]⟩ : Cost ℝ) 3 (1 / 1000) (fun j _ => j) (fun _ => 7)).2 = none :=
    this.1.2 fun j _ => ⟨_, rfl, by simp⟩
  exact Prod.ext (this.2 h) h

/-- **Defect.** A NaN entry anywhere in the difference hides every other error of that Jacobian. -/
theorem check_nan_passes (cf : Cost ρ) (n : Nat) (tol : ℝ) (ht : 0 ≤ tol) (draw : Nat → Nat → ρ) (s : Store ρ)
    (h : ∀ s, ∃ ds, cf.diff s = .ok ds ∧ ∀ d ∈ ds, none ∈ d) :
    (checkJacobians cf n tol draw s).2 = none :=
  (check_passes_iff cf n tol ht draw s).1.2 fun j _ => by
    obtain ⟨ds, h1, h2⟩ := h (drawn cf (draw j) s)
    exact ⟨ds, h1, fun d hd => Or.inl (h2 d hd)⟩

example : (checkJacobians (⟨[0], [], fun _ => .ok [[some 1000, none]]⟩ : Cost ℝ) 5 (1 / 1000) (fun _ _ => 0) (fun _ => 7)).2
    = none := check_nan_passes _ _ _ (by norm_num) _ _ fun _ => ⟨_, rfl, by simp⟩

end Verif.Check
