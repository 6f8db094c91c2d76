import Verif.Params.Model
import Mathlib.Tactic.Linarith
import Mathlib.Tactic.NormNum

/-!
# Global parameter stores: properties (C94)
-/

namespace Verif.Params

/-! ### Specification -/

/-- The options of torchlie, as in its documentation and code. -/
def lieOptions : List String :=
  ["so3_near_pi_eps_float32", "so3_near_zero_eps_float32", "so3_d_near_zero_eps_float32", "so3_matrix_eps_float32",
   "so3_quat_eps_float32", "so3_hat_eps_float32", "se3_hat_eps_float32",
   "so3_near_pi_eps_float64", "so3_near_zero_eps_float64", "so3_d_near_zero_eps_float64", "so3_matrix_eps_float64",
   "so3_quat_eps_float64", "so3_hat_eps_float64", "se3_hat_eps_float64",
   "_allow_passthrough_ops", "_faster_log_maps"]

/-- The options of theseus. -/
def thOptions : List String :=
  ["so2_norm_eps_float32", "so2_matrix_eps_float32", "se2_near_zero_eps_float32", "se2_d_near_zero_eps_float32",
   "so3_to_quaternion_sqrt_eps_float32", "so2_norm_eps_float64", "so2_matrix_eps_float64",
   "se2_near_zero_eps_float64", "se2_d_near_zero_eps_float64", "so3_to_quaternion_sqrt_eps_float64",
   "fast_approx_local_jacobians"]

/-- The current value of an option. -/
def State.lieVal (s : State) (k : String) : Option Val := attr lieClass s.lie k
def State.thVal (s : State) (k : String) : Option Val := attr thClass s.th k

/-- The names that a call assigns in torchlie's and in theseus' store (`none`: all, by a reset). -/
def Op.lieKeys : Op → Option (List String)
  | .lieSet o => some (o.map Prod.fst)
  | .lieReset => none
  | _ => some []
def Op.thKeys : Op → Option (List String)
  | .thSet o => some (o.map Prod.fst)
  | .thReset => none
  | _ => some []

/-- The call does not touch the option `k` of torchlie, or of theseus. -/
def Op.LieFree (k : String) (o : Op) : Prop := ∃ l, o.lieKeys = some l ∧ k ∉ l
def Op.ThFree (k : String) (o : Op) : Prop := ∃ l, o.thKeys = some l ∧ k ∉ l

/-- The call does not name one of the two methods as an option. -/
def Op.Sane : Op → Prop
  | .lieSet o => ∀ kv ∈ o, kv.1 ≠ "get_eps" ∧ kv.1 ≠ "reset"
  | .thSet o => ∀ kv ∈ o, kv.1 ≠ "get_eps" ∧ kv.1 ≠ "reset"
  | _ => True

/-! ### Lemmas -/

theorem lookup_isSome (l : List (String × Val)) (k : String) : (l.lookup k).isSome ↔ k ∈ l.map Prod.fst := by
  induction l with
  | nil => simp
  | cons a l ih =>
    obtain ⟨k', v⟩ := a
    simp only [List.lookup_cons, List.map_cons, List.mem_cons]
    by_cases h : k = k'
    · subst h; simp
    · have : (k == k') = false := by simpa using h
      rw [this]
      simp [h, ih]

theorem attr_setattr (cls : List (String × Val)) (d : Dict) (k k' : String) (v : Val) :
    attr cls (setattr d k v) k' = if k' = k then some v else attr cls d k' := by
  unfold attr setattr
  by_cases h : k' = k
  · simp [h]
  · simp [h]

theorem attr_assign_not (cls : List (String × Val)) (l : List (String × Val)) : ∀ (d : Dict) (k : String),
    k ∉ l.map Prod.fst → attr cls (assign d l) k = attr cls d k := by
  induction l with
  | nil => intro d k _; rfl
  | cons a l ih =>
    intro d k h
    obtain ⟨k', v⟩ := a
    simp only [List.map_cons, List.mem_cons, not_or] at h
    show attr cls (assign (setattr d k' v) l) k = _
    rw [ih _ _ h.2, attr_setattr, if_neg h.1]

/-- After a sequence of assignments a name has the last value, which does not depend on what was there before. -/
theorem attr_assign_mem (cls : List (String × Val)) (l : List (String × Val)) : ∀ (d d' : Dict) (k : String),
    k ∈ l.map Prod.fst → attr cls (assign d l) k = attr cls (assign d' l) k ∧ (attr cls (assign d l) k).isSome := by
  induction l with
  | nil => intro d d' k h; simp at h
  | cons a l ih =>
    intro d d' k h
    obtain ⟨k', v⟩ := a
    show attr cls (assign (setattr d k' v) l) k = attr cls (assign (setattr d' k' v) l) k ∧
      (attr cls (assign (setattr d k' v) l) k).isSome
    by_cases hl : k ∈ l.map Prod.fst
    · exact ih _ _ _ hl
    · rw [attr_assign_not _ _ _ _ hl, attr_assign_not _ _ _ _ hl, attr_setattr, attr_setattr]
      have : k = k' := by simpa [hl] using h
      simp [this]

theorem attr_assign_nodup (cls : List (String × Val)) (l : List (String × Val)) : ∀ (d : Dict),
    (l.map Prod.fst).Nodup → ∀ k v, (k, v) ∈ l → attr cls (assign d l) k = some v := by
  induction l with
  | nil => intro d _ k v h; simp at h
  | cons a l ih =>
    intro d hn k v h
    obtain ⟨k', v'⟩ := a
    simp only [List.map_cons, List.nodup_cons] at hn
    show attr cls (assign (setattr d k' v') l) k = some v
    rcases List.mem_cons.1 h with h | h
    · cases h
      rw [attr_assign_not _ _ _ _ hn.1, attr_setattr, if_pos rfl]
    · exact ih _ hn.2 _ _ h

/-- The loop of `set_global_params`: all assignments if all names are valid; otherwise those before the first
invalid name, and a `ValueError`. -/
theorem setLoop_spec (cls : List (String × Val)) (o : List (String × Val)) : ∀ d : Dict,
    ((∀ kv ∈ o, (attr cls d kv.1).isSome) ∧ setLoop cls d o = (assign d o, none)) ∨
    ∃ o₁ k v o₂, o = o₁ ++ (k, v) :: o₂ ∧ (∀ kv ∈ o₁, (attr cls d kv.1).isSome) ∧ attr cls d k = none ∧
      setLoop cls d o = (assign d o₁, some .value) := by
  induction o with
  | nil => intro d; exact .inl ⟨by simp, rfl⟩
  | cons a o ih =>
    intro d
    obtain ⟨k, v⟩ := a
    cases hk : attr cls d k with
    | none => exact .inr ⟨[], k, v, o, rfl, by simp, hk, by simp only [setLoop, hk]; rfl⟩
    | some w =>
      have hs : ∀ k', (attr cls (setattr d k v) k').isSome ↔ (attr cls d k').isSome := by
        intro k'
        rw [attr_setattr]
        split
        · rename_i h; simp [h, hk]
        · rfl
      have e : setLoop cls d ((k, v) :: o) = setLoop cls (setattr d k v) o := by simp only [setLoop, hk]
      rw [e]
      rcases ih (setattr d k v) with ⟨h1, h2⟩ | ⟨o₁, k', v', o₂, h1, h2, h3, h4⟩
      · refine .inl ⟨?_, h2⟩
        intro kv hkv
        rcases List.mem_cons.1 hkv with h | h
        · subst h; simp [hk]
        · exact (hs _).1 (h1 kv h)
      · refine .inr ⟨(k, v) :: o₁, k', v', o₂, by rw [h1]; rfl, ?_, ?_, h4⟩
        · intro kv hkv
          rcases List.mem_cons.1 hkv with h | h
          · subst h; simp [hk]
          · exact (hs _).1 (h2 kv h)
        · have := hs k'
          rw [h3] at this
          simpa using this

theorem setLoop_other (cls : List (String × Val)) (o : List (String × Val)) (d : Dict) (k : String)
    (h : k ∉ o.map Prod.fst) : attr cls (setLoop cls d o).1 k = attr cls d k := by
  rcases setLoop_spec cls o d with ⟨_, h2⟩ | ⟨o₁, k', v', o₂, h1, _, _, h4⟩
  · rw [h2]; exact attr_assign_not _ _ _ _ h
  · rw [h4]
    refine attr_assign_not _ _ _ _ fun hh => h ?_
    rw [h1, List.map_append]
    exact List.mem_append_left _ hh

theorem assign_isSome (cls : List (String × Val)) (l : List (String × Val)) (d : Dict)
    (hl : ∀ kv ∈ l, (attr cls d kv.1).isSome) (k : String) :
    (attr cls (assign d l) k).isSome ↔ (attr cls d k).isSome := by
  by_cases h : k ∈ l.map Prod.fst
  · obtain ⟨kv, hkv, rfl⟩ := List.mem_map.1 h
    exact iff_of_true (attr_assign_mem cls l d d _ h).2 (hl kv hkv)
  · rw [attr_assign_not _ _ _ _ h]

theorem setLoop_isSome (cls : List (String × Val)) (o : List (String × Val)) (d : Dict) (k : String) :
    (attr cls (setLoop cls d o).1 k).isSome ↔ (attr cls d k).isSome := by
  rcases setLoop_spec cls o d with ⟨h1, h2⟩ | ⟨o₁, k', v', o₂, _, h1, _, h4⟩
  · rw [h2]; exact assign_isSome cls o d h1 k
  · rw [h4]; exact assign_isSome cls o₁ d h1 k

theorem run_append (s : State) (h₁ h₂ : List Op) : run s (h₁ ++ h₂) = run (run s h₁) h₂ := by
  induction h₁ generalizing s with
  | nil => rfl
  | cons o h ih => exact ih _

theorem attr_init (cls l : List (String × Val)) (k : String) :
    (attr cls (assign (fun _ => none) l) k).isSome ↔ k ∈ cls.map Prod.fst ∨ k ∈ l.map Prod.fst := by
  by_cases h : k ∈ l.map Prod.fst
  · exact iff_of_true (attr_assign_mem cls l _ (fun _ => none) _ h).2 (.inr h)
  · rw [attr_assign_not _ _ _ _ h]
    show (cls.lookup k).isSome ↔ _
    rw [lookup_isSome]
    simp [h]

/-- Names that may be assigned. -/
def lieAccept : List String := lieClass.map Prod.fst ++ lieDefaults.map Prod.fst
def thAccept : List String := thClass.map Prod.fst ++ thDefaults.map Prod.fst

/-- The set of valid names is the same after every history. -/
theorem names_inv (h : List Op) : ∀ s : State,
    (∀ k, (s.lieVal k).isSome ↔ k ∈ lieAccept) → (∀ k, (s.thVal k).isSome ↔ k ∈ thAccept) →
    (∀ k, ((run s h).lieVal k).isSome ↔ k ∈ lieAccept) ∧ (∀ k, ((run s h).thVal k).isSome ↔ k ∈ thAccept) := by
  induction h with
  | nil => intro s h1 h2; exact ⟨h1, h2⟩
  | cons o h ih =>
    intro s h1 h2
    refine ih _ ?_ ?_
    · intro k
      rw [← h1 k]
      cases o with
      | lieSet o => exact setLoop_isSome lieClass o s.lie k
      | lieReset =>
        show (attr lieClass (callReset lieClass lieDefaults s.lie).1 k).isSome ↔ _
        unfold callReset
        split
        · rfl
        · exact assign_isSome _ _ _ (fun kv hkv => (h1 _).2 (List.mem_append_right _ (List.mem_map_of_mem hkv))) k
        · rfl
      | thSet o =>
        show (attr lieClass (thSet s o).1.lie k).isSome ↔ _
        unfold thSet
        split <;> rfl
      | thReset => rfl
    · intro k
      rw [← h2 k]
      cases o with
      | lieSet o => rfl
      | lieReset => rfl
      | thSet o =>
        show (attr thClass (thSet s o).1.th k).isSome ↔ _
        unfold thSet
        split
        · rfl
        · exact setLoop_isSome thClass o s.th k
      | thReset =>
        show (attr thClass (callReset thClass thDefaults s.th).1 k).isSome ↔ _
        unfold callReset
        split
        · rfl
        · exact assign_isSome _ _ _ (fun kv hkv => (h2 _).2 (List.mem_append_right _ (List.mem_map_of_mem hkv))) k
        · rfl

theorem names_run (h : List Op) :
    (∀ k, ((run init h).lieVal k).isSome ↔ k ∈ lieAccept) ∧ (∀ k, ((run init h).thVal k).isSome ↔ k ∈ thAccept) := by
  refine names_inv h _ (fun k => ?_) fun k => ?_
  · rw [lieAccept, List.mem_append]; exact attr_init _ _ _
  · rw [thAccept, List.mem_append]; exact attr_init _ _ _

theorem mem_lieAccept (k : String) : k ∈ lieAccept ↔ k ∈ lieOptions ∨ k = "get_eps" ∨ k = "reset" := by
  have h1 : ∀ k ∈ lieAccept, k ∈ lieOptions ∨ k = "get_eps" ∨ k = "reset" := by decide +kernel
  have h2 : ∀ k ∈ lieOptions, k ∈ lieAccept := by decide +kernel
  refine ⟨h1 k, ?_⟩
  rintro (h | rfl | rfl)
  · exact h2 k h
  · decide +kernel
  · decide +kernel

theorem mem_thAccept (k : String) : k ∈ thAccept ↔ k ∈ thOptions ∨ k = "get_eps" ∨ k = "reset" := by
  have h1 : ∀ k ∈ thAccept, k ∈ thOptions ∨ k = "get_eps" ∨ k = "reset" := by decide +kernel
  have h2 : ∀ k ∈ thOptions, k ∈ thAccept := by decide +kernel
  refine ⟨h1 k, ?_⟩
  rintro (h | rfl | rfl)
  · exact h2 k h
  · decide +kernel
  · decide +kernel

/-! ### Setting -/

/-- A call of `set_global_params` that returns sets exactly the options it names (a Python dictionary has every
key once), in the store of its package only. -/
theorem set_exact (s : State) (o : List (String × Val)) (ho : (o.map Prod.fst).Nodup) :
    ((exec s (.lieSet o)).2 = none →
      (∀ k v, (k, v) ∈ o → (exec s (.lieSet o)).1.lieVal k = some v) ∧
      (∀ k, k ∉ o.map Prod.fst → (exec s (.lieSet o)).1.lieVal k = s.lieVal k) ∧
      ∀ k, (exec s (.lieSet o)).1.thVal k = s.thVal k) ∧
    ((exec s (.thSet o)).2 = none →
      (∀ k v, (k, v) ∈ o → (exec s (.thSet o)).1.thVal k = some v) ∧
      (∀ k, k ∉ o.map Prod.fst → (exec s (.thSet o)).1.thVal k = s.thVal k) ∧
      ∀ k, (exec s (.thSet o)).1.lieVal k = s.lieVal k) := by
  constructor
  · intro h
    rcases setLoop_spec lieClass o s.lie with ⟨_, h2⟩ | ⟨_, _, _, _, _, _, _, h4⟩
    · refine ⟨fun k v hkv => ?_, fun k hk => ?_, fun k => rfl⟩
      · show attr lieClass (setLoop lieClass s.lie o).1 k = _
        rw [h2]; exact attr_assign_nodup _ _ _ ho _ _ hkv
      · exact setLoop_other _ _ _ _ hk
    · exfalso
      have : (setLoop lieClass s.lie o).2 = none := h
      rw [h4] at this; cases this
  · intro h
    have e : exec s (.thSet o) = thSet s o := rfl
    rw [e] at h ⊢
    unfold thSet at h ⊢
    split at h
    · cases h
    · rename_i hc
      rw [if_neg hc]
      rcases setLoop_spec thClass o s.th with ⟨_, h2⟩ | ⟨_, _, _, _, _, _, _, h4⟩
      · refine ⟨fun k v hkv => ?_, fun k hk => ?_, fun k => rfl⟩
        · show attr thClass (setLoop thClass s.th o).1 k = _
          rw [h2]; exact attr_assign_nodup _ _ _ ho _ _ hkv
        · exact setLoop_other _ _ _ _ hk
      · exfalso
        have : (setLoop thClass s.th o).2 = none := h
        rw [h4] at this; cases this

/-- After every history, `torchlie.set_global_params` raises `ValueError` exactly if it is given a name that is
not an option (or one of the two method names), and `theseus.set_global_params` raises `RuntimeError`, changing
nothing, if it is given a declared option of torchlie, and otherwise `ValueError` exactly for unknown names. No
other exceptions occur; options that are not named never change. -/
theorem set_raises (h : List Op) (o : List (String × Val)) :
    ((exec (run init h) (.lieSet o)).2 =
      if ∀ kv ∈ o, kv.1 ∈ lieOptions ∨ kv.1 = "get_eps" ∨ kv.1 = "reset" then none else some .value) ∧
    ((exec (run init h) (.thSet o)).2 =
      if ∃ kv ∈ o, kv.1 ∈ lieFields.map Prod.fst then some .runtime
      else if ∀ kv ∈ o, kv.1 ∈ thOptions ∨ kv.1 = "get_eps" ∨ kv.1 = "reset" then none else some .value) ∧
    ((exec (run init h) (.thSet o)).2 = some .runtime → (exec (run init h) (.thSet o)).1 = run init h) ∧
    (∀ k, k ∉ o.map Prod.fst → (exec (run init h) (.lieSet o)).1.lieVal k = (run init h).lieVal k ∧
      (exec (run init h) (.thSet o)).1.thVal k = (run init h).thVal k) := by
  obtain ⟨hl, ht⟩ := names_run h
  have loop : ∀ (cls : List (String × Val)) (d : Dict) (P : String → Prop) [DecidablePred P],
      (∀ k, (attr cls d k).isSome ↔ P k) →
      (setLoop cls d o).2 = if ∀ kv ∈ o, P kv.1 then none else some .value := by
    intro cls d P _ hP
    rcases setLoop_spec cls o d with ⟨h1, h2⟩ | ⟨o₁, k, v, o₂, h1, _, h3, h4⟩
    · rw [h2, if_pos fun kv hkv => (hP _).1 (h1 kv hkv)]
    · rw [h4, if_neg]
      intro hh
      have := (hP k).2 (hh (k, v) (by rw [h1]; simp))
      rw [h3] at this; cases this
  refine ⟨loop _ _ _ fun k => (hl k).trans (mem_lieAccept k), ?_, ?_, fun k hk => ⟨setLoop_other _ _ _ _ hk, ?_⟩⟩
  · show (thSet (run init h) o).2 = _
    unfold thSet
    by_cases hc : ∃ kv ∈ o, kv.1 ∈ lieFields.map Prod.fst
    · rw [if_pos hc, if_pos]
      obtain ⟨kv, h1, h2⟩ := hc
      exact List.any_eq_true.2 ⟨kv, h1, List.contains_iff_mem.2 h2⟩
    · rw [if_neg hc, if_neg]
      · exact loop _ _ _ fun k => (ht k).trans (mem_thAccept k)
      · intro hh
        obtain ⟨kv, h1, h2⟩ := List.any_eq_true.1 hh
        exact hc ⟨kv, h1, List.contains_iff_mem.1 h2⟩
  · intro hr
    have e : exec (run init h) (.thSet o) = thSet (run init h) o := rfl
    rw [e] at hr ⊢
    unfold thSet at hr ⊢
    split at hr
    · rename_i hc; rw [if_pos hc]
    · exfalso
      rcases setLoop_spec thClass o (run init h).th with ⟨_, h2⟩ | ⟨_, _, _, _, _, _, _, h4⟩
      · have hr' : (setLoop thClass (run init h).th o).2 = some .runtime := hr
        rw [h2] at hr'; cases hr'
      · have hr' : (setLoop thClass (run init h).th o).2 = some .runtime := hr
        rw [h4] at hr'; cases hr'
  · show attr thClass (thSet (run init h) o).1.th k = _
    unfold thSet
    split
    · rfl
    · exact setLoop_other _ _ _ _ hk

/-- A call that raises because of an unknown option may already have set others. -/
theorem set_not_atomic :
    (exec init (.lieSet [("so3_hat_eps_float64", .num 7), ("so3_hat_eps", .num 7)])).2 = some .value ∧
    (exec init (.lieSet [("so3_hat_eps_float64", .num 7), ("so3_hat_eps", .num 7)])).1.lieVal "so3_hat_eps_float64" =
      some (.num 7) ∧ init.lieVal "so3_hat_eps_float64" ≠ some (.num 7) := by
  decide +kernel

/-! ### Histories -/

theorem free_keeps_lie {k : String} {o : Op} (h : o.LieFree k) (s : State) : (exec s o).1.lieVal k = s.lieVal k := by
  obtain ⟨l, h1, h2⟩ := h
  cases o with
  | lieSet o => cases h1; exact setLoop_other _ _ _ _ h2
  | lieReset => cases h1
  | thSet o =>
    show attr lieClass (thSet s o).1.lie k = _
    unfold thSet
    split <;> rfl
  | thReset => rfl

theorem free_keeps_th {k : String} {o : Op} (h : o.ThFree k) (s : State) : (exec s o).1.thVal k = s.thVal k := by
  obtain ⟨l, h1, h2⟩ := h
  cases o with
  | lieSet o => rfl
  | lieReset => rfl
  | thSet o =>
    cases h1
    show attr thClass (thSet s o).1.th k = _
    unfold thSet
    split
    · rfl
    · exact setLoop_other _ _ _ _ h2
  | thReset => cases h1

theorem run_keeps_lie {k : String} : ∀ (h : List Op), (∀ o ∈ h, o.LieFree k) → ∀ s, (run s h).lieVal k = s.lieVal k
  | [], _, _ => rfl
  | o :: h, hf, s => by
    show (run (exec s o).1 h).lieVal k = _
    rw [run_keeps_lie h (fun o' ho' => hf o' (List.mem_cons_of_mem _ ho')),
      free_keeps_lie (hf o List.mem_cons_self)]

theorem run_keeps_th {k : String} : ∀ (h : List Op), (∀ o ∈ h, o.ThFree k) → ∀ s, (run s h).thVal k = s.thVal k
  | [], _, _ => rfl
  | o :: h, hf, s => by
    show (run (exec s o).1 h).thVal k = _
    rw [run_keeps_th h (fun o' ho' => hf o' (List.mem_cons_of_mem _ ho')),
      free_keeps_th (hf o List.mem_cons_self)]

/-- The last call that names an option decides its value, whatever happened before and whatever calls (also
failing ones) that do not touch the option come after. -/
theorem last_set_wins (h₁ h₂ : List Op) (o : List (String × Val)) (ho : (o.map Prod.fst).Nodup) (k : String) (v : Val)
    (hkv : (k, v) ∈ o) :
    ((exec (run init h₁) (.lieSet o)).2 = none → (∀ p ∈ h₂, p.LieFree k) →
      (run init (h₁ ++ .lieSet o :: h₂)).lieVal k = some v) ∧
    ((exec (run init h₁) (.thSet o)).2 = none → (∀ p ∈ h₂, p.ThFree k) →
      (run init (h₁ ++ .thSet o :: h₂)).thVal k = some v) := by
  constructor
  · intro hr hf
    rw [run_append]
    show (run (exec (run init h₁) (.lieSet o)).1 h₂).lieVal k = _
    rw [run_keeps_lie h₂ hf]
    exact ((set_exact _ o ho).1 hr).1 k v hkv
  · intro hr hf
    rw [run_append]
    show (run (exec (run init h₁) (.thSet o)).1 h₂).thVal k = _
    rw [run_keeps_th h₂ hf]
    exact ((set_exact _ o ho).2 hr).1 k v hkv

/-- A reset gives every tolerance the value it had after the import, until the next call that names it. Missing:
the two flags of torchlie, and resets after an option called `reset` was set (`reset_broken`). -/
theorem reset_restores_partial (h₁ h₂ : List Op) (k : String) (hk : k ≠ "_allow_passthrough_ops")
    (hk' : k ≠ "_faster_log_maps") (hko : k ∈ lieOptions)
    (hr : (exec (run init h₁) .lieReset).2 = none) (hf : ∀ p ∈ h₂, p.LieFree k) :
    (run init (h₁ ++ .lieReset :: h₂)).lieVal k = init.lieVal k := by
  rw [run_append]
  show (run (exec (run init h₁) .lieReset).1 h₂).lieVal k = _
  rw [run_keeps_lie h₂ hf]
  have hm : ∀ k ∈ lieOptions, k ≠ "_allow_passthrough_ops" → k ≠ "_faster_log_maps" → k ∈ lieDefaults.map Prod.fst := by
    decide +kernel
  have e : exec (run init h₁) .lieReset = lieReset (run init h₁) := rfl
  rw [e] at hr ⊢
  unfold lieReset callReset at hr ⊢
  show attr lieClass (match attr lieClass (run init h₁).lie "reset" with
    | none => ((run init h₁).lie, some Exc.attribute)
    | some (.meth .reset) => (assign (run init h₁).lie lieDefaults, none)
    | some _ => ((run init h₁).lie, some Exc.type)).1 k = _
  dsimp only at hr
  split at hr
  · cases hr
  · rename_i heq
    rw [heq]
    exact (attr_assign_mem lieClass lieDefaults _ _ k (hm k hko hk hk')).1
  · cases hr

/-- The same for theseus. Missing: `so2_norm_eps_float64`, which `reset` does not assign. -/
theorem th_reset_restores_partial (h₁ h₂ : List Op) (k : String) (hk : k ≠ "so2_norm_eps_float64") (hko : k ∈ thOptions)
    (hr : (exec (run init h₁) .thReset).2 = none) (hf : ∀ p ∈ h₂, p.ThFree k) :
    (run init (h₁ ++ .thReset :: h₂)).thVal k = init.thVal k := by
  rw [run_append]
  show (run (exec (run init h₁) .thReset).1 h₂).thVal k = _
  rw [run_keeps_th h₂ hf]
  have hm : ∀ k ∈ thOptions, k ≠ "so2_norm_eps_float64" → k ∈ thDefaults.map Prod.fst := by
    decide +kernel
  have e : exec (run init h₁) .thReset = thReset (run init h₁) := rfl
  rw [e] at hr ⊢
  unfold thReset callReset at hr ⊢
  show attr thClass (match attr thClass (run init h₁).th "reset" with
    | none => ((run init h₁).th, some Exc.attribute)
    | some (.meth .reset) => (assign (run init h₁).th thDefaults, none)
    | some _ => ((run init h₁).th, some Exc.type)).1 k = _
  dsimp only at hr
  split at hr
  · cases hr
  · rename_i heq
    rw [heq]
    exact (attr_assign_mem thClass thDefaults _ _ k (hm k hko hk)).1
  · cases hr

/-- A reset of theseus keeps `so2_norm_eps_float64`. -/
theorem th_reset_keeps_norm :
    (run init [.thSet [("so2_norm_eps_float64", .num 5)], .thReset]).thVal "so2_norm_eps_float64" = some (.num 5) ∧
      init.thVal "so2_norm_eps_float64" = some (.num 0) := by
  decide +kernel

/-- As long as no call names `reset` as an option, `reset_global_params` does not raise. -/
theorem sane_methods (h : List Op) (hs : ∀ o ∈ h, o.Sane) (m : String) (hm : m = "get_eps" ∨ m = "reset") :
    (run init h).lieVal m = methods.lookup m ∧ (run init h).thVal m = methods.lookup m := by
  have hi : ∀ m, m = "get_eps" ∨ m = "reset" → init.lieVal m = methods.lookup m ∧ init.thVal m = methods.lookup m := by
    rintro m (rfl | rfl) <;> decide +kernel
  have hd : "get_eps" ∉ lieDefaults.map Prod.fst ∧ "reset" ∉ lieDefaults.map Prod.fst ∧
      "get_eps" ∉ thDefaults.map Prod.fst ∧ "reset" ∉ thDefaults.map Prod.fst := by decide +kernel
  have go : ∀ (h : List Op), (∀ o ∈ h, o.Sane) → ∀ s : State,
      (run s h).lieVal m = s.lieVal m ∧ (run s h).thVal m = s.thVal m := by
    intro h
    induction h with
    | nil => intro _ s; exact ⟨rfl, rfl⟩
    | cons o h ih =>
      intro hs s
      obtain ⟨h1, h2⟩ := ih (fun p hp => hs p (List.mem_cons_of_mem _ hp)) (exec s o).1
      have ho := hs o List.mem_cons_self
      have key : (exec s o).1.lieVal m = s.lieVal m ∧ (exec s o).1.thVal m = s.thVal m := by
        cases o with
        | lieSet o =>
          refine ⟨free_keeps_lie ⟨_, rfl, ?_⟩ s, rfl⟩
          intro hh
          obtain ⟨kv, h3, h4⟩ := List.mem_map.1 hh
          rcases hm with rfl | rfl
          · exact (ho kv h3).1 h4
          · exact (ho kv h3).2 h4
        | thSet o =>
          refine ⟨free_keeps_lie ⟨_, rfl, by simp⟩ s, free_keeps_th ⟨_, rfl, ?_⟩ s⟩
          intro hh
          obtain ⟨kv, h3, h4⟩ := List.mem_map.1 hh
          rcases hm with rfl | rfl
          · exact (ho kv h3).1 h4
          · exact (ho kv h3).2 h4
        | lieReset =>
          refine ⟨?_, rfl⟩
          show attr lieClass (callReset lieClass lieDefaults s.lie).1 m = _
          unfold callReset
          split
          · rfl
          · refine attr_assign_not _ _ _ _ ?_
            rcases hm with rfl | rfl
            · exact hd.1
            · exact hd.2.1
          · rfl
        | thReset =>
          refine ⟨rfl, ?_⟩
          show attr thClass (callReset thClass thDefaults s.th).1 m = _
          unfold callReset
          split
          · rfl
          · refine attr_assign_not _ _ _ _ ?_
            rcases hm with rfl | rfl
            · exact hd.2.2.1
            · exact hd.2.2.2
          · rfl
      exact ⟨h1.trans key.1, h2.trans key.2⟩
  obtain ⟨h1, h2⟩ := go h hs init
  rw [h1, h2]
  exact hi m hm

/-- `reset_global_params` succeeds after every history that does not name `reset` as an option. -/
theorem reset_returns (h : List Op) (hs : ∀ o ∈ h, o.Sane) : (exec (run init h) .lieReset).2 = none := by
  have := (sane_methods h hs "reset" (.inr rfl)).1
  have e : attr lieClass (run init h).lie "reset" = some (.meth .reset) := this.trans (by decide +kernel)
  show (callReset lieClass lieDefaults (run init h).lie).2 = none
  simp only [callReset, e]

/-- A reset keeps the flags: pass-through and the faster log maps stay enabled. -/
theorem reset_keeps_flags :
    (exec init (.lieSet [("_allow_passthrough_ops", .flag true), ("_faster_log_maps", .flag true)])).2 = none ∧
    (run init [.lieSet [("_allow_passthrough_ops", .flag true), ("_faster_log_maps", .flag true)], .lieReset]).lieVal
      "_allow_passthrough_ops" = some (.flag true) ∧
    (run init [.lieSet [("_allow_passthrough_ops", .flag true), ("_faster_log_maps", .flag true)], .lieReset]).lieVal
      "_faster_log_maps" = some (.flag true) ∧
    init.lieVal "_allow_passthrough_ops" = some (.flag false) ∧ init.lieVal "_faster_log_maps" = some (.flag false) := by
  decide +kernel

/-- `set_global_params` accepts the names of methods as options; afterwards resetting, or reading any
tolerance, raises `TypeError`, whatever calls that do not name the method again come after. -/
theorem reset_broken (q : ℚ) (h : List Op) :
    (exec init (.lieSet [("reset", .num q), ("get_eps", .num q)])).2 = none ∧
    ((∀ o ∈ h, o.Sane) →
      (exec (run init (.lieSet [("reset", .num q), ("get_eps", .num q)] :: h)) .lieReset).2 = some .type ∧
      ∀ l a t, lieGetEps (run init (.lieSet [("reset", .num q), ("get_eps", .num q)] :: h)) l a t = .error .type) := by
  have hacc : (exec init (.lieSet [("reset", .num q), ("get_eps", .num q)])).2 = none := by
    have := (set_raises [] [("reset", .num q), ("get_eps", .num q)]).1
    refine Eq.trans this (if_pos ?_)
    simp
  refine ⟨hacc, fun hs => ?_⟩
  have go : ∀ (h : List Op), (∀ o ∈ h, o.Sane) → ∀ s : State,
      s.lieVal "reset" = some (.num q) → s.lieVal "get_eps" = some (.num q) →
      (run s h).lieVal "reset" = some (.num q) ∧ (run s h).lieVal "get_eps" = some (.num q) := by
    intro h
    induction h with
    | nil => intro _ s h1 h2; exact ⟨h1, h2⟩
    | cons o h ih =>
      intro hs s h1 h2
      have ho := hs o List.mem_cons_self
      have key : ∀ m, m = "get_eps" ∨ m = "reset" → (exec s o).1.lieVal m = s.lieVal m := by
        intro m hm
        cases o with
        | lieSet o =>
          refine free_keeps_lie ⟨_, rfl, ?_⟩ s
          intro hh
          obtain ⟨kv, h3, h4⟩ := List.mem_map.1 hh
          rcases hm with rfl | rfl
          · exact (ho kv h3).1 h4
          · exact (ho kv h3).2 h4
        | thSet o => exact free_keeps_lie ⟨_, rfl, by simp⟩ s
        | lieReset =>
          show attr lieClass (callReset lieClass lieDefaults s.lie).1 m = _
          have e : attr lieClass s.lie "reset" = some (.num q) := h1
          simp only [callReset, e]
          rfl
        | thReset => rfl
      refine ih (fun p hp => hs p (List.mem_cons_of_mem _ hp)) _ ?_ ?_
      · rw [key _ (.inr rfl), h1]
      · rw [key _ (.inl rfl), h2]
  have h0 := ((set_exact init [("reset", .num q), ("get_eps", .num q)] (by simp)).1 hacc).1
  obtain ⟨h1, h2⟩ := go h hs _ (h0 "reset" _ (by simp)) (h0 "get_eps" _ (by simp))
  constructor
  · have e : attr lieClass (run init (.lieSet [("reset", .num q), ("get_eps", .num q)] :: h)).lie "reset" =
        some (.num q) := h1
    show (callReset _ _ _).2 = _
    simp only [callReset, e]
  · intro l a t
    have e : attr lieClass (run init (.lieSet [("reset", .num q), ("get_eps", .num q)] :: h)).lie "get_eps" =
        some (.num q) := h2
    simp only [lieGetEps, e]

/-! ### Reading tolerances -/

theorem epsName_length (l a : String) (t : DType) (ht : t.supported = true) : 13 ≤ (epsName l a t).length := by
  unfold epsName
  simp only [String.length_append]
  have h1 : "_".length = 1 := by decide
  have h2 : "_eps_".length = 5 := by decide
  have h3 : t.suffix.length = 7 := by
    cases t with
    | f32 => decide
    | f64 => decide
    | other n => cases ht
  omega

theorem epsName_not_method (l a : String) (t : DType) (ht : t.supported = true) :
    epsName l a t ≠ "get_eps" ∧ epsName l a t ≠ "reset" := by
  have := epsName_length l a t ht
  constructor <;> intro h <;> rw [h] at this <;> exact absurd this (by decide)

/-- `get_eps` after any history that does not name methods as options: other dtypes than `float32` and
`float64` raise `ValueError`; in torchlie, and in theseus for the tolerances of torchlie, the result is the
current value of torchlie's option `<ltype>_<attr>_eps_<dtype>`; in theseus, for its own tolerances, that of its
own option; for all other names both raise `AttributeError`. -/
theorem get_eps_reads (h : List Op) (hs : ∀ o ∈ h, o.Sane) (l a : String) (t : DType) :
    (t.supported = false → lieGetEps (run init h) l a t = .error .value ∧ thGetEps (run init h) l a t = .error .value) ∧
    (t.supported = true →
      (∀ v, epsName l a t ∈ lieOptions → ((run init h).lieVal (epsName l a t) = some v ↔
          lieGetEps (run init h) l a t = .ok v) ∧ thGetEps (run init h) l a t = lieGetEps (run init h) l a t) ∧
      (∀ v, epsName l a t ∈ thOptions → ((run init h).thVal (epsName l a t) = some v ↔
          thGetEps (run init h) l a t = .ok v) ∧ lieGetEps (run init h) l a t = .error .attribute) ∧
      (epsName l a t ∉ lieOptions → epsName l a t ∉ thOptions →
        lieGetEps (run init h) l a t = .error .attribute ∧ thGetEps (run init h) l a t = .error .attribute)) := by
  obtain ⟨g1, g2⟩ := sane_methods h hs "get_eps" (.inl rfl)
  have e1 : attr lieClass (run init h).lie "get_eps" = some (.meth .getEps) := g1.trans (by decide +kernel)
  have e2 : attr thClass (run init h).th "get_eps" = some (.meth .getEps) := g2.trans (by decide +kernel)
  obtain ⟨hl, hth⟩ := names_run h
  have disj : ∀ k ∈ thOptions, k ∉ lieOptions := by decide +kernel
  refine ⟨fun ht => ?_, fun ht => ?_⟩
  · simp only [thGetEps, e2, lieGetEps, e1, ht]
    simp
  obtain ⟨n1, n2⟩ := epsName_not_method l a t ht
  have r1 : lieGetEps (run init h) l a t = getattr lieClass (run init h).lie (epsName l a t) := by
    simp only [lieGetEps, e1, ht]; simp
  have miss : epsName l a t ∉ lieOptions → lieGetEps (run init h) l a t = .error .attribute := by
    intro hn
    have : (run init h).lieVal (epsName l a t) = none := by
      have := (hl (epsName l a t)).not.2 (by rw [mem_lieAccept]; simp [hn, n1, n2])
      simpa using this
    rw [r1]
    show (match (run init h).lieVal (epsName l a t) with | some v => Except.ok v | none => Except.error Exc.attribute) = _
    rw [this]
  have r2 : epsName l a t ∉ lieOptions → thGetEps (run init h) l a t =
      getattr thClass (run init h).th (epsName l a t) := by
    intro hn
    simp only [thGetEps, e2, miss hn, ht]
    simp
  refine ⟨fun v hk => ⟨?_, ?_⟩, fun v hk => ⟨?_, miss (disj _ hk)⟩, fun hk hk' => ⟨miss hk, ?_⟩⟩
  · rw [r1]
    show _ ↔ (match (run init h).lieVal (epsName l a t) with | some v => Except.ok v | none => Except.error Exc.attribute) = _
    cases (run init h).lieVal (epsName l a t) <;> simp
  · have hsome := (hl (epsName l a t)).2 ((mem_lieAccept _).2 (.inl hk))
    obtain ⟨w, hw⟩ := Option.isSome_iff_exists.1 hsome
    have : lieGetEps (run init h) l a t = .ok w := by
      rw [r1]
      show (match (run init h).lieVal (epsName l a t) with | some v => Except.ok v | none => Except.error Exc.attribute) = _
      rw [hw]
    simp only [thGetEps, e2, this]
  · rw [r2 (disj _ hk)]
    show _ ↔ (match (run init h).thVal (epsName l a t) with | some v => Except.ok v | none => Except.error Exc.attribute) = _
    cases (run init h).thVal (epsName l a t) <;> simp
  · rw [r2 hk]
    have : (run init h).thVal (epsName l a t) = none := by
      have := (hth (epsName l a t)).not.2 (by rw [mem_thAccept]; simp [hk', n1, n2])
      simpa using this
    show (match (run init h).thVal (epsName l a t) with | some v => Except.ok v | none => Except.error Exc.attribute) = _
    rw [this]

/-- The tolerances that the library reads: in torchlie (so3_impl.py L32, L70, L110, L224, L398, L449; se3_impl.py
L53) and in theseus (so3.py L200-228, so2.py L137, L193, se2.py L173-249). -/
def lieSites : List (String × String) :=
  [("so3", "matrix"), ("so3", "hat"), ("so3", "quat"), ("so3", "near_zero"), ("so3", "near_pi"), ("so3", "d_near_zero"),
   ("se3", "hat")]
def thSites : List (String × String) :=
  [("so3", "near_zero"), ("so3", "near_pi"), ("so3", "to_quaternion_sqrt"), ("so2", "matrix"), ("so2", "norm"),
   ("se2", "near_zero"), ("se2", "d_near_zero")]

/-- Every tolerance the library reads exists after every history (without methods named as options), for both
dtypes. -/
theorem sites_exist (h : List Op) (hs : ∀ o ∈ h, o.Sane) (t : DType) (ht : t.supported = true) :
    (∀ p ∈ lieSites, ∃ v, lieGetEps (run init h) p.1 p.2 t = .ok v) ∧
    (∀ p ∈ thSites, ∃ v, thGetEps (run init h) p.1 p.2 t = .ok v) := by
  obtain ⟨hl, hth⟩ := names_run h
  have ok : ∀ l a, epsName l a t ∈ lieOptions → ∃ v, lieGetEps (run init h) l a t = .ok v := by
    intro l a hk
    obtain ⟨w, hw⟩ := Option.isSome_iff_exists.1 ((hl (epsName l a t)).2 ((mem_lieAccept _).2 (.inl hk)))
    exact ⟨w, ((((get_eps_reads h hs l a t).2 ht).1 w hk).1).1 hw⟩
  have okt : ∀ l a, epsName l a t ∈ thOptions → ∃ v, thGetEps (run init h) l a t = .ok v := by
    intro l a hk
    obtain ⟨w, hw⟩ := Option.isSome_iff_exists.1 ((hth (epsName l a t)).2 ((mem_thAccept _).2 (.inl hk)))
    exact ⟨w, ((((get_eps_reads h hs l a t).2 ht).2.1 w hk).1).1 hw⟩
  have h1 : ∀ p ∈ lieSites, epsName p.1 p.2 t ∈ lieOptions := by
    cases t with
    | f32 => decide +kernel
    | f64 => decide +kernel
    | other n => cases ht
  have h2 : ∀ p ∈ thSites, epsName p.1 p.2 t ∈ lieOptions ∨ epsName p.1 p.2 t ∈ thOptions := by
    cases t with
    | f32 => decide +kernel
    | f64 => decide +kernel
    | other n => cases ht
  refine ⟨fun p hp => ok _ _ (h1 p hp), fun p hp => ?_⟩
  rcases h2 p hp with hk | hk
  · obtain ⟨v, hv⟩ := ok _ _ hk
    exact ⟨v, ((((get_eps_reads h hs p.1 p.2 t).2 ht).1 v hk).2).trans hv⟩
  · exact okt _ _ hk

/-- A value is a positive number. -/
def Val.pos : Except Exc Val → Bool
  | .ok (.num q) => decide (0 < q)
  | _ => false

/-- After the import every tolerance that the library reads is a positive number, except that of
`SO2.normalize` for `float64`, which is 0 (its assignment in `reset` is missing), so that zero vectors are
divided by zero (`so2_normalize_zero_unguarded`). -/
theorem defaults_positive :
    (∀ t ∈ [DType.f32, DType.f64], ∀ p ∈ lieSites, Val.pos (lieGetEps init p.1 p.2 t) = true) ∧
    (∀ t ∈ [DType.f32, DType.f64], ∀ p ∈ thSites, (Val.pos (thGetEps init p.1 p.2 t) = true ↔
      ¬ (p = ("so2", "norm") ∧ t = .f64))) ∧
    (thGetEps init "so2" "norm" .f64 = .ok (.num 0)) := by
  decide +kernel

/-- The hypotheses are met: a history with failing calls in both packages and a reset. -/
example : (∀ o ∈ [Op.lieSet [("so3_hat_eps_float64", .num 7), ("nonsense", .num 1)], .thSet [("so3_hat_eps_float64", .num 7)],
      .thSet [("so2_norm_eps_float64", .num (1 / 10))], .lieReset], o.Sane) ∧
    lieGetEps (run init [Op.lieSet [("so3_hat_eps_float64", .num 7), ("nonsense", .num 1)], .thSet [("so3_hat_eps_float64", .num 7)],
      .thSet [("so2_norm_eps_float64", .num (1 / 10))], .lieReset]) "so3" "hat" .f64 = .ok (.num (5 / 10000000)) ∧
    thGetEps (run init [Op.lieSet [("so3_hat_eps_float64", .num 7), ("nonsense", .num 1)], .thSet [("so3_hat_eps_float64", .num 7)],
      .thSet [("so2_norm_eps_float64", .num (1 / 10))], .lieReset]) "so2" "norm" .f64 = .ok (.num (1 / 10)) := by
  refine ⟨?_, by decide +kernel, by decide +kernel⟩
  simp only [List.forall_mem_cons, Op.Sane]
  simp

end Verif.Params
