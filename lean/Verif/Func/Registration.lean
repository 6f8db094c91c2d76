import Mathlib.Data.List.Nodup
/-!
# Registration of variables with a function (C52)

Source: `/repo/theseus/core/theseus_function.py:24-75`.
-/
namespace Verif.Func

/-- The registration state of a `TheseusFunction`: `_optim_vars_attr_names`, `_aux_vars_attr_names`
(`theseus_function.py:30-31`) and the names of the attributes of the object (for `hasattr`). -/
structure Fn where
  optim : List String
  aux : List String
  attrs : List String

/-- `register_optim_var` (`theseus_function.py:36-46`); `none` is the ValueError (nothing was changed). -/
def registerOptimVar (f : Fn) (a : String) : Option Fn :=
  if a ∈ f.optim then none
  else if a ∈ f.aux then none
  else some { f with optim := f.optim ++ [a] }

/-- `register_aux_var` (`theseus_function.py:48-57`). -/
def registerAuxVar (f : Fn) (a : String) : Option Fn :=
  if a ∈ f.aux then none
  else if a ∈ f.optim then none
  else some { f with aux := f.aux ++ [a] }

/-- A loop that stops at the first exception, keeping what was done before (`for name in …:`). -/
def forEach (step : Fn → String → Fn × Bool) : Fn → List String → Fn × Bool
  | f, [] => (f, true)
  | f, a :: l => match step f a with
    | (f', true) => forEach step f' l
    | (f', false) => (f', false)

/-- Turns an option into a state and a success flag. -/
def orStay (f : Fn) : Option Fn → Fn × Bool
  | some f' => (f', true)
  | none => (f, false)

/-- `register_optim_vars` (`theseus_function.py:59-61`); `false` is an exception. -/
def registerOptimVars (f : Fn) (l : List String) : Fn × Bool :=
  forEach (fun f a => orStay f (registerOptimVar f a)) f l

/-- `register_aux_vars` (`theseus_function.py:63-65`). -/
def registerAuxVars (f : Fn) (l : List String) : Fn × Bool :=
  forEach (fun f a => orStay f (registerAuxVar f a)) f l

/-- `register_vars` (`theseus_function.py:67-75`): `l` are the names of the variables. -/
def registerVars (f : Fn) (l : List String) (isOptim : Bool) : Fn × Bool :=
  forEach (fun f a =>
    if a ∈ f.attrs then (f, false)                                                    -- 69-70
    else
      let f := { f with attrs := a :: f.attrs }                                       -- 71
      orStay f (if isOptim then registerOptimVar f a else registerAuxVar f a)) f l    -- 72-75

/-- A call of the registration API. -/
inductive Call where
  | optim (l : List String)
  | aux (l : List String)
  | vars (l : List String) (isOptim : Bool)

/-- One call, keeping what it did even if it raises. -/
def Call.run (f : Fn) : Call → Fn × Bool
  | .optim l => registerOptimVars f l
  | .aux l => registerAuxVars f l
  | .vars l b => registerVars f l b

/-- A history of calls, whose exceptions are caught. -/
def history (f : Fn) : List Call → Fn
  | [] => f
  | c :: l => history (c.run f).1 l

/-- A new function, with the attributes of its class (`theseus_function.py:24-31`). -/
def new (attrs : List String) : Fn := ⟨[], [], attrs⟩

/-- No attribute is registered twice, in either role. -/
def WellFormed (f : Fn) : Prop := (f.optim ++ f.aux).Nodup

theorem registerOptimVar_ok {f f' : Fn} {a : String} (h : WellFormed f) (hr : registerOptimVar f a = some f') : WellFormed f' := by
  unfold registerOptimVar at hr
  split at hr
  · simp at hr
  split at hr
  · simp at hr
  next h1 h2 =>
  simp only [Option.some.injEq] at hr
  subst hr
  unfold WellFormed at *
  rw [List.nodup_append] at *
  refine ⟨?_, h.2.1, ?_⟩
  · rw [List.nodup_append]
    exact ⟨h.1, by simp, fun x hx y hy => by simp only [List.mem_singleton] at hy; rintro rfl; exact h1 (hy ▸ hx)⟩
  · intro x hx y hy
    rcases List.mem_append.1 hx with hx | hx
    · exact h.2.2 x hx y hy
    · simp only [List.mem_singleton] at hx
      rintro rfl
      exact h2 (hx ▸ hy)

theorem registerAuxVar_ok {f f' : Fn} {a : String} (h : WellFormed f) (hr : registerAuxVar f a = some f') : WellFormed f' := by
  unfold registerAuxVar at hr
  split at hr
  · simp at hr
  split at hr
  · simp at hr
  next h1 h2 =>
  simp only [Option.some.injEq] at hr
  subst hr
  unfold WellFormed at *
  rw [← List.append_assoc, List.nodup_append]
  refine ⟨h, by simp, ?_⟩
  intro x hx y hy
  simp only [List.mem_singleton] at hy
  rintro rfl
  rcases List.mem_append.1 hx with hx | hx
  · exact h2 (hy ▸ hx)
  · exact h1 (hy ▸ hx)

theorem forEach_ok {step : Fn → String → Fn × Bool} (hs : ∀ f a, WellFormed f → WellFormed (step f a).1) :
    ∀ (l : List String) (f : Fn), WellFormed f → WellFormed (forEach step f l).1 := by
  intro l
  induction l with
  | nil => intro f h; exact h
  | cons a l ih =>
    intro f h
    have := hs f a h
    unfold forEach
    split
    · next f' e => rw [e] at this; exact ih f' this
    · next f' e => rw [e] at this; exact this

theorem orStay_ok {f : Fn} {o : Option Fn} (h : WellFormed f) (ho : ∀ f', o = some f' → WellFormed f') : WellFormed (orStay f o).1 := by
  cases o with
  | none => exact h
  | some f' => exact ho f' rfl

/-- C52: after any history of registrations — including ones that raised — no attribute is registered
twice, and none is both an optimization and an auxiliary variable. -/
theorem registrations_well_formed (attrs : List String) (calls : List Call) :
    let f := history (new attrs) calls
    f.optim.Nodup ∧ f.aux.Nodup ∧ ∀ a, ¬ (a ∈ f.optim ∧ a ∈ f.aux) := by
  have key : ∀ (calls : List Call) (f : Fn), WellFormed f → WellFormed (history f calls) := by
    intro calls
    induction calls with
    | nil => intro f h; exact h
    | cons c l ih =>
      intro f h
      apply ih
      cases c with
      | optim l => exact forEach_ok (fun f a hf => orStay_ok hf fun f' e => registerOptimVar_ok hf e) l f h
      | aux l => exact forEach_ok (fun f a hf => orStay_ok hf fun f' e => registerAuxVar_ok hf e) l f h
      | vars l b =>
        refine forEach_ok (fun f a hf => ?_) l f h
        simp only
        split
        · exact hf
        · apply orStay_ok (show WellFormed { f with attrs := a :: f.attrs } from hf)
          intro f' e
          have hf2 : WellFormed { f with attrs := a :: f.attrs } := hf
          cases b
          · exact registerAuxVar_ok hf2 e
          · exact registerOptimVar_ok hf2 e
  have h := key calls (new attrs) (by unfold WellFormed new; simp)
  unfold WellFormed at h
  rw [List.nodup_append] at h
  exact ⟨h.1, h.2.1, fun a ha => h.2.2 a ha.1 a ha.2 rfl⟩

/-- C52: a single registration raises exactly if the attribute is already registered, in either role, and
then changes nothing; otherwise it appends the attribute to its role. -/
theorem register_raises_iff (f : Fn) (a : String) :
    (registerOptimVar f a = none ↔ a ∈ f.optim ∨ a ∈ f.aux) ∧ (registerAuxVar f a = none ↔ a ∈ f.optim ∨ a ∈ f.aux) ∧
    (∀ f', registerOptimVar f a = some f' → f' = ⟨f.optim ++ [a], f.aux, f.attrs⟩) ∧
    (∀ f', registerAuxVar f a = some f' → f' = ⟨f.optim, f.aux ++ [a], f.attrs⟩) := by
  unfold registerOptimVar registerAuxVar
  by_cases h1 : a ∈ f.optim <;> by_cases h2 : a ∈ f.aux <;> simp [h1, h2, eq_comm]

/-- C52: a list of registrations succeeds exactly if the names are new and pairwise different; then the
list is appended.  -/
theorem registerOptimVars_iff (f : Fn) (l : List String) :
    ((registerOptimVars f l).2 = true ↔ l.Nodup ∧ ∀ a ∈ l, a ∉ f.optim ∧ a ∉ f.aux) ∧
    ((registerOptimVars f l).2 = true → (registerOptimVars f l).1 = { f with optim := f.optim ++ l }) := by
  induction l generalizing f with
  | nil => simp [registerOptimVars, forEach]
  | cons a l ih =>
    by_cases h : a ∈ f.optim ∨ a ∈ f.aux
    · have hn := (register_raises_iff f a).1.2 h
      have e : registerOptimVars f (a :: l) = (f, false) := by
        show (match orStay f (registerOptimVar f a) with
          | (f', true) => forEach _ f' l
          | (f', false) => (f', false)) = _
        rw [hn]; rfl
      rw [e]
      simp
      intro _ _ h1 h2
      tauto
    · have hs : registerOptimVar f a = some { f with optim := f.optim ++ [a] } := by
        unfold registerOptimVar
        rw [not_or] at h
        rw [if_neg h.1, if_neg h.2]
      have e : registerOptimVars f (a :: l) = registerOptimVars { f with optim := f.optim ++ [a] } l := by
        show (match orStay f (registerOptimVar f a) with
          | (f', true) => forEach _ f' l
          | (f', false) => (f', false)) = _
        rw [hs]; rfl
      have := ih { f with optim := f.optim ++ [a] }
      rw [e, this.1]
      refine ⟨?_, ?_⟩
      · rw [not_or] at h
        simp only [List.mem_append, List.nodup_cons, List.mem_cons, forall_eq_or_imp, not_or, List.not_mem_nil, not_false_eq_true, and_true]
        constructor
        · rintro ⟨h1, h2⟩
          exact ⟨⟨fun ha => (h2 a ha).1.2 rfl, h1⟩, h, fun b hb => ⟨(h2 b hb).1.1, (h2 b hb).2⟩⟩
        · rintro ⟨⟨h1, h2⟩, _, h3⟩
          exact ⟨h2, fun b hb => ⟨⟨(h3 b hb).1, fun e => h1 (e ▸ hb)⟩, (h3 b hb).2⟩⟩
      · intro hx
        rw [this.2 (this.1.2 hx)]
        simp

/-- C52: the same for auxiliary variables. -/
theorem registerAuxVars_iff (f : Fn) (l : List String) :
    ((registerAuxVars f l).2 = true ↔ l.Nodup ∧ ∀ a ∈ l, a ∉ f.optim ∧ a ∉ f.aux) ∧
    ((registerAuxVars f l).2 = true → (registerAuxVars f l).1 = { f with aux := f.aux ++ l }) := by
  induction l generalizing f with
  | nil => simp [registerAuxVars, forEach]
  | cons a l ih =>
    have e : registerAuxVars f (a :: l) = (match orStay f (registerAuxVar f a) with
          | (f', true) => registerAuxVars f' l
          | (f', false) => (f', false)) := rfl
    by_cases h : a ∈ f.optim ∨ a ∈ f.aux
    · rw [e, (register_raises_iff f a).2.1.2 h]
      simp only [orStay]
      simp
      intro _ _ h1 h2
      tauto
    · have hs : registerAuxVar f a = some { f with aux := f.aux ++ [a] } := by
        unfold registerAuxVar
        rw [not_or] at h
        rw [if_neg h.2, if_neg h.1]
      rw [e, hs]
      have := ih { f with aux := f.aux ++ [a] }
      simp only [orStay]
      rw [this.1]
      refine ⟨?_, ?_⟩
      · rw [not_or] at h
        simp only [List.mem_append, List.nodup_cons, List.mem_cons, forall_eq_or_imp, not_or, List.not_mem_nil, not_false_eq_true, and_true]
        constructor
        · rintro ⟨h1, h2⟩
          exact ⟨⟨fun ha => (h2 a ha).2.2 rfl, h1⟩, h, fun b hb => ⟨(h2 b hb).1, (h2 b hb).2.1⟩⟩
        · rintro ⟨⟨h1, h2⟩, _, h3⟩
          exact ⟨h2, fun b hb => ⟨(h3 b hb).1, (h3 b hb).2, fun e => h1 (e ▸ hb)⟩⟩
      · intro hx
        rw [this.2 (this.1.2 hx)]
        simp

/-- C52: `register_vars` additionally refuses a name that is already an attribute of the object;
when it returns, exactly the given names were appended to the given role. -/
theorem registerVars_iff (f : Fn) (l : List String) (b : Bool) :
    ((registerVars f l b).2 = true ↔
      l.Nodup ∧ ∀ a ∈ l, a ∉ f.attrs ∧ a ∉ f.optim ∧ a ∉ f.aux) ∧
    ((registerVars f l b).2 = true →
      (registerVars f l b).1.optim = (if b then f.optim ++ l else f.optim) ∧
      (registerVars f l b).1.aux = (if b then f.aux else f.aux ++ l) ∧
      ∀ a, a ∈ (registerVars f l b).1.attrs ↔ a ∈ l ∨ a ∈ f.attrs) := by
  induction l generalizing f with
  | nil => cases b <;> simp [registerVars, forEach]
  | cons a l ih =>
    have e : registerVars f (a :: l) b = (match
        (if a ∈ f.attrs then (f, false) else
          let f := { f with attrs := a :: f.attrs }
          orStay f (if b then registerOptimVar f a else registerAuxVar f a)) with
          | (f', true) => registerVars f' l b
          | (f', false) => (f', false)) := rfl
    by_cases h0 : a ∈ f.attrs
    · rw [e, if_pos h0]
      simp [h0]
    rw [if_neg h0] at e
    by_cases h : a ∈ f.optim ∨ a ∈ f.aux
    · have hn : (if b then registerOptimVar { f with attrs := a :: f.attrs } a
          else registerAuxVar { f with attrs := a :: f.attrs } a) = none := by
        cases b
        · exact (register_raises_iff _ a).2.1.2 h
        · exact (register_raises_iff _ a).1.2 h
      simp only [hn, orStay] at e
      rw [e]
      simp
      intro _ _ _ h1 h2
      tauto
    · rw [not_or] at h
      have hs : (if b then registerOptimVar { f with attrs := a :: f.attrs } a
          else registerAuxVar { f with attrs := a :: f.attrs } a)
          = some ⟨if b then f.optim ++ [a] else f.optim, if b then f.aux else f.aux ++ [a],
              a :: f.attrs⟩ := by
        cases b
        · simp [registerAuxVar, h.1, h.2]
        · simp [registerOptimVar, h.1, h.2]
      simp only [hs, orStay] at e
      rw [e]
      have := ih ⟨if b then f.optim ++ [a] else f.optim, if b then f.aux else f.aux ++ [a],
              a :: f.attrs⟩
      rw [this.1]
      refine ⟨?_, ?_⟩
      · cases b <;>
          simp only [List.mem_append, List.nodup_cons, List.mem_cons, forall_eq_or_imp, not_or,
            List.not_mem_nil, not_false_eq_true, and_true, if_true, if_false, Bool.false_eq_true]
        · constructor
          · rintro ⟨h1, h2⟩
            exact ⟨⟨fun ha => (h2 a ha).1.1 rfl, h1⟩, ⟨h0, h⟩,
              fun x hx => ⟨(h2 x hx).1.2, (h2 x hx).2.1, (h2 x hx).2.2.1⟩⟩
          · rintro ⟨⟨h1, h2⟩, _, h3⟩
            exact ⟨h2, fun x hx => ⟨⟨fun e => h1 (e ▸ hx), (h3 x hx).1⟩, (h3 x hx).2.1, (h3 x hx).2.2,
              fun e => h1 (e ▸ hx)⟩⟩
        · constructor
          · rintro ⟨h1, h2⟩
            exact ⟨⟨fun ha => (h2 a ha).1.1 rfl, h1⟩, ⟨h0, h⟩,
              fun x hx => ⟨(h2 x hx).1.2, (h2 x hx).2.1.1, (h2 x hx).2.2⟩⟩
          · rintro ⟨⟨h1, h2⟩, _, h3⟩
            exact ⟨h2, fun x hx => ⟨⟨fun e => h1 (e ▸ hx), (h3 x hx).1⟩, ⟨(h3 x hx).2.1,
              fun e => h1 (e ▸ hx)⟩, (h3 x hx).2.2⟩⟩
      · intro hx
        obtain ⟨e1, e2, e3⟩ := this.2 (this.1.2 hx)
        refine ⟨?_, ?_, ?_⟩
        · rw [e1]; cases b <;> simp
        · rw [e2]; cases b <;> simp
        · intro x; rw [e3 x]; simp; tauto

/-- Non-vacuity: new names are accepted, an existing attribute is refused. -/
example : (registerVars (new ["name"]) ["u", "v"] true).2 = true ∧
    (registerVars (new ["name"]) ["u", "name"] true).2 = false := by decide +kernel

/-- A list registration that raises is not undone: the names before the offending one stay registered. -/
theorem bulk_registration_not_atomic :
    (registerOptimVars (new []) ["x", "x"]).2 = false ∧ (registerOptimVars (new []) ["x", "x"]).1.optim = ["x"] := by
  decide +kernel

/-- Non-vacuity: a history with accepted and rejected registrations. -/
example : let f := history (new ["name"]) [.optim ["x", "y"], .aux ["x"], .vars ["z", "name"] false, .aux ["w"]]
    f.optim = ["x", "y"] ∧ f.aux = ["z", "w"] := by decide +kernel

end Verif.Func
