import Verif.Layer.Forward
import Verif.Update.Props
/-!
# Properties of `TheseusLayer.forward` (C84)
-/
namespace Verif.Forward
open Verif Verif.Objective Verif.Update
variable {ρ ι : Type}

/-! ### Specification -/

/-- The name of a mode. -/
def Mode.name : Mode → String
  | .unroll => "UNROLL" | .implicit => "IMPLICIT" | .truncated => "TRUNCATED" | .dlm => "DLM"

/-- The argument `backward_mode` means the mode `m`: the enum member, its name in any mixture of upper and
lower case, or nothing for `UNROLL`. -/
def Means : ModeArg → Mode → Prop
  | .absent, m => m = .unroll
  | .enum m', m => m' = m
  | .str s, m => s.toUpper = m.name
  | .other, _ => False

instance (a : ModeArg) (m : Mode) : Decidable (Means a m) := by
  cases a <;> simp only [Means] <;> infer_instance

/-- Arguments for which `forward` must raise before it does anything: an unknown backward mode or, for DLM, a
`dlm_epsilon` that is no float, an objective for which the backward pass cannot be built, or no inputs. -/
def BadArgs (dlmCheck : Env ρ → Option Err) (l : Layer ρ) (e : Env ρ) (inputs : Option (List (Nat × Tensor ρ)))
    (k : Kwargs) : Prop :=
  (¬ ∃ m, Means k.mode m) ∨
  Means k.mode .dlm ∧ (k.eps = .other ∨ (l.dlm.isNone ∧ dlmCheck e ≠ none) ∨ inputs = none ∨ inputs = some [])

/-! ### Lemmas -/

/-- `BackwardMode.resolve` finds the mode that is meant, and raises if there is none. -/
theorem resolve_means (a : ModeArg) : (∀ m, resolve a = .ok m ↔ Means a m) ∧
    ((∃ x, resolve a = .error x) ↔ ¬ ∃ m, Means a m) := by
  have h1 : ∀ m, resolve a = .ok m ↔ Means a m := by
    intro m
    cases a with
    | absent => cases m <;> simp [resolve, Means]
    | enum m' => simp [resolve, Means]
    | other => simp [resolve, Means]
    | str s =>
      simp only [resolve, Means]
      cases m <;> simp only [Mode.name] <;> split_ifs with h1 h2 h3 h4 <;> simp_all
  refine ⟨h1, ?_⟩
  rcases h : resolve a with x | m
  · refine ⟨fun _ hn => ?_, fun _ => ⟨x, rfl⟩⟩
    obtain ⟨m, hm⟩ := hn
    rw [← h1 m, h] at hm; cases hm
  · refine ⟨fun hx => ?_, fun hn => absurd ⟨m, (h1 m).1 h⟩ hn⟩
    obtain ⟨x, hx⟩ := hx
    cases hx

/-- `BadArgs` in terms of the function of the model. -/
def BadArgsR (dlmCheck : Env ρ → Option Err) (l : Layer ρ) (e : Env ρ) (inputs : Option (List (Nat × Tensor ρ)))
    (k : Kwargs) : Prop :=
  (∃ x, resolve k.mode = .error x) ∨
  resolve k.mode = .ok .dlm ∧ (k.eps = .other ∨ (l.dlm.isNone ∧ dlmCheck e ≠ none) ∨ inputs = none ∨ inputs = some [])

theorem badArgs_iff (dlmCheck : Env ρ → Option Err) (l : Layer ρ) (e : Env ρ) (inputs : Option (List (Nat × Tensor ρ)))
    (k : Kwargs) : BadArgs dlmCheck l e inputs k ↔ BadArgsR dlmCheck l e inputs k := by
  rw [BadArgs, BadArgsR, (resolve_means k.mode).2, (resolve_means k.mode).1]

theorem inner_env_kw (opt : Env ρ → Env ρ × Except Err ι) (l : Layer ρ) (e : Env ρ) (inputs : List (Nat × Tensor ρ))
    (kw : Option Kwargs) : (inner opt l e inputs kw).layer = l := by
  unfold inner
  rcases update e inputs none with ⟨e1, _ | x⟩
  · rcases h : opt e1 with ⟨e2, x | info⟩ <;> simp [h]
  · rfl

theorem inner_ok {opt : Env ρ → Env ρ × Except Err ι} {l : Layer ρ} {e : Env ρ} {inputs : List (Nat × Tensor ρ)}
    {kw : Option Kwargs} {vals : List (Nat × Tensor ρ)} {info : ι} (h : (inner opt l e inputs kw).res = .ok (vals, info)) :
    ∃ e1 e2, update e inputs none = (e1, none) ∧ opt e1 = (e2, .ok info) ∧ (inner opt l e inputs kw).env = e2 ∧
      vals = e2.obj.optimVars.map fun p => (p.1, (e2.heap p.2).tensor) := by
  unfold inner at h ⊢
  rcases hu : update e inputs none with ⟨e1, _ | x⟩
  · rw [hu] at h
    rcases ho : opt e1 with ⟨e2, x | info'⟩
    · simp only [ho] at h; cases h
    · simp only [ho, Except.ok.injEq, Prod.mk.injEq] at h
      refine ⟨e1, e2, rfl, ?_, by simp only [ho], h.1.symm⟩
      rw [ho, h.2]
  · rw [hu] at h; cases h

/-- When the guard and the arguments are fine, `forward` is `inner`, on a layer that may have built its DLM
objective. -/
theorem forward_cases (opt : Env ρ → Env ρ × Except Err ι) (dlmCheck : Env ρ → Option Err) (l : Layer ρ) (e : Env ρ)
    (inputs : Option (List (Nat × Tensor ρ))) (kw : Option Kwargs) :
    (runGuard l.runner e.obj ≠ none ∧ (forward opt dlmCheck l e inputs kw).res = .error (.base .runtimeError) ∧
      (forward opt dlmCheck l e inputs kw).env = e) ∨
    (runGuard l.runner e.obj = none ∧ BadArgsR dlmCheck l e inputs (kw.getD {}) ∧
      (∃ x, (forward opt dlmCheck l e inputs kw).res = .error x) ∧ (forward opt dlmCheck l e inputs kw).env = e) ∨
    (runGuard l.runner e.obj = none ∧ ¬ BadArgsR dlmCheck l e inputs (kw.getD {}) ∧
      ∃ l', l'.runner = l.runner ∧ (∀ b, l.dlm = some b → l'.dlm = some b) ∧
        (resolve (kw.getD {}).mode = .ok .dlm → l.dlm = none → l'.dlm = some e) ∧
        forward opt dlmCheck l e inputs kw = inner opt l' e (inputs.getD []) kw) := by
  rcases hg : runGuard l.runner e.obj with _ | x
  · right
    rcases hm : resolve (kw.getD {}).mode with x | m
    · left
      refine ⟨rfl, Or.inl ⟨x, hm⟩, ⟨.base x, ?_⟩, ?_⟩ <;> simp only [forward, hg, hm]
    · by_cases hd : m = .dlm
      · subst hd
        by_cases he : (kw.getD {}).eps = .other
        · left
          refine ⟨rfl, Or.inr ⟨hm, Or.inl he⟩, ⟨.base .valueError, ?_⟩, ?_⟩ <;> simp only [forward, hg, hm, he, if_true]
        · rcases hl : l.dlm with _ | b
          · rcases hc : dlmCheck e with _ | x
            · rcases inputs with _ | _ | ⟨i, is⟩
              · left
                refine ⟨rfl, Or.inr ⟨hm, Or.inr (Or.inr (Or.inl rfl))⟩, ⟨.attributeError, ?_⟩, ?_⟩ <;>
                  simp only [forward, hg, hm, he, if_false, hl, hc]
              · left
                refine ⟨rfl, Or.inr ⟨hm, Or.inr (Or.inr (Or.inr rfl))⟩, ⟨.base .valueError, ?_⟩, ?_⟩ <;>
                  simp only [forward, hg, hm, he, if_false, hl, hc]
              · right
                refine ⟨rfl, ?_, { l with dlm := some e }, rfl, by simp, fun _ _ => rfl, ?_⟩
                · rintro (⟨x, hx⟩ | ⟨_, h | h | h | h⟩)
                  · rw [hm] at hx; cases hx
                  · exact he h
                  · exact h.2 hc
                  · cases h
                  · cases h
                · simp only [forward, hg, hm, he, if_false, hl, hc, Option.getD_some]
            · left
              refine ⟨rfl, Or.inr ⟨hm, Or.inr (Or.inl ⟨by simp [hl], by simp [hc]⟩)⟩, ⟨.base x, ?_⟩, ?_⟩ <;>
                simp only [forward, hg, hm, he, if_false, hl, hc]
          · rcases inputs with _ | _ | ⟨i, is⟩
            · left
              refine ⟨rfl, Or.inr ⟨hm, Or.inr (Or.inr (Or.inl rfl))⟩, ⟨.attributeError, ?_⟩, ?_⟩ <;>
                simp only [forward, hg, hm, he, if_false, hl]
            · left
              refine ⟨rfl, Or.inr ⟨hm, Or.inr (Or.inr (Or.inr rfl))⟩, ⟨.base .valueError, ?_⟩, ?_⟩ <;>
                simp only [forward, hg, hm, he, if_false, hl]
            · right
              refine ⟨rfl, ?_, l, rfl, fun b' hb => by rw [← hb, hl], fun _ h => by simp at h, ?_⟩
              · rintro (⟨x, hx⟩ | ⟨_, h | h | h | h⟩)
                · rw [hm] at hx; cases hx
                · exact he h
                · rw [hl] at h; simp at h
                · cases h
                · cases h
              · simp only [forward, hg, hm, he, if_false, hl, Option.getD_some]
      · right
        refine ⟨rfl, ?_, l, rfl, fun _ h => h, fun h => ?_, ?_⟩
        · rintro (⟨x, hx⟩ | ⟨h, _⟩)
          · rw [hm] at hx; cases hx
          · rw [hm] at h; exact hd (Except.ok.inj h)
        · exact absurd (Except.ok.inj h) hd
        · cases m <;> simp only [forward, hg, hm]; exact absurd rfl hd
  · left
    have hx : x = .runtimeError := by
      unfold runGuard at hg; split_ifs at hg; exact (Option.some.inj hg).symm
    subst hx
    refine ⟨by simp, ?_, ?_⟩ <;> simp only [forward, hg]

/-! ### C84 -/

/-- After any history of `add` and `erase` calls on the objective other than outright rejected `add`s, every
call of the layer raises `RuntimeError` and changes no variable, whatever the arguments. -/
theorem forward_modified_raises (opt : Env ρ → Env ρ × Except Err ι) (dlmCheck : Env ρ → Option Err) (e₀ e : Env ρ)
    (hist : List Call) (he : e.obj = run e₀.obj hist) (h : ¬ AllRejected e₀.obj hist)
    (inputs : Option (List (Nat × Tensor ρ))) (kw : Option Kwargs) :
    (forward opt dlmCheck (build e₀) e inputs kw).res = .error (.base .runtimeError) ∧
      (forward opt dlmCheck (build e₀) e inputs kw).env = e := by
  have hg : runGuard (build e₀).runner e.obj = some .runtimeError := by
    rw [he]; exact (stale_runner_refused_iff e₀.obj hist).2 h
  refine ⟨?_, ?_⟩ <;> simp only [forward, hg]

/-- Bad arguments raise before any variable is touched. -/
theorem forward_bad_args (opt : Env ρ → Env ρ × Except Err ι) (dlmCheck : Env ρ → Option Err) (l : Layer ρ) (e : Env ρ)
    (inputs : Option (List (Nat × Tensor ρ))) (kw : Option Kwargs) (h : BadArgs dlmCheck l e inputs (kw.getD {})) :
    (∃ x, (forward opt dlmCheck l e inputs kw).res = .error x) ∧ (forward opt dlmCheck l e inputs kw).env = e := by
  rw [badArgs_iff] at h
  rcases forward_cases opt dlmCheck l e inputs kw with ⟨_, h1, h2⟩ | ⟨_, _, h1, h2⟩ | ⟨_, hn, _⟩
  · exact ⟨⟨_, h1⟩, h2⟩
  · exact ⟨h1, h2⟩
  · exact absurd h hn

/-- When `forward` returns: the optimizer ran (exactly once) on the objective in which every variable named by
the inputs has the given tensor and every other variable the tensor it had before, so that an optimization
variable without input starts from where the previous call left it; the dictionary has the names of the
optimization variables in the order of registration, with the tensors that the variables have after the call. -/
theorem forward_spec (opt : Env ρ → Env ρ × Except Err ι) (hopt : ∀ e, (opt e).1.obj = e.obj)
    (dlmCheck : Env ρ → Option Err) (l : Layer ρ) (dt : Nat) (hist : List Call) (hok : Succeeds (init dt false) hist)
    (e : Env ρ) (he : e.obj = run (init dt false) hist) (inputs : Option (List (Nat × Tensor ρ)))
    (hnd : ((inputs.getD []).map Prod.fst).Nodup) (kw : Option Kwargs) (vals : List (Nat × Tensor ρ)) (info : ι)
    (h : (forward opt dlmCheck l e inputs kw).res = .ok (vals, info)) :
    ∃ e1, (∀ v, IsVar e.obj v → ∀ t, (v.name, t) ∈ inputs.getD [] → (e1.heap v).tensor = t) ∧
      (∀ v, (¬ IsVar e.obj v ∨ v.name ∉ (inputs.getD []).map Prod.fst) → e1.heap v = e.heap v) ∧
      opt e1 = ((forward opt dlmCheck l e inputs kw).env, .ok info) ∧
      vals.map Prod.fst = e.obj.optimVars.keys ∧
      ∀ v, getOptimVar e.obj v.name = some v →
        (v.name, ((forward opt dlmCheck l e inputs kw).env.heap v).tensor) ∈ vals := by
  rcases forward_cases opt dlmCheck l e inputs kw with ⟨_, h1, _⟩ | ⟨_, _, ⟨x, h1⟩, _⟩ | ⟨_, _, l', _, _, _, h1⟩
  · rw [h1] at h; cases h
  · rw [h1] at h; cases h
  · rw [h1] at h ⊢
    obtain ⟨e1, e2, u, o, ee, hv⟩ := inner_ok h
    have hu2 : (update e (inputs.getD []) none).2 = none := by rw [u]
    have hu1 : (update e (inputs.getD []) none).1 = e1 := by rw [u]
    have hobj1 : e1.obj = e.obj := by rw [← hu1]; exact (update_ok_loop e _ none).2.2.1
    have hobj2 : e2.obj = e.obj := by have := hopt e1; rw [o] at this; rw [← hobj1]; exact this
    refine ⟨e1, fun v hiv t ht => ?_, fun v hv => ?_, by rw [ee]; exact o, ?_, fun v hv' => ?_⟩
    · have := update_sets_named dt hist hok e he _ hnd hu2 v hiv t ht
      rw [hu1] at this; exact this.1
    · have := update_frame dt hist hok e he (inputs.getD []) none v hv
      rw [hu1] at this; exact this
    · rw [hv, hobj2]; simp [Dict.keys, Function.comp_def]
    · rw [hv, hobj2, ee]
      exact List.mem_map.2 ⟨(v.name, v), Dict.get?_eq_some_mem hv', rfl⟩

/-- A call without inputs and a call with an empty dictionary do the same, unless the mode is DLM. -/
theorem forward_no_inputs (opt : Env ρ → Env ρ × Except Err ι) (dlmCheck : Env ρ → Option Err) (l : Layer ρ) (e : Env ρ)
    (kw : Option Kwargs) (h : ¬ Means (kw.getD {}).mode .dlm) :
    forward opt dlmCheck l e none kw = forward opt dlmCheck l e (some []) kw := by
  unfold forward
  rcases runGuard l.runner e.obj with _ | x
  · simp only
    rcases hm : resolve (kw.getD {}).mode with x | m
    · rfl
    · cases m
      · rfl
      · rfl
      · rfl
      · exact absurd (((resolve_means _).1 _).1 hm) h
  · rfl

/-- **Defect.** In DLM mode a call without inputs always raises; in the other modes it runs the optimizer from
the current values. -/
theorem dlm_without_inputs_raises (opt : Env ρ → Env ρ × Except Err ι) (dlmCheck : Env ρ → Option Err) (l : Layer ρ)
    (e : Env ρ) (kw : Option Kwargs) (h : Means (kw.getD {}).mode .dlm) :
    (∃ x, (forward opt dlmCheck l e none kw).res = .error x) ∧
    (∃ x, (forward opt dlmCheck l e (some []) kw).res = .error x) :=
  ⟨(forward_bad_args opt dlmCheck l e none kw (Or.inr ⟨h, Or.inr (Or.inr (Or.inl rfl))⟩)).1,
   (forward_bad_args opt dlmCheck l e (some []) kw (Or.inr ⟨h, Or.inr (Or.inr (Or.inr rfl))⟩)).1⟩

/-- A dictionary of optimizer arguments that is empty or not given stays as it is; another one at most gets
the entry that marks calls from a layer. -/
theorem forward_kwargs (opt : Env ρ → Env ρ × Except Err ι) (dlmCheck : Env ρ → Option Err) (l : Layer ρ) (e : Env ρ)
    (inputs : Option (List (Nat × Tensor ρ))) (kw : Option Kwargs) :
    (forward opt dlmCheck l e inputs kw).kwargs = kw ∨
    ∃ k, kw = some k ∧ k ≠ {} ∧ (forward opt dlmCheck l e inputs kw).kwargs = some { k with token := true } := by
  have hin : ∀ l' is, (inner opt l' e is kw).kwargs = kw ∨
      ∃ k, kw = some k ∧ k ≠ {} ∧ (inner opt l' e is kw).kwargs = some { k with token := true } := by
    intro l' is
    unfold inner
    rcases update e is none with ⟨e1, _ | x⟩
    · have hk : ∀ kw' : Option Kwargs, kw' = kw.map (fun k => if k.isEmpty then k else { k with token := true }) →
          kw' = kw ∨ ∃ k, kw = some k ∧ k ≠ {} ∧ kw' = some { k with token := true } := by
        rintro _ rfl
        cases kw with
        | none => left; rfl
        | some k =>
          by_cases h : k = {}
          · left; simp [Kwargs.isEmpty, h]
          · right; exact ⟨k, rfl, h, by simp [Kwargs.isEmpty, h]⟩
      rcases ho : opt e1 with ⟨e2, x | info⟩ <;> simp only [ho] <;> exact hk _ rfl
    · left; rfl
  unfold forward
  rcases runGuard l.runner e.obj with _ | x
  · simp only
    rcases resolve (kw.getD {}).mode with x | m
    · left; rfl
    · cases m
      · exact hin _ _
      · exact hin _ _
      · exact hin _ _
      · simp only
        split_ifs
        · left; rfl
        · rcases l.dlm with _ | b
          · rcases dlmCheck e with _ | x
            · rcases inputs with _ | _ | ⟨i, is⟩
              · left; rfl
              · left; rfl
              · exact hin _ _
            · left; rfl
          · rcases inputs with _ | _ | ⟨i, is⟩
            · left; rfl
            · left; rfl
            · exact hin _ _
  · left; rfl

/-! ### The DLM backward pass -/

/-- What a call in DLM mode that returns leaves in the layer: the copy of the objective made by the first such
call. -/
theorem forward_dlm_layer {opt : Env ρ → Env ρ × Except Err ι} {dlmCheck : Env ρ → Option Err} {l : Layer ρ} {e : Env ρ}
    {inputs : Option (List (Nat × Tensor ρ))} {kw : Option Kwargs} {r : List (Nat × Tensor ρ) × ι}
    (h : (forward opt dlmCheck l e inputs kw).res = .ok r) (hm : Means (kw.getD {}).mode .dlm) :
    (forward opt dlmCheck l e inputs kw).layer.dlm = some (l.dlm.getD e) := by
  rcases forward_cases opt dlmCheck l e inputs kw with ⟨_, h1, _⟩ | ⟨_, _, ⟨x, h1⟩, _⟩ | ⟨_, _, l', _, h2, h3, h1⟩
  · rw [h1] at h; cases h
  · rw [h1] at h; cases h
  · rw [h1, inner_env_kw]
    cases hl : l.dlm with
    | none => exact h3 (((resolve_means _).1 _).2 hm) hl
    | some b => exact h2 b hl

theorem updLoop_head_dtype (e : Env ρ) (n : Nat) (t : Tensor ρ) (rest : List (Nat × Tensor ρ)) (h : t.dtype ≠ e.obj.dtype) :
    (updLoop e none ((n, t) :: rest)).2 = some .valueError := by
  unfold updLoop
  split_ifs with h1 h2
  · rfl
  · rfl
  · exact absurd (Or.inr h) h2

/-- **Defect.** `TheseusLayer.to` does not convert the copy of the objective that the DLM backward pass uses:
after a DLM call and a conversion to another data type, DLM calls with tensors of the new type still return,
but their backward pass raises. -/
theorem to_breaks_dlm_backward (opt : Env ρ → Env ρ × Except Err ι) (dlmCheck : Env ρ → Option Err) (l : Layer ρ)
    (e : Env ρ) (hl : l.dlm = none) (in1 : Option (List (Nat × Tensor ρ))) (kw1 : Option Kwargs)
    (r1 : List (Nat × Tensor ρ) × ι) (h1 : (forward opt dlmCheck l e in1 kw1).res = .ok r1)
    (hm1 : Means (kw1.getD {}).mode .dlm) (dtype device : Nat) (hne : dtype ≠ e.obj.dtype)
    (in2 : List (Nat × Tensor ρ)) (kw2 : Option Kwargs) (hm2 : Means (kw2.getD {}).mode .dlm)
    (r2 : List (Nat × Tensor ρ) × ι)
    (h2 : (forward opt dlmCheck (layerTo (forward opt dlmCheck l e in1 kw1).layer (forward opt dlmCheck l e in1 kw1).env
      dtype device).1 (layerTo (forward opt dlmCheck l e in1 kw1).layer (forward opt dlmCheck l e in1 kw1).env
      dtype device).2 (some in2) kw2).res = .ok r2)
    (hd : ∀ p ∈ in2 ++ r2.1, p.2.dtype = dtype) :
    (backwardUpdate (forward opt dlmCheck (layerTo (forward opt dlmCheck l e in1 kw1).layer
      (forward opt dlmCheck l e in1 kw1).env dtype device).1 (layerTo (forward opt dlmCheck l e in1 kw1).layer
      (forward opt dlmCheck l e in1 kw1).env dtype device).2 (some in2) kw2).layer in2 r2.1).2 = some .valueError := by
  have e1 := forward_dlm_layer h1 hm1
  have e2 := forward_dlm_layer h2 hm2
  rw [hl] at e1
  simp only [layerTo, e1, Option.getD_some, Option.getD_none] at e2
  unfold backwardUpdate
  simp only [layerTo] at h2 ⊢
  rw [e2]
  simp only
  have hin2 : in2 ≠ [] := by
    rintro rfl
    have := (dlm_without_inputs_raises opt dlmCheck (forward opt dlmCheck l e in1 kw1).layer
      (envTo (forward opt dlmCheck l e in1 kw1).env dtype device) kw2 hm2).2
    obtain ⟨x, hx⟩ := this
    rw [hx] at h2; cases h2
  have hne' : backwardData in2 r2.1 ≠ [] := by
    unfold backwardData
    intro h
    rw [List.append_eq_nil_iff] at h
    rw [h.2] at h
    simp at h
    exact hin2 h
  obtain ⟨⟨n, t⟩, rest, hb⟩ := List.exists_cons_of_ne_nil hne'
  have ht : t.dtype = dtype := by
    refine hd (n, t) ?_
    have : (n, t) ∈ backwardData in2 r2.1 := by rw [hb]; simp
    unfold backwardData at this
    rcases List.mem_append.1 this with h | h
    · exact List.mem_append.2 (Or.inl (List.mem_filter.1 h).1)
    · exact List.mem_append.2 (Or.inr h)
  have := updLoop_head_dtype e n t rest (by rw [ht]; exact hne)
  unfold update
  rw [hb]
  rcases hu : updLoop e none ((n, t) :: rest) with ⟨e', _ | x⟩
  · rw [hu] at this; cases this
  · rw [hu] at this; exact this

/-- If every variable of the objective that is not an optimization variable is among the inputs of the forward
pass, the DLM backward pass sees the tensors of the forward pass: those inputs, and the solutions. -/
theorem dlm_backward_data (l : Layer ρ) (b : Env ρ) (hl : l.dlm = some b) (dt : Nat) (hist : List Call)
    (hok : Succeeds (init dt false) hist) (hb : b.obj = run (init dt false) hist) (inputs sols : List (Nat × Tensor ρ))
    (hi : (inputs.map Prod.fst).Nodup) (hs : sols.map Prod.fst = b.obj.optimVars.keys)
    (hk : b.obj.optimVars.keys.Nodup) (h : (backwardUpdate l inputs sols).2 = none) :
    ∃ b', (backwardUpdate l inputs sols).1.dlm = some b' ∧
      (∀ v t, IsVar b.obj v → (v.name, t) ∈ sols → (b'.heap v).tensor = t) ∧
      (∀ v t, IsVar b.obj v → getOptimVar b.obj v.name = none → (v.name, t) ∈ inputs → (b'.heap v).tensor = t) ∧
      (∀ v, getOptimVar b.obj v.name = none → v.name ∉ inputs.map Prod.fst → b'.heap v = b.heap v) := by
  unfold backwardUpdate at h ⊢
  rw [hl] at h ⊢
  simp only at h ⊢
  have hkeys : ∀ v : Var, getOptimVar b.obj v.name = none → v.name ∉ sols.map Prod.fst := by
    intro v hv hm
    rw [hs] at hm
    obtain ⟨p, hp, hpn⟩ := List.mem_map.1 hm
    have : b.obj.optimVars.get? v.name = some p.2 := by
      rw [← hpn]; exact Dict.get?_of_mem hk hp
    rw [getOptimVar, this] at hv; cases hv
  have hnd : ((backwardData inputs sols).map Prod.fst).Nodup := by
    unfold backwardData
    rw [List.map_append, List.nodup_append]
    refine ⟨?_, by rw [hs]; exact hk, ?_⟩
    · exact hi.sublist (List.filter_sublist.map _)
    · rintro a ha c hc rfl
      obtain ⟨p, hp, rfl⟩ := List.mem_map.1 ha
      have := (List.mem_filter.1 hp).2
      simp only [decide_eq_true_eq] at this
      exact this hc
  refine ⟨_, rfl, fun v t hv ht => ?_, fun v t hv hn ht => ?_, fun v hn hni => ?_⟩
  · exact (update_sets_named dt hist hok b hb _ hnd h v hv t (List.mem_append.2 (Or.inr ht))).1
  · refine (update_sets_named dt hist hok b hb _ hnd h v hv t (List.mem_append.2 (Or.inl ?_))).1
    exact List.mem_filter.2 ⟨ht, by simpa using hkeys v hn⟩
  · refine update_frame dt hist hok b hb _ none v (Or.inr ?_)
    unfold backwardData
    rw [List.map_append, List.mem_append]
    rintro (h' | h')
    · obtain ⟨p, hp, hpn⟩ := List.mem_map.1 h'
      exact hni (hpn ▸ List.mem_map_of_mem (List.mem_filter.1 hp).1)
    · exact hkeys v hn h'

/-- **Defect.** A variable (auxiliary, not an optimization variable) that is not among the inputs of a DLM call (its tensor was set on the
variable or the objective) has in the backward pass the tensor that it had at the first DLM call of the layer,
not the one that the forward pass used. -/
theorem dlm_stale_aux (opt : Env ρ → Env ρ × Except Err ι) (dlmCheck : Env ρ → Option Err) (l : Layer ρ)
    (dt : Nat) (hist : List Call) (hok : Succeeds (init dt false) hist) (e e' : Env ρ) (he : e.obj = run (init dt false) hist)
    (he' : e'.obj = e.obj) (hl : l.dlm = none) (hopt : ∀ e, (opt e).1.obj = e.obj)
    (in1 : Option (List (Nat × Tensor ρ))) (kw1 : Option Kwargs)
    (r1 : List (Nat × Tensor ρ) × ι) (h1 : (forward opt dlmCheck l e in1 kw1).res = .ok r1)
    (hm1 : Means (kw1.getD {}).mode .dlm)
    (in2 : List (Nat × Tensor ρ)) (hnd : (in2.map Prod.fst).Nodup) (kw2 : Option Kwargs)
    (hm2 : Means (kw2.getD {}).mode .dlm) (r2 : List (Nat × Tensor ρ) × ι)
    (h2 : (forward opt dlmCheck (forward opt dlmCheck l e in1 kw1).layer e' (some in2) kw2).res = .ok r2)
    (v : Var) (hno : getOptimVar e.obj v.name = none)
    (hin : v.name ∉ in2.map Prod.fst) :
    ∃ e1 b', opt e1 = ((forward opt dlmCheck (forward opt dlmCheck l e in1 kw1).layer e' (some in2) kw2).env, .ok r2.2) ∧
      e1.heap v = e'.heap v ∧
      (backwardUpdate (forward opt dlmCheck (forward opt dlmCheck l e in1 kw1).layer e' (some in2) kw2).layer in2 r2.1).1.dlm
        = some b' ∧ b'.heap v = e.heap v := by
  have hkeys := forward_spec opt hopt dlmCheck _ dt hist hok e' (he'.trans he) (some in2) hnd kw2 r2.1 r2.2 h2
  obtain ⟨e1, _, f2, f3, f4, _⟩ := hkeys
  have d1 := forward_dlm_layer h1 hm1
  have d2 := forward_dlm_layer h2 hm2
  rw [hl] at d1
  rw [d1] at d2
  simp only [Option.getD_some, Option.getD_none] at d2
  refine ⟨e1, (update e (backwardData in2 r2.1) none).1, f3, f2 v (Or.inr hin), ?_, ?_⟩
  · unfold backwardUpdate; rw [d2]
  · refine update_frame dt hist hok e he _ none v (Or.inr ?_)
    unfold backwardData
    rw [List.map_append, List.mem_append]
    rintro (h' | h')
    · obtain ⟨p, hp, hpn⟩ := List.mem_map.1 h'
      exact hin (hpn ▸ List.mem_map_of_mem (List.mem_filter.1 hp).1)
    · rw [f4, he'] at h'
      obtain ⟨p, hp, hpn⟩ := List.mem_map.1 h'
      have hnod : e.obj.optimVars.keys.Nodup := by rw [he]; exact (good_run dt hist hok).1.ndo
      have : e.obj.optimVars.get? v.name = some p.2 := by rw [← hpn]; exact Dict.get?_of_mem hnod hp
      rw [getOptimVar, this] at hno; cases hno

/-! ### Concrete cases -/

namespace Ex
/-- An optimizer that puts 100 in every row of `x`. -/
def opt : Env Nat → Env Nat × Except Err Unit := fun e =>
  ({ e with heap := e.heap.put Objective.Ex.x ⟨{ rows := [100, 100, 100] }, 0⟩ }, .ok ())
def chk : Env Nat → Option Err := fun _ => none
def dlmKw : Option Kwargs := some { mode := .str "dlm" }
/-- The tensor of `t` was changed on the variable. -/
def e' : Env Nat := { Update.Ex.e with heap := Update.Ex.heap.put Objective.Ex.t ⟨Update.Ex.newT, 1⟩ }
/-- The tensors of the objective converted to data type 1. -/
def new1 : Tensor Nat := { Update.Ex.newX with dtype := 1 }
end Ex

example : (forward Ex.opt Ex.chk (build Update.Ex.e) Update.Ex.e (some [(1, Update.Ex.newX)]) none).res =
    .ok ([(2, (Update.Ex.e.heap Objective.Ex.y).tensor), (1, { rows := [100, 100, 100] })], ()) := by decide +kernel

example : (forward Ex.opt Ex.chk (build Update.Ex.e) Update.Ex.e (some [(1, Update.Ex.newX)]) Ex.dlmKw).res =
    .ok ([(2, (Update.Ex.e.heap Objective.Ex.y).tensor), (1, { rows := [100, 100, 100] })], ()) := by decide +kernel

example : (forward Ex.opt Ex.chk (build Update.Ex.e) { Update.Ex.e with obj := run Update.Ex.e.obj [.erase 21, .add Objective.Ex.c2] }
    none none).res = .error (.base .runtimeError) :=
  (forward_modified_raises Ex.opt Ex.chk Update.Ex.e _ [.erase 21, .add Objective.Ex.c2] rfl (by
    simp only [AllRejected, Rejected]; decide) none none).1

/-- The hypotheses of `dlm_stale_aux` can be met, and the two tensors differ. -/
example : ∃ b', (backwardUpdate (forward Ex.opt Ex.chk (forward Ex.opt Ex.chk (build Update.Ex.e) Update.Ex.e
      (some [(1, Update.Ex.newX)]) Ex.dlmKw).layer Ex.e' (some [(1, Update.Ex.newX)]) Ex.dlmKw).layer
      [(1, Update.Ex.newX)] [(2, (Update.Ex.e.heap Objective.Ex.y).tensor), (1, { rows := [100, 100, 100] })]).1.dlm = some b' ∧
    b'.heap Objective.Ex.t = Update.Ex.e.heap Objective.Ex.t ∧ b'.heap Objective.Ex.t ≠ Ex.e'.heap Objective.Ex.t := by
  obtain ⟨e1, b', _, _, h3, h4⟩ := dlm_stale_aux Ex.opt Ex.chk (build Update.Ex.e) 0 Objective.Ex.hist Objective.Ex.hist_ok.1
    Update.Ex.e Ex.e' rfl rfl rfl (fun _ => rfl) (some [(1, Update.Ex.newX)]) Ex.dlmKw
    ([(2, (Update.Ex.e.heap Objective.Ex.y).tensor), (1, { rows := [100, 100, 100] })], ()) (by decide +kernel) (by decide +kernel)
    [(1, Update.Ex.newX)] (by decide) Ex.dlmKw (by decide +kernel)
    ([(2, (Update.Ex.e.heap Objective.Ex.y).tensor), (1, { rows := [100, 100, 100] })], ()) (by decide +kernel)
    Objective.Ex.t (by decide +kernel) (by decide)
  exact ⟨b', h3, h4, by rw [h4]; decide +kernel⟩

/-- After a conversion to data type 1 the second DLM call returns and its backward pass raises. -/
example : (backwardUpdate (forward Ex.opt Ex.chk (layerTo (forward Ex.opt Ex.chk (build Update.Ex.e) Update.Ex.e
    (some [(1, Update.Ex.newX)]) Ex.dlmKw).layer (forward Ex.opt Ex.chk (build Update.Ex.e) Update.Ex.e
    (some [(1, Update.Ex.newX)]) Ex.dlmKw).env 1 0).1 (layerTo (forward Ex.opt Ex.chk (build Update.Ex.e) Update.Ex.e
    (some [(1, Update.Ex.newX)]) Ex.dlmKw).layer (forward Ex.opt Ex.chk (build Update.Ex.e) Update.Ex.e
    (some [(1, Update.Ex.newX)]) Ex.dlmKw).env 1 0).2 (some [(1, Ex.new1)]) Ex.dlmKw).layer [(1, Ex.new1)]
    [(2, Ex.new1), (1, Ex.new1)]).2 = some .valueError := by decide +kernel

example : resolve (.str "Implicit") = .ok .implicit ∧ resolve (.str "none") = .error .valueError := by decide +kernel

end Verif.Forward
