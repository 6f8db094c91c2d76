import Verif.Copy.FnProps

/-!
# Copies: evaluation, independence, robust cost functions, exceptions (C113)
-/

namespace Verif.CopyFn
open Verif

variable {V : Type} (W : World V)

/-! ## Evaluation -/

theorem inputs_of_copied {keep : Bool} {h h' : Heap V} {l l' : List String} {d d' : Dict String Addr}
    (hc : List.Forall₂ (Copied keep h h') (l.map d.get?) (l'.map d'.get?)) :
    l'.map (attrVal h' d') = l.map (attrVal h d) := by
  induction l generalizing l' with
  | nil => cases l' with
    | nil => rfl
    | cons _ _ => cases hc
  | cons r l ih => cases l' with
    | nil => cases hc
    | cons r' l' =>
      cases hc with
      | cons h1 h2 =>
        obtain ⟨a, a', c, c', e1, e2, e3, e4, -, e5, e6, -⟩ := h1
        rw [List.map_cons, List.map_cons, ih h2]
        congr 1
        simp [attrVal, e1, e2, e3, e4, e5, e6]

theorem Wt.IsCopy.inputs {keep : Bool} {h h' : Heap V} {w w' : Wt} (hc : w.IsCopy keep h h' w') :
    w'.inputs h' = w.inputs h := by
  rw [Wt.inputs, hc.cls]
  refine inputs_of_copied (keep := keep) ?_
  rw [List.forall₂_map_left_iff, List.forall₂_map_right_iff, List.forall₂_same]
  exact hc.vars

theorem Base.IsCopy.inputs {keep : Bool} {h h' : Heap V} {b b' : Base} (hc : b.IsCopy keep h h' b') :
    b'.inputs h' = b.inputs h := by
  rw [Base.inputs, List.map_append, inputs_of_copied hc.optim, inputs_of_copied hc.aux, Base.inputs,
    List.map_append]

/-- **A copy evaluates to the same**: whatever `error` and `weight_error` compute from the variables, the
weighted error of the copy is that of the original. -/
theorem copy_error {R S : Type} (sem : Cls → List (Option (VCls × V)) → R)
    (wsem : WCls → List (Option (VCls × V)) → R → S) {keep : Bool} {h h' : Heap V} {b b' : Base}
    (hc : b.IsCopy keep h h' b') : b'.weightedError sem wsem h' = b.weightedError sem wsem h := by
  have : errorDef b'.cls = errorDef b.cls := by rw [hc.cls]; cases b.cls <;> rfl
  rw [Base.weightedError, hc.inputs, hc.weight.inputs, hc.weight.cls, this]; rfl

/-- The default options of `AutoDiffCostFunction`. -/
def DefaultOpts (c : Cls) : Prop := ∀ o, c = .autodiff o →
  o.createGraph = true ∧ o.strict = false ∧ o.vectorize = false ∧ o.strategy = "reverse-mode"

theorem copyCls_eq {c : Cls} : copyCls c = c ↔ c ≠ .gpMotion ∧ DefaultOpts c := by
  cases c with
  | autodiff o =>
    obtain ⟨e, d, g, s, v, t, m⟩ := o
    simp only [copyCls, Cls.autodiff.injEq, AutoOpts.mk.injEq, DefaultOpts, true_and, and_true, ne_eq,
      reduceCtorEq, not_false_eq_true]
    constructor
    · rintro ⟨rfl, rfl, rfl, rfl⟩ o rfl
      exact ⟨rfl, rfl, rfl, rfl⟩
    · intro h
      obtain ⟨h1, h2, h3, h4⟩ := h _ rfl
      exact ⟨h1.symm, h2.symm, h3.symm, h4.symm⟩
  | _ => simp [copyCls, DefaultOpts]

/-- **The class of a copy** is that of the original exactly if that is not `GPMotionModel` and, for an
`AutoDiffCostFunction`, the options of autograd are the default ones (else the copy has the default ones). -/
theorem copy_class {keep : Bool} {h h' : Heap V} {b b' : Base} (hc : b.IsCopy keep h h' b') :
    b'.cls = b.cls ↔ b.cls ≠ .gpMotion ∧ DefaultOpts b.cls := by
  rw [hc.cls]; exact copyCls_eq

/-- The copy of a `GPMotionModel` is a `DoubleIntegrator`. -/
theorem copy_gp_class {keep : Bool} {h h' : Heap V} {b b' : Base} (hc : b.IsCopy keep h h' b')
    (hg : b.cls = .gpMotion) : b'.cls = .doubleIntegrator := by rw [hc.cls, hg]; rfl

/-- The Jacobians of the copy are those of the original if the options of autograd are default ones. -/
theorem copy_jacobians {R S : Type} (sem : Cls → List (Option (VCls × V)) → R)
    (wsem : WCls → List (Option (VCls × V)) → R → S) {keep : Bool} {h h' : Heap V} {b b' : Base}
    (hc : b.IsCopy keep h h' b') (ho : DefaultOpts b.cls) :
    b'.weightedJacobians sem wsem h' = b.weightedJacobians sem wsem h := by
  have : jacobiansDef b'.cls = jacobiansDef b.cls := by
    rw [hc.cls]
    by_cases hg : b.cls = .gpMotion
    · rw [hg]; rfl
    · rw [copyCls_eq.2 ⟨hg, ho⟩]
  rw [Base.weightedJacobians, hc.inputs, hc.weight.inputs, hc.weight.cls, this]; rfl

/-! ## Independence -/

theorem attrVal_congr {h k : Heap V} {d : Dict String Addr} {r : String} {a : Addr} (e : d.get? r = some a)
    (hk : k[a]? = h[a]?) : attrVal k d r = attrVal h d r := by simp [attrVal, e, hk]

theorem Copied.mem {keep : Bool} {h h' : Heap V} {l l' : List String} {d d' : Dict String Addr}
    (hc : List.Forall₂ (Copied keep h h') (l.map d.get?) (l'.map d'.get?)) :
    ∀ r ∈ l', ∃ a, d'.get? r = some a ∧ h.length ≤ a := by
  intro r hr
  obtain ⟨i, hi⟩ := List.getElem?_of_mem hr
  have h1 : (l'.map d'.get?)[i]? = some (d'.get? r) := by simp [hi]
  obtain ⟨x, -, a, a', c, c', -, e2, -, -, e3, -⟩ := forall₂_get' hc h1
  exact ⟨a', e2, e3⟩

/-- **Copy and original are independent**: whatever is done to the variables that existed before the copy
was made, the copy evaluates to the same, and whatever is done to those that are new, the original does. -/
theorem copy_independent {R S : Type} (sem : Cls → List (Option (VCls × V)) → R)
    (wsem : WCls → List (Option (VCls × V)) → R → S) {keep : Bool} {h h' : Heap V} {b b' : Base}
    (hb : b.Built h) (hc : b.IsCopy keep h h' b') (k : Heap V) :
    ((∀ j, h.length ≤ j → k[j]? = h'[j]?) → b'.weightedError sem wsem k = b.weightedError sem wsem h) ∧
    ((∀ j, j < h.length → k[j]? = h[j]?) → b.weightedError sem wsem k = b.weightedError sem wsem h) := by
  constructor
  · intro hk
    rw [← copy_error sem wsem hc]
    have e1 : b'.inputs k = b'.inputs h' := by
      refine List.map_congr_left fun r hr => ?_
      rcases List.mem_append.1 hr with hr | hr
      · obtain ⟨a, e, hl⟩ := Copied.mem hc.optim r hr
        exact attrVal_congr e (hk a hl)
      · obtain ⟨a, e, hl⟩ := Copied.mem hc.aux r hr
        exact attrVal_congr e (hk a hl)
    have e2 : b'.weight.inputs k = b'.weight.inputs h' := by
      refine List.map_congr_left fun r hr => ?_
      rw [hc.weight.cls] at hr
      obtain ⟨a, a', c, c', -, e, -, -, hl, -⟩ := hc.weight.vars r hr
      exact attrVal_congr e (hk a' hl)
    rw [Base.weightedError, e1, e2]; rfl
  · intro hk
    have e1 : b.inputs k = b.inputs h := by
      refine List.map_congr_left fun r hr => ?_
      obtain ⟨a, e, hl⟩ := hb.has r hr
      exact attrVal_congr e (hk a hl)
    have e2 : b.weight.inputs k = b.weight.inputs h := by
      refine List.map_congr_left fun r hr => ?_
      obtain ⟨a, e, hl⟩ := hb.weight r hr
      exact attrVal_congr e (hk a hl)
    rw [Base.weightedError, e1, e2]; rfl

/-- **Sharing is lost**: a variable that a cost function and its weight share is two variables of the
copy. -/
theorem copy_splits {keep : Bool} {h h' : Heap V} {b b' : Base} (hc : b.IsCopy keep h h' b')
    {r s : String} (hr : r ∈ b'.optim ++ b'.aux) (hs : s ∈ ctorW b'.weight.cls) :
    b'.attrs.get? r ≠ b'.weight.attrs.get? s := by
  intro e
  exact (List.nodup_append'.1 hc.distinct).2.2 (List.mem_map_of_mem hr)
    (e ▸ List.mem_map_of_mem hs)

/-! ## Weights and exceptions -/

/-- **A copy of a cost weight**: the same class and data in new variables, which keep their names only if
asked to. -/
theorem copy_cost_weight {h : Heap V} {w : Wt} (n : Option String) (keep : Bool)
    (hb : Has h w.attrs (ctorW w.cls)) (hf : Fixed W h w.attrs (ctorW w.cls))
    (hok : W.okW w.cls ((ctorW w.cls).filterMap (attrVal h w.attrs)) = true) :
    ∃ h' w', w.copy W h n keep = .ok (h', w') ∧ w'.name = newName w.name n ∧ h <+: h' ∧
      w.IsCopy keep h h' w' ∧ w'.inputs h' = w.inputs h ∧ ((ctorW w'.cls).map w'.attrs.get?).Nodup := by
  obtain ⟨h', w', e1, e2, e3, e4, e5⟩ := wt_copy W n keep hb hf hok
  exact ⟨h', w', e1, e3, e2, e4, e4.inputs, e5⟩

theorem wt_copy_raises {h : Heap V} {w : Wt} (n : Option String) (keep : Bool)
    (hb : Has h w.attrs (ctorW w.cls)) (hf : Fixed W h w.attrs (ctorW w.cls))
    (hok : W.okW w.cls ((ctorW w.cls).filterMap (attrVal h w.attrs)) = false) :
    w.copy W h n keep = .error .value := by
  obtain ⟨as, cs, h1, h2, h3⟩ := has_getattrs hb
  have hlen : as.length = cs.length := h3.length_eq
  have hfix := fixed_list W h2 h3 hf
  have hlook : W.okW w.cls (look (h ++ cs.map (copyCell W)) (List.range' h.length cs.length)) = false := by
    have := look_new W h [] cs
    rw [List.append_nil] at this
    rw [this, ← hok, attrVal_list h2 h3]
    congr 1
    apply List.map_congr_left
    intro c hc
    rw [hfix c hc]
  rw [Wt.copy, passedW_eq, h1]
  simp only [copyAll_eq' W h3, hlen, hlook, Bool.false_eq_true, if_false]

/-- The checks of a constructor hold when the original is built, but variables may be updated to data that
does not pass them: copying raises a `ValueError` exactly then. -/
theorem copy_raises {h : Heap V} {b : Base} (n : Option String) (keep : Bool) (hb : b.Built h)
    (hl : b.Legal W h) : b.copy W h n keep = .error .value ↔ ¬ b.Accepted W h := by
  constructor
  · intro he ha
    obtain ⟨h', b', e, -⟩ := copy_cost_function_partial W n keep hb hl ha
    rw [he] at e
    simp at e
  intro hna
  obtain ⟨os, cs1, h1, h2, h3⟩ := has_getattrs (rs := b.optim) fun r hr => hb.has r (by simp [hr])
  obtain ⟨as, cs2, k1, k2, k3⟩ := has_getattrs (rs := b.aux) fun r hr => hb.has r (by simp [hr])
  have himp : b.copyImpl W h (newName b.name n) = .error .value := by
    by_cases hw : W.okW b.weight.cls ((ctorW b.weight.cls).filterMap (attrVal h b.weight.attrs)) = true
    · have hno : ∀ o, b.cls ≠ .autodiff o := by
        intro o ho
        exact hna ⟨hw, fun hno => absurd ho (hno o)⟩
      have hv : W.ok (copyCls b.cls) ((ctor b.cls).filterMap (attrVal h b.attrs)) = false := by
        rw [Bool.eq_false_iff]
        exact fun hv => hna ⟨hw, fun _ => hv⟩
      obtain ⟨ro, ra⟩ := hb.roles hno
      have hhas : Has h b.attrs (ctor b.cls) := fun r hr => hb.has r (by
        rw [ro, ra]; exact (roles_iff _ _).1 hr)
      obtain ⟨vs, cs, m1, m2, m3⟩ := has_getattrs hhas
      have hfix := fixed_list W m2 m3 fun r hr => hl.vars r (by rw [ro, ra]; exact (roles_iff _ _).1 hr)
      have hp1 : h <+: h ++ cs.map (copyCell W) := ⟨_, rfl⟩
      obtain ⟨H, w', w1, w2, -⟩ := wt_copy W (h := h ++ cs.map (copyCell W)) (w := b.weight) none false
        (has_of_prefix hb.weight hp1) (fixed_of_prefix W hb.weight hl.weight hp1)
        (accW_of_prefix W hb.weight hp1 hw)
      obtain ⟨t, rfl⟩ := w2
      have hlook : W.ok (copyCls b.cls) (look (h ++ cs.map (copyCell W) ++ t) (List.range' h.length cs.length)) = false := by
        rw [look_new W h t cs, ← hv, attrVal_list m2 m3]
        congr 1
        apply List.map_congr_left
        intro c hc
        rw [hfix c hc]
      have hlen : vs.length = cs.length := m3.length_eq
      rw [← passed_eq] at m1
      rw [Base.copyImpl]
      split
      · rename_i o ho
        exact absurd ho (hno o)
      · simp only [m1, copyAll_eq' W m3, w1, hlen, hlook, Bool.false_eq_true, if_false]
    · rw [Bool.not_eq_true] at hw
      have hwr : ∀ cs : List (Cell V), b.weight.copy W (h ++ cs.map (copyCell W)) none false = .error .value := by
        intro cs
        have hp1 : h <+: h ++ cs.map (copyCell W) := ⟨_, rfl⟩
        refine wt_copy_raises W none false (has_of_prefix hb.weight hp1)
          (fixed_of_prefix W hb.weight hl.weight hp1) ?_
        rw [← hw]
        congr 1
        exact List.filterMap_congr fun r hr => attrVal_of_prefix hb.weight hp1 r hr
      by_cases hauto : ∃ o, b.cls = .autodiff o
      · obtain ⟨o, ho⟩ := hauto
        have hall : List.Forall₂ (fun a c => h[a]? = some c) (os ++ as) (cs1 ++ cs2) := List.rel_append h3 k3
        simp only [Base.copyImpl, ho, h1, k1, copyAll_eq' W hall, hwr]
      · have hno : ∀ o, b.cls ≠ .autodiff o := fun o ho => hauto ⟨o, ho⟩
        obtain ⟨ro, ra⟩ := hb.roles hno
        have hhas : Has h b.attrs (ctor b.cls) := fun r hr => hb.has r (by
          rw [ro, ra]; exact (roles_iff _ _).1 hr)
        obtain ⟨vs, cs, m1, m2, m3⟩ := has_getattrs hhas
        rw [← passed_eq] at m1
        rw [Base.copyImpl]
        split
        · rename_i o ho
          exact absurd ho (hno o)
        · simp only [m1, copyAll_eq' W m3, hwr]
  rw [Base.copy, himp]

end Verif.CopyFn
