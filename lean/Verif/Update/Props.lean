import Verif.Update.Lemmas
import Verif.Objective.Props
/-!
# Properties of updates (C12–C16)

`run (init dt false) hist` with `Succeeds` is any objective built by successful calls.  `e` is such
an objective with arbitrary tensors in its variables.  Input dictionaries are lists of
(name, tensor) without repeated names.
-/
namespace Verif.Update
open Verif Verif.Objective

variable {ρ : Type}

namespace Ex
/-- tensors of three batch elements in every variable, except that `q` has one -/
def heap : Heap Nat := fun v => ⟨{ rows := if v = Objective.Ex.q then [7] else [10 * v.id, 10 * v.id + 1, 10 * v.id + 2] }, 0⟩
def e : Env Nat := { obj := run (init 0 false) Objective.Ex.hist, heap := heap }
def newX : Tensor Nat := { rows := [1, 2, 3] }
def newT : Tensor Nat := { rows := [4, 5, 6] }
end Ex

/-! ### C15 -/

theorem mem_batchSizes {s : State} (hg : Good s) (e : Env ρ) (he : e.obj = s) (B : Nat) :
    B ∈ batchSizes e ↔ ∃ v, IsVar s v ∧ (e.heap v).tensor.rows.length = B := by
  unfold batchSizes IsVar getOptimVar getAuxVar
  rw [he]
  simp only [List.mem_map, List.mem_append, Dict.vals]
  constructor
  · rintro ⟨v, ⟨p, hp, rfl⟩ | ⟨p, hp, rfl⟩, h⟩
    · have := Dict.get?_of_mem hg.ndo (k := p.1) (a := p.2) hp
      exact ⟨p.2, Or.inl (by rw [hg.opt _ _ this]; exact this), h⟩
    · have := Dict.get?_of_mem hg.nda (k := p.1) (a := p.2) hp
      exact ⟨p.2, Or.inr (by rw [hg.auxn _ _ this]; exact this), h⟩
  · rintro ⟨v, hv | hv, h⟩
    · exact ⟨v, Or.inl ⟨(v.name, v), Dict.get?_eq_some_mem hv, rfl⟩, h⟩
    · exact ⟨v, Or.inr ⟨(v.name, v), Dict.get?_eq_some_mem hv, rfl⟩, h⟩

/-- C15: an update without inputs succeeds with batch size `B` exactly when some variable of the
objective has `B` batch elements, every variable has 1 or `B` of them, and none has more. -/
theorem batch_size_resolved_iff (dt : Nat) (hist : List Call)
    (hok : Succeeds (init dt false) hist) (e : Env ρ) (he : e.obj = run (init dt false) hist)
    (mask : Option (List Bool)) (B : Nat) :
    ((update e [] mask).2 = none ∧ (update e [] mask).1.batchSize = some B) ↔
      ((∃ v, IsVar e.obj v ∧ (e.heap v).tensor.rows.length = B) ∧
       ∀ v, IsVar e.obj v → ((e.heap v).tensor.rows.length = 1 ∨ (e.heap v).tensor.rows.length = B) ∧
        (e.heap v).tensor.rows.length ≤ B) := by
  obtain ⟨hg, _⟩ := good_run dt hist hok
  have hm := mem_batchSizes hg e he
  have hb : batchSizes { e with batchSize := none } = batchSizes e := rfl
  have key : ((update e [] mask).2 = none ∧ (update e [] mask).1.batchSize = some B) ↔
      getBatchSize (batchSizes e) = .ok B := by
    simp only [update, updLoop, resolveBatchSize, hb]
    cases h : getBatchSize (batchSizes e) <;> simp
  rw [key, getBatchSize_iff, Agree, hm, he]
  simp only [hm]
  constructor
  · rintro ⟨a, b, c⟩
    exact ⟨a, fun v hv => ⟨b _ ⟨v, hv, rfl⟩, c _ ⟨v, hv, rfl⟩⟩⟩
  · rintro ⟨a, b⟩
    refine ⟨a, ?_, ?_⟩
    · rintro n ⟨v, hv, rfl⟩; exact (b v hv).1
    · rintro n ⟨v, hv, rfl⟩; exact (b v hv).2

/-- C15: in all other cases it raises `ValueError` (and leaves no batch size). -/
theorem batch_size_unresolved (dt : Nat) (hist : List Call)
    (hok : Succeeds (init dt false) hist) (e : Env ρ) (he : e.obj = run (init dt false) hist)
    (mask : Option (List Bool))
    (h : ¬ ∃ B, (∃ v, IsVar e.obj v ∧ (e.heap v).tensor.rows.length = B) ∧
       ∀ v, IsVar e.obj v → ((e.heap v).tensor.rows.length = 1 ∨ (e.heap v).tensor.rows.length = B) ∧
        (e.heap v).tensor.rows.length ≤ B) :
    (update e [] mask).2 = some .valueError ∧ (update e [] mask).1.batchSize = none := by
  have key := fun B => (batch_size_resolved_iff dt hist hok e he mask B)
  have hb : batchSizes { e with batchSize := none } = batchSizes e := rfl
  cases hc : getBatchSize (batchSizes e) with
  | ok B =>
    exfalso
    apply h
    refine ⟨B, (key B).1 ?_⟩
    simp [update, updLoop, resolveBatchSize, hb, hc]
  | error x =>
    have : x = .valueError := by
      unfold getBatchSize at hc
      simp only at hc
      split at hc
      · cases hc
      · split at hc
        · cases hc
        · cases hc; rfl
      · cases hc; rfl
    subst this
    simp [update, updLoop, resolveBatchSize, hb, hc]

example : (update Ex.e [] none).1.batchSize = some 3 ∧ (update Ex.e [] none).2 = none ∧
    (update { Ex.e with heap := Ex.heap.put Objective.Ex.y ⟨{ rows := [1, 2] }, 0⟩ } [] none).2
      = some .valueError := by decide

/-! ### C13 -/

/-- C13: variables that are not named by the dictionary, and objects that are not variables of the
objective, keep their tensor (and counter) — whether or not the update raises. -/
theorem update_frame (dt : Nat) (hist : List Call) (hok : Succeeds (init dt false) hist)
    (e : Env ρ) (he : e.obj = run (init dt false) hist) (inp : List (Nat × Tensor ρ))
    (mask : Option (List Bool)) (v : Var)
    (hv : ¬ IsVar e.obj v ∨ v.name ∉ inp.map Prod.fst) :
    (update e inp mask).1.heap v = e.heap v := by
  obtain ⟨hg, _⟩ := good_run dt hist hok
  rw [he] at hv
  have := updLoop_frame hg mask inp e he v hv
  unfold update resolveBatchSize
  split
  · rename_i h; rw [← this, h]
  · rename_i h
    rw [← this, h]; simp only; split <;> rfl

theorem update_ok_loop (e : Env ρ) (inp : List (Nat × Tensor ρ)) (mask : Option (List Bool)) :
    ((update e inp mask).2 = none ↔ (updLoop e mask inp).2 = none ∧
      ∃ B, Agree (batchSizes (updLoop e mask inp).1) B) ∧
    (update e inp mask).1.heap = (updLoop e mask inp).1.heap ∧
    (update e inp mask).1.obj = e.obj ∧ (update e inp mask).1.device = e.device := by
  obtain ⟨f1, f2, f3⟩ := updLoop_obj mask inp e
  unfold update
  split
  · rename_i e' x h
    rw [h] at f1 f2 ⊢; simp only at f1 f2; simp [f1, f2]
  · rename_i e' h
    rw [h] at f1 f2 ⊢
    simp only at f1 f2
    unfold resolveBatchSize
    have hb : batchSizes { e' with batchSize := none } = batchSizes e' := rfl
    simp only [hb]
    cases hc : getBatchSize (batchSizes e') with
    | ok B => simp [f1, f2]; exact ⟨B, (getBatchSize_iff _ _).1 hc⟩
    | error x =>
      simp [f1, f2]; intro B hB
      rw [(getBatchSize_iff _ _).2 hB] at hc; simp at hc

/-- C13: a successful update gives each named variable of the objective exactly the given tensor,
and counts one update. -/
theorem update_sets_named (dt : Nat) (hist : List Call) (hok : Succeeds (init dt false) hist)
    (e : Env ρ) (he : e.obj = run (init dt false) hist) (inp : List (Nat × Tensor ρ))
    (hnd : (inp.map Prod.fst).Nodup) (hu : (update e inp none).2 = none)
    (v : Var) (hv : IsVar e.obj v) (t : Tensor ρ) (ht : (v.name, t) ∈ inp) :
    ((update e inp none).1.heap v).tensor = t ∧
    ((update e inp none).1.heap v).numUpdates = (e.heap v).numUpdates + 1 := by
  obtain ⟨hg, _⟩ := good_run dt hist hok
  obtain ⟨u1, u2, _⟩ := update_ok_loop e inp none
  have := (updLoop_ok hg none inp hnd e he).2 (u1.1 hu).1 _ ht v (he ▸ hv) rfl
  rw [varUpdate_none] at this
  rw [u2, this.2.2]; simp

/-- C13: exactly when an update succeeds: every given tensor has a data dimension, the objective's
device and dtype, and the shape and dtype of the variable it is for, if there is one; and the batch
sizes that result agree. -/
theorem update_accepts_iff (dt : Nat) (hist : List Call) (hok : Succeeds (init dt false) hist)
    (e : Env ρ) (he : e.obj = run (init dt false) hist) (inp : List (Nat × Tensor ρ))
    (hnd : (inp.map Prod.fst).Nodup) :
    (update e inp none).2 = none ↔
      ((∀ p ∈ inp, p.2.trail ≠ [] ∧ p.2.device = e.device ∧ p.2.dtype = dt ∧
        ∀ v, IsVar e.obj v → v.name = p.1 → Fits e (e.heap v).tensor p.2) ∧
       ∃ B, (∃ v, IsVar e.obj v ∧
          ((Dict.get? inp v.name).getD (e.heap v).tensor).rows.length = B) ∧
        ∀ v, IsVar e.obj v →
          (((Dict.get? inp v.name).getD (e.heap v).tensor).rows.length = 1 ∨
           ((Dict.get? inp v.name).getD (e.heap v).tensor).rows.length = B) ∧
          ((Dict.get? inp v.name).getD (e.heap v).tensor).rows.length ≤ B) := by
  obtain ⟨hg, hdt⟩ := good_run dt hist hok
  obtain ⟨u1, u2, u3, _⟩ := update_ok_loop e inp none
  obtain ⟨l1, l2⟩ := updLoop_ok hg none inp hnd e he
  have hfit : (updLoop e none inp).2 = none ↔ (∀ p ∈ inp, p.2.trail ≠ [] ∧ p.2.device = e.device ∧
      p.2.dtype = dt ∧ ∀ v, IsVar e.obj v → v.name = p.1 → Fits e (e.heap v).tensor p.2) := by
    rw [l1]
    apply forall_congr'; intro p
    apply imp_congr_right; intro hp
    rw [hdt]
    constructor
    · rintro ⟨a, b, c, d⟩
      refine ⟨a, b, c, fun v hv hn => ?_⟩
      obtain ⟨st, hst⟩ := d v (he ▸ hv) hn
      rw [varUpdate_none] at hst
      exact ⟨a, b, ⟨by rw [c, he, hdt], hst.2.1⟩, hst.1⟩
    · rintro ⟨a, b, c, d⟩
      refine ⟨a, b, c, fun v hv hn => ?_⟩
      have := d v (by rw [he]; exact hv) hn
      exact ⟨_, (varUpdate_none _ _ _).2 ⟨this.shape, this.dtype.2, rfl⟩⟩
  rw [u1, ← hfit]
  apply and_congr_right
  intro hl
  have hten : ∀ v, IsVar e.obj v → ((updLoop e none inp).1.heap v).tensor =
      (Dict.get? inp v.name).getD (e.heap v).tensor := by
    intro v hv
    cases hgv : Dict.get? inp v.name with
    | some t =>
      have := l2 hl _ (Dict.get?_eq_some_mem hgv) v (he ▸ hv) rfl
      rw [varUpdate_none] at this
      rw [this.2.2]; simp
    | none =>
      rw [updLoop_frame hg none inp e he v (Or.inr ?_)]
      · simp
      · intro hmem
        have := Dict.mem_keys_iff.1 (show v.name ∈ Dict.keys inp from hmem)
        rw [hgv] at this; simp at this
  apply exists_congr; intro B
  have hm := mem_batchSizes hg (updLoop e none inp).1 ((updLoop_obj none inp e).1.trans he)
  unfold Agree
  simp only [hm]
  rw [he]; rw [he] at hten
  constructor
  · rintro ⟨⟨v, hv, hB⟩, b, c⟩
    refine ⟨⟨v, hv, by rw [← hten v hv]; exact hB⟩, fun v hv => ?_⟩
    rw [← hten v hv]
    exact ⟨b _ ⟨v, hv, rfl⟩, c _ ⟨v, hv, rfl⟩⟩
  · rintro ⟨⟨v, hv, hB⟩, b⟩
    refine ⟨⟨v, hv, by rw [hten v hv]; exact hB⟩, ?_, ?_⟩
    · rintro n ⟨v, hv, rfl⟩; rw [hten v hv]; exact (b v hv).1
    · rintro n ⟨v, hv, rfl⟩; rw [hten v hv]; exact (b v hv).2

/-- An entry of the input dictionary is in order (a data dimension, the objective's device and
dtype, and the shape and dtype of the variable it is for, if there is one). -/
def EntryOk (e : Env ρ) (p : Nat × Tensor ρ) : Prop :=
  p.2.trail ≠ [] ∧ p.2.device = e.device ∧ p.2.dtype = e.obj.dtype ∧
    ∀ v, IsVar e.obj v → v.name = p.1 → Fits e (e.heap v).tensor p.2

theorem loop_ok_iff {s : State} (hg : Good s) (e : Env ρ) (he : e.obj = s)
    (inp : List (Nat × Tensor ρ)) (hnd : (inp.map Prod.fst).Nodup) :
    (updLoop e none inp).2 = none ↔ ∀ p ∈ inp, EntryOk e p := by
  rw [(updLoop_ok hg none inp hnd e he).1]
  apply forall_congr'; intro p
  apply imp_congr_right; intro hp
  unfold EntryOk
  rw [he]
  constructor
  · rintro ⟨a, b, c, d⟩
    refine ⟨a, b, c, fun v hv hn => ?_⟩
    obtain ⟨st, hst⟩ := d v hv hn
    rw [varUpdate_none] at hst
    exact ⟨a, b, ⟨by rw [c, he], hst.2.1⟩, hst.1⟩
  · rintro ⟨a, b, c, d⟩
    refine ⟨a, b, c, fun v hv hn => ?_⟩
    have := d v hv hn
    exact ⟨_, (varUpdate_none _ _ _).2 ⟨this.shape, this.dtype.2, rfl⟩⟩

/-- C13: an update that raises has applied exactly the longest prefix of the dictionary whose entries
are in order; if that is the whole dictionary, it raised because the batch sizes do not agree. -/
theorem update_raise_prefix (dt : Nat) (hist : List Call) (hok : Succeeds (init dt false) hist)
    (e : Env ρ) (he : e.obj = run (init dt false) hist) (inp : List (Nat × Tensor ρ))
    (hnd : (inp.map Prod.fst).Nodup) (hu : (update e inp none).2 ≠ none) :
    ∃ pre post, inp = pre ++ post ∧ (∀ p ∈ pre, EntryOk e p) ∧
      (post = [] → ¬ ∃ B, Agree (batchSizes (update e inp none).1) B) ∧
      (∀ p ∈ post.head?, ¬ EntryOk e p) ∧ ∀ v,
      (∀ t, IsVar e.obj v → (v.name, t) ∈ pre → ((update e inp none).1.heap v).tensor = t) ∧
      ((¬ IsVar e.obj v ∨ v.name ∉ pre.map Prod.fst) →
        (update e inp none).1.heap v = e.heap v) := by
  obtain ⟨hg, hdt⟩ := good_run dt hist hok
  obtain ⟨u1, u2, u3, _⟩ := update_ok_loop e inp none
  have hbs : batchSizes (update e inp none).1 = batchSizes (updLoop e none inp).1 := by
    unfold batchSizes; rw [u2, u3, (updLoop_obj none inp e).1]
  have key : ∃ pre post, inp = pre ++ post ∧ (updLoop e none pre).2 = none ∧
      (post = [] → ¬ ∃ B, Agree (batchSizes (update e inp none).1) B) ∧
      (∀ p ∈ post.head?, ¬ EntryOk e p) ∧
      (updLoop e none inp).1 = (updLoop e none pre).1 := by
    cases hl : (updLoop e none inp).2 with
    | none =>
      refine ⟨inp, [], by simp, hl, fun _ hB => hu (u1.2 ⟨hl, hbs ▸ hB⟩), by simp, rfl⟩
    | some x =>
      obtain ⟨pre, p, post, a, b, d, c⟩ := updLoop_prefix none inp e x hl
      refine ⟨pre, p :: post, a, b, by simp, ?_, c⟩
      intro q hq
      simp only [List.head?_cons, Option.mem_def, Option.some.injEq] at hq
      subst hq
      intro hE
      have hnd' : ((pre ++ [p]).map Prod.fst).Nodup := by
        have : (pre ++ [p]) ++ post = inp := by simp [a]
        rw [← this, List.map_append] at hnd
        exact (List.nodup_append.1 hnd).1
      have hnd2 : (pre.map Prod.fst).Nodup := by
        rw [List.map_append] at hnd'; exact (List.nodup_append.1 hnd').1
      have hpre := (loop_ok_iff hg e he pre hnd2).1 b
      have := (loop_ok_iff hg e he _ hnd').2 (by
        intro q hq
        simp only [List.mem_append, List.mem_singleton] at hq
        rcases hq with hq | rfl
        · exact hpre q hq
        · exact hE)
      rw [this] at d; simp at d
  obtain ⟨pre, post, a, b, c1, c2, c⟩ := key
  have hndp : (pre.map Prod.fst).Nodup := by
    rw [a, List.map_append] at hnd; exact (List.nodup_append.1 hnd).1
  refine ⟨pre, post, a, (loop_ok_iff hg e he pre hndp).1 b, c1, c2,
    fun v => ⟨fun t hv ht => ?_, fun hv => ?_⟩⟩
  · have := (updLoop_ok hg none pre hndp e he).2 b _ ht v (he ▸ hv) rfl
    rw [varUpdate_none] at this
    rw [u2, c, this.2.2]
  · rw [u2, c]; exact updLoop_frame hg none pre e he v (he ▸ hv)

example : let inp := [(1, Ex.newX), (99, Ex.newT), (3, Ex.newT)]
    (update Ex.e inp none).2 = none ∧ ((update Ex.e inp none).1.heap Objective.Ex.x).tensor = Ex.newX ∧
    ((update Ex.e inp none).1.heap Objective.Ex.y) = Ex.e.heap Objective.Ex.y ∧
    IsVar Ex.e.obj Objective.Ex.x ∧ IsVar Ex.e.obj Objective.Ex.t := by
  simp only [IsVar]; decide
/-- a failing update applies its prefix -/
example : let inp := [(1, Ex.newX), (3, { Ex.newT with trail := [2] })]
    (update Ex.e inp none).2 = some .valueError ∧
    ((update Ex.e inp none).1.heap Objective.Ex.x).tensor = Ex.newX := by decide

/-! ### C14 -/

/-- C14: after a successful masked update, a batch element of a named variable has its old value if
it is masked, and the given value otherwise. -/
theorem update_masked (dt : Nat) (hist : List Call) (hok : Succeeds (init dt false) hist)
    (e : Env ρ) (he : e.obj = run (init dt false) hist) (inp : List (Nat × Tensor ρ))
    (hnd : (inp.map Prod.fst).Nodup) (m : List Bool) (hu : (update e inp (some m)).2 = none)
    (v : Var) (hv : IsVar e.obj v) (t : Tensor ρ) (ht : (v.name, t) ∈ inp)
    (i : Nat) (hi : i < ((update e inp (some m)).1.heap v).tensor.rows.length) :
    (masked m i → ((update e inp (some m)).1.heap v).tensor.rows[i]? = (e.heap v).tensor.elem i) ∧
    (¬ masked m i → ((update e inp (some m)).1.heap v).tensor.rows[i]? = t.elem i) := by
  obtain ⟨hg, _⟩ := good_run dt hist hok
  obtain ⟨u1, u2, _⟩ := update_ok_loop e inp (some m)
  have := (updLoop_ok hg (some m) inp hnd e he).2 (u1.1 hu).1 _ ht v (he ▸ hv) rfl
  rw [u2] at hi ⊢
  generalize (updLoop e (some m) inp).1.heap v = st at this hi
  unfold varUpdate at this
  split at this
  · cases this
  split at this
  · cases this
  simp only at this
  split at this
  · split at this
    · cases this
    · rename_i rows hr
      cases this
      have := whereRows_get hr i hi
      simp only at hi ⊢
      rw [this]
      constructor
      · intro hm; rw [if_pos (show bget m i = some true from hm)]; rfl
      · intro hm; rw [if_neg (show ¬ bget m i = some true from hm)]; rfl
  · rename_i hany
    cases this
    simp only at hi ⊢
    constructor
    · intro hm
      exfalso; apply hany
      unfold masked at hm
      split at hm
      · exact List.any_eq_true.2 ⟨true, List.mem_of_getElem? hm, rfl⟩
      · exact List.any_eq_true.2 ⟨true, List.mem_of_getElem? hm, rfl⟩
    · intro _
      unfold Tensor.elem
      split
      · rw [show i = 0 by omega]
      · rfl

/-- C14: and in the ordinary case (mask, old and new tensors of one batch size) a masked update
always keeps that batch size, so that the previous theorem speaks of every batch element. -/
theorem varUpdate_masked_length (st : VarSt ρ) (t : Tensor ρ) (m : List Bool)
    (h1 : st.tensor.rows.length = m.length) (h2 : t.rows.length = m.length)
    (h3 : t.trail = st.tensor.trail) (h4 : t.dtype = st.tensor.dtype) :
    ∃ st', varUpdate st t (some m) = .ok st' ∧ st'.tensor.rows.length = m.length := by
  unfold varUpdate
  simp only [h3, h4, not_true, if_false, ne_eq]
  split
  · obtain ⟨r, hr, hl⟩ := whereRows_same (old := st.tensor.rows) (new := t.rows) h1.symm h2.symm
    rw [hr]; exact ⟨_, rfl, hl⟩
  · exact ⟨_, rfl, h2⟩

example : ((update Ex.e [(1, Ex.newX)] (some [true, false, true])).1.heap Objective.Ex.x).tensor.rows
    = [10, 2, 12] := by decide

/-! ### C12 -/

theorem keys_saved (e : Env ρ) : (savedTensors e).map Prod.fst = e.obj.optimVars.keys := by
  simp [savedTensors, Dict.keys, Function.comp_def]

theorem mem_saved {s : State} (e : Env ρ) (he : e.obj = s) (v : Var)
    (hv : getOptimVar s v.name = some v) : (v.name, (e.heap v).tensor) ∈ savedTensors e := by
  unfold savedTensors
  rw [he]
  exact List.mem_map.2 ⟨(v.name, v), Dict.get?_eq_some_mem hv, rfl⟩

/-- C12 (what holds): after `error(inputs, also_update=False)` returns normally, every optimization
variable of the objective has the tensor it had before the call, and so has every other variable
that the inputs do not name.  Missing from C12: auxiliary variables named by the inputs
(`error_leaks_aux`), and calls that raise (`error_raise_leaks`). -/
theorem error_restores_partial {ε : Type} (ev : Env ρ → Except Err ε) (dt : Nat) (hist : List Call)
    (hok : Succeeds (init dt false) hist)
    (e : Env ρ) (he : e.obj = run (init dt false) hist) (inp : Option (List (Nat × Tensor ρ)))
    (r : ε) (hr : (error ev e inp false).2 = .ok r)
    (v : Var) (hv : getOptimVar e.obj v.name = some v ∨ ¬ IsVar e.obj v ∨
      ∀ l, inp = some l → v.name ∉ l.map Prod.fst) :
    ((error ev e inp false).1.heap v).tensor = (e.heap v).tensor := by
  obtain ⟨hg, _⟩ := good_run dt hist hok
  cases inp with
  | none => simp [error]
  | some inp =>
    unfold error at hr ⊢
    simp only at hr ⊢
    have f1 := update_ok_loop e inp none
    have fr := update_frame dt hist hok e he inp none v
    cases h1 : update e inp none with
    | mk e1 o1 =>
    rw [h1] at hr f1 fr
    cases o1 with
    | some x => simp at hr
    | none =>
    simp only at hr f1 fr ⊢
    cases h2 : ev e1 with
    | error x => rw [h2] at hr; simp at hr
    | ok r' =>
    rw [h2] at hr
    simp only [Bool.false_eq_true, if_false] at hr ⊢
    have he1 : e1.obj = run (init dt false) hist := f1.2.2.1.trans he
    have f2 := update_frame dt hist hok e1 he1 (savedTensors e) none v
    have s2 := update_sets_named dt hist hok e1 he1 (savedTensors e)
      (by rw [keys_saved, he]; exact hg.ndo)
    cases h3 : update e1 (savedTensors e) none with
    | mk e2 o2 =>
    rw [h3] at hr f2 s2
    cases o2 with
    | some x => simp at hr
    | none =>
    simp only at f2 s2 ⊢
    by_cases ho : getOptimVar e.obj v.name = some v
    · exact (s2 trivial v (by rw [f1.2.2.1]; exact Or.inl ho) _
        (mem_saved e he v (he ▸ ho))).1
    · have hv' : ¬ IsVar e.obj v ∨ v.name ∉ inp.map Prod.fst := by
        rcases hv with h | h | h
        · exact absurd h ho
        · exact Or.inl h
        · exact Or.inr (h inp rfl)
      rw [f2, fr hv']
      by_cases hi : IsVar e.obj v
      · right
        intro hmem
        rw [keys_saved] at hmem
        obtain ⟨u, hu⟩ := Option.isSome_iff_exists.1 (Dict.mem_keys_iff.1 hmem)
        rw [he] at hu hi ho
        have hun := hg.opt _ _ hu
        have a := (hg.lk v.name v).2 ⟨rfl, hi⟩
        have b := (hg.lk v.name u).2 ⟨hun, Or.inl (by rw [hun]; exact hu)⟩
        rw [a] at b; simp only [Option.some.injEq] at b
        subst b
        exact ho hu
      · left; rw [f1.2.2.1]; exact hi

/-- C12 (complement, exact): what a normal return leaves in an auxiliary variable named by the
inputs is the input tensor: it is never restored. -/
theorem error_keeps_aux {ε : Type} (ev : Env ρ → Except Err ε) (dt : Nat) (hist : List Call)
    (hok : Succeeds (init dt false) hist)
    (e : Env ρ) (he : e.obj = run (init dt false) hist) (inp : List (Nat × Tensor ρ))
    (hnd : (inp.map Prod.fst).Nodup)
    (r : ε) (hr : (error ev e (some inp) false).2 = .ok r)
    (v : Var) (hv : getAuxVar e.obj v.name = some v) (hno : getOptimVar e.obj v.name = none)
    (t : Tensor ρ) (ht : (v.name, t) ∈ inp) :
    ((error ev e (some inp) false).1.heap v).tensor = t := by
  unfold error at hr ⊢
  simp only at hr ⊢
  have f1 := update_ok_loop e inp none
  have fr := update_sets_named dt hist hok e he inp hnd
  cases h1 : update e inp none with
  | mk e1 o1 =>
  rw [h1] at hr f1 fr
  cases o1 with
  | some x => simp at hr
  | none =>
  simp only at hr f1 fr ⊢
  cases h2 : ev e1 with
  | error x => rw [h2] at hr; simp at hr
  | ok r' =>
  rw [h2] at hr
  simp only [Bool.false_eq_true, if_false] at hr ⊢
  have he1 : e1.obj = run (init dt false) hist := f1.2.2.1.trans he
  have f2 := update_frame dt hist hok e1 he1 (savedTensors e) none v
  cases h3 : update e1 (savedTensors e) none with
  | mk e2 o2 =>
  rw [h3] at hr f2
  cases o2 with
  | some x => simp at hr
  | none =>
  simp only at f2 ⊢
  rw [f2]
  · exact (fr trivial v (Or.inr hv) t ht).1
  · right
    rw [keys_saved]
    intro hmem
    have := Dict.mem_keys_iff.1 hmem
    rw [show e.obj.optimVars.get? v.name = none from hno] at this
    simp at this

/-- C12 fails: `error({"t": ...})` with `also_update=False` permanently changes the auxiliary
variable `t`. -/
theorem error_leaks_aux : ∃ (hist : List Call) (e : Env Nat) (inp : List (Nat × Tensor Nat)) (v : Var),
    Succeeds (init 0 false) hist ∧ e.obj = run (init 0 false) hist ∧ IsVar e.obj v ∧
    (error (fun _ => .ok ()) e (some inp) false).2 = .ok () ∧
    ((error (fun _ => .ok ()) e (some inp) false).1.heap v).tensor ≠ (e.heap v).tensor :=
  ⟨Objective.Ex.hist, Ex.e, [(3, Ex.newT)], Objective.Ex.t, Objective.Ex.hist_ok.1, rfl,
    Or.inr (by decide), rfl, by decide⟩

/-- C12 fails: a call that raises (here, because the inputs do not agree on a batch size) leaves the
optimization variable `x` changed. -/
theorem error_raise_leaks : ∃ (hist : List Call) (e : Env Nat) (inp : List (Nat × Tensor Nat)) (v : Var),
    Succeeds (init 0 false) hist ∧ e.obj = run (init 0 false) hist ∧
    getOptimVar e.obj v.name = some v ∧
    (error (fun _ => .ok ()) e (some inp) false).2 = .error .valueError ∧
    ((error (fun _ => .ok ()) e (some inp) false).1.heap v).tensor ≠ (e.heap v).tensor :=
  ⟨Objective.Ex.hist, Ex.e, [(1, { rows := [1, 2] })], Objective.Ex.x, Objective.Ex.hist_ok.1, rfl,
    by decide, rfl, by decide⟩

/-- C12 fails: inputs that agree among themselves can make the *restoring* step raise, because the
auxiliary variables stay at the new batch size while the optimization variables go back. -/
theorem error_restore_raises : ∃ (hist : List Call) (e : Env Nat) (inp : List (Nat × Tensor Nat)),
    Succeeds (init 0 false) hist ∧ e.obj = run (init 0 false) hist ∧
    (update e inp none).2 = none ∧ (update e [] none).2 = none ∧
    (error (fun _ => .ok ()) e (some inp) false).2 = .error .valueError :=
  ⟨Objective.Ex.hist, Ex.e,
    [(1, { rows := [1, 2] }), (2, { rows := [1, 2] }), (3, { rows := [3, 4] })],
    Objective.Ex.hist_ok.1, rfl, rfl, rfl, rfl⟩

example : (error (fun e => .ok (e.heap Objective.Ex.x).tensor) Ex.e (some [(1, Ex.newX)]) false).2
    = .ok Ex.newX ∧
    ((error (fun e => .ok (e.heap Objective.Ex.x).tensor) Ex.e (some [(1, Ex.newX)]) false).1.heap
      Objective.Ex.x).tensor.rows = [10, 11, 12] := ⟨rfl, rfl⟩

/-! ### C16 -/

variable {δ : Type}

theorem retractFrom_frame (rf : RetractFn ρ δ) (mask : Option (List Bool)) (force : Bool)
    (delta : List (List δ)) (idx : Nat) (ord : List (Var × Nat)) (h : Heap ρ) (v : Var)
    (hv : v ∉ ord.map Prod.fst) : (retractFrom rf mask force delta idx ord h).1 v = h v := by
  induction ord generalizing idx h with
  | nil => simp [retractFrom]
  | cons p rest ih =>
    obtain ⟨u, d⟩ := p
    simp only [List.map_cons, List.mem_cons, not_or] at hv
    unfold retractFrom
    split
    · rfl
    · split
      · rfl
      · rw [ih _ _ hv.2]; simp [Heap.put, hv.1]

theorem retractFrom_ok (rf : RetractFn ρ δ) (mask : Option (List Bool)) (force : Bool)
    (delta : List (List δ)) (idx : Nat) (ord : List (Var × Nat)) (hnd : (ord.map Prod.fst).Nodup)
    (h : Heap ρ) (hok : (retractFrom rf mask force delta idx ord h).2 = none)
    (pre post : List (Var × Nat)) (v : Var) (d : Nat) (ho : ord = pre ++ (v, d) :: post) :
    ∃ t, rf v (h v).tensor (slice delta (idx + (pre.map Prod.snd).sum) d) = .ok t ∧
      varUpdate (h v) t (if force then none else mask) =
        .ok ((retractFrom rf mask force delta idx ord h).1 v) := by
  induction ord generalizing idx h pre with
  | nil => simp at ho
  | cons p rest ih =>
    obtain ⟨u, du⟩ := p
    simp only [List.map_cons, List.nodup_cons] at hnd
    unfold retractFrom at hok ⊢
    cases h1 : rf u (h u).tensor (slice delta idx du) with
    | error x => rw [h1] at hok; simp at hok
    | ok t =>
    rw [h1] at hok; simp only at hok ⊢
    cases h2 : varUpdate (h u) t (if force then none else mask) with
    | error x => rw [h2] at hok; simp at hok
    | ok st =>
    rw [h2] at hok; simp only at hok ⊢
    cases pre with
    | nil =>
      simp only [List.nil_append, List.cons.injEq, Prod.mk.injEq] at ho
      obtain ⟨⟨rfl, rfl⟩, rfl⟩ := ho
      refine ⟨t, by simpa using h1, ?_⟩
      rw [retractFrom_frame _ _ _ _ _ _ _ _ hnd.1]
      simp [Heap.put, h2]
    | cons q pre =>
      simp only [List.cons_append, List.cons.injEq] at ho
      obtain ⟨rfl, rfl⟩ := ho
      have hne : v ≠ u := by
        rintro rfl; exact hnd.1 (by simp)
      have := ih (idx := idx + du) hnd.2 (h.put u st) hok pre rfl
      simpa [Heap.put, hne, Nat.add_assoc] using this

/-- C16: a successful retraction of an ordering of distinct variables moves each variable by the
columns of `delta` that start after the degrees of freedom of the variables before it, starting from
the variable's own tensor, and stores the result honouring the mask unless `force_update`; variables
outside the ordering do not change. -/
theorem retract_own_slice (rf : RetractFn ρ δ) (h : Heap ρ) (delta : List (List δ))
    (ord : List (Var × Nat)) (hnd : (ord.map Prod.fst).Nodup) (mask : Option (List Bool))
    (force : Bool) (hok : (retractVars rf h delta ord mask force).2 = none) :
    (∀ pre v d post, ord = pre ++ (v, d) :: post →
      ∃ t, rf v (h v).tensor (slice delta ((pre.map Prod.snd).sum) d) = .ok t ∧
        varUpdate (h v) t (if force then none else mask) =
          .ok ((retractVars rf h delta ord mask force).1 v)) ∧
    ∀ v, v ∉ ord.map Prod.fst → (retractVars rf h delta ord mask force).1 v = h v := by
  refine ⟨?_, fun v hv => retractFrom_frame _ _ _ _ _ _ _ _ hv⟩
  intro pre v d post ho
  have := retractFrom_ok rf mask force delta 0 ord hnd h hok pre post v d ho
  simpa [retractVars] using this

/-- C16: the slices are a partition of the columns: put side by side they are `delta`. -/
theorem slices_partition (row : List δ) (dofs : List Nat) (hw : row.length = dofs.sum) :
    ((List.range dofs.length).map fun i =>
      (row.drop ((dofs.take i).sum)).take (dofs.getD i 0)).flatten = row := by
  induction dofs generalizing row with
  | nil => simp at hw; simp [hw]
  | cons d ds ih =>
    simp only [List.sum_cons] at hw
    have := ih (row.drop d) (by simp [hw])
    simp only [List.length_cons, List.range_succ_eq_map, List.map_cons, List.map_map,
      List.flatten_cons, List.take_zero, List.sum_nil, List.drop_zero, List.getD_cons_zero]
    conv_rhs => rw [← List.take_append_drop d row]
    congr 1
    rw [← this]
    congr 1
    apply List.map_congr_left
    intro i _
    simp [List.drop_drop]

example : let rf : RetractFn Nat Nat := fun _ t s => .ok { t with rows := List.zipWith (fun r d => r + d.sum) t.rows s }
    let r := retractVars rf Ex.heap [[1, 2, 3], [4, 5, 6], [7, 8, 9]]
      [(Objective.Ex.x, 1), (Objective.Ex.y, 2)] (some [false, true, false]) false
    r.2 = none ∧ (r.1 Objective.Ex.x).tensor.rows = [11, 11, 19] ∧
      (r.1 Objective.Ex.y).tensor.rows = [25, 21, 39] := by decide

end Verif.Update
