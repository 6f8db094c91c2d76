import Verif.Linear.Spec
import Mathlib.Data.List.Nodup
import Mathlib.Data.List.Infix
import Mathlib.Algebra.BigOperators.Group.List.Basic
import Mathlib.Tactic.Ring
import Mathlib.Tactic.Linarith
/-!
# Lemmas for linearization
-/
namespace Verif.Linear
open Verif Verif.Objective
open scoped BigOperators

/-- Offset of an element in a list of blocks. -/
def offs {α : Type} [DecidableEq α] (sz : α → Nat) : List α → α → Nat
  | [], _ => 0
  | w :: ws, v => if w = v then 0 else sz w + offs sz ws v

section
variable {α : Type} [DecidableEq α]

theorem offs_append (sz : α → Nat) (a : List α) (s : α) (b : List α) (h : s ∉ a) :
    offs sz (a ++ s :: b) s = (a.map sz).sum := by
  induction a with
  | nil => simp [offs]
  | cons x a ih =>
    simp only [List.mem_cons, not_or] at h
    simp only [List.cons_append, offs, if_neg (Ne.symm h.1), ih h.2, List.map_cons, List.sum_cons]

theorem offs_disj (sz : α → Nat) (l : List α) (v w : α) (hv : v ∈ l) (hw : w ∈ l) (hne : v ≠ w) :
    offs sz l v + sz v ≤ offs sz l w ∨ offs sz l w + sz w ≤ offs sz l v := by
  induction l with
  | nil => simp at hv
  | cons x l ih =>
    simp only [offs]
    by_cases h1 : x = v
    · subst h1; rw [if_pos rfl, if_neg hne]; left; omega
    · by_cases h2 : x = w
      · subst h2; rw [if_neg h1, if_pos rfl]; right; omega
      · rw [if_neg h1, if_neg h2]
        have := ih ((List.mem_cons.1 hv).resolve_left (Ne.symm h1)) ((List.mem_cons.1 hw).resolve_left (Ne.symm h2))
        omega

theorem offs_le (sz : α → Nat) (l : List α) (v : α) (hv : v ∈ l) :
    offs sz l v + sz v ≤ (l.map sz).sum := by
  induction l with
  | nil => simp at hv
  | cons x l ih =>
    simp only [offs, List.map_cons, List.sum_cons]
    by_cases h1 : x = v
    · subst h1; rw [if_pos rfl]; omega
    · rw [if_neg h1]
      have := ih ((List.mem_cons.1 hv).resolve_left (Ne.symm h1)); omega

theorem sum_offs {M : Type} [AddCommMonoid M] (sz : α → Nat) (l : List α) (hn : l.Nodup) (F : Nat → M) :
    ∑ q ∈ Finset.range (l.map sz).sum, F q =
    (l.map fun s => ∑ t ∈ Finset.range (sz s), F (offs sz l s + t)).sum := by
  induction l generalizing F with
  | nil => simp
  | cons x l ih =>
    simp only [List.nodup_cons] at hn
    simp only [List.map_cons, List.sum_cons, Finset.sum_range_add, offs, if_true, Nat.zero_add]
    congr 1
    rw [ih hn.2 (fun q => F (sz x + q))]
    congr 1
    apply List.map_congr_left
    intro s hs
    rw [if_neg (fun e : x = s => hn.1 (by rw [e]; exact hs))]
    simp only [Nat.add_assoc]

end

variable {R : Type}

/-! ### Orderings -/

theorem Consistent.nodup {o : Ordering} (h : Consistent o) : o.order.Nodup := by
  rw [List.nodup_iff_getElem?_ne_getElem?]
  intro i j hij hj e
  obtain ⟨v, hv⟩ : ∃ v, o.order[j]? = some v := ⟨_, List.getElem?_eq_getElem hj⟩
  have h1 := (h v.name j).2 ⟨v, hv, rfl⟩
  have h2 := (h v.name i).2 ⟨v, e.trans hv, rfl⟩
  rw [h1] at h2
  cases h2; omega

theorem cumStarts_get? (acc : Nat) (ds : List Nat) (i : Nat) (hi : i < ds.length) :
    (cumStarts acc ds)[i]? = some (acc + (ds.take i).sum) := by
  induction ds generalizing acc i with
  | nil => simp at hi
  | cons d ds ih =>
    cases i with
    | zero => simp [cumStarts]
    | succ i =>
      simp only [cumStarts, List.getElem?_cons_succ, List.take_succ_cons, List.sum_cons]
      rw [ih _ _ (by simpa using hi), Nat.add_assoc]

theorem layoutLoop_starts (dof : Var → Nat) (vs : List Var) (L : Layout) :
    (layoutLoop dof vs L).starts = L.starts ++ cumStarts L.numCols (vs.map dof) := by
  induction vs generalizing L with
  | nil => simp [layoutLoop, cumStarts]
  | cons v vs ih => simp [layoutLoop, ih, cumStarts]

theorem startCol_eq {o : Ordering} (h : Consistent o) (dof : Var → Nat) {v : Var} (hv : v ∈ o.order) :
    startCol o (layout dof o.order) v = .ok (offs dof o.order v) := by
  obtain ⟨pre, post, e, hnot⟩ := List.eq_append_cons_of_mem hv
  have h1 : o.indexOf v.name = .ok pre.length := (h v.name pre.length).2 ⟨v, by simp [e], rfl⟩
  unfold startCol
  rw [h1]
  simp only [layout, layoutLoop_starts, List.nil_append]
  rw [cumStarts_get? _ _ _ (by simp [e])]
  rw [e, offs_append dof pre v post hnot]
  simp

/-! ### Dense -/

theorem jacs_get {dof : Var → Nat} {vs : List Var} {Js : List (Jac R)}
    (h : List.Forall₂ (fun v J => J.cols = dof v) vs Js) : vs.length = Js.length := h.length_eq

/-- Jacobian of a variable in a list of pairs. -/
def jacIn (vs : List Var) (Js : List (Jac R)) (v : Var) : Option (Jac R) :=
  ((vs.zip Js).find? (fun p => decide (p.1 = v))).map Prod.snd

theorem denseVars_spec {o : Ordering} (h : Consistent o) (dof : Var → Nat) (c : LCost R) :
    ∀ (Js : List (Jac R)) (vpre vs : List Var) (d : Dense R), c.vars = vpre ++ vs →
    vs.Nodup → (∀ v ∈ vs, v ∈ o.order) → List.Forall₂ (fun v J => J.cols = dof v) vs Js →
    ∃ d', denseVars o (layout dof o.order) c vpre.length Js d = .ok d' ∧ d'.row = d.row ∧ d'.b = d.b ∧
      d'.slice = (if Js = [] then d.slice else some (d.row, c.dim)) ∧
      (∀ i j, ¬ (d.row ≤ i ∧ i < d.row + c.dim) → d'.A i j = d.A i j) ∧
      (∀ r < c.dim, ∀ v ∈ o.order, ∀ t < dof v,
        d'.A (d.row + r) (offs dof o.order v + t) =
          match jacIn vs Js v with
          | some J => J.val r t
          | none => d.A (d.row + r) (offs dof o.order v + t)) := by
  intro Js
  induction Js with
  | nil =>
    intro vpre vs d hc hn hm hf
    cases hf
    exact ⟨d, rfl, rfl, rfl, by simp, fun _ _ _ => rfl, by simp [jacIn]⟩
  | cons J Js ih =>
    intro vpre vs d hc hn hm hf
    cases hf with
    | @cons v _ vs' _ hJ hf =>
    simp only [List.nodup_cons] at hn
    have hg : c.vars[vpre.length]? = some v := by simp [hc]
    have hst := startCol_eq h dof (hm v List.mem_cons_self)
    unfold denseVars
    simp only [hg, hst]
    obtain ⟨d', e1, e2, e3, e4, e5, e6⟩ := ih (vpre ++ [v]) vs'
      { d with A := writeBlock d.A d.row c.dim (offs dof o.order v) J.cols J.val,
               slice := some (d.row, c.dim) } (by simp [hc]) hn.2
      (fun w hw => hm w (List.mem_cons_of_mem _ hw)) hf
    simp only [List.length_append, List.length_cons, List.length_nil, Nat.zero_add] at e1
    simp only at e2 e3 e4 e5 e6
    refine ⟨d', e1, e2, e3, ?_, ?_, ?_⟩
    · rw [e4]; simp
    · intro i j hi
      rw [e5 i j hi]
      unfold writeBlock
      rw [if_neg (fun hh => hi ⟨hh.1, hh.2.1⟩)]
    · intro r hr w hw t ht
      rw [e6 r hr w hw t ht]
      unfold jacIn
      by_cases hvw : v = w
      · subst hvw
        have hnone : (vs'.zip Js).find? (fun p => decide (p.1 = v)) = none := by
          rw [List.find?_eq_none]
          intro p hp
          simp only [decide_eq_true_eq]
          rintro rfl
          exact hn.1 (List.of_mem_zip hp).1
        rw [hnone]
        simp only [List.zip_cons_cons, Option.map_none, List.find?_cons, decide_true, Option.map_some]
        unfold writeBlock
        rw [if_pos ⟨by omega, by omega, by omega, by omega⟩]
        simp
      · simp only [List.zip_cons_cons, List.find?_cons, hvw, decide_false]
        cases (vs'.zip Js).find? (fun p => decide (p.1 = w)) with
        | some p => rfl
        | none =>
          simp only [Option.map_none]
          unfold writeBlock
          rw [if_neg]
          have := offs_disj dof o.order v w (hm v List.mem_cons_self) hw hvw
          omega

theorem denseCost_spec [CommRing R] {o : Ordering} (h : Consistent o) (dof : Var → Nat) (c : LCost R)
    (hc : GoodCost dof o.order c) (d : Dense R) (hz : ∀ i j, d.row ≤ i → d.A i j = 0) :
    ∃ d', denseCost o (layout dof o.order) d c = .ok d' ∧ d'.row = d.row + c.dim ∧
      (∀ i j, ¬ (d.row ≤ i ∧ i < d.row + c.dim) → d'.A i j = d.A i j ∧ d'.b i = d.b i) ∧
      (∀ r < c.dim, d'.b (d.row + r) = - c.err r ∧ ∀ v ∈ o.order, ∀ t < dof v,
        d'.A (d.row + r) (offs dof o.order v + t) = entry c r v t) := by
  obtain ⟨d', e1, e2, e3, e4, e5, e6⟩ := denseVars_spec h dof c c.jacs [] c.vars d (by simp) hc.nodup hc.mem hc.jacs
  have hne : c.jacs ≠ [] := by
    intro e
    have := hc.jacs.length_eq
    rw [e] at this
    exact hc.nonempty (List.length_eq_zero_iff.1 this)
  rw [if_neg hne] at e4
  unfold denseCost
  simp only [List.length_nil] at e1
  simp only [e1, e4]
  refine ⟨_, rfl, by simp [e2], ?_, ?_⟩
  · intro i j hi
    refine ⟨e5 i j hi, ?_⟩
    simp only [writeSlice, e3]
    rw [if_neg hi]
  · intro r hr
    refine ⟨?_, ?_⟩
    · simp only [writeSlice]
      rw [if_pos ⟨by omega, by omega⟩]; simp
    · intro v hv t ht
      simp only
      rw [e6 r hr v hv t ht]
      unfold entry LCost.jacOf jacIn
      cases ((c.vars.zip c.jacs).find? (fun p => decide (p.1 = v))).map Prod.snd with
      | some J => rfl
      | none => simp only; exact hz _ _ (by omega)

theorem denseLoop_spec [CommRing R] {o : Ordering} (h : Consistent o) (dof : Var → Nat) (cs : List (LCost R)) :
    ∀ (d : Dense R), (∀ c ∈ cs, GoodCost dof o.order c) → (∀ i j, d.row ≤ i → d.A i j = 0) →
    ∃ d', denseLoop o (layout dof o.order) cs d = .ok d' ∧
      (∀ i j, i < d.row → d'.A i j = d.A i j ∧ d'.b i = d.b i) ∧
      (∀ cpre c cpost, cs = cpre ++ c :: cpost → ∀ r < c.dim,
        d'.b (d.row + numRows cpre + r) = - c.err r ∧ ∀ v ∈ o.order, ∀ t < dof v,
        d'.A (d.row + numRows cpre + r) (offs dof o.order v + t) = entry c r v t) := by
  induction cs with
  | nil => intro d _ _; exact ⟨d, rfl, fun _ _ _ => ⟨rfl, rfl⟩, by intro a c b hh; simp at hh⟩
  | cons c cs ih =>
    intro d hg hz
    obtain ⟨d1, f1, f2, f3, f4⟩ := denseCost_spec h dof c (hg c List.mem_cons_self) d hz
    obtain ⟨d', g1, g2, g3⟩ := ih d1 (fun x hx => hg x (List.mem_cons_of_mem _ hx)) (by
      intro i j hi
      rw [(f3 i j (by omega)).1]; exact hz i j (by omega))
    unfold denseLoop
    rw [f1]
    refine ⟨d', g1, ?_, ?_⟩
    · intro i j hi
      obtain ⟨a1, a2⟩ := g2 i j (by omega)
      obtain ⟨b1, b2⟩ := f3 i j (by omega)
      exact ⟨a1.trans b1, a2.trans b2⟩
    · intro cpre x cpost e r hr
      cases cpre with
      | nil =>
        simp only [List.nil_append, List.cons.injEq] at e
        obtain ⟨rfl, rfl⟩ := e
        simp only [numRows, List.map_nil, List.sum_nil, Nat.add_zero]
        obtain ⟨a1, a2⟩ := f4 r hr
        refine ⟨((g2 (d.row + r) 0 (by omega)).2).trans a1, ?_⟩
        intro v hv t ht
        exact ((g2 (d.row + r) _ (by omega)).1).trans (a2 v hv t ht)
      | cons y cpre =>
        simp only [List.cons_append, List.cons.injEq] at e
        obtain ⟨rfl, rfl⟩ := e
        have := g3 cpre x cpost rfl r hr
        rw [f2] at this
        simp only [numRows, List.map_cons, List.sum_cons] at this ⊢
        have e : d.row + (c.dim + (cpre.map LCost.dim).sum) + r = d.row + c.dim + (cpre.map LCost.dim).sum + r := by omega
        rw [e]; exact this

/-- Sum over all rows, cost function by cost function. -/
theorem sum_rows {M : Type} [AddCommMonoid M] (cs : List (LCost R)) (F : Nat → M) (G : LCost R → Nat → M)
    (h : ∀ cpre c cpost, cs = cpre ++ c :: cpost → ∀ r < c.dim, F (numRows cpre + r) = G c r) :
    ∑ i ∈ Finset.range (numRows cs), F i = (cs.map fun c => ∑ r ∈ Finset.range c.dim, G c r).sum := by
  induction cs generalizing F with
  | nil => simp [numRows]
  | cons c cs ih =>
    have e : numRows (c :: cs) = c.dim + numRows cs := by simp [numRows]
    rw [e, Finset.sum_range_add]
    simp only [List.map_cons, List.sum_cons]
    congr 1
    · apply Finset.sum_congr rfl
      intro r hr
      have := h [] c cs rfl r (Finset.mem_range.1 hr)
      simpa [numRows] using this
    · apply ih
      intro cpre x cpost e r hr
      have := h (c :: cpre) x cpost (by simp [e]) r hr
      simp only [numRows, List.map_cons, List.sum_cons] at this ⊢
      rw [← Nat.add_assoc]; exact this

end Verif.Linear
