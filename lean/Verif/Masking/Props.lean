import Verif.Masking.Model
import Mathlib.Data.List.Nodup
import Mathlib.Algebra.Ring.Int.Defs
/-!
C41: zero-weight masking changes nothing, and the variables get their tensors back.
-/
namespace Verif.Masking
open Verif Verif.Objective Verif.Update Verif.Vectorize

variable {ρ ε ω α : Type}

theorem enter_spec (mask : List Bool) (vs : List Var) (hnd : vs.Nodup) (h : Heap ρ)
    (hl : ∀ v ∈ vs, (h v).tensor.rows.length = mask.length) :
    ∃ h', enter mask vs h = (h', none) ∧
      (∀ v ∈ vs, h' v = ⟨{ (h v).tensor with rows := select mask (h v).tensor.rows }, (h v).numUpdates + 1⟩) ∧
      ∀ v, v ∉ vs → h' v = h v := by
  induction vs generalizing h with
  | nil => exact ⟨h, rfl, by simp, by simp⟩
  | cons v vs ih =>
    simp only [List.nodup_cons] at hnd
    unfold enter
    rw [if_neg (by simp [hl v (by simp)])]
    simp only [varUpdate, ne_eq, not_true_eq_false, if_false]
    obtain ⟨h', e1, e2, e3⟩ := ih hnd.2 (h.put v ⟨{ (h v).tensor with rows := select mask (h v).tensor.rows },
        (h v).numUpdates + 1⟩) (by
      intro u hu
      have hne : u ≠ v := by rintro rfl; exact hnd.1 hu
      simp only [Heap.put, hne, if_false]
      exact hl u (by simp [hu]))
    refine ⟨h', e1, ?_, ?_⟩
    · intro u hu
      rw [List.mem_cons] at hu
      rcases hu with rfl | hu
      · rw [e3 _ hnd.1]; simp [Heap.put]
      · have hne : u ≠ v := by rintro rfl; exact hnd.1 hu
        rw [e2 u hu]; simp [Heap.put, hne]
    · intro u hu
      simp only [List.mem_cons, not_or] at hu
      rw [e3 u hu.2]; simp [Heap.put, hu.1]

theorem exit_spec (vs : List Var) (hnd : vs.Nodup) (T : Var → Tensor ρ) (h : Heap ρ)
    (hl : ∀ v ∈ vs, (T v).trail = (h v).tensor.trail ∧ (T v).dtype = (h v).tensor.dtype) :
    ∃ h', exit (vs.map fun v => (v, T v)) h = (h', none) ∧
      (∀ v ∈ vs, h' v = ⟨T v, (h v).numUpdates + 1⟩) ∧ ∀ v, v ∉ vs → h' v = h v := by
  induction vs generalizing h with
  | nil => exact ⟨h, rfl, by simp, by simp⟩
  | cons v vs ih =>
    simp only [List.nodup_cons] at hnd
    have hv := hl v (by simp)
    simp only [List.map_cons]
    unfold exit
    simp only [varUpdate, hv.1, hv.2, ne_eq, not_true_eq_false, if_false]
    obtain ⟨h', e1, e2, e3⟩ := ih hnd.2 (h.put v ⟨T v, (h v).numUpdates + 1⟩) (by
      intro u hu
      have hne : u ≠ v := by rintro rfl; exact hnd.1 hu
      simp only [Heap.put, hne, if_false]
      exact hl u (by simp [hu]))
    refine ⟨h', e1, ?_, ?_⟩
    · intro u hu
      rw [List.mem_cons] at hu
      rcases hu with rfl | hu
      · rw [e3 _ hnd.1]; simp [Heap.put]
      · have hne : u ≠ v := by rintro rfl; exact hnd.1 hu
        rw [e2 u hu]; simp [Heap.put, hne]
    · intro u hu
      simp only [List.mem_cons, not_or] at hu
      rw [e3 u hu.2]; simp [Heap.put, hu.1]

/-- C41, restoration: when the variables are distinct and have as many batch elements as the mask, then
whatever the body does (also when it raises), every variable has its tensor back afterwards, and the
body has run with exactly the selected rows. -/
theorem withMasked_restores_partial (vs : List Var) (mask : List Bool) (body : Heap ρ → Except Err α) (h : Heap ρ)
    (hnd : vs.Nodup) (hl : ∀ v ∈ vs, (h v).tensor.rows.length = mask.length) :
    ∃ h' h'', withMasked vs mask body h = (h'', body h') ∧
      (∀ v, (h'' v).tensor = (h v).tensor) ∧
      (∀ v ∈ vs, (h' v).tensor = { (h v).tensor with rows := select mask (h v).tensor.rows }) ∧
      ∀ v, v ∉ vs → h'' v = h v ∧ h' v = h v := by
  obtain ⟨h', e1, e2, e3⟩ := enter_spec mask vs hnd h hl
  obtain ⟨h'', x1, x2, x3⟩ := exit_spec vs hnd (fun v => (h v).tensor) h'
    (fun v hv => by rw [e2 v hv]; exact ⟨rfl, rfl⟩)
  refine ⟨h', h'', by simp [withMasked, e1, x1], ?_, ?_, ?_⟩
  · intro v
    by_cases hv : v ∈ vs
    · rw [x2 v hv]
    · rw [x3 v hv, e3 v hv]
  · intro v hv; rw [e2 v hv]
  · intro v hv; exact ⟨by rw [x3 v hv, e3 v hv], e3 v hv⟩

theorem select_length (mask : List Bool) (rows : List ρ) (hl : rows.length = mask.length) :
    (select mask rows).length = count mask := by
  induction mask generalizing rows with
  | nil => cases rows <;> simp_all [select, count]
  | cons b m ih =>
    cases rows with
    | nil => simp at hl
    | cons r rs =>
      have := ih rs (by simpa using hl)
      cases b <;> simp_all [select, count]

theorem select_map {β : Type} (g : ρ → β) (mask : List Bool) (rows : List ρ) :
    select mask (rows.map g) = (select mask rows).map g := by
  induction mask generalizing rows with
  | nil => simp [select]
  | cons b m ih =>
    cases rows with
    | nil => rfl
    | cons r rs =>
      have := ih rs
      cases b <;> simp_all [select]

theorem put_select [Zero ε] (mask : List Bool) (l : List ρ) (g : ρ → ε) (hl : l.length = mask.length) :
    put mask ((select mask l).map g) = List.zipWith (fun b a => if b then g a else 0) mask l := by
  induction mask generalizing l with
  | nil => simp [put]
  | cons b m ih =>
    cases l with
    | nil => simp at hl
    | cons r rs =>
      have := ih rs (by simpa using hl)
      cases b <;> simp_all [select, put]

/-- Specification: element `i` of masked results is the cost function's own row `f` of the `i`-th
elements of the variables where the mask is true, and zero elsewhere. -/
def maskedSpec [Zero ε] (f : List ρ → ε) (mask : List Bool) (ts : List (List ρ)) : List ε :=
  (List.range mask.length).map fun i => if mask.getD i false then f (ts.filterMap (·[i]?)) else 0

theorem filterMap_select (mask : List Bool) (ts : List (List ρ)) (hl : ∀ t ∈ ts, t.length = mask.length)
    (j : Nat) (hj : j < count mask) :
    (ts.map (select mask)).filterMap (bget · j) =
      ts.filterMap (fun t => ((select mask (List.range mask.length))[j]?).bind (t[·]?)) := by
  induction ts with
  | nil => rfl
  | cons t ts ih =>
    have ih := ih (fun t ht => hl t (by simp [ht]))
    have htl := hl t (by simp)
    have hsl := select_length mask t htl
    have hb : bget (select mask t) j = (select mask t)[j]? := by
      unfold bget
      split
      next h => have : j = 0 := by omega
                rw [this]
      next => rfl
    have hs : (select mask t).map some = (select mask (List.range mask.length)).map (t[·]?) := by
      rw [← select_map, ← select_map]
      congr 1
      apply List.ext_getElem?
      intro i
      simp only [List.getElem?_map]
      by_cases hi : i < t.length
      · simp [List.getElem?_eq_getElem hi, List.getElem?_range (htl ▸ hi)]
      · simp [List.getElem?_eq_none (not_lt.1 hi), htl ▸ not_lt.1 hi]
    have he : (select mask t)[j]? = ((select mask (List.range mask.length))[j]?).bind (t[·]?) := by
      have := congrArg (fun l => (l[j]?).bind id) hs
      simpa [List.getElem?_map, Option.bind_map] using this
    rw [List.map_cons, List.filterMap_cons, List.filterMap_cons, hb, he, ih]

/-- C41, rows: `masked_jacobians` of a cost function that works batch element by batch element gives its
own rows at the unmasked elements and zero elsewhere, and restores all variables. -/
theorem masked_jacobians_rows [Zero ε] (code : List (List ρ) → Except Err (List ε)) (f : List ρ → ε)
    (hc : Batchwise code f) (vs : List Var) (mask : List Bool) (h : Heap ρ) (hne : vs ≠ [])
    (hnd : vs.Nodup) (hl : ∀ v ∈ vs, (h v).tensor.rows.length = mask.length) :
    ∃ h'', maskedJacobians code vs mask h =
        (h'', .ok (maskedSpec f mask (vs.map fun v => (h v).tensor.rows))) ∧
      ∀ v, (h'' v).tensor = (h v).tensor := by
  cases vs with
  | nil => exact absurd rfl hne
  | cons v vs =>
    unfold maskedJacobians
    simp only
    obtain ⟨h', h'', w1, w2, w3, _⟩ := withMasked_restores_partial (v :: vs) mask (fun h' =>
      match code ((v :: vs).map fun u => (h' u).tensor.rows) with
      | .error x => .error x
      | .ok r => assign (((v :: vs).map fun u => (h u).tensor.rows.length).foldl max 0) mask r) h hnd hl
    refine ⟨h'', ?_, w2⟩
    refine w1.trans ?_
    have hB : ((v :: vs).map fun u => (h u).tensor.rows.length).foldl max 0 = mask.length := by
      have : ∀ (l : List Nat) (a : Nat), a ≤ mask.length → (∀ x ∈ l, x = mask.length) →
          l.foldl max a = if l = [] then a else mask.length := by
        intro l
        induction l with
        | nil => intro a _ _; rfl
        | cons x xs ih =>
          intro a ha hx
          have hx0 := hx x (by simp)
          rw [List.foldl_cons, ih _ (by omega) (fun y hy => hx y (by simp [hy]))]
          split <;> simp [hx0, ha]
      rw [this _ 0 (Nat.zero_le _) (by
        intro x hx
        rw [List.mem_map] at hx
        obtain ⟨u, hu, rfl⟩ := hx
        exact hl u hu)]
      simp
    have hts : ((v :: vs).map fun u => (h' u).tensor.rows) =
        ((v :: vs).map fun u => (h u).tensor.rows).map (select mask) := by
      rw [List.map_map]
      apply List.map_congr_left
      intro u hu
      rw [w3 u hu]; rfl
    have hlen : ∀ t ∈ (v :: vs).map fun u => (h u).tensor.rows, t.length = mask.length := by
      intro t ht
      rw [List.mem_map] at ht
      obtain ⟨u, hu, rfl⟩ := ht
      exact hl u hu
    have hlen' : ∀ t ∈ ((v :: vs).map fun u => (h u).tensor.rows).map (select mask), t.length = count mask := by
      intro t ht
      rw [List.mem_map] at ht
      obtain ⟨u, hu, rfl⟩ := ht
      exact select_length mask u (hlen u hu)
    rw [hts, hc _ (count mask) (fun t ht => Or.inr (hlen' t ht)) ⟨_, List.mem_map_of_mem
      (List.mem_map_of_mem (List.mem_cons_self)), hlen' _ (List.mem_map_of_mem
      (List.mem_map_of_mem (List.mem_cons_self)))⟩, hB]
    generalize ((v :: vs).map fun u => (h u).tensor.rows) = ts at *
    simp only [assign]
    rw [if_neg (by simp), if_pos (by simp)]
    have hr : (List.range (count mask)).map (fun i => f ((ts.map (select mask)).filterMap (bget · i))) =
        (select mask (List.range mask.length)).map (fun i => f (ts.filterMap (·[i]?))) := by
      apply List.ext_getElem?
      intro j
      have hsl := select_length mask (List.range mask.length) (by simp)
      by_cases hj : j < count mask
      · simp only [List.getElem?_map, List.getElem?_range hj, Option.map_some]
        rw [filterMap_select mask ts hlen j hj, List.getElem?_eq_getElem (by rw [hsl]; exact hj)]
        simp
      · rw [List.getElem?_eq_none (by simpa using hj), List.getElem?_eq_none (by
          rw [List.length_map, hsl]; omega)]
    rw [hr, put_select _ _ _ (by simp)]
    congr 2
    unfold maskedSpec
    apply List.ext_getElem?
    intro i
    simp only [List.getElem?_zipWith, List.getElem?_map]
    by_cases hi : i < mask.length
    · simp [List.getElem?_eq_getElem hi, List.getElem?_range hi, List.getD_eq_getElem?_getD]
    · simp [hi]

/-- C41: with a full batch of weights, evaluating Jacobians only where the weight is not zero gives
exactly the weighted Jacobians and error of the plain evaluation, and all variables are restored. `hz`
says that a zero weight gives the same for every row; see `scale_zero` and `diag_zero`. -/
theorem masking_changes_nothing [Zero ε] (W : WeightKind ω ε)
    (hz : ∀ w, W.isZero w = true → ∀ e, W.app w e = W.app w 0)
    (code : List (List ρ) → Except Err (List ε)) (f : List ρ → ε) (hc : Batchwise code f)
    (vs : List Var) (ws : List ω) (h : Heap ρ) (hne : vs ≠ []) (hnd : vs.Nodup)
    (hl : ∀ v ∈ vs, (h v).tensor.rows.length = ws.length) :
    (weightedJacobians true W code vs ws h).2 = (weightedJacobians false W code vs ws h).2 ∧
    (∃ rs, (weightedJacobians true W code vs ws h).2 = .ok rs ∧ rs.length = ws.length) ∧
    ∀ v, ((weightedJacobians true W code vs ws h).1 v).tensor = (h v).tensor := by
  have hlen : ∀ t ∈ vs.map fun u => (h u).tensor.rows, t.length = ws.length := by
    intro t ht
    rw [List.mem_map] at ht
    obtain ⟨u, hu, rfl⟩ := ht
    exact hl u hu
  have hex : ∃ t ∈ vs.map fun u => (h u).tensor.rows, t.length = ws.length := by
    cases vs with
    | nil => exact absurd rfl hne
    | cons v vs => exact ⟨_, List.mem_map_of_mem List.mem_cons_self, hlen _ (List.mem_map_of_mem List.mem_cons_self)⟩
  have hplain := hc _ _ (fun t ht => Or.inr (hlen t ht)) hex
  have key : ∀ rs : List ε, rs.length = ws.length → applyWeight W ws rs = .ok (List.zipWith W.app ws rs) := by
    intro rs hrs
    unfold applyWeight
    split
    next w =>
      cases rs with
      | nil => simp at hrs
      | cons r rs => cases rs with
        | nil => rfl
        | cons => simp at hrs
    next r h1 =>
      cases ws with
      | nil => simp at hrs
      | cons w ws => cases ws with
        | nil => rfl
        | cons => simp at hrs
    next => rw [if_pos hrs.symm]
  by_cases hm : ws.length > 1
  · obtain ⟨h'', m1, m2⟩ := masked_jacobians_rows code f hc vs (ws.map fun w => !W.isZero w) h hne hnd
      (by simpa using hl)
    have e1 : weightedJacobians true W code vs ws h = (h'', .ok (List.zipWith W.app ws
        (maskedSpec f (ws.map fun w => !W.isZero w) (vs.map fun v => (h v).tensor.rows)))) := by
      unfold weightedJacobians
      simp only [List.length_map, hm, decide_true, Bool.and_self, if_true, m1]
      rw [key _ (by simp [maskedSpec])]
    have e2 : weightedJacobians false W code vs ws h = (h, .ok (List.zipWith W.app ws
        ((List.range ws.length).map fun i => f ((vs.map fun u => (h u).tensor.rows).filterMap (bget · i))))) := by
      unfold weightedJacobians
      simp only [Bool.false_and, Bool.false_eq_true, if_false, hplain]
      rw [key _ (by simp)]
    rw [e1, e2]
    refine ⟨?_, ⟨_, rfl, by simp [maskedSpec]⟩, m2⟩
    simp only
    congr 1
    apply List.ext_getElem?
    intro i
    simp only [List.getElem?_zipWith, maskedSpec, List.getElem?_map, List.length_map]
    by_cases hi : i < ws.length
    · simp only [List.getElem?_eq_getElem hi, List.getElem?_range hi, Option.map_some,
        List.getD_eq_getElem?_getD, List.getElem?_map, Option.getD_some]
      by_cases hw : W.isZero ws[i] = true
      · simp [hw, hz _ hw (f _)]
      · have hff : (vs.map fun u => (h u).tensor.rows).filterMap (bget · i) =
            (vs.map fun u => (h u).tensor.rows).filterMap (·[i]?) := by
          apply List.filterMap_congr
          intro t ht
          have := hlen t ht
          unfold bget
          rw [if_neg (by omega)]
        simp [hw, hff]
    · simp [List.getElem?_eq_none (not_lt.1 hi)]
  · have e1 : weightedJacobians true W code vs ws h = weightedJacobians false W code vs ws h := by
      unfold weightedJacobians
      simp [hm]
    rw [e1]
    refine ⟨rfl, ?_, fun v => by simp [weightedJacobians]⟩
    unfold weightedJacobians
    simp only [Bool.false_and, Bool.false_eq_true, if_false, hplain]
    rw [key _ (by simp)]
    exact ⟨_, rfl, by simp⟩

/-- `ScaleCostWeight` meets the hypothesis `hz` of `masking_changes_nothing`. -/
theorem scale_zero (R : Type) [CommRing R] [DecidableEq R] (d k : Nat) (w : R)
    (hw : (scaleKind R d k).isZero w = true) (e : Block R d k) :
    (scaleKind R d k).app w e = (scaleKind R d k).app w 0 := by
  simp only [scaleKind, decide_eq_true_eq] at hw
  subst hw
  simp [scaleKind]

/-- `DiagonalCostWeight` meets the hypothesis `hz` of `masking_changes_nothing`. -/
theorem diag_zero (R : Type) [CommRing R] [DecidableEq R] (d k : Nat) (w : Fin d → R)
    (hw : (diagKind R d k).isZero w = true) (e : Block R d k) :
    (diagKind R d k).app w e = (diagKind R d k).app w 0 := by
  simp only [diagKind, decide_eq_true_eq] at hw
  funext i j
  simp [diagKind, hw i]

namespace MaskEx

/-- Two variables, of two batch elements each, and one of a single batch element. -/
def x : Var := { id := 0, name := 0, dtype := 0 }
@[inherit_doc x] def y : Var := { id := 1, name := 1, dtype := 0 }
@[inherit_doc x] def z : Var := { id := 2, name := 2, dtype := 0 }

/-- Their tensors. -/
def h : Heap Int := fun v => if v = z then ⟨{ rows := [7] }, 0⟩ else ⟨{ rows := [3, 4] }, 0⟩

/-- A cost function `(sum of variables)` with one row per batch element. -/
def code (ts : List (List Int)) : Except Err (List (Block Int 1 1)) :=
  .ok ((List.range (if ts.any (fun t => decide (t.length ≠ 1)) then
      ((ts.find? (fun t => decide (t.length ≠ 1))).getD []).length else 1)).map fun i => fun _ _ =>
    (ts.filterMap (bget · i)).sum)

end MaskEx

open MaskEx in
/-- Batches of two, the second one with zero weight: the premises hold. -/
example : [x, y].Nodup ∧ (∀ v ∈ [x, y], (MaskEx.h v).tensor.rows.length = [(2 : Int), 0].length) ∧
    (match (weightedJacobians true (scaleKind Int 1 1) code [x, y] [2, 0] MaskEx.h).2 with
      | .ok rs => rs.map fun J => J 0 0
      | .error _ => []) = [12, 0] := by
  decide

/-- The example cost function works batch element by batch element. -/
example : Batchwise MaskEx.code (fun r => fun _ _ => r.sum) := by
  intro ts N hl hex
  unfold MaskEx.code
  congr 2
  by_cases h : ∃ t ∈ ts, t.length ≠ 1
  · rw [if_pos (by simpa using h)]
    obtain ⟨t, ht⟩ : ∃ t, ts.find? (fun t => decide (t.length ≠ 1)) = some t := by
      rw [← Option.isSome_iff_exists, List.find?_isSome]
      obtain ⟨t, h1, h2⟩ := h
      exact ⟨t, h1, by simpa using h2⟩
    have h1 := List.find?_some ht
    have h2 := List.mem_of_find?_eq_some ht
    rw [ht]
    rcases hl t h2 with h3 | h3
    · simp [h3] at h1
    · simp [h3]
  · rw [if_neg (by simpa using h)]
    push Not at h
    obtain ⟨t, h1, h2⟩ := hex
    rw [← h2, h t h1]

open MaskEx in
/-- The full C41 is false of `masked_variables` itself: when one variable has a single (broadcast) batch
element, entering the context raises `AssertionError` after the earlier variables were masked, and
these are left with their masked tensors. -/
theorem masked_variables_not_restored :
    ∃ (vs : List Var) (mask : List Bool) (h : Heap Int), vs.Nodup ∧
      (∀ v ∈ vs, (h v).tensor.rows.length = 1 ∨ (h v).tensor.rows.length = mask.length) ∧
      (withMasked vs mask (fun _ => Except.ok ()) h).2 = .error .assertionError ∧
      ((withMasked vs mask (fun _ => Except.ok ()) h).1 x).tensor ≠ (h x).tensor :=
  ⟨[x, z], [true, false], MaskEx.h, by decide, by decide, rfl, by decide⟩

open MaskEx in
/-- The same happens when one variable object is used twice by a cost function. -/
theorem masked_variables_repeated_not_restored :
    ∃ (v : Var) (mask : List Bool) (h : Heap Int), (h v).tensor.rows.length = mask.length ∧
      (withMasked [v, v] mask (fun _ => Except.ok ()) h).2 = .error .assertionError ∧
      ((withMasked [v, v] mask (fun _ => Except.ok ()) h).1 v).tensor ≠ (h v).tensor :=
  ⟨x, [true, false], MaskEx.h, by decide, rfl, by decide⟩

end Verif.Masking
