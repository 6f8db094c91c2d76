import Verif.Vectorize.Groups
import Mathlib.Algebra.Field.Rat
import Mathlib.Algebra.BigOperators.Group.List.Lemmas
/-!
# Vectorized evaluation (C18, C19, C20)

`run (init dt false) hist` with `Succeeds` is any objective built by successful calls; `h` holds
arbitrary tensors.  `ev c` is the code of the cost function `c` and `Batchwise (ev c) (f c)` says it
computes batch element by batch element.  `N` gives the names that vectorization compares.
-/
namespace Verif.Vectorize
open Verif Verif.Objective Verif.Update

variable {ρ ε : Type}

namespace Ex
/-- batched code of a per-element function -/
def batched (f : List ρ → ε) (ts : List (List ρ)) : Except Err (List ε) :=
  let n := ((ts.map List.length).find? (· ≠ 1)).getD 1
  .ok ((List.range n).map fun i => f (ts.filterMap (bget · i)))

theorem batched_batchwise (f : List ρ → ε) : Batchwise (batched f) f := by
  intro ts n h1 h2
  unfold batched
  have : ((ts.map List.length).find? (· ≠ 1)).getD 1 = n := by
    cases hf : (ts.map List.length).find? (· ≠ 1) with
    | none =>
      obtain ⟨t, ht, hl⟩ := h2
      have := List.find?_eq_none.1 hf t.length (List.mem_map_of_mem ht)
      simp at this; simp; omega
    | some a =>
      have ha := List.find?_some hf
      have hm := List.mem_of_find?_eq_some hf
      obtain ⟨t, ht, rfl⟩ := List.mem_map.1 hm
      have := h1 t ht
      simp at ha; simp; omega
  simp only [this]

def x : Var := { id := 1, name := 1 }
def y : Var := { id := 2, name := 2 }
def z : Var := { id := 3, name := 3 }
def t : Var := { id := 4, name := 4 }
def s : Var := { id := 5, name := 5 }
/-- one weight for all, with one variable -/
def w : Weight := { id := 1, auxVars := [s] }
def a1 : CostFn := { id := 11, name := 11, optimVars := [x, y], auxVars := [t], weight := w }
def b : CostFn := { id := 12, name := 12, optimVars := [y], auxVars := [], weight := w }
def a2 : CostFn := { id := 13, name := 13, optimVars := [y, z], auxVars := [t], weight := w }
/-- two cost functions of one kind around one of another kind -/
def calls : List Call := [.add a1, .add b, .add a2]
/-- the class of a cost function is given by its number of variables -/
def N : Naming := ⟨fun c => c.optimVars.length, fun _ => 0, fun _ => 0⟩
/-- `x`, `y`, `z`: two batch elements; `t`, `s`: one -/
def hp : Heap Int := fun v => ⟨{ rows := if v.id ≤ 3 then [10 * v.id, 100 * v.id] else [(v.id : Int)] }, 0⟩
/-- error of one element: the first variable minus the others, in `optimVars.length` copies -/
def f (c : CostFn) (r : List Int) : List Int :=
  List.replicate c.optimVars.length (r.headD 0 - r.tail.sum)
def ev : Code Int (List Int) := fun c => batched (f c)
def o : State := run (init 0 false) calls
theorem ok : Succeeds (init 0 false) calls := by
  refine ⟨?_, ?_, ?_, trivial⟩ <;> decide
end Ex

theorem ready_of_run (dt : Nat) (hist : List Call) (hok : Succeeds (init dt false) hist)
    {N : Naming} {ev : Code ρ ε} {f : CostFn → List ρ → ε} {h : Heap ρ} {B : Nat}
    (hne : ∀ c ∈ iter (run (init dt false) hist), c.optimVars ≠ [])
    (hB : ∀ v, IsVar (run (init dt false) hist) v →
      (h v).tensor.rows.length = 1 ∨ (h v).tensor.rows.length = B)
    (hev : ∀ c ∈ iter (run (init dt false) hist), Batchwise (ev c) (f c))
    (hs : ∀ c ∈ iter (run (init dt false) hist), ∀ c' ∈ iter (run (init dt false) hist),
      schema N c = schema N c' → f c = f c') :
    Ready N ev f h B (iter (run (init dt false) hist)) := by
  obtain ⟨reg, hi, _, _⟩ := run_inv (init_inv dt) hok
  have hit := iter_eq_spec dt hist hok
  have huse : ∀ c ∈ iter (run (init dt false) hist), ∀ v ∈ allVars c, Uses reg v := by
    intro c hc v hv
    rw [hit] at hc
    refine ⟨c, hi.sub c hc, ?_⟩
    unfold allVars at hv
    unfold CostFn.vars CostFn.optims CostFn.auxs
    simpa [or_assoc] using hv
  refine ⟨?_, ?_, ?_, ?_, hev, hs⟩
  · rw [hit]; exact List.Nodup.of_map _ hi.names
  · intro c hc hh
    have := hne c hc
    unfold allVars at hh
    simp at hh
    exact this hh.1
  · intro c hc c' hc' v hv u hu hn
    exact hi.uniq (huse c hc v hv) (huse c' hc' u hu) hn
  · intro c hc v hv
    apply hB
    have := huse c hc v hv
    rw [uses_iff] at this
    rcases this with h1 | h1
    · exact Or.inl ((hi.hasOptim v.name v).2 ⟨rfl, h1⟩)
    · exact Or.inr ((hi.hasAux v.name v).2 ⟨rfl, h1⟩)

/-! ### C18 -/

/-- C18: with vectorization on, evaluation succeeds, and every cost function of the objective is
served a result that agrees, in every batch element, with what the cost function itself computes,
for every sharing of variables and every mix of batch sizes 1 and `B`, provided that cost functions
with equal schemas run the same code. (`fb` is the fallback of an uncached wrapper, never used.) -/
theorem vectorized_results (dt : Nat) (hist : List Call) (hok : Succeeds (init dt false) hist)
    (N : Naming) (ev : Code ρ ε) (f : CostFn → List ρ → ε) (h : Heap ρ) (B : Nat)
    (hne : ∀ c ∈ iter (run (init dt false) hist), c.optimVars ≠ [])
    (hB : ∀ v, IsVar (run (init dt false) hist) v →
      (h v).tensor.rows.length = 1 ∨ (h v).tensor.rows.length = B)
    (hev : ∀ c ∈ iter (run (init dt false) hist), Batchwise (ev c) (f c))
    (hs : ∀ c ∈ iter (run (init dt false) hist), ∀ c' ∈ iter (run (init dt false) hist),
      schema N c = schema N c' → f c = f c') (fb : CostFn → Except Err (List ε)) :
    (vectorize N ev h B (iter (run (init dt false) hist))).2 = none ∧
    ∀ c ∈ iter (run (init dt false) hist), ∃ r r',
      serve (vectorize N ev h B (iter (run (init dt false) hist))).1 fb c = .ok r ∧
      own ev h c = .ok r' ∧ AgreeOn B r r' := by
  have hr := ready_of_run dt hist hok hne hB hev hs
  obtain ⟨v1, v2, v3⟩ := vectorize_spec hr
  refine ⟨v1, fun c hc => ?_⟩
  obtain ⟨r, g1, g2⟩ := get?_of_fst v2 ((mem_grouped N _ c).2 hc)
  obtain ⟨r', o1, o2⟩ := good_own hr hc
  refine ⟨r, r', ?_, o1, (v3 _ g2).agree o2⟩
  unfold serve; rw [g1]

example : (∀ c ∈ iter Ex.o, c.optimVars ≠ []) ∧
    (∀ v, IsVar Ex.o v → (Ex.hp v).tensor.rows.length = 1 ∨ (Ex.hp v).tensor.rows.length = 2) ∧
    (∀ c ∈ iter Ex.o, Batchwise (Ex.ev c) (Ex.f c)) ∧
    (∀ c ∈ iter Ex.o, ∀ c' ∈ iter Ex.o, schema Ex.N c = schema Ex.N c' → Ex.f c = Ex.f c') := by
  refine ⟨by decide, ?_, fun c _ => Ex.batched_batchwise _, ?_⟩
  · intro v _; unfold Ex.hp; split <;> simp
  · intro c _ c' _ hh
    unfold schema Ex.N at hh
    simp only [List.cons_append, List.cons.injEq, Item.fn.injEq] at hh
    funext r; unfold Ex.f; rw [hh.1]
example : vectorize Ex.N Ex.ev Ex.hp 2 (iter Ex.o) =
    ([(Ex.a1, [[-19, -19], [-109, -109]]), (Ex.a2, [[-19, -19], [-109, -109]]), (Ex.b, [[15], [195]])],
      none) := by decide

/-- C18, where it stops: the schema does not see Python attributes that are not variables (such as
`EffectorObjectContactPlanar._use_huber`, `embodied/collision/eff_obj_contact.py:48`).  When two cost
functions of one class differ in such an attribute, one of them is served the other's result. -/
theorem vectorized_results_need_same_code : ∃ (ev : Code Int (List Int)) (f : CostFn → List Int → List Int),
    (∀ c, Batchwise (ev c) (f c)) ∧
    serve (vectorize Ex.N ev Ex.hp 2 (iter Ex.o)).1 (fun _ => .error .runtimeError) Ex.a2
      = .ok [[11], [11]] ∧
    own ev Ex.hp Ex.a2 = .ok [[13], [13]] :=
  ⟨fun c => Ex.batched fun _ => [(c.id : Int)], fun c _ => [(c.id : Int)],
    fun _ => Ex.batched_batchwise _, by decide, by decide⟩

/-! ### C19 -/

theorem sequence_ok {α : Type} {l : List (Except Err α)} {as : List α} (h : sequence l = .ok as) :
    l = as.map Except.ok := by
  induction l generalizing as with
  | nil => cases h; rfl
  | cons a l ih =>
    cases a with
    | error x => cases h
    | ok a =>
      unfold sequence at h
      cases hl : sequence l with
      | error x => rw [hl] at h; cases h
      | ok as' => rw [hl] at h; cases h; rw [ih hl]; rfl

theorem sequence_of_ok {α : Type} (as : List α) : sequence (as.map Except.ok) = .ok as := by
  induction as with
  | nil => rfl
  | cons a as ih => simp [sequence, ih]

theorem catCols_ok {R : Type} {bs : List (List (List R))} {E : List (List R)}
    (h : catCols bs = .ok E) :
    bs ≠ [] ∧ (∀ b ∈ bs, b.length = E.length) ∧
      E = (List.range E.length).map fun i => bs.flatMap fun b => b.getD i [] := by
  induction bs generalizing E with
  | nil => cases h
  | cons b bs ih =>
    cases bs with
    | nil =>
      cases h
      refine ⟨by simp, by simp, ?_⟩
      apply List.ext_getElem
      · simp
      · intro i h1 h2; simp [List.getElem?_eq_getElem h1]
    | cons b' bs' =>
      unfold catCols at h
      cases hr : catCols (b' :: bs') with
      | error x => rw [hr] at h; cases h
      | ok r =>
        rw [hr] at h
        simp only at h
        split at h
        · rename_i hl
          cases h
          obtain ⟨_, i1, i2⟩ := ih hr
          have hlen : (List.zipWith (· ++ ·) b r).length = r.length := by simp [hl]
          refine ⟨by simp, ?_, ?_⟩
          · intro c hc
            rw [hlen]
            rcases List.mem_cons.1 hc with rfl | hc
            · exact hl
            · exact i1 c hc
          · rw [hlen]
            apply List.ext_getElem
            · simp [hl]
            · intro i h1 h2
              have hi : i < r.length := by simpa using h2
              have hib : i < b.length := by omega
              have := congrArg (fun l => l[i]?) i2
              simp only [List.getElem?_map, List.getElem?_range hi, List.getElem?_eq_getElem hi,
                Option.map_some, Option.some.injEq] at this
              simp only [List.getElem_zipWith, List.getElem_map, List.getElem_range]
              rw [List.flatMap_cons, ← this]
              congr 1
              simp [List.getD_eq_getElem?_getD, List.getElem?_eq_getElem hib]
        · cases h

theorem catCols_of {R : Type} (bs : List (List (List R))) (n : Nat) (hne : bs ≠ [])
    (hl : ∀ b ∈ bs, b.length = n) : ∃ E, catCols bs = .ok E ∧ E.length = n := by
  induction bs with
  | nil => exact absurd rfl hne
  | cons b bs ih =>
    cases bs with
    | nil => exact ⟨b, rfl, hl b (by simp)⟩
    | cons b' bs' =>
      obtain ⟨r, h1, h2⟩ := ih (by simp) (fun c hc => hl c (by simp [hc]))
      unfold catCols
      rw [h1]
      simp only
      have := hl b (by simp)
      rw [if_pos (by omega)]
      exact ⟨_, rfl, by simp [this, h2]⟩

/-- C19 without vectorization: when `error()` returns, it is the errors of the cost functions side by
side in the order in which they were added. -/
theorem error_order_unvectorized {R : Type} (dt : Nat) (hist : List Call)
    (hok : Succeeds (init dt false) hist) (ev : Code ρ (List R)) (h : Heap ρ) (E : List (List R))
    (he : errorSeq ev h (iter (run (init dt false) hist)) = .ok E) :
    ∃ block : CostFn → List (List R),
      (∀ c ∈ specRun [] hist, own ev h c = .ok (block c) ∧ (block c).length = E.length) ∧
      E = sideBySide E.length block (specRun [] hist) := by
  rw [iter_eq_spec dt hist hok] at he
  unfold errorSeq at he
  cases hs : sequence ((specRun [] hist).map (own ev h)) with
  | error x => rw [hs] at he; cases he
  | ok bs =>
    rw [hs] at he
    simp only at he
    have hseq := sequence_ok hs
    obtain ⟨_, c1, c2⟩ := catCols_ok he
    set block : CostFn → List (List R) := fun c => match own ev h c with
      | .ok r => r
      | .error _ => [] with hblock
    have hb : ∀ c ∈ specRun [] hist, own ev h c = .ok (block c) := by
      intro c hc
      have : own ev h c ∈ bs.map Except.ok := by rw [← hseq]; exact List.mem_map_of_mem hc
      obtain ⟨r, hr, hr'⟩ := List.mem_map.1 this
      rw [hblock]; simp only [← hr']
    have hbs : bs = (specRun [] hist).map block := by
      have h1 : bs.map (Except.ok (ε := Err)) = ((specRun [] hist).map block).map Except.ok := by
        rw [← hseq, List.map_map]
        exact List.map_congr_left fun c hc => hb c hc
      exact List.map_injective_iff.2 (fun a b h => by cases h; rfl) h1
    refine ⟨block, fun c hc => ⟨hb c hc, c1 _ ?_⟩, ?_⟩
    · rw [hbs]; exact List.mem_map_of_mem hc
    · conv_lhs => rw [c2, hbs]
      unfold sideBySide
      apply List.map_congr_left
      intro i _
      rw [List.flatMap_map]

example : errorSeq Ex.ev Ex.hp (iter Ex.o) =
    .ok [[-19, -19, 15, -19, -19], [-109, -109, 195, -109, -109]] := by decide

theorem errorVec_spec {R : Type} {N : Naming} {ev : Code ρ (List R)} {f : CostFn → List ρ → List R}
    {h : Heap ρ} {B : Nat} {cs : List CostFn} (hr : Ready N ev f h B cs) {E : List (List R)}
    (he : errorVec N ev h B cs = .ok E) :
    ∃ block : CostFn → List (List R), (∀ c ∈ cs, Good f h B c (block c) ∧ (block c).length = E.length) ∧
      E = sideBySide E.length block (grouped N cs) := by
  obtain ⟨v1, v2, v3⟩ := vectorize_spec hr
  unfold errorVec at he
  have hv : vectorize N ev h B cs = ((vectorize N ev h B cs).1, none) := by rw [← v1]
  rw [hv] at he
  simp only at he
  set rs := (vectorize N ev h B cs).1 with hrs
  obtain ⟨_, c1, c2⟩ := catCols_ok he
  set block : CostFn → List (List R) := fun c => (Dict.get? rs c).getD [] with hblock
  have hnd : (Dict.keys rs).Nodup := by unfold Dict.keys; rw [v2]; exact grouped_nodup N cs hr.nodup
  have hbs : rs.map Prod.snd = (grouped N cs).map block := by
    have := dict_eq_map rs hnd
    rw [← v2]; exact this
  refine ⟨block, fun c hc => ?_, ?_⟩
  · obtain ⟨r, g1, g2⟩ := get?_of_fst v2 ((mem_grouped N _ c).2 hc)
    have hb : block c = r := by rw [hblock]; simp [g1]
    rw [hb]
    exact ⟨v3 _ g2, c1 r (List.mem_map.2 ⟨(c, r), g2, rfl⟩)⟩
  · conv_lhs => rw [c2, hbs]
    unfold sideBySide
    apply List.map_congr_left
    intro i _
    rw [List.flatMap_map]

theorem Good.getD {R : Type} {f : CostFn → List ρ → List R} {h : Heap ρ} {B : Nat} {c : CostFn}
    {r r' : List (List R)} (h1 : Good f h B c r) (h2 : Good f h B c r') (hB : r.length = B)
    (hB' : r'.length = B) : r = r' := by
  apply List.ext_getElem?
  intro i
  by_cases hi : i < B
  · have a := h1.2.2 i hi
    have b := h2.2.2 i hi
    rw [bget_eq _ i (by omega)] at a b
    rw [a, b]
  · rw [List.getElem?_eq_none (by omega), List.getElem?_eq_none (by omega)]

/-- The vectorized and unvectorized error matrices have the same blocks, in different orders. -/
theorem errors_same_blocks {R : Type} {N : Naming} {ev : Code ρ (List R)}
    {f : CostFn → List ρ → List R} {h : Heap ρ} {B : Nat} {cs : List CostFn}
    (hr : Ready N ev f h B cs) (hex : ∃ c ∈ cs, ∃ v ∈ allVars c, (rowsOf h v).length = B)
    {E : List (List R)} (he : errorSeq ev h cs = .ok E) :
    ∃ block : CostFn → List (List R), (∀ c ∈ cs, own ev h c = .ok (block c)) ∧
      E = sideBySide B block cs ∧ errorVec N ev h B cs = .ok (sideBySide B block (grouped N cs)) := by
  -- every own result has `B` rows
  unfold errorSeq at he
  cases hs : sequence (cs.map (own ev h)) with
  | error x => rw [hs] at he; cases he
  | ok bs =>
  rw [hs] at he
  simp only at he
  have hseq := sequence_ok hs
  obtain ⟨_, c1, c2⟩ := catCols_ok he
  set block : CostFn → List (List R) := fun c => match own ev h c with
    | .ok r => r
    | .error _ => [] with hblock
  have hb : ∀ c ∈ cs, own ev h c = .ok (block c) := by
    intro c hc
    have : own ev h c ∈ bs.map Except.ok := by rw [← hseq]; exact List.mem_map_of_mem hc
    obtain ⟨r, hr, hr'⟩ := List.mem_map.1 this
    rw [hblock]; simp only [← hr']
  have hbs : bs = cs.map block := by
    have h1 : bs.map (Except.ok (ε := Err)) = (cs.map block).map Except.ok := by
      rw [← hseq, List.map_map]
      exact List.map_congr_left fun c hc => hb c hc
    exact List.map_injective_iff.2 (fun a b h => by cases h; rfl) h1
  have hgood : ∀ c ∈ cs, Good f h B c (block c) := by
    intro c hc
    obtain ⟨r, o1, o2⟩ := good_own hr hc
    rw [hb c hc] at o1; cases o1; exact o2
  have hEB : E.length = B := by
    obtain ⟨c, hc, hv⟩ := hex
    rw [← c1 (block c) (by rw [hbs]; exact List.mem_map_of_mem hc)]
    exact (hgood c hc).2.1 hv
  have hlen : ∀ c ∈ cs, (block c).length = B := by
    intro c hc
    rw [c1 (block c) (by rw [hbs]; exact List.mem_map_of_mem hc), hEB]
  refine ⟨block, hb, ?_, ?_⟩
  · conv_lhs => rw [c2, hbs, hEB]
    unfold sideBySide
    apply List.map_congr_left
    intro i _
    rw [List.flatMap_map]
  · -- the vectorized blocks
    obtain ⟨v1, v2, v3⟩ := vectorize_spec hr
    have hv : vectorize N ev h B cs = ((vectorize N ev h B cs).1, none) := by rw [← v1]
    set rs := (vectorize N ev h B cs).1 with hrs
    have hlenV : ∀ p ∈ rs, p.2.length = B := by
      intro p hp
      obtain ⟨g1, g2, g3⟩ := v3 p hp
      have hpc : p.1 ∈ cs := by
        rw [← mem_grouped N cs, ← v2]; exact List.mem_map_of_mem hp
      rcases g1 with g1 | g1
      · obtain ⟨q1, q2, q3⟩ := hgood p.1 hpc
        by_cases hex' : ∃ v ∈ allVars p.1, (rowsOf h v).length = B
        · exact g2 hex'
        · -- own code was run on batch-one tensors, so `B = 1`
          have hall : ∀ v ∈ allVars p.1, (rowsOf h v).length = 1 := by
            intro v hv
            rcases hr.sizes _ hpc v hv with h1 | h1
            · exact h1
            · exact absurd ⟨v, hv, h1⟩ hex'
          obtain ⟨n, o1, o2, o3, o4⟩ := own_spec ev f h B p.1 (hr.code _ hpc) (hr.ne _ hpc)
            (hr.sizes _ hpc)
          have h1 := hr.code p.1 hpc ((allVars p.1).map (rowsOf h)) 1
            (by intro t ht; obtain ⟨v, hv, rfl⟩ := List.mem_map.1 ht; exact Or.inl (hall v hv))
            (by
              obtain ⟨v, vs, hv⟩ := List.exists_cons_of_ne_nil (hr.ne _ hpc)
              exact ⟨_, List.mem_map_of_mem (by rw [hv]; simp), hall v (by rw [hv]; simp)⟩)
          have h2 := hb p.1 hpc
          unfold own at h2
          rw [h1] at h2
          have h3 := hlen p.1 hpc
          cases h2' : block p.1 with
          | nil => rw [h2'] at h2; simp at h2
          | cons a l =>
            rw [h2'] at h2
            simp only [List.range_one, List.map_cons, List.map_nil, Except.ok.injEq,
              List.cons.injEq] at h2
            rw [h2', ← h2.2] at h3
            simp at h3
            omega
      · exact g1
    have hblk : rs.map Prod.snd = (grouped N cs).map block := by
      rw [← v2, List.map_map]
      apply List.map_congr_left
      intro p hp
      have hpc : p.1 ∈ cs := by
        rw [← mem_grouped N cs, ← v2]; exact List.mem_map_of_mem hp
      exact (v3 p hp).getD (hgood p.1 hpc) (hlenV p hp) (hlen p.1 hpc)
    have hne : rs.map Prod.snd ≠ [] := by
      obtain ⟨c, hc, _⟩ := hex
      obtain ⟨r, _, g2⟩ := get?_of_fst v2 ((mem_grouped N _ c).2 hc)
      intro hh
      have : rs = [] := by simpa using hh
      rw [this] at g2; simp at g2
    obtain ⟨E', e1, e2⟩ := catCols_of (rs.map Prod.snd) B hne (by
      intro b hb; obtain ⟨p, hp, rfl⟩ := List.mem_map.1 hb; exact hlenV p hp)
    unfold errorVec
    rw [hv]
    simp only
    rw [e1]
    obtain ⟨_, _, d2⟩ := catCols_ok e1
    rw [hblk, e2] at d2
    rw [d2]
    unfold sideBySide
    congr 1
    apply List.map_congr_left
    intro i _
    rw [List.flatMap_map]

/-- C19 with vectorization: when the unvectorized `error()` returns, the vectorized one returns too,
with the very same blocks, but side by side in the order of `grouped`: cost functions of one schema
together, schemas in order of first appearance. -/
theorem error_order_vectorized {R : Type} (dt : Nat) (hist : List Call)
    (hok : Succeeds (init dt false) hist) (N : Naming) (ev : Code ρ (List R))
    (f : CostFn → List ρ → List R) (h : Heap ρ) (B : Nat)
    (hne : ∀ c ∈ iter (run (init dt false) hist), c.optimVars ≠ [])
    (hB : ∀ v, IsVar (run (init dt false) hist) v →
      (h v).tensor.rows.length = 1 ∨ (h v).tensor.rows.length = B)
    (hex : ∃ c ∈ iter (run (init dt false) hist), ∃ v ∈ c.vars, (h v).tensor.rows.length = B)
    (hev : ∀ c ∈ iter (run (init dt false) hist), Batchwise (ev c) (f c))
    (hs : ∀ c ∈ iter (run (init dt false) hist), ∀ c' ∈ iter (run (init dt false) hist),
      schema N c = schema N c' → f c = f c') (E : List (List R))
    (he : errorSeq ev h (iter (run (init dt false) hist)) = .ok E) :
    ∃ block : CostFn → List (List R), (∀ c ∈ specRun [] hist, own ev h c = .ok (block c)) ∧
      E = sideBySide B block (specRun [] hist) ∧
      errorVec N ev h B (iter (run (init dt false) hist)) =
        .ok (sideBySide B block (grouped N (specRun [] hist))) := by
  have hr := ready_of_run dt hist hok hne hB hev hs
  have hex' : ∃ c ∈ iter (run (init dt false) hist), ∃ v ∈ allVars c, (rowsOf h v).length = B := by
    obtain ⟨c, hc, v, hv, hl⟩ := hex
    refine ⟨c, hc, v, ?_, hl⟩
    unfold CostFn.vars CostFn.optims CostFn.auxs at hv
    unfold allVars
    simpa [or_assoc] using hv
  have := errors_same_blocks hr hex' he
  rwa [iter_eq_spec dt hist hok] at this ⊢

example : grouped Ex.N (specRun [] Ex.calls) = [Ex.a1, Ex.a2, Ex.b] := by decide
example : errorVec Ex.N Ex.ev Ex.hp 2 (iter Ex.o) =
    .ok [[-19, -19, -19, -19, 15], [-109, -109, -109, -109, 195]] := by decide
example : ∃ c ∈ iter Ex.o, ∃ v ∈ c.vars, (Ex.hp v).tensor.rows.length = 2 := by decide

/-- C19: the vectorized error is in insertion order when cost functions of one schema were added one
after another.  Missing for the full claim: interleaved schemas, for which it is false (next theorem). -/
theorem error_order_vectorized_partial {R : Type} (dt : Nat) (hist : List Call)
    (hok : Succeeds (init dt false) hist) (N : Naming) (ev : Code ρ (List R))
    (f : CostFn → List ρ → List R) (h : Heap ρ) (B : Nat)
    (hne : ∀ c ∈ iter (run (init dt false) hist), c.optimVars ≠ [])
    (hB : ∀ v, IsVar (run (init dt false) hist) v →
      (h v).tensor.rows.length = 1 ∨ (h v).tensor.rows.length = B)
    (hex : ∃ c ∈ iter (run (init dt false) hist), ∃ v ∈ c.vars, (h v).tensor.rows.length = B)
    (hev : ∀ c ∈ iter (run (init dt false) hist), Batchwise (ev c) (f c))
    (hs : ∀ c ∈ iter (run (init dt false) hist), ∀ c' ∈ iter (run (init dt false) hist),
      schema N c = schema N c' → f c = f c')
    (hcontig : Contiguous N (specRun [] hist))
    (E : List (List R)) (he : errorSeq ev h (iter (run (init dt false) hist)) = .ok E) :
    errorVec N ev h B (iter (run (init dt false) hist)) = .ok E := by
  obtain ⟨block, _, b2, b3⟩ := error_order_vectorized dt hist hok N ev f h B hne hB hex hev hs E he
  rw [b3, grouped_eq_self N _ hcontig, ← b2]

example : Contiguous Ex.N (specRun [] [.add Ex.a1, .add Ex.a2, .add Ex.b]) := by
  rintro l1 c l2 c' l3 he hs d hd
  have hlen := congrArg List.length he
  have h0 : (specRun [] [.add Ex.a1, .add Ex.a2, .add Ex.b]).length = 3 := by decide
  rw [h0] at hlen
  simp only [List.length_append, List.length_cons] at hlen
  match l1, l2, l3, hd with
  | [], [e], [], hd =>
    have : specRun [] [.add Ex.a1, .add Ex.a2, .add Ex.b] = [Ex.a1, Ex.a2, Ex.b] := by decide
    rw [this] at he
    simp only [List.nil_append, List.cons_append, List.cons.injEq, and_true] at he
    obtain ⟨rfl, rfl, rfl⟩ := he
    exact absurd hs (by decide)
  | _ :: _, _ :: _, _, _ => simp only [List.length_cons] at hlen; omega
  | [], _ :: _ :: _, _, _ => simp only [List.length_cons] at hlen; omega
  | [], [_], _ :: _, _ => simp only [List.length_cons] at hlen; omega

/-- C19 is false under vectorization: with a cost function of another kind added in between, the
error vector is not in insertion order. -/
theorem error_order_vectorized_differs :
    ∃ E E', errorSeq Ex.ev Ex.hp (iter Ex.o) = .ok E ∧
      errorVec Ex.N Ex.ev Ex.hp 2 (iter Ex.o) = .ok E' ∧ E ≠ E' :=
  ⟨_, _, rfl, rfl, by decide⟩

/-! ### C20 -/

theorem sqsum_flatMap {R : Type} [Field R] (g : CostFn → List R) (cs cs' : List CostFn)
    (hp : cs'.Perm cs) :
    ((cs'.flatMap g).map fun a => a ^ 2).sum = ((cs.flatMap g).map fun a => a ^ 2).sum :=
  List.Perm.sum_eq ((hp.flatMap_right g).map _)

/-- C20: the default error metric (half the squared norm of the error vector) is the same with and
without vectorization, whenever the unvectorized one is defined. -/
theorem error_metric_vectorized {R : Type} [Field R] (dt : Nat) (hist : List Call)
    (hok : Succeeds (init dt false) hist) (N : Naming) (ev : Code ρ (List R))
    (f : CostFn → List ρ → List R) (h : Heap ρ) (B : Nat)
    (hne : ∀ c ∈ iter (run (init dt false) hist), c.optimVars ≠ [])
    (hB : ∀ v, IsVar (run (init dt false) hist) v →
      (h v).tensor.rows.length = 1 ∨ (h v).tensor.rows.length = B)
    (hex : ∃ c ∈ iter (run (init dt false) hist), ∃ v ∈ c.vars, (h v).tensor.rows.length = B)
    (hev : ∀ c ∈ iter (run (init dt false) hist), Batchwise (ev c) (f c))
    (hs : ∀ c ∈ iter (run (init dt false) hist), ∀ c' ∈ iter (run (init dt false) hist),
      schema N c = schema N c' → f c = f c') (E : List (List R))
    (he : errorSeq ev h (iter (run (init dt false) hist)) = .ok E) :
    ∃ E', errorVec N ev h B (iter (run (init dt false) hist)) = .ok E' ∧ sqNorm E' = sqNorm E := by
  obtain ⟨block, _, b2, b3⟩ := error_order_vectorized dt hist hok N ev f h B hne hB hex hev hs E he
  refine ⟨_, b3, ?_⟩
  have hnd : (specRun [] hist).Nodup := by
    obtain ⟨reg, hi, _, _⟩ := run_inv (init_inv dt) hok
    exact List.Nodup.of_map _ hi.names
  rw [b2]
  unfold sqNorm sideBySide
  simp only [List.map_map]
  apply List.map_congr_left
  intro i _
  simp only [Function.comp]
  rw [sqsum_flatMap _ _ _ (grouped_perm N _ hnd)]

example : sqNorm [[(3 : ℚ), 4, 1], [0, 2, 0]] = [13, 2] := by decide +kernel

end Verif.Vectorize
