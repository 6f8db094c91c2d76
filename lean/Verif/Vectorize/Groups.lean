import Verif.Vectorize.Lemmas
/-!
# Lemmas: grouping by schema, and running all the groups
-/
namespace Verif.Vectorize
open Verif Verif.Objective Verif.Update

variable {ρ ε : Type}

theorem schemaAdd_get (N : Naming) (d : Dict (List Item) (List CostFn)) (c : CostFn) (s : List Item) :
    ((schemaAdd N d c).get? s).getD [] =
      (d.get? s).getD [] ++ (if schema N c = s then [c] else []) := by
  unfold schemaAdd
  rw [Dict.get?_set]
  by_cases h : schema N c = s
  · subst h; simp
  · simp [h]

theorem schemaFold_get (N : Naming) (cs : List CostFn) (d : Dict (List Item) (List CostFn))
    (s : List Item) :
    ((cs.foldl (schemaAdd N) d).get? s).getD [] =
      (d.get? s).getD [] ++ cs.filter fun c => decide (schema N c = s) := by
  induction cs generalizing d with
  | nil => simp
  | cons c cs ih =>
    rw [List.foldl_cons, ih, schemaAdd_get, List.append_assoc, List.filter_cons]
    by_cases h : schema N c = s <;> simp [h]

theorem keys_set' {κ α : Type} [DecidableEq κ] (d : Dict κ α) (k : κ) (a : α) :
    (d.set k a).keys = if k ∈ d.keys then d.keys else d.keys ++ [k] := by
  rw [Dict.keys_set]
  by_cases h : k ∈ d.keys
  · rw [if_pos h]; simp [Dict.mem_keys_iff.1 h]
  · rw [if_neg h]
    have : (d.get? k).isSome = false := by
      simpa [Dict.mem_keys_iff] using h
    simp [this]

theorem schemaFold_keys (N : Naming) (cs : List CostFn) (d : Dict (List Item) (List CostFn)) :
    (cs.foldl (schemaAdd N) d).keys =
      d.keys ++ (((cs.map (schema N)).filter fun s => !d.keys.contains s).eraseDups) := by
  induction cs generalizing d with
  | nil => simp
  | cons c cs ih =>
    rw [List.foldl_cons, ih]
    unfold schemaAdd
    rw [keys_set']
    by_cases h : schema N c ∈ d.keys
    · rw [if_pos h]
      simp [h]
    · rw [if_neg h]
      simp only [List.map_cons, List.filter_cons]
      rw [if_pos (by simpa using h), List.eraseDups_cons, List.append_assoc, List.filter_filter]
      congr 1
      simp only [List.singleton_append, List.cons.injEq, true_and]
      congr 1
      apply List.filter_congr
      intro s _
      simp only [List.contains_eq_mem, List.mem_append, List.mem_singleton]
      by_cases h1 : s = schema N c <;> by_cases h2 : s ∈ d.keys <;> simp [h1, h2]

theorem schemaDict_keys (N : Naming) (cs : List CostFn) :
    (schemaDict N cs).keys = (cs.map (schema N)).eraseDups := by
  unfold schemaDict
  rw [schemaFold_keys]
  have : (List.map (schema N) cs).filter (fun s => !(Dict.keys ([] : Dict (List Item) (List CostFn))).contains s)
      = cs.map (schema N) := by
    rw [List.filter_eq_self]; intro a _; simp [Dict.keys]
  rw [this]; simp [Dict.keys]

theorem schemaFold_nodup (N : Naming) (cs : List CostFn) (d : Dict (List Item) (List CostFn))
    (h : d.keys.Nodup) : (cs.foldl (schemaAdd N) d).keys.Nodup := by
  induction cs generalizing d with
  | nil => exact h
  | cons c cs ih => exact ih _ (Dict.nodup_set h _ _)

theorem schemaDict_nodup (N : Naming) (cs : List CostFn) : (schemaDict N cs).keys.Nodup :=
  schemaFold_nodup N cs [] (by simp [Dict.keys])

theorem dict_eq_map {κ α : Type} [DecidableEq κ] (d : Dict κ (List α)) (hn : d.keys.Nodup) :
    d.vals = d.keys.map fun k => (d.get? k).getD [] := by
  unfold Dict.vals Dict.keys
  rw [List.map_map]
  apply List.map_congr_left
  intro p hp
  simp only [Function.comp]
  rw [Dict.get?_of_mem hn (show (p.1, p.2) ∈ d from hp)]; rfl

/-- The groups of the schema dictionary. -/
theorem schemaDict_vals (N : Naming) (cs : List CostFn) :
    (schemaDict N cs).vals = (cs.map (schema N)).eraseDups.map fun s =>
      cs.filter fun c => decide (schema N c = s) := by
  rw [dict_eq_map _ (schemaDict_nodup N cs), schemaDict_keys]
  apply List.map_congr_left
  intro s _
  unfold schemaDict
  rw [schemaFold_get]; simp

theorem vals_flatten (N : Naming) (cs : List CostFn) :
    (schemaDict N cs).vals.flatten = grouped N cs := by
  rw [schemaDict_vals]; unfold grouped; rw [List.flatMap_def]

theorem mem_grouped (N : Naming) (cs : List CostFn) (c : CostFn) : c ∈ grouped N cs ↔ c ∈ cs := by
  unfold grouped
  simp only [List.mem_flatMap, List.mem_filter, decide_eq_true_eq]
  constructor
  · rintro ⟨s, _, h, _⟩; exact h
  · intro h; exact ⟨schema N c, by simpa using ⟨c, h, rfl⟩, h, rfl⟩

theorem grouped_nodup (N : Naming) (cs : List CostFn) (hn : cs.Nodup) : (grouped N cs).Nodup := by
  unfold grouped
  rw [List.nodup_flatMap]
  refine ⟨fun s _ => hn.filter _, ?_⟩
  have hk := schemaDict_nodup N cs
  rw [schemaDict_keys] at hk
  refine List.Pairwise.imp ?_ hk
  intro s s' hne
  simp only [Function.onFun]
  intro c h1 h2
  simp only [List.mem_filter, decide_eq_true_eq] at h1 h2
  exact hne (h1.2.symm.trans h2.2)

theorem grouped_perm (N : Naming) (cs : List CostFn) (hn : cs.Nodup) : (grouped N cs).Perm cs :=
  (List.perm_ext_iff_of_nodup (grouped_nodup N cs hn) hn).2 fun c => mem_grouped N cs c

theorem grouped_cons (N : Naming) (c : CostFn) (cs : List CostFn) :
    grouped N (c :: cs) = c :: (cs.filter fun d => decide (schema N d = schema N c)) ++
      grouped N (cs.filter fun d => decide (schema N d ≠ schema N c)) := by
  unfold grouped
  rw [List.map_cons, List.eraseDups_cons, List.flatMap_cons]
  congr 1
  · simp
  · have : (cs.map (schema N)).filter (fun b => !b == schema N c) =
        (cs.filter fun d => decide (schema N d ≠ schema N c)).map (schema N) := by
      rw [List.filter_map]
      congr 1
      apply List.filter_congr
      intro d _
      by_cases h : schema N d = schema N c <;> simp [Function.comp, h]
    rw [this]
    apply List.flatMap_congr
    intro s hs
    have hs' : s ≠ schema N c := by
      have hs := List.mem_eraseDups.1 hs
      obtain ⟨d, hd, rfl⟩ := List.mem_map.1 hs
      simpa using (List.mem_filter.1 hd).2
    rw [List.filter_cons, if_neg (by simpa using Ne.symm hs'), List.filter_filter]
    apply List.filter_congr
    intro d _
    by_cases h : schema N d = s
    · simp [h, hs']
    · simp [h]

theorem grouped_eq_self (N : Naming) (cs : List CostFn) (hc : Contiguous N cs) :
    grouped N cs = cs := by
  induction hn : cs.length using Nat.strong_induction_on generalizing cs with
  | _ n ih =>
  cases cs with
  | nil => simp [grouped]
  | cons c cs =>
    rw [grouped_cons]
    set p : CostFn → Bool := fun d => decide (schema N d = schema N c) with hp
    have hsplit : cs.takeWhile p ++ cs.dropWhile p = cs := List.takeWhile_append_dropWhile
    have ht : ∀ d ∈ cs.takeWhile p, p d = true := fun d hd => by
      simpa using List.all_eq_true.1 (List.all_takeWhile (p := p) (l := cs)) d hd
    have hd : ∀ d ∈ cs.dropWhile p, p d = false := by
      intro d hd
      by_contra hcon
      rcases hw : cs.dropWhile p with _ | ⟨e, r⟩
      · rw [hw] at hd; simp at hd
      · have he : p e = false := by
          have := List.head_dropWhile_not p (w := by rw [hw]; simp) (l := cs)
          simpa [hw] using this
        rw [hw] at hd
        rcases List.mem_cons.1 hd with rfl | hd
        · simp [he] at hcon
        · obtain ⟨r1, r2, rfl⟩ := List.append_of_mem hd
          have := hc [] c (cs.takeWhile p ++ e :: r1) d r2 (by
            conv_lhs => rw [← hsplit, hw]
            simp) (by have : p d = true := by simpa using hcon
                      exact (of_decide_eq_true this).symm) e (by simp)
          rw [hp] at he; simp [this] at he
    have hf1 : cs.filter p = cs.takeWhile p := by
      conv_lhs => rw [← hsplit]
      rw [List.filter_append, List.filter_eq_self.2 ht, List.filter_eq_nil_iff.2 (by
        intro a ha; simp [hd a ha])]
      simp
    have hf2 : cs.filter (fun d => decide (schema N d ≠ schema N c)) = cs.dropWhile p := by
      conv_lhs => rw [← hsplit]
      rw [List.filter_append, List.filter_eq_nil_iff.2 (by
        intro a ha; have := ht a ha; rw [hp] at this; simpa using this), List.filter_eq_self.2 (by
        intro a ha; have := hd a ha; rw [hp] at this; simpa using this)]
      simp
    rw [hf1, hf2]
    have hcd : Contiguous N (cs.dropWhile p) := by
      intro l1 a l2 a' l3 he
      exact hc (c :: (cs.takeWhile p ++ l1)) a l2 a' l3 (by
        conv_lhs => rw [← hsplit, he]
        simp)
    have hlt : (cs.dropWhile p).length < n := by
      have := congrArg List.length hsplit
      simp only [List.length_append] at this
      simp only [List.length_cons] at hn
      omega
    rw [ih _ hlt _ hcd rfl]
    simp [hsplit]

theorem schema_length (N : Naming) (c : CostFn) : (schema N c).length = (allVars c).length + 2 := by
  simp [schema, allVars]; omega

/-- What is known of a served result. -/
def Good (f : CostFn → List ρ → ε) (h : Heap ρ) (B : Nat) (c : CostFn) (r : List ε) : Prop :=
  (r.length = 1 ∨ r.length = B) ∧
  ((∃ v ∈ allVars c, (rowsOf h v).length = B) → r.length = B) ∧
  ∀ i < B, bget r i = some (f c ((allVars c).filterMap fun v => bget (rowsOf h v) i))

theorem runGroups_spec (ev : Code ρ ε) (f : CostFn → List ρ → ε) (h : Heap ρ) (B : Nat)
    (gs : List (List CostFn))
    (hm : ∀ g ∈ gs, ∃ m, 0 < m ∧ ∀ c ∈ g, (allVars c).length = m)
    (hu : ∀ g ∈ gs, ∀ c ∈ g, ∀ c' ∈ g, ∀ v ∈ allVars c, ∀ u ∈ allVars c', v.name = u.name → v = u)
    (hB : ∀ g ∈ gs, ∀ c ∈ g, ∀ v ∈ allVars c, (rowsOf h v).length = 1 ∨ (rowsOf h v).length = B)
    (hb : ∀ g ∈ gs, ∀ c ∈ g, Batchwise (ev c) (f c))
    (hsame : ∀ g ∈ gs, ∀ c ∈ g, ∀ c' ∈ g, f c = f c') :
    (runGroups ev h B gs).2 = none ∧ (runGroups ev h B gs).1.map Prod.fst = gs.flatten ∧
      ∀ p ∈ (runGroups ev h B gs).1, Good f h B p.1 p.2 := by
  induction gs with
  | nil => simp [runGroups]
  | cons g gs ih =>
    obtain ⟨i1, i2, i3⟩ := ih (fun g hg => hm g (by simp [hg])) (fun g hg => hu g (by simp [hg]))
      (fun g hg => hB g (by simp [hg])) (fun g hg => hb g (by simp [hg]))
      (fun g hg => hsame g (by simp [hg]))
    obtain ⟨m, hm0, hmm⟩ := hm g (by simp)
    obtain ⟨rs, r1, r2, r3⟩ := runGroup_spec ev f h B g m hm0 hmm (hu g (by simp)) (hB g (by simp))
      (hb g (by simp)) (hsame g (by simp))
    unfold runGroups
    rw [r1]
    refine ⟨i1, ?_, ?_⟩
    · simp only [List.map_append, List.flatten_cons]
      rw [r2, i2]
    · intro p hp
      rcases List.mem_append.1 hp with hp | hp
      · obtain ⟨a, b, c⟩ := r3 p hp
        exact ⟨a, fun hh => b (Or.inl hh), c⟩
      · exact i3 p hp

/-- What vectorization needs of a list of cost functions. -/
structure Ready (N : Naming) (ev : Code ρ ε) (f : CostFn → List ρ → ε) (h : Heap ρ) (B : Nat)
    (cs : List CostFn) : Prop where
  nodup : cs.Nodup
  ne : ∀ c ∈ cs, allVars c ≠ []
  uniq : ∀ c ∈ cs, ∀ c' ∈ cs, ∀ v ∈ allVars c, ∀ u ∈ allVars c', v.name = u.name → v = u
  sizes : ∀ c ∈ cs, ∀ v ∈ allVars c, (rowsOf h v).length = 1 ∨ (rowsOf h v).length = B
  code : ∀ c ∈ cs, Batchwise (ev c) (f c)
  same : ∀ c ∈ cs, ∀ c' ∈ cs, schema N c = schema N c' → f c = f c'

theorem vectorize_spec {N : Naming} {ev : Code ρ ε} {f : CostFn → List ρ → ε} {h : Heap ρ} {B : Nat}
    {cs : List CostFn} (hr : Ready N ev f h B cs) :
    (vectorize N ev h B cs).2 = none ∧ (vectorize N ev h B cs).1.map Prod.fst = grouped N cs ∧
      ∀ p ∈ (vectorize N ev h B cs).1, Good f h B p.1 p.2 := by
  unfold vectorize
  rw [← vals_flatten]
  have hmem : ∀ g ∈ (schemaDict N cs).vals, ∃ s, ∀ c ∈ g, c ∈ cs ∧ schema N c = s := by
    intro g hg
    rw [schemaDict_vals] at hg
    obtain ⟨s, _, rfl⟩ := List.mem_map.1 hg
    exact ⟨s, fun c hc => by simpa using hc⟩
  apply runGroups_spec
  · intro g hg
    obtain ⟨s, hs⟩ := hmem g hg
    rcases g with _ | ⟨c, g⟩
    · exact ⟨1, Nat.one_pos, by simp⟩
    · refine ⟨(allVars c).length, List.length_pos_iff.2 (hr.ne c (hs c (by simp)).1), ?_⟩
      intro c' hc'
      have h1 := schema_length N c'
      have h2 := schema_length N c
      rw [(hs c' hc').2] at h1
      rw [(hs c (by simp)).2] at h2
      omega
  · intro g hg c hc c' hc'
    obtain ⟨s, hs⟩ := hmem g hg
    exact hr.uniq c (hs c hc).1 c' (hs c' hc').1
  · intro g hg c hc
    obtain ⟨s, hs⟩ := hmem g hg
    exact hr.sizes c (hs c hc).1
  · intro g hg c hc
    obtain ⟨s, hs⟩ := hmem g hg
    exact hr.code c (hs c hc).1
  · intro g hg c hc c' hc'
    obtain ⟨s, hs⟩ := hmem g hg
    exact hr.same c (hs c hc).1 c' (hs c' hc').1 ((hs c hc).2.trans (hs c' hc').2.symm)

theorem get?_of_fst {α : Type} {rs : List (CostFn × α)} {l : List CostFn}
    (hf : rs.map Prod.fst = l) {c : CostFn} (hc : c ∈ l) :
    ∃ r, Dict.get? rs c = some r ∧ (c, r) ∈ rs := by
  have : c ∈ Dict.keys rs := by unfold Dict.keys; rw [hf]; exact hc
  obtain ⟨r, hr⟩ := Option.isSome_iff_exists.1 (Dict.mem_keys_iff.1 this)
  exact ⟨r, hr, Dict.get?_eq_some_mem hr⟩

theorem good_own {N : Naming} {ev : Code ρ ε} {f : CostFn → List ρ → ε} {h : Heap ρ} {B : Nat}
    {cs : List CostFn} (hr : Ready N ev f h B cs) {c : CostFn} (hc : c ∈ cs) :
    ∃ r, own ev h c = .ok r ∧ Good f h B c r := by
  obtain ⟨r, h1, h2, h3, h4⟩ := own_bget ev f h B c (hr.code c hc) (hr.ne c hc) (hr.sizes c hc)
  exact ⟨r, h1, h2, h3, h4⟩

theorem Good.agree {f : CostFn → List ρ → ε} {h : Heap ρ} {B : Nat} {c : CostFn} {r r' : List ε}
    (h1 : Good f h B c r) (h2 : Good f h B c r') : AgreeOn B r r' :=
  fun i hi => ⟨_, h1.2.2 i hi, h2.2.2 i hi⟩

end Verif.Vectorize
