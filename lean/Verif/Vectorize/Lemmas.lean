import Verif.Vectorize.Spec
import Verif.Update.Props
import Mathlib.Data.List.Nodup
import Mathlib.Data.List.Perm.Basic
/-!
# Lemmas on vectorization
-/
namespace Verif.Vectorize
open Verif Verif.Objective Verif.Update

variable {ρ ε : Type}

/-! ### Gathering -/

theorem gatherCf_get (h : Heap ρ) (B : Nat) (kvs : List (Key × Var)) (seen : List Key)
    (d : Dict Key (List (List ρ)))
    (hf : ∀ p ∈ kvs, ∀ q ∈ kvs, p.1 = q.1 → p.2 = q.2) (k : Key) :
    Dict.get? (gatherCf h B kvs seen d) k =
      if k ∈ seen then d.get? k else
        match Dict.get? kvs k with
        | none => d.get? k
        | some v => if d.has k = true ∧ k.isShared = true ∧ (rowsOf h v).length = 1 then d.get? k
          else some ((d.get? k).getD [] ++ [tensorFor h B k v]) := by
  induction kvs generalizing seen d with
  | nil => simp [gatherCf]
  | cons p rest ih =>
    obtain ⟨k1, v1⟩ := p
    have hf' : ∀ p ∈ rest, ∀ q ∈ rest, p.1 = q.1 → p.2 = q.2 := fun p hp q hq =>
      hf p (List.mem_cons_of_mem _ hp) q (List.mem_cons_of_mem _ hq)
    unfold gatherCf
    by_cases h1 : k1 ∈ seen
    · rw [if_pos h1, ih seen d hf']
      by_cases hk : k ∈ seen
      · simp [hk]
      · have : k1 ≠ k := by rintro rfl; exact hk h1
        simp [hk, Dict.get?, this]
    · rw [if_neg h1]
      by_cases h2 : d.has k1 = true ∧ k1.isShared = true ∧ (rowsOf h v1).length = 1
      · rw [if_pos h2, ih seen d hf']
        by_cases hk : k ∈ seen
        · simp [hk]
        · simp only [hk, if_false]
          by_cases he : k1 = k
          · subst he
            simp only [Dict.get?, if_true]
            rw [if_pos h2]
            cases hr : Dict.get? rest k1 with
            | none => rfl
            | some v =>
              have := hf (k1, v) (List.mem_cons_of_mem _ (Dict.get?_eq_some_mem hr)) (k1, v1) (by simp) rfl
              simp only at this
              subst this
              simp only
              rw [if_pos h2]
          · simp [Dict.get?, he]
      · rw [if_neg h2, ih _ _ hf']
        by_cases he : k1 = k
        · subst he
          simp only [List.mem_cons, true_or, if_true, Dict.get?_set, h1, if_false, Dict.get?]
          rw [if_neg h2]
        · have hk' : (k ∈ k1 :: seen) ↔ k ∈ seen := by simp [Ne.symm he]
          simp only [hk', Dict.get?, he, if_false, Dict.get?_set, Dict.has]
          cases Dict.get? rest k <;> rfl

/-- pairs of one cost function -/
def kvs (keys : List Key) (c : CostFn) : Dict Key Var := keys.zip (allVars c)

theorem gather_append (h : Heap ρ) (B : Nat) (keys : List Key) (cs : List CostFn)
    (d : Dict Key (List (List ρ))) (k : Key) (vk : CostFn → Var)
    (hf : ∀ c ∈ cs, ∀ p ∈ kvs keys c, ∀ q ∈ kvs keys c, p.1 = q.1 → p.2 = q.2)
    (hk : ∀ c ∈ cs, (kvs keys c).get? k = some (vk c))
    (hns : ∀ c ∈ cs, ¬ (k.isShared = true ∧ (rowsOf h (vk c)).length = 1)) :
    (Dict.get? (cs.foldl (fun d c => gatherCf h B (keys.zip (allVars c)) [] d) d) k).getD [] =
      (d.get? k).getD [] ++ cs.map fun c => tensorFor h B k (vk c) := by
  induction cs generalizing d with
  | nil => simp
  | cons c cs ih =>
    rw [List.foldl_cons, ih _ (fun c hc => hf c (by simp [hc])) (fun c hc => hk c (by simp [hc]))
      (fun c hc => hns c (by simp [hc])), gatherCf_get _ _ (keys.zip (allVars c)) _ _ (hf c (by simp))]
    have h1 : Dict.get? (keys.zip (allVars c)) k = some (vk c) := hk c (by simp)
    rw [h1]
    simp only [List.not_mem_nil, if_false]
    rw [if_neg (fun hh => hns c (by simp) hh.2)]
    simp

theorem gather_keep (h : Heap ρ) (B : Nat) (keys : List Key) (cs : List CostFn)
    (d : Dict Key (List (List ρ))) (k : Key) (v : Var) (hs : k.isShared = true)
    (hl : (rowsOf h v).length = 1)
    (hf : ∀ c ∈ cs, ∀ p ∈ kvs keys c, ∀ q ∈ kvs keys c, p.1 = q.1 → p.2 = q.2)
    (hk : ∀ c ∈ cs, (kvs keys c).get? k = some v) (hd : d.has k = true) :
    Dict.get? (cs.foldl (fun d c => gatherCf h B (keys.zip (allVars c)) [] d) d) k = d.get? k := by
  induction cs generalizing d with
  | nil => rfl
  | cons c cs ih =>
    have h1 : Dict.get? (keys.zip (allVars c)) k = some v := hk c (by simp)
    have h2 : Dict.get? (gatherCf h B (keys.zip (allVars c)) [] d) k = d.get? k := by
      rw [gatherCf_get _ _ (keys.zip (allVars c)) _ _ (hf c (by simp)), h1]
      simp only [List.not_mem_nil, if_false]
      rw [if_pos ⟨hd, hs, hl⟩]
    rw [List.foldl_cons, ih _ (fun c hc => hf c (by simp [hc])) (fun c hc => hk c (by simp [hc]))
      (by rw [Dict.has, h2]; exact hd), h2]

theorem gather_single (h : Heap ρ) (B : Nat) (keys : List Key) (c0 : CostFn) (cs : List CostFn)
    (k : Key) (v : Var) (hs : k.isShared = true)
    (hl : (rowsOf h v).length = 1)
    (hf : ∀ c ∈ c0 :: cs, ∀ p ∈ kvs keys c, ∀ q ∈ kvs keys c, p.1 = q.1 → p.2 = q.2)
    (hk : ∀ c ∈ c0 :: cs, (kvs keys c).get? k = some v) :
    Dict.get? (gather h B keys (c0 :: cs)) k = some [rowsOf h v] := by
  unfold gather
  rw [List.foldl_cons]
  have h1 : Dict.get? (keys.zip (allVars c0)) k = some v := hk c0 (by simp)
  have h2 : Dict.get? (gatherCf h B (keys.zip (allVars c0)) [] []) k = some [rowsOf h v] := by
    rw [gatherCf_get _ _ (keys.zip (allVars c0)) _ _ (hf c0 (by simp)), h1]
    simp only [List.not_mem_nil, if_false]
    rw [if_neg (by simp [Dict.has])]
    simp [tensorFor, hs]
  rw [gather_keep h B keys cs _ k v hs hl (fun c hc => hf c (by simp [hc]))
    (fun c hc => hk c (by simp [hc])) (by rw [Dict.has, h2]; rfl), h2]

/-! ### Keys -/

theorem keyAt_cases (p : Nat) (names : List Nat) :
    keyAt p names = .pos p ∨ ∃ a, keyAt p names = .shared a ∧ (∀ n ∈ names, n = a) := by
  unfold keyAt
  split
  · rename_i a h
    right
    refine ⟨a, rfl, fun n hn => ?_⟩
    have : n ∈ names.eraseDups := by simpa using hn
    rw [h] at this; simpa using this
  · left; rfl

/-- the variable at a position -/
def varAt (c : CostFn) (p : Nat) : Var := (allVars c).getD p ⟨0, 0, 0⟩

/-- key of a position -/
def keyOf (cs : List CostFn) (p : Nat) : Key :=
  keyAt p (cs.filterMap fun c => ((allVars c)[p]?).map Var.name)

section group
variable {cs : List CostFn} {m : Nat}

theorem varAt_mem {c : CostFn} (hm : (allVars c).length = m) {p : Nat} (hp : p < m) :
    varAt c p ∈ allVars c ∧ (allVars c)[p]? = some (varAt c p) := by
  subst hm
  unfold varAt
  rw [List.getD_eq_getElem?_getD, List.getElem?_eq_getElem hp]
  exact ⟨List.getElem_mem _, rfl⟩

theorem keyOf_shared (hm : ∀ c ∈ cs, (allVars c).length = m) {p : Nat} (hp : p < m) {a : Nat}
    (hk : keyOf cs p = .shared a) : ∀ c ∈ cs, (varAt c p).name = a := by
  intro c hc
  rcases keyAt_cases p (cs.filterMap fun c => ((allVars c)[p]?).map Var.name) with h | ⟨b, h, hb⟩
  · unfold keyOf at hk; rw [h] at hk; cases hk
  · unfold keyOf at hk; rw [h] at hk; cases hk
    apply hb
    rw [List.mem_filterMap]
    exact ⟨c, hc, by rw [(varAt_mem (hm c hc) hp).2]; rfl⟩

theorem keyOf_inj (hm : ∀ c ∈ cs, (allVars c).length = m)
    (hu : ∀ c ∈ cs, ∀ c' ∈ cs, ∀ v ∈ allVars c, ∀ u ∈ allVars c', v.name = u.name → v = u)
    {p q : Nat} (hp : p < m) (hq : q < m) (hk : keyOf cs p = keyOf cs q) :
    ∀ c ∈ cs, varAt c p = varAt c q := by
  intro c hc
  rcases keyAt_cases p (cs.filterMap fun c => ((allVars c)[p]?).map Var.name) with h | ⟨a, h, _⟩
  · rcases keyAt_cases q (cs.filterMap fun c => ((allVars c)[q]?).map Var.name) with h' | ⟨b, h', _⟩
    · unfold keyOf at hk; rw [h, h'] at hk; cases hk; rfl
    · unfold keyOf at hk; rw [h, h'] at hk; cases hk
  · have h1 := keyOf_shared hm hp (show keyOf cs p = .shared a from h) c hc
    have h2 := keyOf_shared hm hq (show keyOf cs q = .shared a by rw [← hk]; exact h) c hc
    exact hu c hc c hc _ (varAt_mem (hm c hc) hp).1 _ (varAt_mem (hm c hc) hq).1 (h1.trans h2.symm)

theorem allVars_eq {c : CostFn} (hm : (allVars c).length = m) :
    allVars c = (List.range m).map (varAt c) := by
  apply List.ext_getElem
  · simp [hm]
  · intro i h1 h2
    simp only [List.getElem_map, List.getElem_range]
    have := (varAt_mem hm (by simpa [hm] using h1 : i < m)).2
    rw [List.getElem?_eq_getElem h1] at this
    simpa using this

theorem kvs_eq {c : CostFn} (hm : (allVars c).length = m) :
    kvs (varKeys cs m) c = (List.range m).map fun p => (keyOf cs p, varAt c p) := by
  unfold kvs varKeys
  conv_lhs => rw [allVars_eq hm]
  rw [List.zip_map']
  rfl

theorem kvs_functional (hm : ∀ c ∈ cs, (allVars c).length = m)
    (hu : ∀ c ∈ cs, ∀ c' ∈ cs, ∀ v ∈ allVars c, ∀ u ∈ allVars c', v.name = u.name → v = u) :
    ∀ c ∈ cs, ∀ x ∈ kvs (varKeys cs m) c, ∀ y ∈ kvs (varKeys cs m) c, x.1 = y.1 → x.2 = y.2 := by
  intro c hc x hx y hy hxy
  rw [kvs_eq (hm c hc)] at hx hy
  obtain ⟨p, hp, rfl⟩ := List.mem_map.1 hx
  obtain ⟨q, hq, rfl⟩ := List.mem_map.1 hy
  exact keyOf_inj hm hu (List.mem_range.1 hp) (List.mem_range.1 hq) hxy c hc

theorem kvs_get (hm : ∀ c ∈ cs, (allVars c).length = m)
    (hu : ∀ c ∈ cs, ∀ c' ∈ cs, ∀ v ∈ allVars c, ∀ u ∈ allVars c', v.name = u.name → v = u)
    {p : Nat} (hp : p < m) :
    ∀ c ∈ cs, (kvs (varKeys cs m) c).get? (keyOf cs p) = some (varAt c p) := by
  intro c hc
  have hmem : (keyOf cs p, varAt c p) ∈ kvs (varKeys cs m) c := by
    rw [kvs_eq (hm c hc)]; exact List.mem_map.2 ⟨p, List.mem_range.2 hp, rfl⟩
  have : (Dict.get? (kvs (varKeys cs m) c) (keyOf cs p)).isSome :=
    Dict.mem_keys_iff.1 (List.mem_map_of_mem (f := Prod.fst) hmem)
  obtain ⟨v, hv⟩ := Option.isSome_iff_exists.1 this
  rw [hv]
  have := kvs_functional hm hu c hc _ (Dict.get?_eq_some_mem hv) _ hmem rfl
  simpa using this

theorem block_get {α : Type} (B : Nat) (xs : List (List α)) (hx : ∀ x ∈ xs, x.length = B)
    (j i : Nat) (hi : i < B) : xs.flatten[j * B + i]? = (xs[j]?).bind (·[i]?) := by
  induction xs generalizing j with
  | nil => simp
  | cons a as ih =>
    have ha : a.length = B := hx a (by simp)
    cases j with
    | zero => simp [List.getElem?_append, ha, hi]
    | succ j =>
      have := ih (fun x h => hx x (List.mem_cons_of_mem _ h)) j
      simp only [List.flatten_cons, List.getElem?_cons_succ]
      rw [List.getElem?_append_right (by rw [ha, Nat.succ_mul]; omega), ← this, ha]
      congr 1; rw [Nat.succ_mul]; omega

theorem flat_len {α : Type} (B : Nat) (xs : List (List α)) (hx : ∀ x ∈ xs, x.length = B) :
    xs.flatten.length = B * xs.length := by
  induction xs with
  | nil => simp
  | cons a as ih =>
    simp only [List.flatten_cons, List.length_append, List.length_cons, Nat.mul_succ]
    rw [ih (fun x hx' => hx x (List.mem_cons_of_mem _ hx')), hx a (by simp)]; omega

theorem expand_len (t : List ρ) (n : Nat) (h : t.length = 1) : (expand t n).length = n := by
  obtain ⟨a, rfl⟩ := List.length_eq_one_iff.1 h
  simp [expand]

theorem tensorFor_len (h : Heap ρ) (B : Nat) (k : Key) (v : Var)
    (hB : (rowsOf h v).length = 1 ∨ (rowsOf h v).length = B)
    (hns : ¬ (k.isShared = true ∧ (rowsOf h v).length = 1)) :
    (tensorFor h B k v).length = B ∧
    ∀ i < B, (tensorFor h B k v)[i]? = bget (rowsOf h v) i := by
  unfold tensorFor
  simp only
  by_cases hc : (rowsOf h v).length > 1 ∨ B = 1 ∨ k.isShared = true
  · rw [if_pos hc]
    have hl : (rowsOf h v).length = B := by
      rcases hB with h1 | h1
      · rcases hc with h2 | h2 | h2
        · omega
        · omega
        · exact absurd ⟨h2, h1⟩ hns
      · exact h1
    refine ⟨hl, fun i hi => ?_⟩
    unfold bget
    split
    · rw [show i = 0 by omega]
    · rfl
  · rw [if_neg hc]
    push Not at hc
    rcases hB with h1 | h1
    · refine ⟨expand_len _ _ h1, fun i hi => ?_⟩
      obtain ⟨a, ha⟩ := List.length_eq_one_iff.1 h1
      simp [ha, expand, bget, hi]
    · have : B = 0 := by omega
      subst this
      have := List.length_eq_zero_iff.1 h1
      simp [this, expand]

/-- The vectorized tensor at a position: block `j` holds the rows of the `j`-th cost function's
variable. -/
theorem vecTensor_spec (h : Heap ρ) (B : Nat) (hlen : cs.length ≠ 1) (hne : cs ≠ [])
    (hm : ∀ c ∈ cs, (allVars c).length = m)
    (hu : ∀ c ∈ cs, ∀ c' ∈ cs, ∀ v ∈ allVars c, ∀ u ∈ allVars c', v.name = u.name → v = u)
    (hB : ∀ c ∈ cs, ∀ v ∈ allVars c, (rowsOf h v).length = 1 ∨ (rowsOf h v).length = B)
    {p : Nat} (hp : p < m) :
    (vecTensor (gather h B (varKeys cs m) cs) B cs.length (keyOf cs p)).length = B * cs.length ∧
    ∀ j i c, i < B → cs[j]? = some c →
      (vecTensor (gather h B (varKeys cs m) cs) B cs.length (keyOf cs p))[j * B + i]? =
        bget (rowsOf h (varAt c p)) i := by
  obtain ⟨c0, cs', rfl⟩ := List.exists_cons_of_ne_nil hne
  set cs := c0 :: cs' with hcs
  have hf := kvs_functional hm hu
  have hg := kvs_get hm hu hp
  by_cases hsk : (keyOf cs p).isShared = true ∧ (rowsOf h (varAt c0 p)).length = 1
  · -- shared, one element
    obtain ⟨hs, hl⟩ := hsk
    have hsame : ∀ c ∈ cs, varAt c p = varAt c0 p := by
      intro c hc
      rcases keyAt_cases p (cs.filterMap fun c => ((allVars c)[p]?).map Var.name) with hh | ⟨a, hh, _⟩
      · unfold keyOf at hs; rw [hh] at hs; simp [Key.isShared] at hs
      · have := keyOf_shared hm hp (show keyOf cs p = .shared a from hh)
        exact hu c hc c0 (by simp [hcs]) _ (varAt_mem (hm c hc) hp).1 _
          (varAt_mem (hm c0 (by simp [hcs])) hp).1 ((this c hc).trans (this c0 (by simp [hcs])).symm)
    have hgs := gather_single h B (varKeys cs m) c0 cs' (keyOf cs p) (varAt c0 p) hs hl hf
      (fun c hc => by rw [hg c hc, hsame c hc])
    have hv : vecTensor (gather h B (varKeys cs m) cs) B cs.length (keyOf cs p) =
        expand (rowsOf h (varAt c0 p)) (B * cs.length) := by
      unfold vecTensor
      rw [show gather h B (varKeys cs m) cs = gather h B (varKeys cs m) (c0 :: cs') from rfl, hgs]
      show (if cs.length = 1 then _ else if (keyOf cs p).isShared = true ∧
        (rowsOf h (varAt c0 p)).length = 1 then expand (rowsOf h (varAt c0 p)) (B * cs.length)
        else _) = _
      rw [if_neg hlen, if_pos ⟨hs, hl⟩]
    rw [hv]
    refine ⟨expand_len _ _ hl, ?_⟩
    intro j i c hi hc
    rw [hsame c (List.mem_of_getElem? hc)]
    obtain ⟨a, ha⟩ := List.length_eq_one_iff.1 hl
    have hj : j < cs.length := by
      by_contra hcon; rw [List.getElem?_eq_none (by omega)] at hc; simp at hc
    have : j * B + i < B * cs.length := by
      calc j * B + i < j * B + B := by omega
        _ = (j + 1) * B := by rw [Nat.succ_mul]
        _ ≤ cs.length * B := Nat.mul_le_mul_right _ hj
        _ = B * cs.length := Nat.mul_comm _ _
    simp [ha, expand, bget, this]
  · -- one block per cost function
    have hns : ∀ c ∈ cs, ¬ ((keyOf cs p).isShared = true ∧ (rowsOf h (varAt c p)).length = 1) := by
      intro c hc ⟨hs, hl⟩
      apply hsk
      refine ⟨hs, ?_⟩
      rcases keyAt_cases p (cs.filterMap fun c => ((allVars c)[p]?).map Var.name) with hh | ⟨a, hh, _⟩
      · unfold keyOf at hs; rw [hh] at hs; simp [Key.isShared] at hs
      · have := keyOf_shared hm hp (show keyOf cs p = .shared a from hh)
        rw [← hu c hc c0 (by simp [hcs]) _ (varAt_mem (hm c hc) hp).1 _
          (varAt_mem (hm c0 (by simp [hcs])) hp).1 ((this c hc).trans (this c0 (by simp [hcs])).symm)]
        exact hl
    have hga := gather_append h B (varKeys cs m) cs [] (keyOf cs p) (fun c => varAt c p) hf hg hns
    simp only [Dict.get?_nil, Option.getD_none, List.nil_append] at hga
    have htl : ∀ t ∈ cs.map (fun c => tensorFor h B (keyOf cs p) (varAt c p)), t.length = B := by
      intro t ht
      obtain ⟨c, hc, rfl⟩ := List.mem_map.1 ht
      exact (tensorFor_len h B _ _ (hB c hc _ (varAt_mem (hm c hc) hp).1) (hns c hc)).1
    have hv : vecTensor (gather h B (varKeys cs m) cs) B cs.length (keyOf cs p) =
        (cs.map fun c => tensorFor h B (keyOf cs p) (varAt c p)).flatten := by
      unfold vecTensor
      unfold gather
      rw [hga]
      simp only
      rw [if_neg hlen, if_neg]
      intro hh
      apply hns c0 (by simp [hcs])
      refine ⟨hh.1, ?_⟩
      have h2 := hh.2
      rw [hcs] at h2
      simp only [List.map_cons, List.headD_cons] at h2
      rw [← hcs] at h2
      unfold tensorFor at h2
      simpa [hh.1] using h2
    rw [hv]
    refine ⟨by rw [flat_len B _ htl]; simp, ?_⟩
    intro j i c hi hc
    rw [block_get B _ htl j i hi, List.getElem?_map, hc]
    simp only [Option.map_some, Option.bind_some]
    have hcm := List.mem_of_getElem? hc
    exact (tensorFor_len h B _ _ (hB c hcm _ (varAt_mem (hm c hcm) hp).1) (hns c hcm)).2 i hi

end group

/-! ### One schema -/

theorem slices_spec (B : Nat) (r : List ε) (start : Nat) (cs : List CostFn) :
    slices B r start cs = cs.zipIdx.map fun p => (p.1, (r.drop (start + p.2 * B)).take B) := by
  have : ∀ k, slices B r (start + k * B) cs =
      (cs.zipIdx k).map fun p => (p.1, (r.drop (start + p.2 * B)).take B) := by
    induction cs with
    | nil => intro k; rfl
    | cons c cs ih =>
      intro k
      have h1 := ih (k + 1)
      rw [show start + (k + 1) * B = start + k * B + B by rw [Nat.succ_mul]; omega] at h1
      simp only [slices, List.zipIdx_cons, List.map_cons, h1]
  have := this 0
  simpa using this

theorem bget_eq {α : Type} (l : List α) (i : Nat) (hi : i < l.length) : bget l i = l[i]? := by
  unfold bget
  split
  · rw [show i = 0 by omega]
  · rfl

/-- what a cost function itself computes -/
theorem own_spec (ev : Code ρ ε) (f : CostFn → List ρ → ε) (h : Heap ρ) (B : Nat) (c : CostFn)
    (hb : Batchwise (ev c) (f c)) (hne : allVars c ≠ [])
    (hB : ∀ v ∈ allVars c, (rowsOf h v).length = 1 ∨ (rowsOf h v).length = B) :
    ∃ n, (n = 1 ∨ n = B) ∧ (∀ v ∈ allVars c, (rowsOf h v).length = 1 ∨ (rowsOf h v).length = n) ∧
      ((∃ v ∈ allVars c, (rowsOf h v).length = B) → n = B) ∧
      own ev h c = .ok ((List.range n).map fun i =>
        f c ((allVars c).filterMap fun v => bget (rowsOf h v) i)) := by
  have hfm : ∀ i, ((allVars c).map (rowsOf h)).filterMap (bget · i) =
      (allVars c).filterMap fun v => bget (rowsOf h v) i := by
    intro i; rw [List.filterMap_map]; rfl
  by_cases hex : ∃ v ∈ allVars c, (rowsOf h v).length = B
  · refine ⟨B, Or.inr rfl, hB, fun _ => rfl, ?_⟩
    unfold own
    rw [hb _ B]
    · simp only [hfm]
    · intro t ht; obtain ⟨v, hv, rfl⟩ := List.mem_map.1 ht; exact hB v hv
    · obtain ⟨v, hv, hl⟩ := hex; exact ⟨_, List.mem_map_of_mem hv, hl⟩
  · have h1 : ∀ v ∈ allVars c, (rowsOf h v).length = 1 := by
      intro v hv
      rcases hB v hv with hh | hh
      · exact hh
      · exact absurd ⟨v, hv, hh⟩ hex
    refine ⟨1, Or.inl rfl, fun v hv => Or.inl (h1 v hv), fun hh => absurd hh hex, ?_⟩
    unfold own
    rw [hb _ 1]
    · simp only [hfm]
    · intro t ht; obtain ⟨v, hv, rfl⟩ := List.mem_map.1 ht; exact Or.inl (h1 v hv)
    · obtain ⟨v, vs, hv⟩ := List.exists_cons_of_ne_nil hne
      exact ⟨_, List.mem_map_of_mem (by rw [hv]; simp), h1 v (by rw [hv]; simp)⟩

/-- own results read with broadcasting -/
theorem own_bget (ev : Code ρ ε) (f : CostFn → List ρ → ε) (h : Heap ρ) (B : Nat) (c : CostFn)
    (hb : Batchwise (ev c) (f c)) (hne : allVars c ≠ [])
    (hB : ∀ v ∈ allVars c, (rowsOf h v).length = 1 ∨ (rowsOf h v).length = B) :
    ∃ r, own ev h c = .ok r ∧ (r.length = 1 ∨ r.length = B) ∧
      ((∃ v ∈ allVars c, (rowsOf h v).length = B) → r.length = B) ∧
      ∀ i < B, bget r i = some (f c ((allVars c).filterMap fun v => bget (rowsOf h v) i)) := by
  obtain ⟨n, hn, hl, hBn, ho⟩ := own_spec ev f h B c hb hne hB
  refine ⟨_, ho, by simpa using hn, by simpa using hBn, ?_⟩
  intro i hi
  unfold bget
  simp only [List.length_map, List.length_range]
  by_cases h1 : n = 1
  · subst h1
    simp only [if_true]
    have : ∀ v ∈ allVars c, (rowsOf h v).length = 1 := fun v hv => by
      rcases hl v hv with hh | hh <;> exact hh
    have : ((allVars c).filterMap fun v => bget (rowsOf h v) 0) =
        ((allVars c).filterMap fun v => bget (rowsOf h v) i) := by
      apply List.filterMap_congr
      intro v hv
      simp [bget, this v hv]
    simp only [List.range_one, List.map_cons, List.map_nil, List.getElem?_cons_zero]
    exact congrArg (fun x => some (f c x)) this
  · have hnB : n = B := by rcases hn with hh | hh <;> [exact absurd hh h1; exact hh]
    subst hnB
    rw [if_neg h1]
    simp only [List.getElem?_map, List.getElem?_range hi, Option.map_some]

/-- The result of running one schema. -/
theorem runGroup_spec (ev : Code ρ ε) (f : CostFn → List ρ → ε) (h : Heap ρ) (B : Nat)
    (cs : List CostFn) (m : Nat) (hm0 : 0 < m) (hm : ∀ c ∈ cs, (allVars c).length = m)
    (hu : ∀ c ∈ cs, ∀ c' ∈ cs, ∀ v ∈ allVars c, ∀ u ∈ allVars c', v.name = u.name → v = u)
    (hB : ∀ c ∈ cs, ∀ v ∈ allVars c, (rowsOf h v).length = 1 ∨ (rowsOf h v).length = B)
    (hb : ∀ c ∈ cs, Batchwise (ev c) (f c)) (hsame : ∀ c ∈ cs, ∀ c' ∈ cs, f c = f c') :
    ∃ rs, runGroup ev h B cs = .ok rs ∧ rs.map Prod.fst = cs ∧
      ∀ p ∈ rs, (p.2.length = 1 ∨ p.2.length = B) ∧
        ((∃ v ∈ allVars p.1, (rowsOf h v).length = B) ∨ 1 < cs.length → p.2.length = B) ∧
        ∀ i < B, bget p.2 i = some (f p.1 ((allVars p.1).filterMap fun v => bget (rowsOf h v) i)) := by
  have hnev : ∀ c ∈ cs, allVars c ≠ [] := by
    intro c hc hh; have := hm c hc; rw [hh] at this; simp at this; omega
  match cs, hm, hu, hB, hb, hsame, hnev with
  | [], _, _, _, _, _, _ => exact ⟨[], rfl, rfl, by simp⟩
  | [c], hm, hu, hB, hb, hsame, hnev =>
    obtain ⟨r, h1, h2, h3, h4⟩ := own_bget ev f h B c (hb c (by simp)) (hnev c (by simp))
      (hB c (by simp))
    refine ⟨[(c, r)], by simp [runGroup, h1], rfl, ?_⟩
    intro p hp
    simp only [List.mem_singleton] at hp
    subst hp
    refine ⟨h2, fun hh => ?_, h4⟩
    rcases hh with hh | hh
    · exact h3 hh
    · simp at hh
  | c0 :: c1 :: cs', hm, hu, hB, hb, hsame, hnev =>
    set cs := c0 :: c1 :: cs' with hcs
    have hlen : cs.length ≠ 1 := by simp [hcs]
    have hne : cs ≠ [] := by simp [hcs]
    have h0 : c0 ∈ cs := by simp [hcs]
    have hml : (allVars c0).length = m := hm c0 h0
    set d := gather h B (varKeys cs m) cs with hd
    have hkeys : varKeys cs m = (List.range m).map (keyOf cs) := rfl
    set ts := (varKeys cs m).map (vecTensor d B cs.length) with hts
    have hspec := fun p (hp : p < m) => vecTensor_spec h B hlen hne hm hu hB (p := p) hp
    have htl : ∀ t ∈ ts, t.length = B * cs.length := by
      intro t ht
      rw [hts, hkeys, List.map_map] at ht
      obtain ⟨p, hp, rfl⟩ := List.mem_map.1 ht
      exact (hspec p (List.mem_range.1 hp)).1
    have hcode := hb c0 h0 ts (B * cs.length) (fun t ht => Or.inr (htl t ht)) (by
      refine ⟨vecTensor d B cs.length (keyOf cs 0), ?_, (hspec 0 hm0).1⟩
      rw [hts, hkeys, List.map_map]
      exact List.mem_map.2 ⟨0, List.mem_range.2 hm0, rfl⟩)
    have hrun : runGroup ev h B cs = .ok (slices B ((List.range (B * cs.length)).map
        fun i => f c0 (ts.filterMap (bget · i))) 0 cs) := by
      show (match ev c0 ((varKeys cs (allVars c0).length).map (vecTensor
        (gather h B (varKeys cs (allVars c0).length) cs) B cs.length)) with
        | .error x => Except.error x
        | .ok r => .ok (slices B r 0 cs)) = _
      rw [hml, ← hd, ← hts, hcode]
    refine ⟨_, hrun, ?_, ?_⟩
    · rw [slices_spec, List.map_map]
      show (cs.zipIdx.map Prod.fst) = cs
      exact List.zipIdx_map_fst 0 cs
    · intro q hq
      rw [slices_spec] at hq
      obtain ⟨⟨c, j⟩, hcj, rfl⟩ := List.mem_map.1 hq
      have hcj' : cs[j]? = some c := by
        have := List.mem_zipIdx_iff_getElem?.1 hcj
        simpa using this
      have hj : j < cs.length := by
        by_contra hcon; rw [List.getElem?_eq_none (by omega)] at hcj'; simp at hcj'
      have hjB : j * B + B ≤ B * cs.length := by
        calc j * B + B = (j + 1) * B := by rw [Nat.succ_mul]
          _ ≤ cs.length * B := Nat.mul_le_mul_right _ hj
          _ = B * cs.length := Nat.mul_comm _ _
      have hc : c ∈ cs := List.mem_of_getElem? hcj'
      simp only [Nat.zero_add]
      have hl : ((((List.range (B * cs.length)).map fun i => f c0 (ts.filterMap (bget · i))).drop
          (j * B)).take B).length = B := by
        simp; omega
      refine ⟨Or.inr hl, fun _ => hl, ?_⟩
      intro i hi
      have hget : ((((List.range (B * cs.length)).map fun i => f c0 (ts.filterMap (bget · i))).drop
          (j * B)).take B)[i]? = some (f c0 (ts.filterMap (bget · (j * B + i)))) := by
        rw [List.getElem?_take, if_pos hi, List.getElem?_drop, List.getElem?_map,
          List.getElem?_range (by omega)]
        rfl
      have hb1 : bget ((((List.range (B * cs.length)).map fun i => f c0 (ts.filterMap (bget · i))).drop
          (j * B)).take B) i = some (f c0 (ts.filterMap (bget · (j * B + i)))) := by
        rw [bget_eq _ i (by rw [hl]; exact hi)]; exact hget
      rw [hb1, hsame c0 h0 c hc]
      congr 2
      rw [hts, hkeys, List.map_map, List.filterMap_map, allVars_eq (hm c hc), List.filterMap_map]
      apply List.filterMap_congr
      intro p hp
      have hp' := List.mem_range.1 hp
      obtain ⟨l1, l2⟩ := hspec p hp'
      have := l2 j i c hi hcj'
      simp only [Function.comp]
      rw [← this]
      unfold bget
      rw [l1]
      have hc2 : 2 ≤ cs.length := by simp [hcs]
      have : B * cs.length ≠ 1 := by
        have h1 : 1 ≤ B := by omega
        have : 2 ≤ B * cs.length := le_trans hc2 (Nat.le_mul_of_pos_left _ h1)
        omega
      rw [if_neg this]

end Verif.Vectorize
