import Verif.Vectorize.Model
import Verif.Update.Props
import Mathlib.Data.List.Nodup
/-!
# Lemmas on the vectorized retraction
-/
namespace Verif.Vectorize
open Verif Verif.Objective Verif.Update

variable {ρ δ : Type}

/-- The variables of an ordering with their columns of `delta`. -/
def sliced (G : Geo) (delta : List (List δ)) : Nat → List Var → List (Var × List (List δ))
  | _, [] => []
  | idx, v :: vs => (v, slice delta idx (G.dof v)) :: sliced G delta (idx + G.dof v) vs

theorem sliced_fst (G : Geo) (delta : List (List δ)) (idx : Nat) (ord : List Var) :
    (sliced G delta idx ord).map Prod.fst = ord := by
  induction ord generalizing idx with
  | nil => rfl
  | cons v vs ih => simp [sliced, ih]

theorem sliced_len (G : Geo) (delta : List (List δ)) (idx : Nat) (ord : List Var) :
    ∀ p ∈ sliced G delta idx ord, p.2.length = delta.length := by
  induction ord generalizing idx with
  | nil => simp [sliced]
  | cons v vs ih =>
    intro p hp
    simp only [sliced, List.mem_cons] at hp
    rcases hp with rfl | hp
    · simp [slice]
    · exact ih _ p hp

/-- class and dof of a variable -/
def Geo.key (G : Geo) (v : Var) : Nat × Nat := (G.cls v, G.dof v)

theorem groupVars_spec (G : Geo) (h : Heap ρ) (delta : List (List δ)) (idx : Nat) (B : Option Nat)
    (ord : List Var) (d : Dict (Nat × Nat) (List (Var × List (List δ)))) (B' : Option Nat)
    (d' : Dict (Nat × Nat) (List (Var × List (List δ))))
    (hr : groupVars G h delta idx B ord d = .ok (B', d')) (hd : d.keys.Nodup) :
    d'.keys.Nodup ∧
    (∀ k, (d'.get? k).getD [] =
      (d.get? k).getD [] ++ (sliced G delta idx ord).filter (fun p => decide (G.key p.1 = k))) ∧
    (∀ k, (d'.get? k) = some [] → (d.get? k) = some []) ∧
    (∀ v ∈ ord, B' = some (rowsOf h v).length) ∧ (∀ b, B = some b → B' = some b) := by
  induction ord generalizing idx B d with
  | nil =>
    simp only [groupVars, Except.ok.injEq, Prod.mk.injEq] at hr
    obtain ⟨rfl, rfl⟩ := hr
    simp [sliced, hd]
  | cons v vs ih =>
    unfold groupVars at hr
    split at hr
    · cases hr
    rename_i hB
    obtain ⟨a, b, c, e, f⟩ := ih _ _ _ hr (Dict.nodup_set hd _ _)
    refine ⟨a, ?_, ?_, ?_, ?_⟩
    · intro k
      rw [b k, Dict.get?_set]
      simp only [sliced, List.filter_cons]
      by_cases hk : (G.cls v, G.dof v) = k
      · subst hk; simp [Geo.key]
      · simp [hk, Geo.key]
    · intro k hk
      have := c k hk
      rw [Dict.get?_set] at this
      split at this
      · simp at this
      · exact this
    · intro u hu
      simp only [List.mem_cons] at hu
      rcases hu with rfl | hu
      · exact f _ rfl
      · exact e u hu
    · intro b hb
      subst hb
      have : b = (rowsOf h v).length := by
        by_contra hne; apply hB; simp [hne]
      subst this
      exact f _ rfl

theorem catRows_spec (ts : List (Tensor ρ)) (t : Tensor ρ) (h : catRows ts = .ok t) :
    t.rows = (ts.map Tensor.rows).flatten ∧
    ∀ u ∈ ts, u.trail = t.trail ∧ u.dtype = t.dtype ∧ u.device = t.device := by
  induction ts generalizing t with
  | nil => simp [catRows] at h
  | cons a as ih =>
    cases as with
    | nil => simp [catRows] at h; subst h; simp
    | cons b bs =>
      unfold catRows at h
      cases hc : catRows (b :: bs) with
      | error x => rw [hc] at h; cases h
      | ok r =>
        rw [hc] at h; simp only at h
        split at h
        · rename_i he
          cases h
          obtain ⟨i1, i2⟩ := ih r hc
          refine ⟨by simp [i1], ?_⟩
          intro u hu
          rw [List.mem_cons] at hu
          rcases hu with rfl | hu
          · simp
          · obtain ⟨x, y, z⟩ := i2 u hu
            exact ⟨x.trans he.1.symm, y.trans he.2.1.symm, z.trans he.2.2.symm⟩
        · cases h

theorem catRows_ok (ts : List (Tensor ρ)) (hne : ts ≠ [])
    (h : ∀ u ∈ ts, ∀ w ∈ ts, u.trail = w.trail ∧ u.dtype = w.dtype ∧ u.device = w.device) :
    ∃ t, catRows ts = .ok t := by
  induction ts with
  | nil => exact absurd rfl hne
  | cons a as ih =>
    cases as with
    | nil => exact ⟨a, rfl⟩
    | cons b bs =>
      obtain ⟨t, ht⟩ := ih (by simp) (fun u hu w hw => h u (List.mem_cons_of_mem _ hu) w (List.mem_cons_of_mem _ hw))
      have hs := (catRows_spec _ _ ht).2 b (by simp)
      have hab := h a (by simp) b (by simp)
      refine ⟨{ a with rows := a.rows ++ t.rows }, ?_⟩
      rw [catRows]
      rw [ht]
      simp only
      rw [if_pos ⟨hab.1.trans hs.1, hab.2.1.trans hs.2.1, hab.2.2.trans hs.2.2⟩]
      simp

/-- A class's retraction treats batch elements one by one. -/
def RowWise (rf : ClsRetract ρ δ) (f : Nat → Nat → ρ → List δ → ρ) : Prop :=
  ∀ cls dof t dl, t.rows.length = dl.length → (∀ r ∈ dl, r.length = dof) →
    rf cls dof t dl = .ok { t with rows := List.zipWith (f cls dof) t.rows dl }

/-- the tensor a variable is given -/
def moved (f : Nat → Nat → ρ → List δ → ρ) (k : Nat × Nat) (t : Tensor ρ) (s : List (List δ)) :
    Tensor ρ := { t with rows := List.zipWith (f k.1 k.2) t.rows s }

theorem scatter_spec (B : Nat) (mask : Option (List Bool)) (force : Bool)
    (new : Tensor ρ) (start : Nat) (vs : List Var) (hnd : vs.Nodup) (h h' : Heap ρ)
    (hs : scatter B mask force new start vs h = (h', none)) :
    (∀ pre v post, vs = pre ++ v :: post →
      varUpdate (h v) { new with rows := (new.rows.drop (start + pre.length * B)).take B }
        (if force then none else mask) = .ok (h' v)) ∧
    ∀ v, v ∉ vs → h' v = h v := by
  induction vs generalizing start h with
  | nil => simp [scatter] at hs; subst hs; simp
  | cons u us ih =>
    simp only [List.nodup_cons] at hnd
    unfold scatter at hs
    cases hu : varUpdate (h u) { new with rows := (new.rows.drop start).take B }
        (if force then none else mask) with
    | error x => rw [hu] at hs; simp at hs
    | ok st =>
      rw [hu] at hs; simp only at hs
      obtain ⟨i1, i2⟩ := ih _ hnd.2 _ hs
      constructor
      · intro pre v post he
        cases pre with
        | nil =>
          simp only [List.nil_append, List.cons.injEq] at he
          obtain ⟨rfl, rfl⟩ := he
          rw [i2 _ hnd.1]
          simpa [Heap.put] using hu
        | cons q pre =>
          simp only [List.cons_append, List.cons.injEq] at he
          obtain ⟨rfl, rfl⟩ := he
          have hne : v ≠ u := by rintro rfl; exact hnd.1 (by simp)
          have := i1 pre v post rfl
          simp only [Heap.put, hne, if_false] at this
          rw [← this]
          simp only [List.length_cons, Nat.succ_mul]
          congr 4; omega
      · intro v hv
        simp only [List.mem_cons, not_or] at hv
        rw [i2 v hv.2]; simp [Heap.put, hv.1]

theorem scatter_ok (B : Nat) (mask : Option (List Bool)) (force : Bool)
    (new : Tensor ρ) (start : Nat) (vs : List Var) (hnd : vs.Nodup) (h : Heap ρ)
    (hs : ∀ pre v post, vs = pre ++ v :: post → ∃ st,
      varUpdate (h v) { new with rows := (new.rows.drop (start + pre.length * B)).take B }
        (if force then none else mask) = .ok st) :
    (scatter B mask force new start vs h).2 = none := by
  induction vs generalizing start h with
  | nil => rfl
  | cons u us ih =>
    simp only [List.nodup_cons] at hnd
    obtain ⟨st, hst⟩ := hs [] u us rfl
    simp only [List.length_nil, Nat.zero_mul, Nat.add_zero] at hst
    unfold scatter
    rw [hst]
    simp only
    apply ih _ hnd.2
    intro pre v post he
    obtain ⟨st', h'⟩ := hs (u :: pre) v post (by simp [he])
    have hne : v ≠ u := by rintro rfl; exact hnd.1 (by simp [he])
    refine ⟨st', ?_⟩
    simp only [Heap.put, hne, if_false]
    rw [← h']
    simp only [List.length_cons, Nat.succ_mul]
    congr 4; omega

/-- Blocks of equal size: the `j`-th block of a flattened list. -/
theorem block_flatten {α β γ : Type} (f : α → β → γ) (B : Nat) (xs : List (List α)) (ys : List (List β))
    (hx : ∀ x ∈ xs, x.length = B) (hy : ∀ y ∈ ys, y.length = B)
    (pre post : List (List α)) (x : List α) (pre' post' : List (List β)) (y : List β)
    (e1 : xs = pre ++ x :: post) (e2 : ys = pre' ++ y :: post') (hl : pre.length = pre'.length) :
    ((List.zipWith f xs.flatten ys.flatten).drop (pre.length * B)).take B = List.zipWith f x y := by
  induction pre generalizing xs ys pre' with
  | nil =>
    cases pre' with
    | cons => simp at hl
    | nil =>
      subst e1 e2
      have h1 : x.length = B := hx x (by simp)
      have h2 : y.length = B := hy y (by simp)
      simp only [List.nil_append, List.flatten_cons, List.length_nil, Nat.zero_mul, List.drop_zero]
      rw [List.zipWith_append (by rw [h1, h2])]
      rw [List.take_append_of_le_length (by simp [h1, h2])]
      rw [List.take_of_length_le (by simp [h1, h2])]
  | cons a pre ih =>
    cases pre' with
    | nil => simp at hl
    | cons b pre' =>
      subst e1 e2
      have h1 : a.length = B := hx a (by simp)
      have h2 : b.length = B := hy b (by simp)
      simp only [List.cons_append, List.flatten_cons, List.length_cons, Nat.succ_mul]
      rw [List.zipWith_append (by rw [h1, h2])]
      rw [List.drop_append, List.drop_eq_nil_of_le (by simp [h1, h2])]
      simp only [List.nil_append, List.length_zipWith, h1, h2, Nat.min_self, Nat.add_sub_cancel]
      exact ih _ _ (fun z hz => hx z (by simp at hz ⊢; tauto)) (fun z hz => hy z (by simp at hz ⊢; tauto))
        pre' rfl rfl (by simpa using hl)

theorem flatten_len {α : Type} (B : Nat) (xs : List (List α)) (hx : ∀ x ∈ xs, x.length = B) :
    xs.flatten.length = xs.length * B := by
  induction xs with
  | nil => simp
  | cons a as ih =>
    simp only [List.flatten_cons, List.length_append, List.length_cons, Nat.succ_mul]
    rw [ih (fun x hx' => hx x (List.mem_cons_of_mem _ hx')), hx a (by simp)]; omega

theorem retractGroup_spec {rf : ClsRetract ρ δ} {f : Nat → Nat → ρ → List δ → ρ}
    (hrf : RowWise rf f) (B : Nat) (mask : Option (List Bool)) (force : Bool) (k : Nat × Nat)
    (g : List (Var × List (List δ))) (hnd : (g.map Prod.fst).Nodup) (h h' : Heap ρ)
    (hB : ∀ p ∈ g, (h p.1).tensor.rows.length = B) (n : Nat) (hn : ∀ p ∈ g, p.2.length = n)
    (hr : retractGroup rf B mask force k g h = (h', none)) :
    (∀ p ∈ g, p.2.length = B ∧ (∀ r ∈ p.2, r.length = k.2) ∧
      varUpdate (h p.1) (moved f k (h p.1).tensor p.2) (if force then none else mask)
        = .ok (h' p.1)) ∧
    ∀ v, v ∉ g.map Prod.fst → h' v = h v := by
  unfold retractGroup at hr
  cases hc : catRows (g.map fun p => (h p.1).tensor) with
  | error x => rw [hc] at hr; simp at hr
  | ok t =>
  rw [hc] at hr; simp only at hr
  split at hr
  · simp at hr
  rename_i hsh
  push Not at hsh
  obtain ⟨hl, hw⟩ := hsh
  obtain ⟨c1, c2⟩ := catRows_spec _ _ hc
  have hgne : g ≠ [] := by rintro rfl; simp [catRows] at hc
  have hnB : n = B := by
    have := flatten_len n (g.map Prod.snd) (by
      intro x hx; obtain ⟨p, hp, rfl⟩ := List.mem_map.1 hx; exact hn p hp)
    rw [hl] at this
    simp only [List.length_map] at this
    exact (Nat.eq_of_mul_eq_mul_left (List.length_pos_iff.2 hgne) this).symm
  subst hnB
  have htl : t.rows.length = ((g.map Prod.snd).flatten).length := by
    rw [hl, c1]
    have := flatten_len n (((g.map fun p => (h p.1).tensor)).map Tensor.rows) (by
      intro x hx
      simp only [List.map_map, List.mem_map, Function.comp] at hx
      obtain ⟨p, hp, rfl⟩ := hx; exact hB p hp)
    rw [this]; simp
  rw [hrf k.1 k.2 t _ htl hw] at hr
  simp only at hr
  obtain ⟨s1, s2⟩ := scatter_spec n mask force _ 0 _ hnd h h' hr
  refine ⟨?_, s2⟩
  intro p hp
  refine ⟨hn p hp, fun r hr' => hw r (List.mem_flatten.2 ⟨p.2, List.mem_map_of_mem hp, hr'⟩), ?_⟩
  obtain ⟨pre, post, rfl⟩ := List.append_of_mem hp
  have := s1 (pre.map Prod.fst) p.1 (post.map Prod.fst) (by simp)
  rw [← this]
  congr 1
  simp only [moved, Nat.zero_add, List.length_map]
  have cc := c2 (h p.1).tensor (by simp)
  have hblk := block_flatten (f k.1 k.2) n
    (((pre ++ p :: post).map fun p => (h p.1).tensor).map Tensor.rows)
    ((pre ++ p :: post).map Prod.snd) (by
      intro x hx
      simp only [List.map_map, List.mem_map, Function.comp] at hx
      obtain ⟨p, hp, rfl⟩ := hx; exact hB p hp) (by
      intro x hx; obtain ⟨p, hp, rfl⟩ := List.mem_map.1 hx; exact hn p hp)
    ((pre.map fun p => (h p.1).tensor).map Tensor.rows)
    ((post.map fun p => (h p.1).tensor).map Tensor.rows) (h p.1).tensor.rows
    (pre.map Prod.snd) (post.map Prod.snd) p.2 (by simp) (by simp) (by simp)
  rw [c1]
  simp only [List.length_map] at hblk
  rw [hblk]
  obtain ⟨x, y, z⟩ := cc
  simp [x, y, z]

theorem retractGroups_spec {rf : ClsRetract ρ δ} {f : Nat → Nat → ρ → List δ → ρ}
    (hrf : RowWise rf f) (B : Nat) (mask : Option (List Bool)) (force : Bool)
    (gs : List ((Nat × Nat) × List (Var × List (List δ))))
    (hnd : (gs.flatMap fun q => q.2.map Prod.fst).Nodup) (h h' : Heap ρ)
    (hB : ∀ q ∈ gs, ∀ p ∈ q.2, (h p.1).tensor.rows.length = B) (n : Nat)
    (hn : ∀ q ∈ gs, ∀ p ∈ q.2, p.2.length = n)
    (hr : retractGroups rf B mask force gs h = (h', none)) :
    (∀ q ∈ gs, ∀ p ∈ q.2, p.2.length = B ∧ (∀ r ∈ p.2, r.length = q.1.2) ∧
      varUpdate (h p.1) (moved f q.1 (h p.1).tensor p.2) (if force then none else mask)
        = .ok (h' p.1)) ∧
    ∀ v, (∀ q ∈ gs, v ∉ q.2.map Prod.fst) → h' v = h v := by
  induction gs generalizing h with
  | nil => simp [retractGroups] at hr; subst hr; simp
  | cons q gs ih =>
    obtain ⟨k, g⟩ := q
    simp only [List.flatMap_cons, List.nodup_append] at hnd
    obtain ⟨n1, n2, n3⟩ := hnd
    unfold retractGroups at hr
    cases hg : retractGroup rf B mask force k g h with
    | mk h1 o =>
    rw [hg] at hr
    cases o with
    | some x => simp at hr
    | none =>
    simp only at hr
    obtain ⟨g1, g2⟩ := retractGroup_spec hrf B mask force k g n1 h h1 (hB (k, g) (by simp)) n
      (hn (k, g) (by simp)) hg
    have hsame : ∀ q ∈ gs, ∀ p ∈ q.2, h1 p.1 = h p.1 := by
      intro q hq p hp
      apply g2
      intro hmem
      exact n3 _ hmem _ (List.mem_flatMap.2 ⟨q, hq, List.mem_map_of_mem hp⟩) rfl
    obtain ⟨i1, i2⟩ := ih n2 h1 (fun q hq p hp => by rw [hsame q hq p hp]; exact hB q (by simp [hq]) p hp)
      (fun q hq => hn q (by simp [hq])) hr
    constructor
    · intro q hq p hp
      rw [List.mem_cons] at hq
      rcases hq with rfl | hq
      · obtain ⟨a, b, c⟩ := g1 p hp
        refine ⟨a, b, ?_⟩
        rw [c, i2 p.1]
        intro q' hq' hmem
        exact n3 _ (List.mem_map_of_mem hp) _ (List.mem_flatMap.2 ⟨q', hq', hmem⟩) rfl
      · have := i1 q hq p hp
        rw [hsame q hq p hp] at this
        exact this
    · intro v hv
      rw [i2 v (fun q hq => hv q (by simp [hq])), g2 v (hv (k, g) (by simp))]

theorem retractGroups_ok {rf : ClsRetract ρ δ} {f : Nat → Nat → ρ → List δ → ρ}
    (hrf : RowWise rf f) (B : Nat) (mask : Option (List Bool)) (force : Bool)
    (gs : List ((Nat × Nat) × List (Var × List (List δ))))
    (hnd : (gs.flatMap fun q => q.2.map Prod.fst).Nodup) (h : Heap ρ)
    (hne : ∀ q ∈ gs, q.2 ≠ [])
    (hB : ∀ q ∈ gs, ∀ p ∈ q.2, (h p.1).tensor.rows.length = B)
    (hn : ∀ q ∈ gs, ∀ p ∈ q.2, p.2.length = B ∧ ∀ r ∈ p.2, r.length = q.1.2)
    (hsh : ∀ q ∈ gs, ∀ p ∈ q.2, ∀ p' ∈ q.2, (h p.1).tensor.trail = (h p'.1).tensor.trail ∧
      (h p.1).tensor.dtype = (h p'.1).tensor.dtype ∧ (h p.1).tensor.device = (h p'.1).tensor.device)
    (hu : ∀ q ∈ gs, ∀ p ∈ q.2, ∃ st,
      varUpdate (h p.1) (moved f q.1 (h p.1).tensor p.2) (if force then none else mask) = .ok st) :
    (retractGroups rf B mask force gs h).2 = none := by
  induction gs generalizing h with
  | nil => rfl
  | cons q gs ih =>
    obtain ⟨k, g⟩ := q
    simp only [List.flatMap_cons, List.nodup_append] at hnd
    obtain ⟨n1, n2, n3⟩ := hnd
    have hok : (retractGroup rf B mask force k g h).2 = none := by
      unfold retractGroup
      obtain ⟨t, ht⟩ := catRows_ok (g.map fun p => (h p.1).tensor) (by
        have := hne (k, g) (by simp); simpa using this) (by
        intro u hu w hw
        obtain ⟨p, hp, rfl⟩ := List.mem_map.1 hu
        obtain ⟨p', hp', rfl⟩ := List.mem_map.1 hw
        exact hsh (k, g) (by simp) p hp p' hp')
      rw [ht]
      simp only
      obtain ⟨c1, c2⟩ := catRows_spec _ _ ht
      have hl : ((g.map Prod.snd).flatten).length = g.length * B := by
        rw [flatten_len B (g.map Prod.snd) (by
          intro x hx; obtain ⟨p, hp, rfl⟩ := List.mem_map.1 hx; exact (hn (k, g) (by simp) p hp).1)]
        simp
      have hw : ∀ r ∈ (g.map Prod.snd).flatten, r.length = k.2 := by
        intro r hr
        obtain ⟨s, hs, hr⟩ := List.mem_flatten.1 hr
        obtain ⟨p, hp, rfl⟩ := List.mem_map.1 hs
        exact (hn (k, g) (by simp) p hp).2 r hr
      rw [if_neg (by push Not; exact ⟨hl, hw⟩)]
      have htl : t.rows.length = ((g.map Prod.snd).flatten).length := by
        rw [hl, c1]
        have := flatten_len B (((g.map fun p => (h p.1).tensor)).map Tensor.rows) (by
          intro x hx
          simp only [List.map_map, List.mem_map, Function.comp] at hx
          obtain ⟨p, hp, rfl⟩ := hx; exact hB (k, g) (by simp) p hp)
        rw [this]; simp
      rw [hrf k.1 k.2 t _ htl hw]
      simp only
      apply scatter_ok _ _ _ _ _ _ n1
      intro pre v post he
      obtain ⟨pre', r, rfl, rfl, hr⟩ := List.map_eq_append_iff.1 he
      obtain ⟨p, post', rfl, rfl, rfl⟩ := List.map_eq_cons_iff.1 hr
      obtain ⟨st, hst⟩ := hu (k, pre' ++ p :: post') (by simp) p (by simp)
      refine ⟨st, ?_⟩
      rw [← hst]
      congr 1
      simp only [moved, Nat.zero_add, List.length_map]
      have cc := c2 (h p.1).tensor (by simp)
      have hblk := block_flatten (f k.1 k.2) B
        (((pre' ++ p :: post').map fun p => (h p.1).tensor).map Tensor.rows)
        ((pre' ++ p :: post').map Prod.snd) (by
          intro x hx
          simp only [List.map_map, List.mem_map, Function.comp] at hx
          obtain ⟨p, hp, rfl⟩ := hx; exact hB (k, _) (by simp) p hp) (by
          intro x hx; obtain ⟨p, hp, rfl⟩ := List.mem_map.1 hx; exact (hn (k, _) (by simp) p hp).1)
        ((pre'.map fun p => (h p.1).tensor).map Tensor.rows)
        ((post'.map fun p => (h p.1).tensor).map Tensor.rows) (h p.1).tensor.rows
        (pre'.map Prod.snd) (post'.map Prod.snd) p.2 (by simp) (by simp) (by simp)
      rw [c1]
      simp only [List.length_map] at hblk
      rw [hblk]
      obtain ⟨x, y, z⟩ := cc
      simp [x, y, z]
    unfold retractGroups
    cases hg : retractGroup rf B mask force k g h with
    | mk h1 o =>
    rw [hg] at hok
    simp only at hok
    subst hok
    simp only
    obtain ⟨g1, g2⟩ := retractGroup_spec hrf B mask force k g n1 h h1 (hB (k, g) (by simp)) B
      (fun p hp => (hn (k, g) (by simp) p hp).1) hg
    have hsame : ∀ q ∈ gs, ∀ p ∈ q.2, h1 p.1 = h p.1 := by
      intro q hq p hp
      apply g2
      intro hmem
      exact n3 _ hmem _ (List.mem_flatMap.2 ⟨q, hq, List.mem_map_of_mem hp⟩) rfl
    apply ih n2 h1 (fun q hq => hne q (by simp [hq]))
    · intro q hq p hp; rw [hsame q hq p hp]; exact hB q (by simp [hq]) p hp
    · intro q hq; exact hn q (by simp [hq])
    · intro q hq p hp p' hp'; rw [hsame q hq p hp, hsame q hq p' hp']; exact hsh q (by simp [hq]) p hp p' hp'
    · intro q hq p hp; rw [hsame q hq p hp]; exact hu q (by simp [hq]) p hp

/-- the sequential retraction of the sliced ordering -/
theorem retractFrom_of {rf : ClsRetract ρ δ} {f : Nat → Nat → ρ → List δ → ρ} (hrf : RowWise rf f)
    (G : Geo) (mask : Option (List Bool)) (force : Bool) (delta : List (List δ)) (idx : Nat)
    (ord : List Var) (hnd : ord.Nodup) (h h' : Heap ρ)
    (H : ∀ p ∈ sliced G delta idx ord, (h p.1).tensor.rows.length = p.2.length ∧
      (∀ r ∈ p.2, r.length = G.dof p.1) ∧
      varUpdate (h p.1) (moved f (G.key p.1) (h p.1).tensor p.2) (if force then none else mask)
        = .ok (h' p.1))
    (H' : ∀ v, v ∉ ord → h' v = h v) :
    retractFrom (fun v => rf (G.cls v) (G.dof v)) mask force delta idx
      (ord.map fun v => (v, G.dof v)) h = (h', none) := by
  induction ord generalizing idx h with
  | nil =>
    simp only [List.map_nil, retractFrom, Prod.mk.injEq, and_true]
    funext v; exact (H' v (by simp)).symm
  | cons v vs ih =>
    simp only [List.nodup_cons] at hnd
    obtain ⟨a, b, c⟩ := H (v, slice delta idx (G.dof v)) (by simp [sliced])
    simp only [List.map_cons, retractFrom]
    rw [hrf _ _ _ _ a b]
    simp only
    have c' : varUpdate (h v) { (h v).tensor with
        rows := List.zipWith (f (G.cls v) (G.dof v)) (h v).tensor.rows (slice delta idx (G.dof v)) }
        (if force then none else mask) = .ok (h' v) := c
    rw [c']
    simp only
    apply ih _ hnd.2
    · intro p hp
      have hpv : p.1 ∈ vs := by
        rw [← sliced_fst G delta (idx + G.dof v) vs]; exact List.mem_map_of_mem hp
      have hne : p.1 ≠ v := by rintro rfl; exact hnd.1 hpv
      have := H p (by simp [sliced, hp])
      simpa [Heap.put, hne] using this
    · intro u hu
      by_cases huv : u = v
      · subst huv; simp [Heap.put]
      · simp [Heap.put, huv]; exact H' u (by simp [huv, hu])

theorem sliced_width (G : Geo) (delta : List (List δ)) (idx : Nat) (ord : List Var)
    (hw : ∀ r ∈ delta, idx + (ord.map G.dof).sum ≤ r.length) :
    ∀ p ∈ sliced G delta idx ord, ∀ r ∈ p.2, r.length = G.dof p.1 := by
  induction ord generalizing idx with
  | nil => simp [sliced]
  | cons v vs ih =>
    intro p hp r hr
    simp only [sliced, List.mem_cons] at hp
    simp only [List.map_cons, List.sum_cons] at hw
    rcases hp with rfl | hp
    · simp only [slice, List.mem_map] at hr
      obtain ⟨r', hr', rfl⟩ := hr
      have := hw r' hr'
      simp; omega
    · exact ih _ (fun r hr => by have := hw r hr; omega) p hp r hr

theorem groupVars_ok (G : Geo) (h : Heap ρ) (delta : List (List δ)) (idx : Nat) (B : Option Nat)
    (b : Nat) (hb : B = none ∨ B = some b) (ord : List Var)
    (d : Dict (Nat × Nat) (List (Var × List (List δ)))) (hB : ∀ v ∈ ord, (rowsOf h v).length = b) :
    ∃ r, groupVars G h delta idx B ord d = .ok r := by
  induction ord generalizing idx B d with
  | nil => exact ⟨_, rfl⟩
  | cons v vs ih =>
    unfold groupVars
    have := hB v (by simp)
    rw [if_neg (by rcases hb with rfl | rfl <;> simp [this])]
    exact ih _ _ (by right; rw [this]) _ (fun u hu => hB u (by simp [hu]))

/-- the groups contain each variable of the ordering, once, with its slice -/
theorem groups_mem (G : Geo) (h : Heap ρ) (delta : List (List δ)) (ord : List Var)
    (hnd : ord.Nodup) (B' : Option Nat) (d' : Dict (Nat × Nat) (List (Var × List (List δ))))
    (hr : groupVars G h delta 0 none ord [] = .ok (B', d')) :
    (∀ p, p ∈ sliced G delta 0 ord ↔ ∃ q ∈ d', p ∈ q.2) ∧
    (∀ q ∈ d', ∀ p ∈ q.2, q.1 = G.key p.1) ∧ (∀ q ∈ d', q.2 ≠ []) ∧
    (d'.flatMap fun q => q.2.map Prod.fst).Nodup ∧
    (∀ v ∈ ord, B' = some (rowsOf h v).length) := by
  obtain ⟨a, b, c, e, _⟩ := groupVars_spec G h delta 0 none ord [] B' d' hr (by simp [Dict.keys])
  simp only [Dict.get?_nil, Option.getD_none, List.nil_append] at b c
  have hget : ∀ q ∈ d', q.2 = (sliced G delta 0 ord).filter (fun p => decide (G.key p.1 = q.1)) := by
    intro q hq
    have := Dict.get?_of_mem a (k := q.1) (a := q.2) hq
    rw [← b q.1, this]; rfl
  have hkey : ∀ q ∈ d', ∀ p ∈ q.2, q.1 = G.key p.1 := by
    intro q hq p hp
    rw [hget q hq, List.mem_filter] at hp
    exact (of_decide_eq_true hp.2).symm
  refine ⟨?_, hkey, ?_, ?_, e⟩
  · intro p
    constructor
    · intro hp
      have := b (G.key p.1)
      have hm : p ∈ (d'.get? (G.key p.1)).getD [] := by rw [this]; simp [hp]
      cases hg : d'.get? (G.key p.1) with
      | none => rw [hg] at hm; simp at hm
      | some l => rw [hg] at hm; exact ⟨_, Dict.get?_eq_some_mem hg, hm⟩
    · rintro ⟨q, hq, hp⟩
      rw [hget q hq] at hp
      exact (List.mem_filter.1 hp).1
  · intro q hq hnil
    have := Dict.get?_of_mem a (k := q.1) (a := q.2) hq
    rw [hnil] at this
    have := c _ this
    simp at this
  · rw [List.nodup_flatMap]
    constructor
    · intro q hq
      rw [hget q hq]
      have hs : (((sliced G delta 0 ord).filter (fun p => decide (G.key p.1 = q.1))).map Prod.fst).Sublist
          ((sliced G delta 0 ord).map Prod.fst) := List.Sublist.map _ List.filter_sublist
      rw [sliced_fst] at hs
      exact hs.nodup hnd
    · have : d'.Pairwise (fun p q => p.1 ≠ q.1) := by
        have := a; unfold Dict.keys at this; exact List.pairwise_map.1 this
      refine List.Pairwise.imp_of_mem ?_ this
      intro q q' hq hq' hne
      simp only [List.disjoint_left, List.mem_map]
      rintro v ⟨p, hp, rfl⟩ ⟨p', hp', he⟩
      apply hne
      rw [hkey q hq p hp, hkey q' hq' p' hp', he]

end Verif.Vectorize
