import Verif.Ext.BaspachoSpec
import Verif.Ext.PatternProps

/-!
# Lemmas about the BaSpaCho bindings
-/

namespace Verif.Ext
open Verif.Linear

variable {R : Type}

/-! ### Columns and blocks -/

theorem locate_fst_lt : ∀ {sizes : List ℕ} {c : ℕ}, c < sizes.sum → (locate sizes c).1 < sizes.length := by
  intro sizes
  induction sizes with
  | nil => intro c h; simp at h
  | cons s ss ih =>
    intro c h
    rw [locate]
    split
    · simp
    · simp only [List.sum_cons] at h
      have := ih (c := c - s) (by omega)
      simpa using this

theorem locate_snd_lt : ∀ {sizes : List ℕ} {c : ℕ}, c < sizes.sum →
    (locate sizes c).2 < at' sizes (locate sizes c).1 := by
  intro sizes
  induction sizes with
  | nil => intro c h; simp at h
  | cons s ss ih =>
    intro c h
    rw [locate]
    split
    · simpa [at'] using by assumption
    · simp only [List.sum_cons] at h
      have := ih (c := c - s) (by omega)
      simpa [at'] using this

theorem locate_inj : ∀ {sizes : List ℕ} {c c' : ℕ}, locate sizes c = locate sizes c' → c = c' := by
  intro sizes
  induction sizes with
  | nil => intro c c' h; simpa [locate] using h
  | cons s ss ih =>
    intro c c' h
    simp only [locate] at h
    split at h <;> split at h
    · simpa using h
    · simp at h
    · simp at h
    · simp only [Prod.mk.injEq, Nat.add_right_cancel_iff] at h
      have := ih (Prod.ext h.1 h.2)
      omega

/-- Every place of a block is a column. -/
theorem locate_surj : ∀ {sizes : List ℕ} {p a : ℕ}, p < sizes.length → a < at' sizes p →
    ∃ c < sizes.sum, locate sizes c = (p, a) := by
  intro sizes
  induction sizes with
  | nil => intro p a h; simp at h
  | cons s ss ih =>
    intro p a hp ha
    cases p with
    | zero => exact ⟨a, by simp [at'] at ha; simp; omega, by simp [at'] at ha; simp [locate, ha]⟩
    | succ p =>
      obtain ⟨c, hc, e⟩ := ih (p := p) (a := a) (by simpa using hp) (by simpa [at'] using ha)
      refine ⟨s + c, by simpa using hc, ?_⟩
      simp [locate, e]

theorem paramLoop_acc : ∀ (ss : List ℕ) (i st : ℕ) (acc : List ℕ × List ℕ),
    paramLoop ss i st acc = (acc.1 ++ (paramLoop ss i st ([], [])).1,
      acc.2 ++ (paramLoop ss i st ([], [])).2) := by
  intro ss
  induction ss with
  | nil => intro i st acc; simp [paramLoop]
  | cons s ss ih =>
    intro i st acc
    rw [paramLoop, ih, paramLoop]
    simp only [List.nil_append]
    rw [ih (i + 1) (st + s) (List.replicate s i, [st])]
    simp

/-- The loop numbers the columns as `locate` does. -/
theorem paramLoop_locate : ∀ (ss : List ℕ) (i st : ℕ) {c : ℕ}, c < ss.sum →
    at' (paramLoop ss i st ([], [])).1 c = i + (locate ss c).1 ∧
    at' (paramLoop ss i st ([], [])).2 (locate ss c).1 + (locate ss c).2 = st + c := by
  intro ss
  induction ss with
  | nil => intro i st c h; simp at h
  | cons s ss ih =>
    intro i st c h
    simp only [List.sum_cons] at h
    rw [paramLoop, paramLoop_acc]
    simp only [List.nil_append, locate]
    by_cases hc : c < s
    · rw [if_pos hc]
      constructor
      · rw [at'_append_left (by simpa using hc)]
        simp [at', hc]
      · simp [at']
    · rw [if_neg hc]
      obtain ⟨h1, h2⟩ := ih (i + 1) (st + s) (c := c - s) (by omega)
      constructor
      · have := at'_append_right (l := List.replicate s i)
          (l' := (paramLoop ss (i + 1) (st + s) ([], [])).1) (i := c - s)
        rw [List.length_replicate, Nat.add_sub_of_le (by omega)] at this
        rw [this, h1]
        omega
      · have := at'_append_right (l := [st])
          (l' := (paramLoop ss (i + 1) (st + s) ([], [])).2) (i := (locate ss (c - s)).1)
        rw [List.length_singleton, Nat.add_comm 1] at this
        simp only
        rw [this]
        omega

/-- The symbolic decomposition of the constructor. -/
structure Built (S : Symbolic) (sizes : List ℕ) : Prop where
  size : S.size = sizes
  par : ∀ c < sizes.sum, at' S.toParam c = (locate sizes c).1
  start : ∀ c < sizes.sum, at' S.start (locate sizes c).1 + (locate sizes c).2 = c

theorem symbolic_built {create : List ℕ → CsrArr → Accessor} {sizes : List ℕ} {P : CsrArr}
    {S : Symbolic} (h : symbolic create sizes P = .ok S) : Built S sizes ∧ S.acc = create sizes P := by
  unfold symbolic at h
  split at h
  · cases h
  · cases h
    refine ⟨⟨rfl, fun c hc => ?_, fun c hc => ?_⟩, rfl⟩
    · have := (paramLoop_locate sizes 0 0 hc).1
      rw [Nat.zero_add] at this
      exact this
    · have := (paramLoop_locate sizes 0 0 hc).2
      rw [Nat.zero_add] at this
      exact this

/-! ### Addresses -/

section
variable {A : Accessor} {sizes : List ℕ} {P : CsrArr} (K : Contract A sizes P)

include K in
theorem addr_symm {i j : ℕ} (hi : i < sizes.sum) (hj : j < sizes.sum) : K.addr i j = K.addr j i := by
  have hpi := locate_fst_lt hi
  have hpj := locate_fst_lt hj
  unfold Contract.addr
  simp only
  by_cases h : K.perm (locate sizes j).1 < K.perm (locate sizes i).1
  · rw [if_pos (Or.inl h), if_neg]
    rintro (h' | ⟨h', -⟩)
    · omega
    · rw [h'] at h; omega
  · by_cases h' : K.perm (locate sizes i).1 < K.perm (locate sizes j).1
    · rw [if_pos (Or.inl h'), if_neg]
      rintro (h'' | ⟨h'', -⟩)
      · omega
      · rw [h''] at h'; omega
    · have e := K.perm_inj _ _ hpi hpj (by omega)
      by_cases h1 : (locate sizes j).2 ≤ (locate sizes i).2
      · rw [if_pos (Or.inr ⟨e, h1⟩)]
        by_cases h2 : (locate sizes i).2 ≤ (locate sizes j).2
        · rw [if_pos (Or.inr ⟨e.symm, h2⟩), e, show (locate sizes i).2 = (locate sizes j).2 by omega]
        · rw [if_neg]
          rintro (h3 | ⟨-, h3⟩) <;> omega
      · rw [if_neg, if_pos (Or.inr ⟨e.symm, by omega⟩)]
        rintro (h3 | ⟨-, h3⟩) <;> omega

/-- The place in the canonical block: larger row first. -/
theorem addr_cases {i j : ℕ} (hi : i < sizes.sum) (hj : j < sizes.sum)
    (hs : K.stored (locate sizes i).1 (locate sizes j).1) :
    ∃ u v, (u = i ∧ v = j ∨ u = j ∧ v = i) ∧ K.stored (locate sizes u).1 (locate sizes v).1 ∧
      u < sizes.sum ∧ v < sizes.sum ∧
      K.perm (locate sizes v).1 ≤ K.perm (locate sizes u).1 ∧
      K.addr i j = (A.blockOffset (locate sizes u).1 (locate sizes v).1).1
        + (A.blockOffset (locate sizes u).1 (locate sizes v).1).2.1 * (locate sizes u).2
        + (locate sizes v).2 := by
  unfold Contract.addr
  simp only
  split
  · rename_i h
    refine ⟨i, j, Or.inl ⟨rfl, rfl⟩, hs, hi, hj, ?_, rfl⟩
    rcases h with h | ⟨h, -⟩
    · omega
    · rw [h]
  · rename_i h
    refine ⟨j, i, Or.inr ⟨rfl, rfl⟩, K.stored_symm _ _ hs, hj, hi, ?_, rfl⟩
    by_contra hc
    exact h (Or.inl (by omega))

theorem addr_lt {i j : ℕ} (hi : i < sizes.sum) (hj : j < sizes.sum)
    (hs : K.stored (locate sizes i).1 (locate sizes j).1) : K.addr i j < A.dataSize := by
  obtain ⟨u, v, -, h1, h2, h3, h4, h5⟩ := addr_cases K hi hj hs
  rw [h5]
  exact K.bound _ _ _ _ (locate_fst_lt h2) (locate_fst_lt h3) h1 h4 (locate_snd_lt h2)
    (locate_snd_lt h3)

theorem addr_inj {i j i' j' : ℕ} (hi : i < sizes.sum) (hj : j < sizes.sum)
    (hs : K.stored (locate sizes i).1 (locate sizes j).1) (hi' : i' < sizes.sum)
    (hj' : j' < sizes.sum) (hs' : K.stored (locate sizes i').1 (locate sizes j').1)
    (h : K.addr i j = K.addr i' j') : (i = i' ∧ j = j') ∨ (i = j' ∧ j = i') := by
  obtain ⟨u, v, c1, h1, h2, h3, h4, h5⟩ := addr_cases K hi hj hs
  obtain ⟨u', v', c1', h1', h2', h3', h4', h5'⟩ := addr_cases K hi' hj' hs'
  rw [h5, h5'] at h
  obtain ⟨e1, e2, e3, e4⟩ := K.inj _ _ _ _ _ _ _ _ (locate_fst_lt h2) (locate_fst_lt h3) h1 h4
    (locate_snd_lt h2) (locate_snd_lt h3) (locate_fst_lt h2') (locate_fst_lt h3') h1' h4'
    (locate_snd_lt h2') (locate_snd_lt h3') h
  have eu : u = u' := locate_inj (Prod.ext e1 e3)
  have ev : v = v' := locate_inj (Prod.ext e2 e4)
  subst eu; subst ev
  rcases c1 with ⟨rfl, rfl⟩ | ⟨rfl, rfl⟩ <;> rcases c1' with ⟨rfl, rfl⟩ | ⟨rfl, rfl⟩ <;> simp

/-- The code writes the entries of the lower half where the library keeps them. -/
theorem address_eq {S : Symbolic} (hS : Built S sizes) (hA : S.acc = A) {r c : ℕ} (hr : r < sizes.sum)
    (hcr : c ≤ r) (hs : K.stored (locate sizes r).1 (locate sizes c).1) :
    S.address r c = K.addr r c := by
  have hc : c < sizes.sum := by omega
  have hpr := locate_fst_lt hr
  have hpc := locate_fst_lt hc
  have e1 : r - at' S.start (locate sizes r).1 = (locate sizes r).2 := by have := hS.start r hr; omega
  have e2 : c - at' S.start (locate sizes c).1 = (locate sizes c).2 := by have := hS.start c hc; omega
  unfold Symbolic.address Contract.addr
  simp only [hS.par r hr, hS.par c hc, e1, e2, hA, K.flip _ _ hpr hpc hs, decide_eq_true_eq]
  by_cases h : K.perm (locate sizes r).1 < K.perm (locate sizes c).1
  · rw [if_pos h, if_neg]
    · obtain ⟨h1, h2⟩ := K.swap _ _ hpr hpc hs
      rw [h1, h2]
      omega
    · rintro (h' | ⟨h', -⟩)
      · omega
      · rw [h'] at h; omega
  · rw [if_neg h, if_pos]
    · omega
    · by_cases h' : K.perm (locate sizes c).1 < K.perm (locate sizes r).1
      · exact Or.inl h'
      · have e := K.perm_inj _ _ hpr hpc (by omega)
        refine Or.inr ⟨e, ?_⟩
        have s1 := hS.start r hr
        have s2 := hS.start c hc
        rw [e] at s1
        omega

theorem addr_diag {p : ℕ} {i : ℕ} (hi : (locate sizes i).1 = p) :
    K.addr i i = (A.blockOffset p p).1 + (A.blockOffset p p).2.1 * (locate sizes i).2
      + (locate sizes i).2 := by
  unfold Contract.addr
  simp only
  rw [if_pos (Or.inr ⟨trivial, le_rfl⟩), hi]

end

/-! ### Running programs one after another -/

variable [CommRing R]

theorem runSeq_atomic (l : List (Ins R)) (h : AtomicOnly l) : ∀ (mem : ℕ → R) (reg : R) (a : ℕ),
    runSeq l mem reg a = mem a + added a l := by
  induction l with
  | nil => intro mem reg a; simp [runSeq, added]
  | cons i l ih =>
    intro mem reg a
    obtain ⟨b, v, rfl⟩ := h i (List.mem_cons_self ..)
    rw [runSeq, ih (fun j hj => h j (List.mem_cons_of_mem _ hj))]
    simp only [Ins.exec, added]
    by_cases e : b = a
    · subst e; simp; ring
    · rw [Function.update_of_ne (Ne.symm e), if_neg e]; ring

theorem runAll_atomic (ps : List (List (Ins R))) : ∀ (mem : ℕ → R) (a : ℕ),
    (∀ p ∈ ps, AtomicOnly p) → runAll ps mem a = mem a + (ps.map (added a)).sum := by
  induction ps with
  | nil => intro mem a _; simp [runAll]
  | cons p ps ih =>
    intro mem a h
    have := ih (runSeq p mem 0) a fun q hq => h q (List.mem_cons_of_mem _ hq)
    unfold runAll at this ⊢
    rw [List.foldl_cons, this, runSeq_atomic p (h p (List.mem_cons_self ..))]
    simp [add_assoc]

/-- Programs whose addresses are different. -/
theorem runAll_private {α : Type} (own : ℕ → α → Prop) (hown : ∀ a s t, own a s → own a t → s = t)
    (prog : α → List (Ins R)) (hp : ∀ s, ∀ i ∈ prog s, own i.addr s) (l : List α) :
    ∀ (mem : ℕ → R), l.Nodup → ∀ s ∈ l, ∀ a, own a s →
      runAll (l.map prog) mem a = runSeq (prog s) mem 0 a := by
  have frame : ∀ (l : List α) (mem : ℕ → R) (a : ℕ), (∀ t ∈ l, ¬ own a t) →
      runAll (l.map prog) mem a = mem a := by
    intro l
    induction l with
    | nil => intro mem a _; rfl
    | cons t l ih =>
      intro mem a h
      have := ih (runSeq (prog t) mem 0) a fun u hu => h u (List.mem_cons_of_mem _ hu)
      unfold runAll at this ⊢
      rw [List.map_cons, List.foldl_cons, this]
      refine runSeq_frame _ _ _ _ fun i hi e => h t (List.mem_cons_self ..) ?_
      rw [e]
      exact hp t i hi
  induction l with
  | nil => intro mem _ s hs; cases hs
  | cons t l ih =>
    intro mem hn s hs a ha
    rw [List.nodup_cons] at hn
    show runAll (l.map prog) (runSeq (prog t) mem 0) a = _
    rcases List.mem_cons.1 hs with rfl | hs
    · exact frame l _ a fun u hu hau => hn.1 (hown _ _ _ ha hau ▸ hu)
    · rw [ih _ hn.2 s hs a ha]
      refine runSeq_congr (fun b => own b s) _ _ _ _ (hp s) (fun b hb => ?_) a ha
      refine runSeq_frame _ _ _ _ fun i hi e => ?_
      have : own b t := e ▸ hp t i hi
      exact hn.1 (hown _ _ _ this hb ▸ hs)

theorem list_sum_range' (a n : ℕ) (f : ℕ → R) :
    ((List.range' a n).map f).sum = ∑ p ∈ Finset.Ico a (a + n), f p := by
  rw [List.range'_eq_map_range, List.map_map, list_sum_range, Finset.sum_Ico_eq_sum_range]
  simp

theorem sum_flatMap {α β : Type} (l : List α) (f : α → List β) (g : β → R) :
    ((l.flatMap f).map g).sum = (l.map fun x => ((f x).map g).sum).sum := by
  induction l with
  | nil => simp
  | cons x l ih => simp [ih]

end Verif.Ext
