import Verif.Ext.BaspachoAdd

/-!
# The BaSpaCho bindings: damping, `add_M` and solving (C91)
-/

namespace Verif.Ext
open Verif.Linear

variable {R : Type} [CommRing R]

theorem runSeq_append (l l' : List (Ins R)) : ∀ (mem : ℕ → R) (reg : R),
    ∃ reg', runSeq (l ++ l') mem reg = runSeq l' (runSeq l mem reg) reg' := by
  induction l with
  | nil => intro mem reg; exact ⟨reg, rfl⟩
  | cons i l ih =>
    intro mem reg
    obtain ⟨reg', h⟩ := ih (i.exec mem reg).1 (i.exec mem reg).2
    exact ⟨reg', h⟩

theorem runSeq_sets (f : ℕ → ℕ) (g : ℕ → R) : ∀ (l : List ℕ) (mem : ℕ → R) (reg : R),
    (∀ a ∈ l, ∀ b ∈ l, f a = f b → a = b) → ∀ a ∈ l,
      runSeq (l.map fun x => Ins.set (f x) (g x)) mem reg (f a) = g a := by
  intro l
  induction l with
  | nil => intro mem reg _ a ha; cases ha
  | cons x l ih =>
    intro mem reg hf a ha
    rw [List.map_cons, runSeq]
    by_cases hal : a ∈ l
    · exact ih _ _ (fun b hb c hc => hf b (List.mem_cons_of_mem _ hb) c (List.mem_cons_of_mem _ hc)) a hal
    · rcases List.mem_cons.1 ha with rfl | ha
      · rw [runSeq_frame]
        · simp [Ins.set, Ins.exec]
        · intro i hi e
          obtain ⟨y, hy, rfl⟩ := List.mem_map.1 hi
          have : a = y := hf a (List.mem_cons_self ..) y (List.mem_cons_of_mem _ hy) (by simpa [Ins.set, Ins.addr] using e)
          exact hal (this ▸ hy)
      · exact absurd ha hal

/-- A program per pair of indices, on the CPU, whatever the order of the loops. -/
theorem runAll_pairs (own : ℕ → ℕ → ℕ → Prop)
    (hown : ∀ a x y x' y', own a x y → own a x' y' → x = x' ∧ y = y')
    (prog : ℕ → ℕ → List (Ins R)) (nx ny : ℕ)
    (hp : ∀ x < nx, ∀ y < ny, ∀ i ∈ prog x y, own i.addr x y) (mem : ℕ → R) {a x y : ℕ}
    (hx : x < nx) (hy : y < ny) (ha : own a x y) :
    runAll ((List.range nx).flatMap fun x => (List.range ny).map fun y => prog x y) mem a
      = runSeq (prog x y) mem 0 a ∧
    runAll ((List.range ny).flatMap fun y => (List.range nx).map fun x => prog x y) mem a
      = runSeq (prog x y) mem 0 a := by
  have key : ∀ l : List (ℕ × ℕ), l.Nodup → (∀ t ∈ l, t.1 < nx ∧ t.2 < ny) → (x, y) ∈ l →
      runAll (l.map fun t => prog t.1 t.2) mem a = runSeq (prog x y) mem 0 a := by
    intro l hn hl hm
    have := runAll_private (fun a (t : ℕ × ℕ) => own a t.1 t.2)
      (fun a s t h1 h2 => Prod.ext (hown _ _ _ _ _ h1 h2).1 (hown _ _ _ _ _ h1 h2).2)
      (fun t : ℕ × ℕ => if t.1 < nx ∧ t.2 < ny then prog t.1 t.2 else [])
      (fun t i hi => by
        split at hi
        · rename_i h; exact hp _ h.1 _ h.2 i hi
        · cases hi) l mem hn (x, y) hm a ha
    rw [List.map_congr_left (g := fun t : ℕ × ℕ => prog t.1 t.2)
      (fun t ht => if_pos (hl t ht))] at this
    rw [this]
    simp [hx, hy]
  constructor
  · have := key ((List.range nx).flatMap fun x => (List.range ny).map fun y => (x, y)) ?_ ?_ ?_
    · rw [List.map_flatMap] at this
      simpa [Function.comp_def] using this
    · exact List.Nodup.product List.nodup_range List.nodup_range
    · intro t ht
      simp only [List.mem_flatMap, List.mem_map, List.mem_range] at ht
      obtain ⟨u, hu, v, hv, rfl⟩ := ht
      exact ⟨hu, hv⟩
    · simp [hx, hy]
  · have := key ((List.range ny).flatMap fun y => (List.range nx).map fun x => (x, y)) ?_ ?_ ?_
    · rw [List.map_flatMap] at this
      simpa [Function.comp_def] using this
    · have h := List.Nodup.map (f := Prod.swap) Prod.swap_injective
        (List.Nodup.product (List.nodup_range (n := ny)) (List.nodup_range (n := nx)))
      have e : ((List.range ny ×ˢ List.range nx).map Prod.swap)
          = (List.range ny).flatMap fun y => (List.range nx).map fun x => (x, y) := by
        show ((List.range ny).flatMap fun y => (List.range nx).map (Prod.mk y)).map Prod.swap = _
        rw [List.map_flatMap]
        simp [Function.comp_def]
      rw [← e]; exact h
    · intro t ht
      simp only [List.mem_flatMap, List.mem_map, List.mem_range] at ht
      obtain ⟨u, hu, v, hv, rfl⟩ := ht
      exact ⟨hv, hu⟩
    · simp [hx, hy]

section
variable {A : Accessor} {sizes : List ℕ} {P : CsrArr} (K : Contract A sizes P) {S : Symbolic}
  {M : CsrArr}

/-- The addresses of the rows of block `p` in batch element `b`. -/
def BlockOwn (K : Contract A sizes P) (x p b : ℕ) : Prop :=
  ∃ i j, i < sizes.sum ∧ j ≤ i ∧ K.stored (locate sizes i).1 (locate sizes j).1 ∧
    (locate sizes i).1 = p ∧ x = b * A.dataSize + K.addr i j

theorem BlockOwn.unique {x p b p' b' : ℕ} (h : BlockOwn K x p b) (h' : BlockOwn K x p' b') :
    p = p' ∧ b = b' := by
  obtain ⟨i, j, hi, hji, hs, rfl, e⟩ := h
  obtain ⟨i', j', hi', hji', hs', rfl, e'⟩ := h'
  obtain ⟨h1, h2⟩ := mul_add_inj (addr_lt K hi (by omega) hs) (addr_lt K hi' (by omega) hs') (e ▸ e')
  refine ⟨?_, h1⟩
  rcases addr_inj K hi (by omega) hs hi' (by omega) hs' h2 with ⟨h3, -⟩ | ⟨h3, h4⟩
  · rw [h3]
  · rw [show i = i' by omega]

theorem damp_addr (hA : S.acc = A) {p a b : ℕ} (hp : p < sizes.length)
    (hd : K.stored p p) {i : ℕ} (hi : locate sizes i = (p, a)) :
    b * S.acc.dataSize + ((S.acc.diagBlock p).1 + (S.acc.diagBlock p).2 * a + a)
      = b * A.dataSize + K.addr i i := by
  rw [hA, addr_diag K (p := p) (by rw [hi]), K.diag p hp hd, hi]

/-- What the damping of block `p` leaves at an address of its rows. -/
theorem damp_block_value (hS : Built S sizes) (hA : S.acc = A)
    (hd : ∀ p < sizes.length, 0 < at' sizes p → K.stored p p) (alpha beta : R) {b i j : ℕ}
    (hi : i < sizes.sum) (hji : j ≤ i) (hs : K.stored (locate sizes i).1 (locate sizes j).1)
    (mem : ℕ → R) :
    runSeq (dampBlock S alpha beta (locate sizes i).1 b) mem 0 (b * A.dataSize + K.addr i j)
      = mem (b * A.dataSize + K.addr i j) + if i = j then
          alpha * mem (b * A.dataSize + K.addr i j) + beta else 0 := by
  have hp := locate_fst_lt hi
  have ha := locate_snd_lt hi
  have hdp := hd _ hp (by omega)
  have hinj : ∀ a ∈ List.range (at' S.size (locate sizes i).1),
      ∀ a' ∈ List.range (at' S.size (locate sizes i).1),
      b * S.acc.dataSize + ((S.acc.diagBlock (locate sizes i).1).1
        + (S.acc.diagBlock (locate sizes i).1).2 * a + a)
      = b * S.acc.dataSize + ((S.acc.diagBlock (locate sizes i).1).1
        + (S.acc.diagBlock (locate sizes i).1).2 * a' + a') → a = a' := by
    intro a ha a' ha' e
    by_contra hne
    rcases Nat.lt_or_gt_of_ne hne with hl | hl
    · have := Nat.mul_le_mul_left (S.acc.diagBlock (locate sizes i).1).2 hl.le
      omega
    · have := Nat.mul_le_mul_left (S.acc.diagBlock (locate sizes i).1).2 hl.le
      omega
  have hiff : (∃ a ∈ List.range (at' S.size (locate sizes i).1), True ∧
      b * S.acc.dataSize + ((S.acc.diagBlock (locate sizes i).1).1
        + (S.acc.diagBlock (locate sizes i).1).2 * a + a) = b * A.dataSize + K.addr i j) ↔ i = j := by
    constructor
    · rintro ⟨a, ha, -, e⟩
      rw [List.mem_range, hS.size] at ha
      obtain ⟨u, hu, hl⟩ := locate_surj hp ha
      rw [damp_addr K hA hp hdp hl] at e
      have e' : K.addr u u = K.addr i j := by omega
      have hsu : K.stored (locate sizes u).1 (locate sizes u).1 := by rw [hl]; exact hdp
      rcases addr_inj K hu hu hsu hi (by omega) hs e' with ⟨h1, h2⟩ | ⟨h1, h2⟩ <;> omega
    · rintro rfl
      refine ⟨(locate sizes i).2, by rw [List.mem_range, hS.size]; exact ha, trivial, ?_⟩
      exact damp_addr K hA hp hdp rfl
  unfold dampBlock
  simp only
  obtain ⟨reg', e⟩ := runSeq_append ((List.range (at' S.size (locate sizes i).1)).flatMap fun a =>
    modify (b * S.acc.dataSize + ((S.acc.diagBlock (locate sizes i).1).1
      + (S.acc.diagBlock (locate sizes i).1).2 * a + a)) fun v : R => v * (1 + alpha))
    ((List.range (at' S.size (locate sizes i).1)).flatMap fun a =>
    modify (b * S.acc.dataSize + ((S.acc.diagBlock (locate sizes i).1).1
      + (S.acc.diagBlock (locate sizes i).1).2 * a + a)) fun v : R => v + beta) mem 0
  rw [e]
  obtain ⟨h1, h2⟩ := runSeq_modifies (R := R) (fun a => b * S.acc.dataSize
    + ((S.acc.diagBlock (locate sizes i).1).1 + (S.acc.diagBlock (locate sizes i).1).2 * a + a))
    (fun _ => True) (fun v => v * (1 + alpha)) (b * A.dataSize + K.addr i j)
    (List.range (at' S.size (locate sizes i).1)) mem 0 hinj List.nodup_range
  obtain ⟨h3, h4⟩ := runSeq_modifies (R := R) (fun a => b * S.acc.dataSize
    + ((S.acc.diagBlock (locate sizes i).1).1 + (S.acc.diagBlock (locate sizes i).1).2 * a + a))
    (fun _ => True) (fun v => v + beta) (b * A.dataSize + K.addr i j)
    (List.range (at' S.size (locate sizes i).1))
    (runSeq ((List.range (at' S.size (locate sizes i).1)).flatMap fun a =>
    modify (b * S.acc.dataSize + ((S.acc.diagBlock (locate sizes i).1).1
      + (S.acc.diagBlock (locate sizes i).1).2 * a + a)) fun v : R => v * (1 + alpha)) mem 0)
    reg' hinj List.nodup_range
  simp only [if_true] at h1 h2 h3 h4
  by_cases hij : i = j
  · rw [if_pos hij, h3 (hiff.2 hij), h1 (hiff.2 hij)]
    ring
  · rw [if_neg hij, h4 (fun h => hij (hiff.1 h)), h2 (fun h => hij (hiff.1 h)), add_zero]

theorem damp_own (hS : Built S sizes) (hA : S.acc = A)
    (hd : ∀ p < sizes.length, 0 < at' sizes p → K.stored p p) (alpha beta : R) {p b : ℕ}
    (hp : p < sizes.length) : ∀ i ∈ dampBlock S alpha beta p b, BlockOwn K i.addr p b := by
  intro ins hins
  unfold dampBlock at hins
  have hmem : ∃ a < at' sizes p, ins.addr
      = b * S.acc.dataSize + ((S.acc.diagBlock p).1 + (S.acc.diagBlock p).2 * a + a) := by
    rw [hS.size] at hins
    simp only [List.mem_append, List.mem_flatMap, List.mem_range, modify, List.mem_cons,
      List.not_mem_nil, or_false] at hins
    rcases hins with ⟨a, ha, rfl | rfl⟩ | ⟨a, ha, rfl | rfl⟩ <;> exact ⟨a, ha, rfl⟩
  obtain ⟨a, ha, e⟩ := hmem
  obtain ⟨u, hu, hl⟩ := locate_surj hp ha
  have hdp := hd p hp (by omega)
  refine ⟨u, u, hu, le_rfl, by rw [hl]; exact hdp, by rw [hl], ?_⟩
  rw [e, damp_addr K hA hp hdp hl]

/-- From the values at the stored addresses to the damped matrix. -/
theorem damp_entry (hd : ∀ p < sizes.length, 0 < at' sizes p → K.stored p p) (alpha beta : R)
    (d d' : ℕ → R)
    (h : ∀ i j, i < sizes.sum → j ≤ i → K.stored (locate sizes i).1 (locate sizes j).1 →
      d' (K.addr i j) = d (K.addr i j) + if i = j then alpha * d (K.addr i j) + beta else 0)
    {i j : ℕ} (hi : i < sizes.sum) (hj : j < sizes.sum) :
    K.entry d' i j = K.entry d i j + if i = j then alpha * K.entry d i j + beta else 0 := by
  have := entry_of_lower K d d' (fun i j => if i = j then alpha * d (K.addr i j) + beta else 0) h
    (fun i j => by
      by_cases e : i = j
      · subst e; rfl
      · rw [if_neg e, if_neg (Ne.symm e)])
    (fun i j hi _ hn => by
      by_cases e : i = j
      · subst e
        exact absurd (hd _ (locate_fst_lt hi) (by have := locate_snd_lt hi; omega)) hn
      · rw [if_neg e]) hi hj
  rw [this]
  by_cases e : i = j
  · subst e
    rw [if_pos rfl, if_pos rfl]
    unfold Contract.entry
    rw [if_pos (hd _ (locate_fst_lt hi) (by have := locate_snd_lt hi; omega))]
  · rw [if_neg e, if_neg e]

/-- `damp` on the CPU: `alpha` times the diagonal plus `beta` is added to the diagonal. -/
theorem cpu_damp (hS : Built S sizes) (hA : S.acc = A)
    (hd : ∀ p < sizes.length, 0 < at' sizes p → K.stored p p) {B na nb : ℕ} (data data' : ℕ → R)
    (alpha beta : ℕ → R) (h : cpuDamp S B data na nb alpha beta = .ok data') {b i j : ℕ} (hb : b < B)
    (hi : i < sizes.sum) (hj : j < sizes.sum) :
    K.entry (item A.dataSize data' b) i j = K.entry (item A.dataSize data b) i j
      + if i = j then alpha b * K.entry (item A.dataSize data b) i j + beta b else 0 := by
  unfold cpuDamp at h
  split at h
  · cases h
  · cases h
    refine damp_entry K hd _ _ _ _ (fun i j hi hji hs => ?_) hi hj
    unfold item
    rw [hS.size]
    rw [(runAll_pairs (BlockOwn K) (fun a x y x' y' h1 h2 => h1.unique K h2)
      (fun p b => dampBlock S (alpha b) (beta b) p b) sizes.length B
      (fun p hp b _ => damp_own K hS hA hd (alpha b) (beta b) hp) data (locate_fst_lt hi) hb
      ⟨i, j, hi, hji, hs, rfl, rfl⟩).2]
    exact damp_block_value K hS hA hd _ _ hi hji hs data

/-- `damp` on the GPU, whatever the schedule of the threads. -/
theorem cuda_damp (hS : Built S sizes) (hA : S.acc = A)
    (hd : ∀ p < sizes.length, 0 < at' sizes p → K.stored p p) {fuel B na nb : ℕ} (data : ℕ → R)
    (alpha beta : ℕ → R) {m : Machine R} (h : cudaDamp fuel S B data na nb alpha beta = .ok (some m))
    (sched : List Tid) (hdone : (m.run sched).Done) {b i j : ℕ} (hb : b < B) (hi : i < sizes.sum)
    (hj : j < sizes.sum) :
    K.entry (item A.dataSize (m.run sched).mem b) i j = K.entry (item A.dataSize data b) i j
      + if i = j then alpha b * K.entry (item A.dataSize data b) i j + beta b else 0 := by
  unfold cudaDamp at h
  split at h
  · cases h
  · simp only [Except.ok.injEq] at h
    obtain ⟨gr, w, rfl, hx, hy⟩ := bspLaunch_eq (by omega) h
    refine damp_entry K hd _ _ _ _ (fun i j hi hji hs => ?_) hi hj
    unfold item
    rw [hS.size] at hx hdone ⊢
    rw [private_launch gr w sizes.length B _ _ (BlockOwn K)
      (fun a x y x' y' h1 h2 => h1.unique K h2)
      (fun p b ins hins => by
        split at hins
        · cases hins
        · exact damp_own K hS hA hd _ _ (by omega) ins hins)
      hx hy sched hdone (locate_fst_lt hi) hb ⟨i, j, hi, hji, hs, rfl, rfl⟩]
    have hp := locate_fst_lt hi
    rw [if_neg (by omega)]
    exact damp_block_value K hS hA hd _ _ hi hji hs data

/-! ### Solving -/

/-- The addresses of block `p` of batch element `b` in a vector, from the start of the blocks. -/
def VecOwn (sizes : List ℕ) (start : ℕ → ℕ) (order x p b : ℕ) : Prop :=
  p < sizes.length ∧ ∃ a < at' sizes p, x = start p + order * b + a

theorem VecOwn.unique {start : ℕ → ℕ} {order : ℕ}
    (hlt : ∀ p a, p < sizes.length → a < at' sizes p → start p + a < order)
    (hinj : ∀ p a p' a', p < sizes.length → a < at' sizes p → p' < sizes.length → a' < at' sizes p' →
      start p + a = start p' + a' → p = p' ∧ a = a')
    {x p b p' b' : ℕ} (h : VecOwn sizes start order x p b) (h' : VecOwn sizes start order x p' b') :
    p = p' ∧ b = b' := by
  obtain ⟨hp, a, ha, e⟩ := h
  obtain ⟨hp', a', ha', e'⟩ := h'
  obtain ⟨h1, h2⟩ := mul_add_inj (hlt p a hp ha) (hlt p' a' hp' ha') (a := b) (b := b')
    (by rw [Nat.mul_comm b, Nat.mul_comm b']; omega)
  exact ⟨(hinj _ _ _ _ hp ha hp' ha' h2).1, h1⟩

/-- The starts in the order of the columns. -/
theorem start_ok (hS : Built S sizes) :
    (∀ p a, p < sizes.length → a < at' sizes p → at' S.start p + a < sizes.sum) ∧
    (∀ p a p' a', p < sizes.length → a < at' sizes p → p' < sizes.length → a' < at' sizes p' →
      at' S.start p + a = at' S.start p' + a' → p = p' ∧ a = a') := by
  constructor
  · intro p a hp ha
    obtain ⟨c, hc, e⟩ := locate_surj hp ha
    have := hS.start c hc
    rw [e] at this
    simp only at this
    omega
  · intro p a p' a' hp ha hp' ha' h
    obtain ⟨c, hc, e⟩ := locate_surj hp ha
    obtain ⟨c', hc', e'⟩ := locate_surj hp' ha'
    have h1 := hS.start c hc
    have h2 := hS.start c' hc'
    rw [e] at h1
    rw [e'] at h2
    simp only at h1 h2
    have : c = c' := by omega
    subst this
    rw [e] at e'
    exact ⟨congrArg Prod.fst e', congrArg Prod.snd e'⟩

omit [CommRing R] in
theorem copy_own (hS : Built S sizes) (st src : ℕ → ℕ) (order : ℕ) (x : ℕ → R) {p b : ℕ}
    (hp : p < sizes.length) : ∀ i ∈ (List.range (at' S.size p)).map fun a =>
      Ins.set (st p + order * b + a) (x (src p + order * b + a)), VecOwn sizes st order i.addr p b := by
  intro i hi
  obtain ⟨a, ha, rfl⟩ := List.mem_map.1 hi
  rw [List.mem_range, hS.size] at ha
  exact ⟨hp, a, ha, rfl⟩

theorem copy_value (hS : Built S sizes) (st src : ℕ → ℕ) (order : ℕ) (x mem : ℕ → R) {c b : ℕ}
    (hc : c < sizes.sum) :
    runSeq ((List.range (at' S.size (locate sizes c).1)).map fun a =>
      Ins.set (st (locate sizes c).1 + order * b + a) (x (src (locate sizes c).1 + order * b + a)))
      mem 0 (st (locate sizes c).1 + order * b + (locate sizes c).2)
      = x (src (locate sizes c).1 + order * b + (locate sizes c).2) :=
  runSeq_sets (fun a => st (locate sizes c).1 + order * b + a)
    (fun a => x (src (locate sizes c).1 + order * b + a)) _ mem 0 (fun a _ a' _ e => by omega)
    (locate sizes c).2 (by rw [List.mem_range, hS.size]; exact locate_snd_lt hc)

/-- The result of factorization and solve between the two copies. -/
theorem solve_between {S : Symbolic} {solve : (ℕ → ℝ) → (ℕ → ℝ) → ℕ → ℝ} (hS : Built S sizes)
    (hA : S.acc = A) (hK : K.Solves solve) (data x permX x' : ℕ → ℝ) {b : ℕ}
    (hpd : (K.matrix (item A.dataSize data b)).PosDef)
    (h1 : ∀ c < sizes.sum, permX (S.acc.paramStart (locate sizes c).1 + S.acc.order * b
      + (locate sizes c).2) = x (at' S.start (locate sizes c).1 + S.acc.order * b + (locate sizes c).2))
    (h2 : ∀ c < sizes.sum, x' (at' S.start (locate sizes c).1 + S.acc.order * b + (locate sizes c).2)
      = solveAll S solve data permX (S.acc.paramStart (locate sizes c).1 + S.acc.order * b
        + (locate sizes c).2)) (i : Fin sizes.sum) :
    ∑ j : Fin sizes.sum, K.matrix (item A.dataSize data b) i j * x' (b * sizes.sum + j)
      = x (b * sizes.sum + i) := by
  have ho : S.acc.order = sizes.sum := by rw [hA]; exact K.order
  have hpos : ∀ c < sizes.sum, A.pos sizes c < sizes.sum := fun c hc => by
    rw [← K.order]; exact K.start_lt _ _ (locate_fst_lt hc) (locate_snd_lt hc)
  have hx : ∀ c < sizes.sum, at' S.start (locate sizes c).1 + S.acc.order * b + (locate sizes c).2
      = b * sizes.sum + c := fun c hc => by
    have := hS.start c hc
    rw [ho, Nat.mul_comm]; omega
  have hp : ∀ c, S.acc.paramStart (locate sizes c).1 + S.acc.order * b + (locate sizes c).2
      = b * sizes.sum + A.pos sizes c := fun c => by
    unfold Accessor.pos
    rw [ho, Nat.mul_comm, hA]; omega
  have key := hK (item A.dataSize data b) (fun k => permX (b * sizes.sum + k)) hpd i
  rw [← hp i, h1 i i.2, hx i i.2] at key
  rw [← key]
  refine Finset.sum_congr rfl fun j _ => ?_
  have := h2 j j.2
  rw [hx j j.2, hp j] at this
  rw [this]
  unfold solveAll
  have hl := hpos j j.2
  have e1 : (b * sizes.sum + A.pos sizes j) / sizes.sum = b := by
    rw [Nat.mul_comm, Nat.mul_add_div (by omega), Nat.div_eq_of_lt hl, Nat.add_zero]
  have e2 : (b * sizes.sum + A.pos sizes j) % sizes.sum = A.pos sizes j := by
    rw [Nat.mul_comm, Nat.mul_add_mod, Nat.mod_eq_of_lt hl]
  rw [ho, e1, e2, hA]
  rfl

/-- `factor` and `solve` on the CPU: the system of every batch element with a positive definite
matrix is solved. -/
theorem cpu_solve {S : Symbolic} {solve : (ℕ → ℝ) → (ℕ → ℝ) → ℕ → ℝ} (hS : Built S sizes)
    (hA : S.acc = A) (hK : K.Solves solve) {B : ℕ} (data junk : ℕ → ℝ) (x : Ten ℝ) {x' : ℕ → ℝ}
    (h : cpuSolve S B solve data x junk = .ok x') {b : ℕ} (hb : b < B)
    (hpd : (K.matrix (item A.dataSize data b)).PosDef) (i : Fin sizes.sum) :
    ∑ j : Fin sizes.sum, K.matrix (item A.dataSize data b) i j * x' (b * sizes.sum + j)
      = x.data (b * sizes.sum + i) := by
  have ho : S.acc.order = sizes.sum := by rw [hA]; exact K.order
  unfold cpuSolve at h
  split at h
  · cases h
  · cases h
    obtain ⟨s1, s2⟩ := start_ok hS
    refine solve_between K hS hA hK data x.data
      (runAll ((List.range S.size.length).flatMap fun i =>
        (List.range B).map fun b => scramble S x.data i b) junk) _ hpd (fun c hc => ?_)
      (fun c hc => ?_) i
    · have := (runAll_pairs (VecOwn sizes S.acc.paramStart S.acc.order)
        (fun a x y x' y' => VecOwn.unique (by rw [hA]; exact K.start_lt) (by rw [hA]; exact K.start_inj))
        (fun i b => scramble S x.data i b) sizes.length B
        (fun p hp b _ => copy_own hS S.acc.paramStart (at' S.start) S.acc.order x.data hp) junk
        (locate_fst_lt hc) hb ⟨locate_fst_lt hc, _, locate_snd_lt hc, rfl⟩).1
      rw [hS.size]
      rw [this]
      exact copy_value hS S.acc.paramStart (at' S.start) S.acc.order x.data junk hc
    · have := fun permX => (runAll_pairs (VecOwn sizes (at' S.start) S.acc.order)
        (fun a x y x' y' => VecOwn.unique (by rw [ho]; exact s1) s2)
        (fun i b => unscramble S permX i b) sizes.length B
        (fun p hp b _ => copy_own hS (at' S.start) S.acc.paramStart S.acc.order permX hp) x.data
        (locate_fst_lt hc) hb ⟨locate_fst_lt hc, _, locate_snd_lt hc, rfl⟩).1
      rw [hS.size]
      rw [this]
      exact copy_value hS (at' S.start) S.acc.paramStart S.acc.order _ x.data hc

/-- `factor` and `solve` on the GPU, whatever the schedules of the two copies. -/
theorem cuda_solve {S : Symbolic} {solve : (ℕ → ℝ) → (ℕ → ℝ) → ℕ → ℝ} (hS : Built S sizes)
    (hA : S.acc = A) (hK : K.Solves solve) {B fuel fuel' : ℕ} (data junk x : ℕ → ℝ) {m m' : Machine ℝ}
    (sched sched' : List Tid) (h : cudaScramble fuel S B x junk = some m) (hd : (m.run sched).Done)
    (h' : cudaUnscramble fuel' S B (solveAll S solve data (m.run sched).mem) x = some m')
    (hd' : (m'.run sched').Done) {b : ℕ} (hb : b < B)
    (hpd : (K.matrix (item A.dataSize data b)).PosDef) (i : Fin sizes.sum) :
    ∑ j : Fin sizes.sum, K.matrix (item A.dataSize data b) i j * (m'.run sched').mem (b * sizes.sum + j)
      = x (b * sizes.sum + i) := by
  have ho : S.acc.order = sizes.sum := by rw [hA]; exact K.order
  obtain ⟨s1, s2⟩ := start_ok hS
  obtain ⟨gr, w, hm, hx, hy⟩ := bspLaunch_eq (by omega) h
  obtain ⟨gr', w', hm', hx', hy'⟩ := bspLaunch_eq (by omega) h'
  rw [hS.size] at hx hx'
  refine solve_between K hS hA hK data x (m.run sched).mem _ hpd (fun c hc => ?_) (fun c hc => ?_) i
  · subst hm
    have hp := locate_fst_lt hc
    rw [private_launch gr w sizes.length B _ _ (VecOwn sizes S.acc.paramStart S.acc.order)
      (fun a x y x' y' => VecOwn.unique (by rw [hA]; exact K.start_lt) (by rw [hA]; exact K.start_inj))
      (fun p b ins hins => by
        split at hins
        · cases hins
        · rename_i hg
          rw [hS.size] at hg
          exact copy_own hS S.acc.paramStart (at' S.start) S.acc.order x (by omega) ins hins)
      hx hy sched hd hp hb ⟨hp, _, locate_snd_lt hc, rfl⟩]
    rw [if_neg (by rw [hS.size]; omega)]
    exact copy_value hS S.acc.paramStart (at' S.start) S.acc.order x junk hc
  · subst hm'
    have hp := locate_fst_lt hc
    rw [private_launch gr' w' sizes.length B _ _ (VecOwn sizes (at' S.start) S.acc.order)
      (fun a x y x' y' => VecOwn.unique (by rw [ho]; exact s1) s2)
      (fun p b ins hins => by
        split at hins
        · cases hins
        · rename_i hg
          rw [hS.size] at hg
          exact copy_own hS (at' S.start) S.acc.paramStart S.acc.order _ (by omega) ins hins)
      hx' hy' sched' hd' hp hb ⟨hp, _, locate_snd_lt hc, rfl⟩]
    rw [if_neg (by rw [hS.size]; omega)]
    exact copy_value hS (at' S.start) S.acc.paramStart S.acc.order _ x hc

end

end Verif.Ext
