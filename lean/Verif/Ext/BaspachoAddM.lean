import Verif.Ext.BaspachoSolve

/-!
# The BaSpaCho bindings: `add_M` (C91)
-/

namespace Verif.Ext
open Verif.Linear

variable {R : Type} [CommRing R]

/-- Additions one after another, some of them left out. -/
theorem runSeq_adds (c : ℕ → Prop) [DecidablePred c] (f : ℕ → ℕ) (v : ℕ → R) (a : ℕ) :
    ∀ (l : List ℕ) (mem : ℕ → R) (reg : R),
      runSeq (l.flatMap fun i => if c i then [] else modify (f i) fun x => x + v i) mem reg a
        = mem a + (l.map fun i => if ¬ c i ∧ f i = a then v i else 0).sum := by
  intro l
  induction l with
  | nil => intro mem reg; simp [runSeq]
  | cons i l ih =>
    intro mem reg
    rw [List.flatMap_cons]
    obtain ⟨reg', e⟩ := runSeq_append (if c i then [] else modify (f i) fun x => x + v i)
      (l.flatMap fun i => if c i then [] else modify (f i) fun x => x + v i) mem reg
    rw [e, ih, List.map_cons, List.sum_cons, ← add_assoc]
    congr 1
    by_cases hc : c i
    · simp [hc, runSeq]
    · by_cases hf : f i = a
      · subst hf
        simp [hc, modify, runSeq, Ins.exec]
      · simp only [hc, if_false, modify, runSeq, Ins.exec]
        rw [Function.update_of_ne (Ne.symm hf), if_neg (by tauto), add_zero]

section
variable {A : Accessor} {sizes : List ℕ} {P : CsrArr} (K : Contract A sizes P) {S : Symbolic}
  {M : CsrArr}

/-- The blocks of the entries of `M` are stored. -/
def EntriesStored (K : Contract A sizes P) (M : CsrArr) : Prop :=
  ∀ r < M.numRows, ∀ p, M.InRow r p →
    K.stored (locate sizes r).1 (locate sizes (at' M.colInd p)).1

/-- The addresses of the lower half of row `r` in batch element `b`. -/
def RowOwn (K : Contract A sizes P) (x r b : ℕ) : Prop :=
  r < sizes.sum ∧ ∃ c ≤ r, K.stored (locate sizes r).1 (locate sizes c).1 ∧
    x = b * A.dataSize + K.addr r c

theorem RowOwn.unique {x r b r' b' : ℕ} (h : RowOwn K x r b) (h' : RowOwn K x r' b') :
    r = r' ∧ b = b' := by
  obtain ⟨hr, c, hc, hs, e⟩ := h
  obtain ⟨hr', c', hc', hs', e'⟩ := h'
  obtain ⟨h1, h2⟩ := mul_add_inj (addr_lt K hr (by omega) hs) (addr_lt K hr' (by omega) hs') (e ▸ e')
  refine ⟨?_, h1⟩
  rcases addr_inj K hr (by omega) hs hr' (by omega) hs' h2 with ⟨h3, -⟩ | ⟨h3, h4⟩ <;> omega

theorem addM_own (hS : Built S sizes) (hA : S.acc = A) (hb : EntriesStored K M)
    (hn : M.numRows = sizes.sum) (stride : ℕ) (val : ℕ → R) {r b : ℕ} (hr : r < M.numRows) :
    ∀ i ∈ addMRow S M stride val r b, RowOwn K i.addr r b := by
  intro ins hins
  unfold addMRow at hins
  obtain ⟨p, hp, hins⟩ := List.mem_flatMap.1 hins
  have hp' : M.InRow r p := by
    have := List.mem_range'_1.1 hp
    exact ⟨this.1, by omega⟩
  split at hins
  · cases hins
  · rename_i hc
    have e : ins.addr = S.address r (at' M.colInd p) + b * S.acc.dataSize := by
      simp only [modify, List.mem_cons, List.not_mem_nil, or_false] at hins
      rcases hins with rfl | rfl <;> rfl
    refine ⟨by omega, at' M.colInd p, by omega, hb r hr p hp', ?_⟩
    rw [e, address_eq K hS hA (by omega) (by omega) (hb r hr p hp'), hA]
    omega

/-- What row `r` adds at an address of its lower half. -/
theorem addM_value (hS : Built S sizes) (hA : S.acc = A) (hM : M.Legal sizes.sum)
    (hb : EntriesStored K M) (hn : M.numRows = sizes.sum) (stride : ℕ) (val : ℕ → R) {r c b : ℕ}
    (hr : r < M.numRows) (hcr : c ≤ r) (hst : K.stored (locate sizes r).1 (locate sizes c).1)
    (mem : ℕ → R) :
    runSeq (addMRow S M stride val r b) mem 0 (b * A.dataSize + K.addr r c)
      = mem (b * A.dataSize + K.addr r c)
        + denote M.rowPtr M.colInd (fun p => val (b * stride + p)) r c := by
  unfold addMRow
  rw [runSeq_adds (fun i => at' M.colInd i > r)
    (fun i => S.address r (at' M.colInd i) + b * S.acc.dataSize) (fun i => val (i + b * stride)),
    range'_row hM hr]
  congr 1
  unfold denote
  refine Finset.sum_congr rfl fun p hp => ?_
  have hp' := mem_row.1 hp
  have hst' := hb r hr p hp'
  have hlt := addr_lt K (i := r) (j := c) (by omega) (by omega) hst
  rw [Nat.add_comm p]
  by_cases e : at' M.colInd p = c
  · rw [if_pos e, if_pos]
    refine ⟨by omega, ?_⟩
    rw [e, address_eq K hS hA (by omega) hcr hst, hA]
    omega
  · rw [if_neg e, if_neg]
    rintro ⟨h1, h2⟩
    have hle : at' M.colInd p ≤ r := by omega
    rw [address_eq K hS hA (by omega) hle hst', hA] at h2
    have h3 := ((batch_addr (addr_lt K (by omega) (by omega) hst') hlt).1 h2).2
    rcases addr_inj K (by omega) (by omega) hst' (by omega) (by omega) hst h3 with ⟨-, h4⟩ | ⟨h4, h5⟩
    · exact e h4
    · omega

/-- From the lower half of `M` to the symmetric matrix. -/
theorem addM_entry (hb : EntriesStored K M) (hn : M.numRows = sizes.sum)
    (v : ℕ → R) (d d' : ℕ → R)
    (h : ∀ i j, i < sizes.sum → j ≤ i → K.stored (locate sizes i).1 (locate sizes j).1 →
      d' (K.addr i j) = d (K.addr i j) + denote M.rowPtr M.colInd v i j)
    {i j : ℕ} (hi : i < sizes.sum) (hj : j < sizes.sum) :
    K.entry d' i j = K.entry d i j + denote M.rowPtr M.colInd v (max i j) (min i j) := by
  have hz : ∀ i j, i < sizes.sum → ¬ K.stored (locate sizes i).1 (locate sizes j).1 →
      denote M.rowPtr M.colInd v i j = 0 := by
    intro i j hi hns
    unfold denote
    refine Finset.sum_eq_zero fun p hp => ?_
    rw [if_neg]
    rintro rfl
    exact hns (hb i (by omega) p (mem_row.1 hp))
  refine entry_of_lower K d d' (fun i j => denote M.rowPtr M.colInd v (max i j) (min i j))
    (fun i j hi hji hs => ?_) (fun i j => by rw [max_comm, min_comm]) (fun i j hi hj hn => ?_) hi hj
  · rw [max_eq_left hji, min_eq_right hji]
    exact h i j hi hji hs
  · rcases Nat.le_total j i with hl | hl
    · rw [max_eq_left hl, min_eq_right hl]
      exact hz i j hi hn
    · rw [max_eq_right hl, min_eq_left hl]
      exact hz j i hj fun h' => hn (K.stored_symm _ _ h')

/-- `add_M` on the CPU adds the symmetric matrix whose lower half is that of `M`. -/
theorem cpu_add_M (hS : Built S sizes) (hA : S.acc = A) (hM : M.Legal sizes.sum)
    (hb : EntriesStored K M) {B : ℕ} (data data' : ℕ → R) (val : Ten R)
    (h : cpuAddM S B data M val = .ok data') {b i j : ℕ} (hbB : b < B) (hi : i < sizes.sum)
    (hj : j < sizes.sum) :
    K.entry (item A.dataSize data' b) i j = K.entry (item A.dataSize data b) i j
      + denote M.rowPtr M.colInd (item val.cols val.data b) (max i j) (min i j) := by
  unfold cpuAddM at h
  split at h
  · cases h
  · rename_i hc
    cases h
    have hn : M.numRows = sizes.sum := by
      have ho : S.acc.order = sizes.sum := by rw [hA]; exact K.order
      unfold CsrArr.numRows
      omega
    refine addM_entry K hb hn _ _ _ (fun i j hi hji hs => ?_) hi hj
    unfold item
    rw [(runAll_pairs (RowOwn K) (fun a x y x' y' h1 h2 => h1.unique K h2)
      (fun r b => addMRow S M val.cols val.data r b) M.numRows B
      (fun r hr b _ => addM_own K hS hA hb hn val.cols val.data hr) data
      (x := i) (y := b) (by omega) hbB ⟨hi, j, hji, hs, rfl⟩).2]
    exact addM_value K hS hA hM hb hn _ _ (by omega) hji hs data

/-- `add_M` on the GPU, whatever the schedule of the threads: the additions are not atomic, but no two
threads add at the same place. -/
theorem cuda_add_M (hS : Built S sizes) (hA : S.acc = A) (hM : M.Legal sizes.sum)
    (hb : EntriesStored K M) {B fuel : ℕ} (data : ℕ → R) (val : Ten R) {m : Machine R}
    (h : cudaAddM fuel S B data M val = .ok (some m)) (sched : List Tid) (hd : (m.run sched).Done)
    {b i j : ℕ} (hbB : b < B) (hi : i < sizes.sum) (hj : j < sizes.sum) :
    K.entry (item A.dataSize (m.run sched).mem b) i j = K.entry (item A.dataSize data b) i j
      + denote M.rowPtr M.colInd (item val.cols val.data b) (max i j) (min i j) := by
  unfold cudaAddM at h
  split at h
  · cases h
  · rename_i hc
    simp only [Except.ok.injEq] at h
    have hn : M.numRows = sizes.sum := by
      have ho : S.acc.order = sizes.sum := by rw [hA]; exact K.order
      unfold CsrArr.numRows
      omega
    obtain ⟨gr, w, rfl, hx, hy⟩ := bspLaunch_eq (by omega) h
    refine addM_entry K hb hn _ _ _ (fun i j hi hji hs => ?_) hi hj
    unfold item
    rw [private_launch gr w M.numRows B _ _ (RowOwn K)
      (fun a x y x' y' h1 h2 => h1.unique K h2)
      (fun p b ins hins => by
        split at hins
        · cases hins
        · exact addM_own K hS hA hb hn _ _ (by omega) ins hins)
      hx hy sched hd (x := i) (y := b) (by omega) hbB ⟨hi, j, hji, hs, rfl⟩]
    rw [if_neg (by omega)]
    exact addM_value K hS hA hM hb hn _ _ (by omega) hji hs data

end

end Verif.Ext
