import Verif.Ext.BaspachoLemmas

/-!
# The BaSpaCho bindings: adding the product of the matrices (C91)
-/

namespace Verif.Ext
open Verif.Linear

variable {R : Type} [CommRing R]

/-! ## Work groups -/

/-- The loop for the work group size ends for every batch that is not empty. -/
theorem wgs_loop_ends {B : ℕ} (hB : 0 < B) (n : ℕ) :
    ∃ w, wgsLoop (n + 3) B (8, 4) = some w ∧ 0 < w.1 ∧ 0 < w.2 := by
  by_cases h2 : B ≤ 2
  · by_cases h1 : B ≤ 1
    · have : B = 1 := by omega
      subst this
      exact ⟨(32, 1), by simp [wgsLoop], by decide, by decide⟩
    · have : B = 2 := by omega
      subst this
      exact ⟨(16, 2), by simp [wgsLoop], by decide, by decide⟩
  · exact ⟨(8, 4), by simp [wgsLoop]; omega, by decide, by decide⟩

/-- For an empty batch it never ends. -/
theorem wgs_loop_empty_batch (n : ℕ) : ∀ w, wgsLoop n 0 w = none := by
  induction n with
  | zero => intro w; rfl
  | succ n ih => intro w; simp [wgsLoop, ih]

theorem wgsLoop_pos {B : ℕ} (hB : 0 < B) : ∀ (n : ℕ) (w w' : ℕ × ℕ), wgsLoop n B w = some w' →
    0 < w.1 → 0 < w.2 → 0 < w'.1 ∧ 0 < w'.2 := by
  intro n
  induction n with
  | zero => intro w w' h; cases h
  | succ n ih =>
    intro w w' h h1 h2
    rw [wgsLoop] at h
    split at h
    · exact ih _ _ h (by simp only; omega) (by simp only; omega)
    · cases h; exact ⟨h1, h2⟩

/-- A launch covers the rows and the batch. -/
theorem bspLaunch_eq {fuel n B : ℕ} {k : ℕ → ℕ → List (Ins R)} {mem : ℕ → R} {m : Machine R}
    (hB : 0 < B) (h : bspLaunch fuel n B k mem = some m) :
    ∃ nb w : ℕ × ℕ, m = launch nb w k mem ∧ n ≤ nb.1 * w.1 ∧ B ≤ nb.2 * w.2 := by
  unfold bspLaunch at h
  rcases hw : wgsLoop fuel B (8, 4) with _ | w
  · rw [hw] at h; cases h
  · rw [hw] at h
    simp only [Option.map_some, Option.some.injEq] at h
    obtain ⟨h1, h2⟩ := wgsLoop_pos hB _ _ _ hw (by decide) (by decide)
    exact ⟨_, w, h.symm, blocks_cover n h1, blocks_cover B h2⟩

/-! ## The sums -/

section
variable {A : Accessor} {sizes : List ℕ} {P : CsrArr} (K : Contract A sizes P) {S : Symbolic}
  {M : CsrArr}

/-- The blocks of the columns of a row are stored. -/
def BlocksStored (K : Contract A sizes P) (M : CsrArr) : Prop :=
  ∀ q < M.numRows, ∀ p s, M.InRow q p → M.InRow q s →
    K.stored (locate sizes (at' M.colInd p)).1 (locate sizes (at' M.colInd s)).1

theorem sorted_le (hs : M.Sorted) {q p s : ℕ} (hq : q < M.numRows) (hp : M.InRow q p)
    (h : M.InRow q s) (hsp : s ≤ p) : at' M.colInd s ≤ at' M.colInd p := by
  rcases Nat.eq_or_lt_of_le hsp with rfl | hl
  · exact le_rfl
  · exact (hs q hq s p h hp hl).le

/-- Which pairs of positions of a row go to the place of columns `i` and `j`. -/
theorem address_iff (hS : Built S sizes) (hA : S.acc = A) (hM : M.Legal sizes.sum) (hs : M.Sorted)
    (hb : BlocksStored K M) {i j q p s : ℕ} (hi : i < sizes.sum) (hji : j ≤ i)
    (hst : K.stored (locate sizes i).1 (locate sizes j).1) (hq : q < M.numRows) (hp : M.InRow q p)
    (h : M.InRow q s) (hsp : s ≤ p) :
    S.address (at' M.colInd p) (at' M.colInd s) = K.addr i j ↔
      at' M.colInd p = i ∧ at' M.colInd s = j := by
  have hcp := InRow.col_lt hM hq hp
  have hcs := InRow.col_lt hM hq h
  have hle := sorted_le hs hq hp h hsp
  rw [address_eq K hS hA hcp hle (hb q hq p s hp h)]
  constructor
  · intro e
    rcases addr_inj K hcp hcs (hb q hq p s hp h) hi (by omega) hst e with h' | ⟨h1, h2⟩
    · exact h'
    · constructor <;> omega
  · rintro ⟨rfl, rfl⟩; rfl

/-- What a row adds at the place of columns `i` and `j`. -/
theorem row_pairs (hS : Built S sizes) (hA : S.acc = A) (hM : M.Legal sizes.sum) (hs : M.Sorted)
    (hb : BlocksStored K M) {i j q : ℕ} (hi : i < sizes.sum) (hji : j ≤ i)
    (hst : K.stored (locate sizes i).1 (locate sizes j).1) (hq : q < M.numRows) (v : ℕ → R) :
    ∑ p ∈ Finset.Ico (at' M.rowPtr q) (at' M.rowPtr (q + 1)), ∑ s ∈ Finset.Ico (at' M.rowPtr q) (p + 1),
      (if S.address (at' M.colInd p) (at' M.colInd s) = K.addr i j then v p * v s else 0)
    = denote M.rowPtr M.colInd v q i * denote M.rowPtr M.colInd v q j := by
  unfold denote
  rw [Finset.sum_mul]
  refine Finset.sum_congr rfl fun p hp => ?_
  have hp' := mem_row.1 hp
  rw [Finset.mul_sum]
  have hsub : Finset.Ico (at' M.rowPtr q) (p + 1)
      ⊆ Finset.Ico (at' M.rowPtr q) (at' M.rowPtr (q + 1)) :=
    Finset.Ico_subset_Ico le_rfl (by have := hp'.2; omega)
  rw [← Finset.sum_subset hsub (f := fun s =>
    (if at' M.colInd p = i then v p else 0) * if at' M.colInd s = j then v s else 0)]
  · refine Finset.sum_congr rfl fun s h => ?_
    have hs' := Finset.mem_Ico.1 h
    have hsr : M.InRow q s := mem_row.1 (hsub h)
    by_cases e : at' M.colInd p = i ∧ at' M.colInd s = j
    · rw [if_pos ((address_iff K hS hA hM hs hb hi hji hst hq hp' hsr (by omega)).2 e), if_pos e.1,
        if_pos e.2]
    · rw [if_neg fun h' => e ((address_iff K hS hA hM hs hb hi hji hst hq hp' hsr (by omega)).1 h')]
      by_cases e1 : at' M.colInd p = i
      · rw [if_neg fun e2 => e ⟨e1, e2⟩, mul_zero]
      · rw [if_neg e1, zero_mul]
  · intro s h hn
    have hsr := mem_row.1 h
    by_cases e1 : at' M.colInd p = i
    · rw [if_neg (c := at' M.colInd s = j), mul_zero]
      intro e2
      have : p < s := by
        by_contra hc
        exact hn (Finset.mem_Ico.2 ⟨hsr.1, by omega⟩)
      have := hs q hq p s hp' hsr this
      omega
    · rw [if_neg e1, zero_mul]

theorem range'_row {q : ℕ} (hM : M.Legal sizes.sum) (hq : q < M.numRows) (f : ℕ → R) :
    ((List.range' (at' M.rowPtr q) (at' M.rowPtr (q + 1) - at' M.rowPtr q)).map f).sum
      = ∑ p ∈ Finset.Ico (at' M.rowPtr q) (at' M.rowPtr (q + 1)), f p := by
  rw [list_sum_range', Nat.add_sub_of_le (hM.mono q hq)]

theorem range'_to {q p : ℕ} (hp : at' M.rowPtr q ≤ p) (f : ℕ → R) :
    ((List.range' (at' M.rowPtr q) (p + 1 - at' M.rowPtr q)).map f).sum
      = ∑ s ∈ Finset.Ico (at' M.rowPtr q) (p + 1), f s := by
  rw [list_sum_range', Nat.add_sub_of_le (by omega)]

/-- An address of a batch element. -/
theorem batch_addr {D x y b b' : ℕ} (hx : x < D) (hy : y < D) :
    x + b' * D = b * D + y ↔ b' = b ∧ x = y := by
  constructor
  · intro h
    obtain ⟨h1, h2⟩ := mul_add_inj hx hy (a := b') (b := b) (by omega)
    exact ⟨h1, h2⟩
  · rintro ⟨rfl, rfl⟩; omega

/-- What a thread of the kernel adds at the place of columns `i` and `j`. -/
theorem added_mtm (hS : Built S sizes) (hA : S.acc = A) (hM : M.Legal sizes.sum) (hs : M.Sorted)
    (hb : BlocksStored K M) {B i j q y b : ℕ} (hi : i < sizes.sum) (hji : j ≤ i)
    (hst : K.stored (locate sizes i).1 (locate sizes j).1) (hq : q < M.numRows) (hy : y < B)
    (stride : ℕ) (val : ℕ → R) :
    added (b * A.dataSize + K.addr i j) (mtmKernel S B M stride val q y)
      = if y = b then denote M.rowPtr M.colInd (fun p => val (p + b * stride)) q i
          * denote M.rowPtr M.colInd (fun p => val (p + b * stride)) q j else 0 := by
  unfold mtmKernel
  rw [if_neg (by omega), added_flatMap, range'_row hM hq]
  have hlt := addr_lt K hi (by omega) hst
  have step : ∀ p ∈ Finset.Ico (at' M.rowPtr q) (at' M.rowPtr (q + 1)),
      added (b * A.dataSize + K.addr i j) ((List.range' (at' M.rowPtr q)
        (p + 1 - at' M.rowPtr q)).map fun s => Ins.atomicAdd
          (S.address (at' M.colInd p) (at' M.colInd s) + y * S.acc.dataSize)
          (val (p + y * stride) * val (s + y * stride)))
      = ∑ s ∈ Finset.Ico (at' M.rowPtr q) (p + 1), if y = b then
          (if S.address (at' M.colInd p) (at' M.colInd s) = K.addr i j then
            val (p + b * stride) * val (s + b * stride) else 0) else 0 := by
    intro p hp
    have hp' := mem_row.1 hp
    rw [added_map, range'_to hp'.1]
    refine Finset.sum_congr rfl fun s h => ?_
    have hs' := Finset.mem_Ico.1 h
    have hsr : M.InRow q s := ⟨hs'.1, by have := hp'.2; omega⟩
    have hst' := hb q hq p s hp' hsr
    have hcp := InRow.col_lt hM hq hp'
    have hle := sorted_le hs hq hp' hsr (by omega)
    have hlt' : S.address (at' M.colInd p) (at' M.colInd s) < A.dataSize := by
      rw [address_eq K hS hA hcp hle hst']
      exact addr_lt K hcp (by omega) hst'
    rw [hA]
    by_cases e : y = b
    · subst e
      rw [if_pos rfl]
      by_cases e' : S.address (at' M.colInd p) (at' M.colInd s) = K.addr i j
      · rw [if_pos e', if_pos ((batch_addr hlt' hlt).2 ⟨rfl, e'⟩)]
      · rw [if_neg e', if_neg fun h => e' ((batch_addr hlt' hlt).1 h).2]
    · rw [if_neg e, if_neg fun h => e ((batch_addr hlt' hlt).1 h).1]
  rw [Finset.sum_congr rfl step]
  by_cases e : y = b
  · simp only [if_pos e]
    exact row_pairs K hS hA hM hs hb hi hji hst hq fun p => val (p + b * stride)
  · simp [if_neg e]

/-- From the lower half to the whole symmetric matrix. -/
theorem entry_of_lower (d d' : ℕ → R) (F : ℕ → ℕ → R)
    (h : ∀ i j, i < sizes.sum → j ≤ i → K.stored (locate sizes i).1 (locate sizes j).1 →
      d' (K.addr i j) = d (K.addr i j) + F i j)
    (hsym : ∀ i j, F i j = F j i)
    (h0 : ∀ i j, i < sizes.sum → j < sizes.sum →
      ¬ K.stored (locate sizes i).1 (locate sizes j).1 → F i j = 0)
    {i j : ℕ} (hi : i < sizes.sum) (hj : j < sizes.sum) :
    K.entry d' i j = K.entry d i j + F i j := by
  unfold Contract.entry
  by_cases hs : K.stored (locate sizes i).1 (locate sizes j).1
  · rw [if_pos hs, if_pos hs]
    rcases Nat.le_total j i with hl | hl
    · exact h i j hi hl hs
    · rw [addr_symm K hi hj, h j i hj hl (K.stored_symm _ _ hs), hsym j i]
  · rw [if_neg hs, if_neg hs, h0 i j hi hj hs, add_zero]

/-- The products of the columns are zero outside of the stored blocks. -/
theorem gram_zero (hb : BlocksStored K M) (v : ℕ → R) {i j : ℕ}
    (hs : ¬ K.stored (locate sizes i).1 (locate sizes j).1) :
    ∑ q ∈ Finset.range M.numRows, denote M.rowPtr M.colInd v q i * denote M.rowPtr M.colInd v q j
      = 0 := by
  refine Finset.sum_eq_zero fun q hq => ?_
  rw [Finset.mem_range] at hq
  unfold denote
  rw [Finset.sum_mul]
  refine Finset.sum_eq_zero fun p hp => ?_
  rw [Finset.mul_sum]
  refine Finset.sum_eq_zero fun s h => ?_
  by_cases e1 : at' M.colInd p = i
  · by_cases e2 : at' M.colInd s = j
    · refine absurd ?_ hs
      rw [← e1, ← e2]
      exact hb q hq p s (mem_row.1 hp) (mem_row.1 h)
    · rw [if_neg e2, mul_zero]
  · rw [if_neg e1, zero_mul]

/-- `add_MtM` on the CPU adds the products of the columns to the matrix of every batch element. -/
theorem cpu_add_MtM (hS : Built S sizes) (hA : S.acc = A) (hM : M.Legal sizes.sum) (hs : M.Sorted)
    (hb : BlocksStored K M) {B : ℕ} (data data' : ℕ → R) (val : Ten R)
    (h : cpuAddMtM S B data M val = .ok data') {b i j : ℕ} (hbB : b < B) (hi : i < sizes.sum)
    (hj : j < sizes.sum) :
    K.entry (item A.dataSize data' b) i j = K.entry (item A.dataSize data b) i j
      + ∑ q ∈ Finset.range M.numRows, denote M.rowPtr M.colInd (item val.cols val.data b) q i
        * denote M.rowPtr M.colInd (item val.cols val.data b) q j := by
  unfold cpuAddMtM at h
  split at h
  · cases h
  · cases h
    refine entry_of_lower K _ _ (fun i j => ∑ q ∈ Finset.range M.numRows,
      denote M.rowPtr M.colInd (item val.cols val.data b) q i
        * denote M.rowPtr M.colInd (item val.cols val.data b) q j) ?_
      (fun i j => Finset.sum_congr rfl fun q _ => mul_comm _ _)
      (fun i j _ _ hn => gram_zero K hb _ hn) hi hj
    intro i j hi hji hst
    have hlt := addr_lt K hi (by omega) hst
    unfold item
    rw [runAll_atomic _ _ _ (by
      intro p hp
      simp only [List.mem_flatMap, List.mem_map] at hp
      obtain ⟨q, -, p, -, s, -, rfl⟩ := hp
      exact atomicOnly_map _ _ _)]
    congr 1
    rw [sum_flatMap, list_sum_range]
    refine Finset.sum_congr rfl fun q hq => ?_
    rw [Finset.mem_range] at hq
    rw [sum_flatMap, range'_row hM hq]
    rw [← row_pairs K hS hA hM hs hb hi hji hst hq fun p => val.data (b * val.cols + p)]
    refine Finset.sum_congr rfl fun p hp => ?_
    have hp' := mem_row.1 hp
    rw [List.map_map, range'_to hp'.1]
    refine Finset.sum_congr rfl fun s h => ?_
    have hs' := Finset.mem_Ico.1 h
    have hsr : M.InRow q s := ⟨hs'.1, by have := hp'.2; omega⟩
    have hst' := hb q hq p s hp' hsr
    have hcp := InRow.col_lt hM hq hp'
    have hle := sorted_le hs hq hp' hsr (by omega)
    have hlt' : S.address (at' M.colInd p) (at' M.colInd s) < A.dataSize := by
      rw [address_eq K hS hA hcp hle hst']
      exact addr_lt K hcp (by omega) hst'
    simp only [Function.comp_apply]
    rw [added_map, list_sum_range, hA, Finset.sum_eq_single_of_mem b (Finset.mem_range.2 hbB)]
    · rw [Nat.add_comm p, Nat.add_comm s]
      by_cases e' : S.address (at' M.colInd p) (at' M.colInd s) = K.addr i j
      · rw [if_pos e', if_pos ((batch_addr hlt' hlt).2 ⟨rfl, e'⟩)]
      · rw [if_neg e', if_neg fun h => e' ((batch_addr hlt' hlt).1 h).2]
    · intro y _ hy
      rw [if_neg fun h => hy ((batch_addr hlt' hlt).1 h).1]

/-- `add_MtM` on the GPU, whatever the schedule of the threads. -/
theorem cuda_add_MtM (hS : Built S sizes) (hA : S.acc = A) (hM : M.Legal sizes.sum) (hs : M.Sorted)
    (hb : BlocksStored K M) {B fuel : ℕ} (data : ℕ → R) (val : Ten R) {m : Machine R}
    (h : cudaAddMtM fuel S B data M val = .ok (some m)) (sched : List Tid) (hd : (m.run sched).Done)
    {b i j : ℕ} (hbB : b < B) (hi : i < sizes.sum) (hj : j < sizes.sum) :
    K.entry (item A.dataSize (m.run sched).mem b) i j = K.entry (item A.dataSize data b) i j
      + ∑ q ∈ Finset.range M.numRows, denote M.rowPtr M.colInd (item val.cols val.data b) q i
        * denote M.rowPtr M.colInd (item val.cols val.data b) q j := by
  unfold cudaAddMtM at h
  split at h
  · cases h
  · simp only [Except.ok.injEq] at h
    obtain ⟨nb, w, rfl, hx, hy⟩ := bspLaunch_eq (by omega) h
    refine entry_of_lower K _ _ (fun i j => ∑ q ∈ Finset.range M.numRows,
      denote M.rowPtr M.colInd (item val.cols val.data b) q i
        * denote M.rowPtr M.colInd (item val.cols val.data b) q j) ?_
      (fun i j => Finset.sum_congr rfl fun q _ => mul_comm _ _)
      (fun i j _ _ hn => gram_zero K hb _ hn) hi hj
    intro i j hi hji hst
    unfold item
    rw [atomic_launch nb w M.numRows B _ _
      (fun x y => by
        unfold mtmKernel
        split
        · intro i hi; cases hi
        · exact atomicOnly_flatMap _ _ fun p _ => atomicOnly_map _ _ _)
      (fun x y hxy => by
        unfold mtmKernel
        rw [if_pos (by omega)]) hx hy sched hd]
    congr 1
    refine Finset.sum_congr rfl fun q hq => ?_
    rw [Finset.mem_range] at hq
    rw [Finset.sum_eq_single_of_mem b (Finset.mem_range.2 hbB)]
    · rw [added_mtm K hS hA hM hs hb hi hji hst hq hbB, if_pos rfl]
      simp only [Nat.add_comm _ (b * val.cols)]
    · intro y hy hyb
      rw [added_mtm K hS hA hM hs hb hi hji hst hq (Finset.mem_range.1 hy), if_neg hyb]

end

end Verif.Ext
