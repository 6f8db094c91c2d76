import Verif.Ext.MatMult
import Verif.Linear.Props
import Verif.Autograd.Model

/-!
# The CUDA kernels for sparse matrices (C90)
-/

namespace Verif.Ext
open Verif.Linear

variable {R : Type} [CommRing R]

/-! ## Specification -/

/-- Legal CSR arrays with `nc` columns. -/
def CsrArr.Legal (M : CsrArr) (nc : ℕ) : Prop := WellFormed M.rowPtr M.colInd M.numRows nc

/-- Position `p` is in row `i`. -/
def CsrArr.InRow (M : CsrArr) (i p : ℕ) : Prop := at' M.rowPtr i ≤ p ∧ p < at' M.rowPtr (i + 1)

/-- The columns of every row increase. -/
def CsrArr.Sorted (M : CsrArr) : Prop :=
  ∀ i < M.numRows, ∀ p q, M.InRow i p → M.InRow i q → p < q → at' M.colInd p < at' M.colInd q

/-- Two columns of a row of `M` are a stored entry of `P`. -/
def Covers (P M : CsrArr) : Prop :=
  ∀ r < M.numRows, ∀ p q, M.InRow r p → M.InRow r q →
    ∃ s, P.InRow (at' M.colInd p) s ∧ at' P.colInd s = at' M.colInd q

/-- The matrix of batch element `b` in a buffer of batched values. -/
def CsrArr.mat (M : CsrArr) (val : ℕ → R) (b i j : ℕ) : R :=
  denote M.rowPtr M.colInd (fun p => val (b * M.nnz + p)) i j

/-! ## Lemmas -/

theorem list_sum_range (n : ℕ) (f : ℕ → R) :
    ((List.range n).map f).sum = ∑ i ∈ Finset.range n, f i := by
  induction n with
  | zero => simp
  | succ n ih => simp [List.range_succ, ih, Finset.sum_range_succ]

theorem foldl_sum_range (n : ℕ) (f : ℕ → R) :
    (List.range n).foldl (fun v i => v + f i) 0 = ∑ i ∈ Finset.range n, f i := by
  induction n with
  | zero => simp
  | succ n ih => simp [List.range_succ, ih, Finset.sum_range_succ]

theorem cover_x (nr B : ℕ) : nr ≤ (numBlocks nr B).1 * wgs.1 := blocks_cover nr (by decide)

theorem cover_y (nr B : ℕ) : B ≤ (numBlocks nr B).2 * wgs.2 := blocks_cover B (by decide)

/-- The binary search finds a needle that is there. -/
theorem bisectLoop_spec (values : ℕ → ℕ) (needle p : ℕ) : ∀ n a b, b - a = n → a ≤ p → p < b →
    (∀ i j, a ≤ i → i < j → j < b → values i < values j) → values p = needle →
    bisectLoop values needle a b = p := by
  intro n
  induction n using Nat.strong_induction_on with
  | _ n ih =>
    intro a b hn hap hpb hs hv
    rw [bisectLoop]
    split
    · rename_i hab
      split
      · rename_i hlt
        refine ih _ (by omega) _ _ rfl hap ?_ (fun i j h1 h2 h3 => hs i j h1 h2 (by omega)) hv
        by_contra hc
        push Not at hc
        rcases Nat.eq_or_lt_of_le hc with h | h
        · rw [h, hv] at hlt; exact lt_irrefl _ hlt
        · have := hs _ _ (by omega) h hpb
          omega
      · rename_i hlt
        refine ih _ (by omega) _ _ rfl ?_ hpb (fun i j h1 h2 h3 => hs i j (by omega) h2 h3) hv
        by_contra hc
        push Not at hc
        have := hs _ _ hap hc (by omega)
        omega
    · omega

theorem mul_add_inj {n a b p q : ℕ} (hp : p < n) (hq : q < n) (h : a * n + p = b * n + q) :
    a = b ∧ p = q := by
  have h1 : (a * n + p) / n = a := by
    rw [Nat.mul_comm, Nat.mul_add_div (by omega), Nat.div_eq_of_lt hp, Nat.add_zero]
  have h2 : (b * n + q) / n = b := by
    rw [Nat.mul_comm, Nat.mul_add_div (by omega), Nat.div_eq_of_lt hq, Nat.add_zero]
  have : a = b := by rw [← h1, ← h2, h]
  subst this
  exact ⟨rfl, by omega⟩

section
variable {M : CsrArr} {nc : ℕ}

theorem Legal_row_mono (h : M.Legal nc) {i j : ℕ} (hij : i ≤ j) (hj : j ≤ M.numRows) :
    at' M.rowPtr i ≤ at' M.rowPtr j := by
  induction j, hij using Nat.le_induction with
  | base => exact le_rfl
  | succ k hk ih => exact (ih (by omega)).trans (h.mono k (by omega))

theorem InRow.lt_nnz (h : M.Legal nc) {i p : ℕ} (hi : i < M.numRows) (hp : M.InRow i p) :
    p < M.nnz := by
  have := Legal_row_mono h (show i + 1 ≤ M.numRows by omega) le_rfl
  have hl := h.last
  have h2 := hp.2
  unfold CsrArr.nnz
  omega

theorem InRow.unique (h : M.Legal nc) {i j p : ℕ} (hi : i < M.numRows) (hj : j < M.numRows)
    (h1 : M.InRow i p) (h2 : M.InRow j p) : i = j := by
  by_contra hne
  rcases Nat.lt_or_gt_of_ne hne with hl | hl
  · have := Legal_row_mono h (show i + 1 ≤ j by omega) (by omega)
    have := h1.2; have := h2.1; omega
  · have := Legal_row_mono h (show j + 1 ≤ i by omega) (by omega)
    have := h1.1; have := h2.2; omega

theorem InRow.col_lt (h : M.Legal nc) {i p : ℕ} (hi : i < M.numRows) (hp : M.InRow i p) :
    at' M.colInd p < nc := by
  have hl := InRow.lt_nnz h hi hp
  refine h.range _ ?_
  unfold at'
  simp only [List.getD, List.getElem?_eq_getElem (show p < M.colInd.length from hl), Option.getD_some]
  exact List.getElem_mem _

/-- Sum over the positions of a row. -/
theorem sum_row (r : ℕ) (f : ℕ → R) :
    ∑ i ∈ Finset.range (at' M.rowPtr (r + 1) - at' M.rowPtr r), f (at' M.rowPtr r + i)
      = ∑ p ∈ Finset.Ico (at' M.rowPtr r) (at' M.rowPtr (r + 1)), f p :=
  (Finset.sum_Ico_eq_sum_range f _ _).symm

theorem mem_row {r p : ℕ} : p ∈ Finset.Ico (at' M.rowPtr r) (at' M.rowPtr (r + 1)) ↔ M.InRow r p :=
  Finset.mem_Ico

end

theorem mat_stored {P : CsrArr} (hs : P.Sorted) {i p : ℕ} (hi : i < P.numRows) (hp : P.InRow i p)
    {val : ℕ → R} {b : ℕ} : P.mat val b i (at' P.colInd p) = val (b * P.nnz + p) := by
  unfold CsrArr.mat denote
  rw [Finset.sum_eq_single_of_mem p (mem_row.2 hp), if_pos rfl]
  intro q hq hqp
  rw [if_neg]
  intro e
  rcases Nat.lt_or_gt_of_ne hqp with hl | hl
  · have := hs i hi _ _ (mem_row.1 hq) hp hl; omega
  · have := hs i hi _ _ hp (mem_row.1 hq) hl; omega

theorem mat_absent {P : CsrArr} {i j : ℕ} (h : ¬ ∃ p, P.InRow i p ∧ at' P.colInd p = j)
    {val : ℕ → R} {b : ℕ} : P.mat val b i j = 0 :=
  Finset.sum_eq_zero fun p hp => if_neg fun e => h ⟨p, mem_row.1 hp, e⟩

/-! ### `mat_vec` and `tmat_vec` -/

/-- `mat_vec` on the GPU, whatever the schedule of the threads and the previous contents of the
memory: every entry of the result is that of the matrix-vector product. -/
theorem cuda_mat_vec {M : CsrArr} {nc B : ℕ} (hM : M.Legal nc) (val vec : Ten R)
    (hvec : vec.cols = nc) (junk : ℕ → R) (sched : List Tid) {m : Machine R}
    (h : cudaMatVec B nc M val vec junk sched = .ok m) (hd : m.Done) {b r : ℕ} (hb : b < B)
    (hr : r < M.numRows) :
    m.mem (b * M.numRows + r)
      = ∑ c ∈ Finset.range nc, M.mat val.data b r c * vec.data (b * vec.cols + c) := by
  unfold cudaMatVec at h
  split at h
  · cases h
  · cases h
    rw [private_launch (numBlocks M.numRows B) wgs M.numRows B
      (matVecKernel B M nc val.data vec.data) junk
      (fun a x y => x < M.numRows ∧ a = y * M.numRows + x)
      (fun a x y x' y' ⟨h1, h2⟩ ⟨h3, h4⟩ => by
        obtain ⟨e1, e2⟩ := mul_add_inj h1 h3 (h2 ▸ h4)
        exact ⟨e2, e1⟩)
      (fun x y i hi => by
        unfold matVecKernel at hi
        split at hi
        · cases hi
        · rename_i hc
          push Not at hc
          simp only [List.mem_singleton] at hi
          subst hi
          exact ⟨hc.2, rfl⟩)
      (cover_x _ _) (cover_y _ _) sched hd hr hb ⟨hr, rfl⟩]
    unfold matVecKernel
    rw [if_neg (by omega)]
    simp only [runSeq, Ins.set, Ins.exec, Function.update_self]
    rw [foldl_sum_range _ fun i => val.data (b * M.nnz + (at' M.rowPtr r + i))
        * vec.data (b * nc + at' M.colInd (at' M.rowPtr r + i)),
      sum_row r fun p => val.data (b * M.nnz + p) * vec.data (b * nc + at' M.colInd p), hvec]
    exact matVec_eq M.rowPtr M.colInd M.numRows nc hM (fun p => val.data (b * M.nnz + p))
      (fun c => vec.data (b * nc + c)) r hr

omit [CommRing R] in
theorem atomicOnly_map {α : Type} (l : List α) (f : α → ℕ) (g : α → R) :
    AtomicOnly (l.map fun x => Ins.atomicAdd (f x) (g x)) := by
  intro i hi
  obtain ⟨x, -, rfl⟩ := List.mem_map.1 hi
  exact ⟨_, _, rfl⟩

theorem added_map {α : Type} (a : ℕ) (l : List α) (f : α → ℕ) (g : α → R) :
    added a (l.map fun x => Ins.atomicAdd (f x) (g x))
      = (l.map fun x => if f x = a then g x else 0).sum := by
  induction l with
  | nil => rfl
  | cons x l ih => simp [added, ih]

/-- `tmat_vec` on the GPU, whatever the schedule: every entry of the result is that of the product
of the transposed matrix with the vector. -/
theorem cuda_tmat_vec {M : CsrArr} {nc B : ℕ} (hM : M.Legal nc) (val vec : Ten R)
    (sched : List Tid) {m : Machine R} (h : cudaTmatVec B nc M val vec sched = .ok m) (hd : m.Done)
    {b c : ℕ} (hb : b < B) (hc : c < nc) :
    m.mem (b * nc + c)
      = ∑ r ∈ Finset.range M.numRows, M.mat val.data b r c * vec.data (b * vec.cols + r) := by
  unfold cudaTmatVec at h
  split at h
  · cases h
  · rename_i hs
    push Not at hs
    cases h
    rw [atomic_launch (numBlocks M.numRows B) wgs M.numRows B _ _
      (fun x y => by
        unfold tmatVecKernel
        split
        · intro i hi; cases hi
        · exact atomicOnly_map _ _ _)
      (fun x y hxy => by
        unfold tmatVecKernel
        rw [if_pos (by omega)])
      (cover_x _ _) (cover_y _ _) sched hd, zero_add]
    refine Finset.sum_congr rfl fun r hr => ?_
    rw [Finset.mem_range] at hr
    rw [Finset.sum_eq_single_of_mem b (Finset.mem_range.2 hb)]
    · unfold tmatVecKernel
      rw [if_neg (by omega)]
      simp only
      rw [added_map, list_sum_range, sum_row r fun p =>
        if b * nc + at' M.colInd p = b * nc + c then
          vec.data (b * M.numRows + r) * val.data (b * M.nnz + p) else 0, hs.2.2.2]
      unfold CsrArr.mat denote
      rw [Finset.sum_mul]
      refine Finset.sum_congr rfl fun p _ => ?_
      by_cases e : at' M.colInd p = c
      · rw [if_pos (by rw [e]), if_pos e, mul_comm]
      · rw [if_neg (by omega), if_neg e, zero_mul]
    · intro y hy hyb
      rw [Finset.mem_range] at hy
      unfold tmatVecKernel
      rw [if_neg (by omega)]
      simp only
      rw [added_map, list_sum_range, sum_row r fun p =>
        if y * nc + at' M.colInd p = b * nc + c then
          vec.data (y * M.numRows + r) * val.data (y * M.nnz + p) else 0]
      refine Finset.sum_eq_zero fun p hp => if_neg fun e => hyb ?_
      exact (mul_add_inj (InRow.col_lt hM hr (mem_row.1 hp)) hc e).1

/-! ### `mult_MtM` -/

omit [CommRing R] in
theorem atomicOnly_flatMap {α : Type} (l : List α) (f : α → List (Ins R))
    (h : ∀ x ∈ l, AtomicOnly (f x)) : AtomicOnly (l.flatMap f) := by
  intro i hi
  obtain ⟨x, hx, hi⟩ := List.mem_flatMap.1 hi
  exact h x hx i hi

/-- Where the kernel writes the product of two entries. -/
theorem dst_eq {M P : CsrArr} {nc : ℕ} (hM : M.Legal nc) (hPn : P.numRows = nc)
    (hs : P.Sorted) (hc : Covers P M) {r p q : ℕ} (hr : r < M.numRows) (hp : M.InRow r p)
    (hq : M.InRow r q) :
    P.InRow (at' M.colInd p) (at' P.rowPtr (at' M.colInd p) + bisectIndex
      (fun x => at' P.colInd (at' P.rowPtr (at' M.colInd p) + x))
      (at' P.rowPtr (at' M.colInd p + 1) - at' P.rowPtr (at' M.colInd p)) (at' M.colInd q)) ∧
    at' P.colInd (at' P.rowPtr (at' M.colInd p) + bisectIndex
      (fun x => at' P.colInd (at' P.rowPtr (at' M.colInd p) + x))
      (at' P.rowPtr (at' M.colInd p + 1) - at' P.rowPtr (at' M.colInd p)) (at' M.colInd q))
        = at' M.colInd q := by
  obtain ⟨s, h1, h2⟩ := hc r hr p q hp hq
  have hi : at' M.colInd p < P.numRows := hPn ▸ InRow.col_lt hM hr hp
  have hb : bisectIndex (fun x => at' P.colInd (at' P.rowPtr (at' M.colInd p) + x))
      (at' P.rowPtr (at' M.colInd p + 1) - at' P.rowPtr (at' M.colInd p)) (at' M.colInd q)
        = s - at' P.rowPtr (at' M.colInd p) := by
    have := h1.1; have := h1.2
    refine bisectLoop_spec _ _ _ _ _ _ rfl (Nat.zero_le _) (by omega) (fun i j _ h4 h5 => ?_) ?_
    · exact hs _ hi _ _ ⟨by omega, by omega⟩ ⟨by omega, by omega⟩ (by omega)
    · rw [Nat.add_sub_of_le h1.1, h2]
  rw [hb, Nat.add_sub_of_le h1.1]
  exact ⟨h1, h2⟩

/-- What the thread of row `r` and batch element `y` adds at position `p0` of batch element `b`. -/
theorem added_mult {M P : CsrArr} {nc B : ℕ} (hM : M.Legal nc) (hP : P.Legal nc)
    (hPn : P.numRows = nc) (hs : P.Sorted) (hc : Covers P M) (val : ℕ → R) {r y b i0 p0 : ℕ}
    (hr : r < M.numRows) (hy : y < B) (hi0 : i0 < P.numRows) (hp0 : P.InRow i0 p0) :
    added (b * P.nnz + p0) (multKernel B M P val r y)
      = if y = b then M.mat val b r i0 * M.mat val b r (at' P.colInd p0) else 0 := by
  have hin : ∀ p q, M.InRow r p → M.InRow r q →
      (y * P.nnz + (at' P.rowPtr (at' M.colInd p) + bisectIndex
        (fun x => at' P.colInd (at' P.rowPtr (at' M.colInd p) + x))
        (at' P.rowPtr (at' M.colInd p + 1) - at' P.rowPtr (at' M.colInd p)) (at' M.colInd q))
          = b * P.nnz + p0 ↔ y = b ∧ at' M.colInd p = i0 ∧ at' M.colInd q = at' P.colInd p0) := by
    intro p q hp hq
    obtain ⟨h1, h2⟩ := dst_eq hM hPn hs hc hr hp hq
    have hi : at' M.colInd p < P.numRows := hPn ▸ InRow.col_lt hM hr hp
    constructor
    · intro e
      obtain ⟨e1, e2⟩ := mul_add_inj (InRow.lt_nnz hP hi h1) (InRow.lt_nnz hP hi0 hp0) e
      rw [e2] at h1 h2
      exact ⟨e1, InRow.unique hP hi hi0 h1 hp0, h2.symm⟩
    · rintro ⟨rfl, e1, e2⟩
      congr 1
      have hsrt := hs i0 hi0
      rw [e1] at h1 h2 ⊢
      rw [e2] at h2
      by_contra hne
      rcases Nat.lt_or_gt_of_ne hne with hl | hl
      · have := hsrt _ _ h1 hp0 hl; rw [e2] at this; omega
      · have := hsrt _ _ hp0 h1 hl; rw [e2] at this; omega
  unfold multKernel
  rw [if_neg (by omega)]
  simp only
  rw [added_flatMap, list_sum_range]
  simp only [added_map, list_sum_range]
  rw [sum_row r fun p => ∑ j ∈ Finset.range (at' M.rowPtr (r + 1) - at' M.rowPtr r),
    if y * P.nnz + (at' P.rowPtr (at' M.colInd p) + bisectIndex
        (fun x => at' P.colInd (at' P.rowPtr (at' M.colInd p) + x))
        (at' P.rowPtr (at' M.colInd p + 1) - at' P.rowPtr (at' M.colInd p))
        (at' M.colInd (at' M.rowPtr r + j))) = b * P.nnz + p0
    then val (y * M.nnz + p) * val (y * M.nnz + (at' M.rowPtr r + j)) else 0]
  have h1 : ∀ p ∈ Finset.Ico (at' M.rowPtr r) (at' M.rowPtr (r + 1)),
      (∑ j ∈ Finset.range (at' M.rowPtr (r + 1) - at' M.rowPtr r),
        if y * P.nnz + (at' P.rowPtr (at' M.colInd p) + bisectIndex
            (fun x => at' P.colInd (at' P.rowPtr (at' M.colInd p) + x))
            (at' P.rowPtr (at' M.colInd p + 1) - at' P.rowPtr (at' M.colInd p))
            (at' M.colInd (at' M.rowPtr r + j))) = b * P.nnz + p0
        then val (y * M.nnz + p) * val (y * M.nnz + (at' M.rowPtr r + j)) else 0)
      = if y = b then (if at' M.colInd p = i0 then val (b * M.nnz + p) else 0)
          * M.mat val b r (at' P.colInd p0) else 0 := by
    intro p hp
    rw [sum_row r fun q => if y * P.nnz + (at' P.rowPtr (at' M.colInd p) + bisectIndex
            (fun x => at' P.colInd (at' P.rowPtr (at' M.colInd p) + x))
            (at' P.rowPtr (at' M.colInd p + 1) - at' P.rowPtr (at' M.colInd p))
            (at' M.colInd q)) = b * P.nnz + p0
        then val (y * M.nnz + p) * val (y * M.nnz + q) else 0]
    rw [Finset.sum_congr rfl fun q hq => by rw [if_congr (hin p q (mem_row.1 hp) (mem_row.1 hq)) rfl rfl]]
    by_cases e : y = b
    · subst e
      simp only [true_and, if_true, CsrArr.mat, denote, Finset.mul_sum]
      refine Finset.sum_congr rfl fun q _ => ?_
      by_cases e1 : at' M.colInd p = i0 <;> by_cases e2 : at' M.colInd q = at' P.colInd p0 <;>
        simp [e1, e2]
    · simp [e]
  rw [Finset.sum_congr rfl h1]
  by_cases e : y = b
  · simp only [e, if_true]
    rw [← Finset.sum_mul]
    rfl
  · simp [e]

/-- `mult_MtM`, whatever the schedule: if the pattern of the result is legal, sorted, and has the
entries that are needed, the values are those of the product of the transposed matrix with the
matrix. -/
theorem cuda_mult_MtM {M P : CsrArr} {nc B : ℕ} (hM : M.Legal nc) (hP : P.Legal nc)
    (hPn : P.numRows = nc) (hs : P.Sorted) (hc : Covers P M) (val : Ten R) (sched : List Tid)
    {m : Machine R} (h : multMtM B M val P sched = .ok m) (hd : m.Done) {b i j : ℕ} (hb : b < B)
    (hi : i < nc) :
    P.mat m.mem b i j
      = ∑ r ∈ Finset.range M.numRows, M.mat val.data b r i * M.mat val.data b r j := by
  unfold multMtM at h
  split at h
  · cases h
  · cases h
    have hval : ∀ p0, P.InRow i p0 → ((launch (numBlocks M.numRows B) wgs (multKernel B M P val.data)
        fun _ => 0).run sched).mem (b * P.nnz + p0)
          = ∑ r ∈ Finset.range M.numRows, M.mat val.data b r i * M.mat val.data b r (at' P.colInd p0) := by
      intro p0 hp0
      rw [atomic_launch (numBlocks M.numRows B) wgs M.numRows B _ _
        (fun x y => by
          unfold multKernel
          split
          · intro i hi; cases hi
          · exact atomicOnly_flatMap _ _ fun _ _ => atomicOnly_map _ _ _)
        (fun x y hxy => by
          unfold multKernel
          rw [if_pos (by omega)])
        (cover_x _ _) (cover_y _ _) sched hd, zero_add]
      refine Finset.sum_congr rfl fun r hr => ?_
      rw [Finset.mem_range] at hr
      rw [Finset.sum_congr rfl fun y hy => added_mult hM hP hPn hs hc val.data hr
        (Finset.mem_range.1 hy) (hPn ▸ hi) hp0]
      rw [Finset.sum_ite_eq' (Finset.range B) b, if_pos (Finset.mem_range.2 hb)]
    by_cases hj : ∃ p, P.InRow i p ∧ at' P.colInd p = j
    · obtain ⟨p, hp, rfl⟩ := hj
      rw [mat_stored hs (hPn ▸ hi) hp, hval p hp]
    · rw [mat_absent hj]
      symm
      refine Finset.sum_eq_zero fun r hr => ?_
      by_cases h1 : ∃ p, M.InRow r p ∧ at' M.colInd p = i
      · obtain ⟨p, hp, e1⟩ := h1
        rw [mat_absent (i := r) (j := j), mul_zero]
        rintro ⟨q, hq, e2⟩
        obtain ⟨s, h1, h2⟩ := hc r (Finset.mem_range.1 hr) p q hp hq
        exact hj ⟨s, e1 ▸ h1, h2.trans e2⟩
      · rw [mat_absent h1, zero_mul]

/-! ### `apply_damping` -/

theorem runSeq_modify (a : ℕ) (f : R → R) (rest : List (Ins R)) (mem : ℕ → R) (reg : R) :
    runSeq (modify a f ++ rest) mem reg = runSeq rest (Function.update mem a (f (mem a))) (mem a) := rfl

theorem runSeq_modifies (addr : ℕ → ℕ) (c : ℕ → Prop) [DecidablePred c] (f : R → R) (a : ℕ) :
    ∀ (l : List ℕ) (mem : ℕ → R) (reg : R),
    (∀ i ∈ l, ∀ j ∈ l, addr i = addr j → i = j) → l.Nodup →
    ((∃ i ∈ l, c i ∧ addr i = a) →
      runSeq (l.flatMap fun i => if c i then modify (addr i) f else []) mem reg a = f (mem a)) ∧
    ((¬ ∃ i ∈ l, c i ∧ addr i = a) →
      runSeq (l.flatMap fun i => if c i then modify (addr i) f else []) mem reg a = mem a) := by
  intro l
  induction l with
  | nil =>
    intro mem reg _ _
    exact ⟨by simp, fun _ => rfl⟩
  | cons x l ih =>
    intro mem reg hinj hn
    rw [List.nodup_cons] at hn
    have hinj' : ∀ i ∈ l, ∀ j ∈ l, addr i = addr j → i = j := fun i hi j hj =>
      hinj i (List.mem_cons_of_mem _ hi) j (List.mem_cons_of_mem _ hj)
    rw [List.flatMap_cons]
    by_cases hc : c x
    · rw [if_pos hc, runSeq_modify]
      obtain ⟨h1, h2⟩ := ih (Function.update mem (addr x) (f (mem (addr x)))) (mem (addr x)) hinj' hn.2
      by_cases hx : addr x = a
      · have hno : ¬ ∃ i ∈ l, c i ∧ addr i = a := by
          rintro ⟨i, hi, -, e⟩
          have := hinj i (List.mem_cons_of_mem _ hi) x (List.mem_cons_self ..) (e.trans hx.symm)
          exact hn.1 (this ▸ hi)
        rw [h2 hno, ← hx]
        refine ⟨fun _ => by simp, fun h => ?_⟩
        exact absurd ⟨x, List.mem_cons_self .., hc, rfl⟩ h
      · have hu : Function.update mem (addr x) (f (mem (addr x))) a = mem a :=
          Function.update_of_ne (Ne.symm hx) _ _
        rw [hu] at h1 h2
        refine ⟨?_, fun h => h2 ?_⟩
        · rintro ⟨i, hi, hci, e⟩
          rcases List.mem_cons.1 hi with rfl | hi
          · exact absurd e hx
          · exact h1 ⟨i, hi, hci, e⟩
        · rintro ⟨i, hi, hci, e⟩
          exact h ⟨i, List.mem_cons_of_mem _ hi, hci, e⟩
    · rw [if_neg hc, List.nil_append]
      obtain ⟨h1, h2⟩ := ih mem reg hinj' hn.2
      refine ⟨?_, fun h => h2 ?_⟩
      · rintro ⟨i, hi, hci, e⟩
        rcases List.mem_cons.1 hi with rfl | hi
        · exact absurd hci hc
        · exact h1 ⟨i, hi, hci, e⟩
      · rintro ⟨i, hi, hci, e⟩
        exact h ⟨i, List.mem_cons_of_mem _ hi, hci, e⟩

/-- Every position after `apply_damping`. -/
theorem damp_position {P : CsrArr} {nc B : ℕ} (hP : P.Legal nc) (val : Ten R) (na nb : ℕ)
    (alpha beta : ℕ → R) (sched : List Tid) {m : Machine R}
    (h : applyDamping B P val na nb alpha beta sched = .ok m) (hd : m.Done) {b i p : ℕ} (hb : b < B)
    (hi : i < P.numRows) (hp : P.InRow i p) :
    m.mem (b * P.nnz + p) = val.data (b * P.nnz + p)
      + if at' P.colInd p = i then alpha b * val.data (b * P.nnz + p) + beta b else 0 := by
  unfold applyDamping at h
  split at h
  · cases h
  · cases h
    rw [private_launch (numBlocks P.numRows B) wgs P.numRows B (dampKernel B P alpha beta) val.data
      (fun a x y => x < P.numRows ∧ ∃ q, P.InRow x q ∧ a = y * P.nnz + q)
      (fun a x y x' y' ⟨h1, q, h2, h3⟩ ⟨h4, q', h5, h6⟩ => by
        obtain ⟨e1, e2⟩ := mul_add_inj (InRow.lt_nnz hP h1 h2) (InRow.lt_nnz hP h4 h5) (h3 ▸ h6)
        subst e2
        exact ⟨InRow.unique hP h1 h4 h2 h5, e1⟩)
      (fun x y ins hins => by
        unfold dampKernel at hins
        split at hins
        · cases hins
        · rename_i hc
          push Not at hc
          simp only [List.mem_flatMap, List.mem_range] at hins
          obtain ⟨t, ht, hins⟩ := hins
          split at hins
          · refine ⟨hc.2, at' P.rowPtr x + t, ⟨by omega, by omega⟩, ?_⟩
            simp only [modify, List.mem_cons, List.not_mem_nil, or_false] at hins
            rcases hins with rfl | rfl <;> rfl
          · cases hins)
      (cover_x _ _) (cover_y _ _) sched hd hi hb ⟨hi, p, hp, rfl⟩]
    unfold dampKernel
    rw [if_neg (by omega)]
    simp only
    obtain ⟨h1, h2⟩ := runSeq_modifies (fun t => b * P.nnz + (at' P.rowPtr i + t))
      (fun t => at' P.colInd (at' P.rowPtr i + t) = i) (fun v => v + (alpha b * v + beta b))
      (b * P.nnz + p) (List.range (at' P.rowPtr (i + 1) - at' P.rowPtr i)) val.data 0
      (fun t _ t' _ e => by omega) List.nodup_range
    have hpp := hp.1
    have hpq := hp.2
    by_cases e : at' P.colInd p = i
    · rw [if_pos e]
      refine h1 ⟨p - at' P.rowPtr i, List.mem_range.2 (by omega), ?_, by omega⟩
      rw [Nat.add_sub_of_le hpp, e]
    · rw [if_neg e, add_zero]
      refine h2 ?_
      rintro ⟨t, -, ht, he⟩
      have : at' P.rowPtr i + t = p := by omega
      rw [this] at ht
      exact e ht

/-- `apply_damping`, whatever the schedule: `alpha` times the diagonal plus `beta` is added to the
stored diagonal entries, nothing else changes. -/
theorem cuda_apply_damping {P : CsrArr} {nc B : ℕ} (hP : P.Legal nc) (hs : P.Sorted) (val : Ten R)
    (na nb : ℕ) (alpha beta : ℕ → R) (sched : List Tid) {m : Machine R}
    (h : applyDamping B P val na nb alpha beta sched = .ok m) (hd : m.Done) {b i : ℕ} (hb : b < B)
    (hi : i < P.numRows) :
    ((∃ p, P.InRow i p ∧ at' P.colInd p = i) → P.mat m.mem b i i
      = P.mat val.data b i i + (alpha b * P.mat val.data b i i + beta b)) ∧
    ((¬ ∃ p, P.InRow i p ∧ at' P.colInd p = i) → P.mat m.mem b i i = 0) ∧
    ∀ j, j ≠ i → P.mat m.mem b i j = P.mat val.data b i j := by
  refine ⟨?_, fun hno => mat_absent hno, fun j hj => ?_⟩
  · rintro ⟨p, hp, e⟩
    have h1 := mat_stored hs hi hp (val := m.mem) (b := b)
    have h2 := mat_stored hs hi hp (val := val.data) (b := b)
    rw [e] at h1 h2
    rw [h1, h2, damp_position hP val na nb alpha beta sched h hd hb hi hp, if_pos e]
  · unfold CsrArr.mat denote
    refine Finset.sum_congr rfl fun p hp => ?_
    by_cases e : at' P.colInd p = j
    · rw [if_pos e, if_pos e]
      show m.mem (b * P.nnz + p) = val.data (b * P.nnz + p)
      rw [damp_position hP val na nb alpha beta sched h hd hb hi (mem_row.1 hp),
        if_neg (by rw [e]; exact hj), add_zero]
    · rw [if_neg e, if_neg e]

end Verif.Ext
