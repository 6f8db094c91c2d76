import Verif.Ext.BaspachoForward
import Verif.Ext.BaspachoAddM
import Verif.Ext.PatternProps
import Verif.Ext.LuForwardProps
import Mathlib.LinearAlgebra.Matrix.PosDef
import Mathlib.Analysis.Matrix.PosDef
import Mathlib.Algebra.Order.Star.Real

/-!
# The forward pass with BaSpaCho (C91)
-/

namespace Verif.Linear
open Verif.Objective
variable {R : Type}

/-- The columns of the block of a cost function increase. -/
theorem colIndOf_sorted (o : Ordering) (dof : Var → Nat) (c : LCost R)
    (hm : ∀ v ∈ c.vars, v ∈ o.order) (hn : c.vars.Nodup) :
    (colIndOf (sortedOf o dof c)).Pairwise (· < ·) := by
  unfold colIndOf
  rw [List.pairwise_flatten]
  constructor
  · intro l hl
    obtain ⟨s, -, rfl⟩ := List.mem_map.1 hl
    rw [List.pairwise_map]
    exact List.pairwise_lt_range.imp fun h => by omega
  · rw [List.pairwise_map]
    have h1 : (sortedOf o dof c).Pairwise (fun a b => leEntry a b = true) := by
      refine List.pairwise_mergeSort ?_ ?_ _
      · intro a b c h1 h2
        simp only [leEntry, Bool.or_eq_true, Bool.and_eq_true, decide_eq_true_eq] at h1 h2 ⊢
        omega
      · intro a b
        simp only [leEntry, Bool.or_eq_true, Bool.and_eq_true, decide_eq_true_eq]
        omega
    have h2 := h1.and (sorted_nodup o dof c)
    refine h2.imp_of_mem fun {a b} ha hb hab x hx y hy => ?_
    obtain ⟨ia, va, hva, ea⟩ := mem_entriesFrom o dof c.vars 0 a ((sorted_perm o dof c).mem_iff.1 ha)
    obtain ⟨ib, vb, hvb, eb⟩ := mem_entriesFrom o dof c.vars 0 b ((sorted_perm o dof c).mem_iff.1 hb)
    have hvv : va ≠ vb := by
      rintro rfl
      have hia := (List.getElem?_eq_some_iff.1 hva).1
      have : ia = ib := (List.getElem?_inj hia hn).1 (hva.trans hvb.symm)
      subst this
      exact hab.2 (ea.trans eb.symm)
    have hd := offs_disj dof o.order va vb (hm _ (List.mem_of_getElem? hva))
      (hm _ (List.mem_of_getElem? hvb)) hvv
    have hle := hab.1
    obtain ⟨s, hs, rfl⟩ := List.mem_map.1 hx
    obtain ⟨t, ht, rfl⟩ := List.mem_map.1 hy
    simp only [leEntry, Bool.or_eq_true, Bool.and_eq_true, decide_eq_true_eq] at hle
    simp only [ea, eb, List.mem_range] at hs ht hle ⊢
    omega

/-- In the arrays that the linearization builds the columns of every row increase, if no cost function
lists a variable twice. -/
theorem csr_sorted (o : Ordering) (h : Consistent o) (dof : Var → Nat) (cs : List (LCost R))
    (hm : ∀ c ∈ cs, ∀ v ∈ c.vars, v ∈ o.order) (hn : ∀ c ∈ cs, c.vars.Nodup) :
    ∃ m, csr o (layout dof o.order) dof cs = .ok m ∧ ∀ i < numRows cs, ∀ p q,
      at' m.rowPtr i ≤ p → p < at' m.rowPtr (i + 1) → at' m.rowPtr i ≤ q → q < at' m.rowPtr (i + 1) →
      p < q → at' m.colInd p < at' m.colInd q := by
  refine ⟨_, csr_ok h dof cs hm, ?_⟩
  intro i hlt p q hp1 hp2 hq1 hq2 hpq
  obtain ⟨cpre, c, cpost, e, r, hr, rfl⟩ := exists_row cs i hlt
  have hc : c ∈ cs := by rw [e]; simp
  have hext : Ext (csrBefore o dof (cpre ++ [c])) (csrBefore o dof cs) := by
    have := ext_foldl o dof cpost (csrBefore o dof (cpre ++ [c]))
    have e' : cpost.foldl (csrNext o dof) (csrBefore o dof (cpre ++ [c])) = csrBefore o dof cs := by
      rw [e]; simp [csrBefore]
    rw [e'] at this; exact this
  obtain ⟨s1, s2, _⟩ := structure_rows o dof cpre c _ hext
  rw [s1 r (by omega)] at hp1 hq1
  rw [Nat.add_assoc, s1 (r + 1) (by omega)] at hp2 hq2
  rw [Nat.add_mul, Nat.one_mul] at hp2 hq2
  obtain ⟨a, rfl⟩ := Nat.exists_eq_add_of_le hp1
  obtain ⟨b, rfl⟩ := Nat.exists_eq_add_of_le hq1
  have ha : a < (colIndOf (sortedOf o dof c)).length := by omega
  have hb : b < (colIndOf (sortedOf o dof c)).length := by omega
  have ga := s2 r hr a ha
  have gb := s2 r hr b hb
  rw [List.getElem?_eq_getElem ha] at ga
  rw [List.getElem?_eq_getElem hb] at gb
  rw [at'_of_get ga, at'_of_get gb]
  exact List.pairwise_iff_getElem.1 (colIndOf_sorted o dof c (hm c hc) (hn c hc)) a b _ _ (by omega)

end Verif.Linear

namespace Verif.Ext
open Verif.Linear Verif.Autograd Matrix

/-! ## The block structure -/

theorem locate_eq : ∀ {sizes : List ℕ} {c : ℕ}, c < sizes.sum →
    (sizes.take (locate sizes c).1).sum + (locate sizes c).2 = c := by
  intro sizes
  induction sizes with
  | nil => intro c h; simp at h
  | cons s ss ih =>
    intro c h
    rw [locate]
    split
    · simp
    · simp only [List.sum_cons] at h
      have := ih (c := c - s) (by omega)
      simp only [List.take_succ_cons, List.sum_cons]
      omega

theorem blockStarts_at (sizes : List ℕ) {u : ℕ} (hu : u ≤ sizes.length) :
    at' (cumStarts 0 sizes ++ [sizes.sum]) u = (sizes.take u).sum := by
  have hl : (cumStarts 0 sizes).length = sizes.length := by
    have : ∀ (ds : List ℕ) acc, (cumStarts acc ds).length = ds.length := by
      intro ds
      induction ds with
      | nil => intro acc; rfl
      | cons d ds ih => intro acc; simp [cumStarts, ih]
    exact this _ _
  rcases Nat.eq_or_lt_of_le hu with rfl | hlt
  · have := at'_append_right (l := cumStarts 0 sizes) (l' := [sizes.sum]) (i := 0)
    rw [hl] at this
    rw [Nat.add_zero] at this
    rw [this, List.take_length]
    rfl
  · rw [at'_append_left (by omega)]
    have := cumStarts_get? 0 sizes u hlt
    simp [at', List.getD, this]

theorem cumStarts_length (sizes : List ℕ) : ∀ acc, (cumStarts acc sizes).length = sizes.length := by
  induction sizes with
  | nil => intro acc; rfl
  | cons d ds ih => intro acc; simp [cumStarts, ih]

/-- The block of column `c` is `u` when `c` is between the start of `u` and that of the next. -/
theorem locate_iff {sizes : List ℕ} {u c : ℕ} (hu : u < sizes.length) (hc : c < sizes.sum) :
    (sizes.take u).sum ≤ c ∧ c < (sizes.take (u + 1)).sum ↔ (locate sizes c).1 = u := by
  have h1 := locate_eq hc
  have h2 := locate_snd_lt hc
  have h3 := locate_fst_lt hc
  have mono : ∀ a b, a ≤ b → (sizes.take a).sum ≤ (sizes.take b).sum := by
    intro a b hab
    have := List.take_append_drop a (sizes.take b)
    rw [List.take_take, min_eq_left hab] at this
    rw [← this, List.sum_append]
    omega
  have next : ∀ a, a < sizes.length → (sizes.take (a + 1)).sum = (sizes.take a).sum + at' sizes a := by
    intro a ha
    rw [List.take_succ_eq_append_getElem ha, List.sum_append]
    simp [at', List.getD, List.getElem?_eq_getElem ha]
  constructor
  · rintro ⟨ha, hb⟩
    rcases Nat.lt_trichotomy (locate sizes c).1 u with hlt | he | hgt
    · have := mono _ _ (Nat.succ_le_of_lt hlt)
      have := next _ h3
      simp only [Nat.succ_eq_add_one] at *
      omega
    · exact he
    · have := mono _ _ (Nat.succ_le_of_lt hgt)
      simp only [Nat.succ_eq_add_one] at *
      omega
  · rintro rfl
    have := next _ h3
    omega

/-- A row of the collapsed matrix has an entry when the row has one in a column of the block. -/
theorem blockAt_iff {sizes : List ℕ} {M : CsrArr} (hM : M.Legal sizes.sum) {u r : ℕ}
    (hu : u < sizes.length) (hr : r < M.numRows) :
    blockAt (toBlocks (cumStarts 0 sizes) sizes.sum) M u r = true ↔
      ∃ q, M.InRow r q ∧ (locate sizes (at' M.colInd q)).1 = u := by
  unfold blockAt toBlocks
  simp only [List.any_eq_true, List.mem_range'_1, beq_iff_eq]
  rw [blockStarts_at sizes (by omega), blockStarts_at sizes (by omega)]
  have hr1 : ∀ p, p < sizes.sum → at' (List.range sizes.sum) p = p := by
    intro p hp
    simp [at', List.getD, List.getElem?_range hp]
  have hmono := hM.mono r hr
  have hle : (sizes.take (u + 1)).sum ≤ sizes.sum := by
    conv_rhs => rw [← List.take_append_drop (u + 1) sizes, List.sum_append]
    omega
  constructor
  · rintro ⟨p, hp, q, hq, e⟩
    have hq' : M.InRow r q := ⟨hq.1, by omega⟩
    have hc := InRow.col_lt hM hr hq'
    refine ⟨q, hq', (locate_iff hu hc).1 ?_⟩
    rw [e, hr1 p (by omega)]
    omega
  · rintro ⟨q, hq, e⟩
    have hc := InRow.col_lt hM hr hq
    have := (locate_iff hu hc).2 e
    refine ⟨at' M.colInd q, by omega, q, ⟨hq.1, by have := hq.2; have := hq.1; omega⟩, ?_⟩
    rw [hr1 _ hc]

/-- The block structure has exactly the pairs of blocks with columns in a common row. -/
theorem blockPattern_stored {sizes : List ℕ} {M : CsrArr} (hM : M.Legal sizes.sum) {u v : ℕ}
    (hu : u < sizes.length) :
    (∃ s, (blockPattern (cumStarts 0 sizes) sizes.sum M).InRow u s ∧
      at' (blockPattern (cumStarts 0 sizes) sizes.sum M).colInd s = v) ↔
    v < sizes.length ∧ ∃ r < M.numRows, (∃ p, M.InRow r p ∧ (locate sizes (at' M.colInd p)).1 = u) ∧
      ∃ q, M.InRow r q ∧ (locate sizes (at' M.colInd q)).1 = v := by
  have hd := pat_done (fun u v => (List.range M.numRows).any fun r =>
    blockAt (toBlocks (cumStarts 0 sizes) sizes.sum) M u r &&
      blockAt (toBlocks (cumStarts 0 sizes) sizes.sum) M v r) sizes.length
  have := hd.stored (i := u) (j := v) hu
  unfold blockPattern
  rw [cumStarts_length]
  rw [this]
  refine and_congr_right fun hv => ?_
  simp only [List.any_eq_true, List.mem_range, Bool.and_eq_true]
  refine exists_congr fun r => and_congr_right fun hr => ?_
  rw [blockAt_iff hM hu hr, blockAt_iff hM hv hr]

theorem blockPattern_rows (sizes : List ℕ) (M : CsrArr) :
    (blockPattern (cumStarts 0 sizes) sizes.sum M).rowPtr.length = sizes.length + 1 := by
  unfold blockPattern
  rw [cumStarts_length]
  exact (pat_done _ _).len

section
variable {A : Accessor} {sizes : List ℕ} {M : CsrArr}
  (K : Contract A sizes (blockPattern (cumStarts 0 sizes) sizes.sum M))

/-- Every product that `add_MtM` forms has its block. -/
theorem blocks_stored (hM : M.Legal sizes.sum) : BlocksStored K M := fun q hq p s hp hs =>
  K.stored_of _ _ (locate_fst_lt (InRow.col_lt hM hq hp))
    ((blockPattern_stored hM (locate_fst_lt (InRow.col_lt hM hq hp))).2
      ⟨locate_fst_lt (InRow.col_lt hM hq hs), q, hq, ⟨p, hp, rfl⟩, s, hs, rfl⟩)

/-- If every column has a stored entry, the diagonal blocks are stored. -/
theorem diagonals_stored (hM : M.Legal sizes.sum) (hcol : ColumnsStored M sizes.sum) :
    ∀ p < sizes.length, 0 < at' sizes p → K.stored p p := by
  intro p hp h0
  obtain ⟨c, hc, e⟩ := locate_surj hp h0
  obtain ⟨r, hr, q, hq, eq⟩ := hcol c hc
  refine K.stored_of _ _ hp ((blockPattern_stored hM hp).2 ⟨hp, r, hr, ⟨q, hq, ?_⟩, q, hq, ?_⟩) <;>
  rw [eq, e]

/-! ## The forward pass -/

theorem entry_zero {d : ℕ → ℝ} (h : ∀ a, d a = 0) (i j : ℕ) : K.entry d i j = 0 := by
  unfold Contract.entry
  rw [h]
  exact ite_self _

/-- What was assembled and damped is the matrix of the damped normal equations. -/
theorem bsp_matrix {d1 F : ℕ → ℝ} (val : Ten ℝ) (hv : val.cols = M.nnz)
    {damping : Option ((ℕ → ℝ) × (ℕ → ℝ))} {k : ℕ}
    (h1 : ∀ i j, i < sizes.sum → j < sizes.sum → K.entry (item A.dataSize d1 k) i j
      = K.entry (item A.dataSize (fun _ => 0) k) i j
      + ∑ q ∈ Finset.range M.numRows, denote M.rowPtr M.colInd (item val.cols val.data k) q i
        * denote M.rowPtr M.colInd (item val.cols val.data k) q j)
    (h2 : (damping = none → F = d1) ∧ ∀ d, damping = some d → ∀ i j, i < sizes.sum → j < sizes.sum →
      K.entry (item A.dataSize F k) i j = K.entry (item A.dataSize d1 k) i j
      + if i = j then d.1 k * K.entry (item A.dataSize d1 k) i j + d.2 k else 0) :
    K.matrix (item A.dataSize F k) = (M.pattern sizes.sum).normal
      (damping.elim 0 fun d => d.1 k) (damping.elim 0 fun d => d.2 k)
      (fun p => val.data (k * M.nnz + p)) := by
  ext i j
  have e : K.entry (item A.dataSize d1 k) i j
      = ∑ q ∈ Finset.range M.numRows, M.mat val.data k q i * M.mat val.data k q j := by
    rw [h1 i j i.2 j.2, entry_zero K (d := item A.dataSize (fun _ => 0) k) (fun a => rfl), zero_add]
    refine Finset.sum_congr rfl fun q _ => ?_
    unfold CsrArr.mat item
    rw [hv]
  unfold Pattern.normal Contract.matrix
  simp only
  rw [gram_eq val.data k i j, ← e]
  cases damping with
  | none =>
    rw [h2.1 rfl]
    simp
  | some d =>
    rw [h2.2 d rfl i j i.2 j.2]
    simp only [Option.elim_some, Fin.ext_iff]

/-- A solution of a system with a positive definite matrix. -/
theorem solveWith_unique {n : ℕ} {N : Matrix (Fin n) (Fin n) ℝ} (hN : N.PosDef) (v x : ℕ → ℝ)
    (h : ∀ i : Fin n, ∑ j : Fin n, N i j * x j = v i) {j : ℕ} (hj : j < n) :
    x j = solveWith N v j := by
  have hu : IsUnit N.det := isUnit_iff_ne_zero.2 hN.det_pos.ne'
  have e : N *ᵥ (fun k : Fin n => x k) = fun k : Fin n => v k := by
    funext i
    exact h i
  unfold solveWith
  rw [dif_pos hj, ← e, Matrix.mulVec_mulVec, Matrix.nonsing_inv_mul _ hu, Matrix.one_mulVec]

theorem solveWith_congr {n : ℕ} (N : Matrix (Fin n) (Fin n) ℝ) {v w : ℕ → ℝ}
    (h : ∀ c < n, v c = w c) {j : ℕ} (hj : j < n) : solveWith N v j = solveWith N w j := by
  unfold solveWith
  rw [dif_pos hj, dif_pos hj]
  congr 2
  funext c
  exact h c c.2

/-- The system is damped: its matrix is positive definite, whatever the Jacobian. -/
theorem normal_posDef (s : Pattern) {alpha beta : ℝ} (ha : 0 ≤ alpha) (hb : 0 < beta) (val : ℕ → ℝ) :
    (s.normal alpha beta val).PosDef := by
  have hp : ((s.mat val)ᵀ * s.mat val).PosSemidef := by
    have := Matrix.posSemidef_conjTranspose_mul_self (s.mat val)
    rwa [Matrix.conjTranspose_eq_transpose_of_trivial] at this
  have hd : (Matrix.diagonal fun j => alpha * ((s.mat val)ᵀ * s.mat val) j j + beta).PosDef := by
    refine Matrix.PosDef.diagonal fun j => ?_
    have : 0 ≤ ((s.mat val)ᵀ * s.mat val) j j := hp.diag_nonneg
    have := mul_nonneg ha this
    linarith
  have e : s.normal alpha beta val = Matrix.diagonal (fun j =>
      alpha * ((s.mat val)ᵀ * s.mat val) j j + beta) + (s.mat val)ᵀ * s.mat val := by
    ext i j
    unfold Pattern.normal
    simp only [Matrix.add_apply, Matrix.diagonal_apply]
    by_cases h : i = j
    · subst h; simp; ring
    · simp [h]
  rw [e]
  exact hd.add_posSemidef hp

/-- The forward pass on the CPU: for every batch element whose damped normal matrix is positive
definite the result is the solution that the autograd model (C53) starts from. -/
theorem bsp_forward_cpu {create : List ℕ → CsrArr → Accessor}
    (K : Contract (create sizes (blockPattern (cumStarts 0 sizes) sizes.sum M)) sizes
      (blockPattern (cumStarts 0 sizes) sizes.sum M))
    {solve : (ℕ → ℝ) → (ℕ → ℝ) → ℕ → ℝ} (hK : K.Solves solve) (hM : M.Legal sizes.sum)
    (hs : M.Sorted) {S : Symbolic}
    (hS : bspSymbolic create (cumStarts 0 sizes) sizes sizes.sum M = .ok S) {B : ℕ} (val b : Ten ℝ)
    {damping : Option ((ℕ → ℝ) × (ℕ → ℝ))} (hcol : damping.isSome → ColumnsStored M sizes.sum)
    {junk x : ℕ → ℝ} (h : bspForwardCpu S solve B M sizes.sum val b damping junk = .ok x) {k j : ℕ}
    (hk : k < B) (hj : j < sizes.sum)
    (hpd : ((M.pattern sizes.sum).normal (damping.elim 0 fun d => d.1 k)
      (damping.elim 0 fun d => d.2 k) (fun p => val.data (k * M.nnz + p))).PosDef) :
    x (k * sizes.sum + j) = forward (M.pattern sizes.sum) (damping.elim 0 fun d => d.1 k)
      (damping.elim 0 fun d => d.2 k) (fun p => val.data (k * M.nnz + p))
      (fun r => b.data (k * b.cols + r)) j := by
  obtain ⟨hB, hA⟩ := symbolic_built hS
  have hb := blocks_stored K hM
  unfold bspForwardCpu at h
  cases h1 : cpuAddMtM S B (fun _ => 0) M val with
  | error e => rw [h1] at h; cases h
  | ok d1 =>
    rw [h1] at h
    have hv : val.cols = M.nnz := by
      unfold cpuAddMtM at h1
      split at h1
      · cases h1
      · omega
    cases h2 : bspDampCpu S B d1 damping with
    | error e =>
      simp only [h2] at h
      cases h
    | ok F =>
      simp only [h2] at h
      have hm := bsp_matrix K (d1 := d1) (F := F) val hv (damping := damping) (k := k)
        (fun i j hi hj => cpu_add_MtM K hB hA hM hs hb _ _ val h1 hk hi hj)
        ⟨by rintro rfl; cases h2; rfl, by
          rintro d rfl i j hi hj
          exact cpu_damp K hB hA (diagonals_stored K hM (hcol rfl)) d1 F d.1 d.2 h2 hk hi hj⟩
      rw [← hm] at hpd
      have sol := cpu_solve K hB hA hK F junk _ h hk hpd
      rw [hm] at sol hpd
      refine (solveWith_unique hpd (fun c => flatTmatVec M sizes.sum val b (k * sizes.sum + c))
        (fun c => x (k * sizes.sum + c)) sol hj).trans ?_
      unfold forward
      refine solveWith_congr _ (fun c hc => ?_) hj
      unfold flatTmatVec
      have e1 : (k * sizes.sum + c) / sizes.sum = k := by
        rw [Nat.mul_comm, Nat.mul_add_div (by omega), Nat.div_eq_of_lt hc, Nat.add_zero]
      have e2 : (k * sizes.sum + c) % sizes.sum = c := by
        rw [Nat.mul_comm, Nat.mul_add_mod, Nat.mod_eq_of_lt hc]
      rw [e1, e2, hv]

/-- The forward pass on the GPU, whatever the schedules of its kernels. -/
theorem bsp_forward_gpu {create : List ℕ → CsrArr → Accessor}
    (K : Contract (create sizes (blockPattern (cumStarts 0 sizes) sizes.sum M)) sizes
      (blockPattern (cumStarts 0 sizes) sizes.sum M))
    {solve : (ℕ → ℝ) → (ℕ → ℝ) → ℕ → ℝ} (hK : K.Solves solve) (hM : M.Legal sizes.sum)
    (hs : M.Sorted) {S : Symbolic}
    (hS : bspSymbolic create (cumStarts 0 sizes) sizes sizes.sum M = .ok S) {B : ℕ} (val b : Ten ℝ)
    {damping : Option ((ℕ → ℝ) × (ℕ → ℝ))} (hcol : damping.isSome → ColumnsStored M sizes.sum)
    {x : ℕ → ℝ} (h : BspForwardGpu S solve B M sizes.sum val b damping x) {k j : ℕ}
    (hk : k < B) (hj : j < sizes.sum)
    (hpd : ((M.pattern sizes.sum).normal (damping.elim 0 fun d => d.1 k)
      (damping.elim 0 fun d => d.2 k) (fun p => val.data (k * M.nnz + p))).PosDef) :
    x (k * sizes.sum + j) = forward (M.pattern sizes.sum) (damping.elim 0 fun d => d.1 k)
      (damping.elim 0 fun d => d.2 k) (fun p => val.data (k * M.nnz + p))
      (fun r => b.data (k * b.cols + r)) j := by
  obtain ⟨hB, hA⟩ := symbolic_built hS
  have hb := blocks_stored K hM
  cases h with
  | @mk f1 f3 f4 s1 s2 s3 s4 m1 m2 m3 m4 F junk mult mdone damp tmat tdone scr sdone unscr udone =>
    have hv : val.cols = M.nnz := by
      unfold cudaAddMtM at mult
      split at mult
      · cases mult
      · omega
    have hm := bsp_matrix K (d1 := (m1.run s1).mem) (F := F) val hv (damping := damping) (k := k)
      (fun i j hi hj => cuda_add_MtM K hB hA hM hs hb _ val mult s1 mdone hk hi hj)
      ⟨by rintro rfl; cases damp; rfl, by
        rintro d rfl i j hi hj
        cases damp with
        | some sd call done =>
          exact cuda_damp K hB hA (diagonals_stored K hM (hcol rfl)) _ _ _ call sd done hk hi hj⟩
    rw [← hm] at hpd
    have sol := cuda_solve K hB hA hK F junk m2.mem s3 s4 scr sdone unscr udone hk hpd
    rw [hm] at sol hpd
    refine (solveWith_unique hpd (fun c => m2.mem (k * sizes.sum + c))
      (fun c => (m4.run s4).mem (k * sizes.sum + c)) sol hj).trans ?_
    unfold forward
    refine solveWith_congr _ (fun c hc => ?_) hj
    refine (cuda_tmat_vec hM val b s2 tmat tdone hk hc).trans ?_
    have := tmatVec_eq M.rowPtr M.colInd M.numRows sizes.sum hM (fun p => val.data (k * M.nnz + p))
      (fun r => b.data (k * b.cols + r)) c
    exact this.symm

/-- With damping (`alpha ≥ 0`, `beta > 0`) nothing is needed about the Jacobian: the two devices give
the same result, whatever the schedules. -/
theorem bsp_devices_agree {create create' : List ℕ → CsrArr → Accessor}
    (K : Contract (create sizes (blockPattern (cumStarts 0 sizes) sizes.sum M)) sizes
      (blockPattern (cumStarts 0 sizes) sizes.sum M))
    (K' : Contract (create' sizes (blockPattern (cumStarts 0 sizes) sizes.sum M)) sizes
      (blockPattern (cumStarts 0 sizes) sizes.sum M))
    {solve solve' : (ℕ → ℝ) → (ℕ → ℝ) → ℕ → ℝ} (hK : K.Solves solve) (hK' : K'.Solves solve')
    (hM : M.Legal sizes.sum) (hs : M.Sorted) (hcol : ColumnsStored M sizes.sum) {S S' : Symbolic}
    (hS : bspSymbolic create (cumStarts 0 sizes) sizes sizes.sum M = .ok S)
    (hS' : bspSymbolic create' (cumStarts 0 sizes) sizes sizes.sum M = .ok S') {B : ℕ} (val b : Ten ℝ)
    {alpha beta : ℕ → ℝ} (ha : ∀ k < B, 0 ≤ alpha k) (hb : ∀ k < B, 0 < beta k) {junk x y : ℕ → ℝ}
    (h : bspForwardCpu S solve B M sizes.sum val b (some (alpha, beta)) junk = .ok x)
    (h' : BspForwardGpu S' solve' B M sizes.sum val b (some (alpha, beta)) y) {k j : ℕ}
    (hk : k < B) (hj : j < sizes.sum) : x (k * sizes.sum + j) = y (k * sizes.sum + j) := by
  have hpd := normal_posDef (M.pattern sizes.sum) (ha k hk) (hb k hk)
    (fun p => val.data (k * M.nnz + p))
  rw [bsp_forward_cpu K hK hM hs hS val b (fun _ => hcol) h hk hj hpd,
    bsp_forward_gpu K' hK' hM hs hS' val b (fun _ => hcol) h' hk hj hpd]

/-- The arrays and sizes of a linearization meet the conditions of the forward pass: legal arrays with
increasing columns, the starts of the variables, and (if every variable is in a cost function of
positive dimension) an entry in every column. -/
theorem linearization_fits {R : Type} (o : Linear.Ordering) (h : Consistent o) (dof : Objective.Var → ℕ)
    (cs : List (LCost R)) (hm : ∀ c ∈ cs, ∀ v ∈ c.vars, v ∈ o.order) (hn : ∀ c ∈ cs, c.vars.Nodup) :
    ∃ m, csr o (layout dof o.order) dof cs = .ok m ∧
      (layout dof o.order).starts = cumStarts 0 (o.order.map dof) ∧
      (layout dof o.order).numCols = (o.order.map dof).sum ∧
      (⟨m.rowPtr, m.colInd⟩ : CsrArr).Legal (o.order.map dof).sum ∧
      (⟨m.rowPtr, m.colInd⟩ : CsrArr).Sorted ∧
      ((∀ v ∈ o.order, ∃ c ∈ cs, v ∈ c.vars ∧ 0 < c.dim) →
        ColumnsStored ⟨m.rowPtr, m.colInd⟩ (o.order.map dof).sum) := by
  obtain ⟨m, e, hw⟩ := csr_wellFormed o h dof cs hm
  have hnc := (columns_of_variable dof o.order).2
  have hrow : (⟨m.rowPtr, m.colInd⟩ : CsrArr).numRows = numRows cs := by
    unfold CsrArr.numRows
    rw [hw.len]
    omega
  refine ⟨m, e, ?_, hnc, ?_, ?_, ?_⟩
  · rw [layout, layoutLoop_starts]
    rfl
  · unfold CsrArr.Legal
    rw [hrow, ← hnc]
    exact hw
  · obtain ⟨m', e', hs⟩ := csr_sorted o h dof cs hm hn
    rw [e] at e'
    cases e'
    intro i hi p q hp hq hpq
    rw [hrow] at hi
    exact hs i hi p q hp.1 hp.2 hq.1 hq.2 hpq
  · intro hv
    obtain ⟨m', e', hc⟩ := csr_columns_stored o h dof cs hm hv
    rw [e] at e'
    cases e'
    intro j hj
    obtain ⟨i, hi, p, h1, h2, h3⟩ := hc j (by rw [hnc]; exact hj)
    exact ⟨i, by rw [hrow]; exact hi, p, ⟨h1, h2⟩, h3⟩

/-- The forward pass on the CPU ends with a result when the shapes match. -/
theorem bsp_cpu_exists {S : Symbolic} (ho : S.acc.order = sizes.sum) (hM : M.Legal sizes.sum)
    (solve : (ℕ → ℝ) → (ℕ → ℝ) → ℕ → ℝ) {B : ℕ} (val b : Ten ℝ) (hv : val.rows = B)
    (hv' : val.cols = M.nnz) (damping : Option ((ℕ → ℝ) × (ℕ → ℝ))) (junk : ℕ → ℝ) :
    ∃ x, bspForwardCpu S solve B M sizes.sum val b damping junk = .ok x := by
  have hl : at' M.rowPtr (M.rowPtr.length - 1) = M.nnz := by
    rw [hM.len, Nat.add_sub_cancel]
    exact hM.last
  unfold bspForwardCpu cpuAddMtM
  rw [if_neg (by simp [hv, hv', hl])]
  cases damping with
  | none =>
    simp only [bspDampCpu, cpuSolve]
    rw [if_neg (by simp [ho])]
    exact ⟨_, rfl⟩
  | some d =>
    simp only [bspDampCpu, cpuDamp]
    rw [if_neg (by simp)]
    simp only [cpuSolve]
    rw [if_neg (by simp [ho])]
    exact ⟨_, rfl⟩

theorem bspLaunch_exists {R : Type} [CommRing R] {n B : ℕ} (hB : 0 < B) (k : ℕ → ℕ → List (Ins R))
    (mem : ℕ → R) : ∃ (m : Machine R) (s : List Tid), bspLaunch 3 n B k mem = some m ∧ (m.run s).Done := by
  obtain ⟨w, hw, -⟩ := wgs_loop_ends hB 0
  obtain ⟨s, hs⟩ := exists_done ((n + w.1 - 1) / w.1, (B + w.2 - 1) / w.2) w k mem
  exact ⟨_, s, by unfold bspLaunch; rw [hw]; rfl, hs⟩

/-- On the GPU too, for a batch that is not empty. -/
theorem bsp_gpu_exists (S : Symbolic) (solve : (ℕ → ℝ) → (ℕ → ℝ) → ℕ → ℝ) {B : ℕ} (hB : 0 < B)
    (val b : Ten ℝ) (hv : val.rows = B) (hv' : val.cols = M.nnz) (hb : b.rows = B)
    (hb' : b.cols = M.numRows) (damping : Option ((ℕ → ℝ) × (ℕ → ℝ))) :
    ∃ x, BspForwardGpu S solve B M sizes.sum val b damping x := by
  obtain ⟨m1, s1, h1, d1⟩ := bspLaunch_exists (n := M.numRows) hB
    (mtmKernel S B M val.cols val.data) fun _ => (0 : ℝ)
  have e1 : cudaAddMtM 3 S B (fun _ => 0) M val = .ok (some m1) := by
    unfold cudaAddMtM
    rw [if_neg (by simp [hv, hv']), h1]
  obtain ⟨s2, d2⟩ := exists_done (numBlocks M.numRows B) wgs
    (tmatVecKernel B M sizes.sum val.data b.data) fun _ => 0
  have e2 : cudaTmatVec B sizes.sum M val b s2 = .ok ((launch (numBlocks M.numRows B) wgs
      (tmatVecKernel B M sizes.sum val.data b.data) fun _ => 0).run s2) := by
    unfold cudaTmatVec; rw [if_neg (by simp [hv, hv', hb, hb'])]
  have hF : ∃ F, BspDamped S B (m1.run s1).mem damping F := by
    cases damping with
    | none => exact ⟨_, .none⟩
    | some d =>
      obtain ⟨alpha, beta⟩ := d
      obtain ⟨m, s, h, dn⟩ := bspLaunch_exists (n := S.size.length) hB (fun p b =>
        if B ≤ b ∨ S.size.length ≤ p then [] else dampBlock S (alpha b) (beta b) p b) (m1.run s1).mem
      refine ⟨_, .some (fuel := 3) s (m := m) ?_ dn⟩
      unfold cudaDamp
      rw [if_neg (by simp), h]
  obtain ⟨F, hF⟩ := hF
  obtain ⟨m3, s3, h3, d3⟩ := bspLaunch_exists (n := S.size.length) hB (fun i b =>
    if B ≤ b ∨ S.size.length ≤ i then [] else scramble S _ i b) fun _ => (0 : ℝ)
  obtain ⟨m4, s4, h4, d4⟩ := bspLaunch_exists (n := S.size.length) hB (fun i b =>
    if B ≤ b ∨ S.size.length ≤ i then [] else unscramble S (solveAll S solve F (m3.run s3).mem) i b) _
  exact ⟨_, .mk s1 s2 s3 s4 e1 d1 hF e2 d2 h3 d3 h4 d4⟩

/-- For an empty batch the CPU returns (an empty result), and the GPU never does: the loop for the
size of the work groups does not end. -/
theorem bsp_gpu_empty_batch (S : Symbolic) (solve : (ℕ → ℝ) → (ℕ → ℝ) → ℕ → ℝ) (val b : Ten ℝ)
    (nc : ℕ) (damping : Option ((ℕ → ℝ) × (ℕ → ℝ))) (x : ℕ → ℝ) :
    ¬ BspForwardGpu S solve 0 M nc val b damping x := by
  rintro ⟨s1, s2, s3, s4, mult, -, -, -, -, -, -, -, -⟩
  unfold cudaAddMtM at mult
  split at mult
  · cases mult
  · simp only [bspLaunch, wgs_loop_empty_batch, Option.map_none, Except.ok.injEq] at mult
    cases mult

end

end Verif.Ext
