import Verif.Ext.LuForward
import Verif.Ext.PatternProps
import Verif.Autograd.Props

/-!
# The forward pass of the CUDA LU solver, whatever the schedule of the threads (C90)
-/

namespace Verif.Ext
open Verif.Linear Verif.Autograd Matrix

/-- Every column has a stored entry. -/
def ColumnsStored (M : CsrArr) (nc : ℕ) : Prop :=
  ∀ j < nc, ∃ r < M.numRows, ∃ p, M.InRow r p ∧ at' M.colInd p = j

theorem valueMatrix_eq (P : CsrArr) (n : ℕ) (val : ℕ → ℝ) (b : ℕ) (i j : Fin n) :
    valueMatrix P n val b i j = P.mat val b i j := rfl

/-- The pattern of the linear system as a `Pattern`. -/
abbrev CsrArr.pattern (M : CsrArr) (nc : ℕ) : Pattern := ⟨M.numRows, nc, M.rowPtr, M.colInd⟩

/-- The products of the columns. -/
theorem gram_eq {M : CsrArr} {nc : ℕ} (val : ℕ → ℝ) (b : ℕ) (i j : Fin nc) :
    (((M.pattern nc).mat fun p => val (b * M.nnz + p))ᵀ * (M.pattern nc).mat fun p => val (b * M.nnz + p)) i j
      = ∑ r ∈ Finset.range M.numRows, M.mat val b r i * M.mat val b r j := by
  rw [Matrix.mul_apply, Finset.sum_range]
  rfl

/-- The matrix that is factored: that of the damped normal equations, whatever the schedules of
`mult_MtM` and `apply_damping`. -/
theorem gpu_assembles {M : CsrArr} {nc B : ℕ} (hM : M.Legal nc) (val : Ten ℝ) (sched : List Tid)
    {m : Machine ℝ} (h : multMtM B M val (ataPattern M nc) sched = .ok m) (hd : m.Done)
    {damping : Option ((ℕ → ℝ) × (ℕ → ℝ))} (hcol : damping.isSome → ColumnsStored M nc)
    {F : ℕ → ℝ} (hF : Damped B (ataPattern M nc) m.mem damping F) {b : ℕ} (hb : b < B) :
    valueMatrix (ataPattern M nc) nc F b = (M.pattern nc).normal
      (damping.elim 0 fun d => d.1 b) (damping.elim 0 fun d => d.2 b)
      (fun p => val.data (b * M.nnz + p)) := by
  obtain ⟨hP, hPn, hs, hc⟩ := ata_pattern_fits hM
  have hm : ∀ i j, i < nc → (ataPattern M nc).mat m.mem b i j
      = ∑ r ∈ Finset.range M.numRows, M.mat val.data b r i * M.mat val.data b r j :=
    fun i j hi => cuda_mult_MtM hM hP hPn hs hc val sched h hd hb hi
  ext i j
  rw [valueMatrix_eq]
  unfold Pattern.normal
  simp only
  rw [gram_eq val.data b i j]
  cases hF with
  | none =>
    rw [hm i j i.2]
    simp
  | @some alpha beta sd md call done =>
    obtain ⟨h1, -, h3⟩ := cuda_apply_damping hP hs _ _ _ alpha beta sd call done hb
      (i := i) (by rw [hPn]; exact i.2)
    by_cases e : i = j
    · subst e
      rw [if_pos rfl, h1, ← hm i i i.2]
      · rfl
      · obtain ⟨r, hr, hp⟩ := hcol rfl i i.2
        exact (ataPattern_stored M i.2).2 ⟨i.2, r, hr, hp, hp⟩
    · rw [if_neg e, add_zero, h3 j fun e' => e (Fin.ext e'.symm), ← hm i j i.2]

/-- The result of the forward pass: for every batch element, the solution of the damped normal
equations that the autograd model (C53) starts from. -/
theorem lu_forward_solves {M : CsrArr} {nc B : ℕ} (hM : M.Legal nc) (val b : Ten ℝ)
    {damping : Option ((ℕ → ℝ) × (ℕ → ℝ))} (hcol : damping.isSome → ColumnsStored M nc) {x : ℕ → ℝ}
    (h : LuForward B M nc val b damping x) {k j : ℕ} (hk : k < B) (hj : j < nc) :
    x (k * nc + j) = forward (M.pattern nc) (damping.elim 0 fun d => d.1 k)
      (damping.elim 0 fun d => d.2 k) (fun p => val.data (k * M.nnz + p))
      (fun r => b.data (k * b.cols + r)) j := by
  cases h with
  | @mk sched sched' m m' F mult mdone damp tmat tdone =>
    unfold batchSolve forward
    have e1 : (k * nc + j) / nc = k := by
      rw [Nat.mul_comm, Nat.mul_add_div (by omega), Nat.div_eq_of_lt hj, Nat.add_zero]
    have e2 : (k * nc + j) % nc = j := by
      rw [Nat.mul_comm, Nat.mul_add_mod, Nat.mod_eq_of_lt hj]
    rw [e1, e2, gpu_assembles hM val sched mult mdone hcol damp hk]
    have hj' := hj
    unfold solveWith
    rw [dif_pos hj, dif_pos hj']
    congr 2
    funext c
    refine (cuda_tmat_vec hM val b sched' tmat tdone hk c.2).trans ?_
    have := tmatVec_eq M.rowPtr M.colInd M.numRows nc hM (fun p => val.data (k * M.nnz + p))
      (fun r => b.data (k * b.cols + r)) c
    exact this.symm

/-- The forward pass always ends with a result when the shapes match. -/
theorem lu_forward_exists {M : CsrArr} {nc B : ℕ} (val b : Ten ℝ) (hv : val.rows = B)
    (hv' : val.cols = M.nnz) (hb : b.rows = B) (hb' : b.cols = M.numRows)
    (damping : Option ((ℕ → ℝ) × (ℕ → ℝ))) : ∃ x, LuForward B M nc val b damping x := by
  obtain ⟨s1, h1⟩ := exists_done (numBlocks M.numRows B) wgs
    (multKernel B M (ataPattern M nc) val.data) fun _ => 0
  obtain ⟨s3, h3⟩ := exists_done (numBlocks M.numRows B) wgs
    (tmatVecKernel B M nc val.data b.data) fun _ => 0
  have e1 : multMtM B M val (ataPattern M nc) s1 = .ok ((launch (numBlocks M.numRows B) wgs
      (multKernel B M (ataPattern M nc) val.data) fun _ => 0).run s1) := by
    unfold multMtM; rw [if_neg (by simp [hv, hv'])]
  have e3 : cudaTmatVec B nc M val b s3 = .ok ((launch (numBlocks M.numRows B) wgs
      (tmatVecKernel B M nc val.data b.data) fun _ => 0).run s3) := by
    unfold cudaTmatVec; rw [if_neg (by simp [hv, hv', hb, hb'])]
  cases damping with
  | none => exact ⟨_, .mk s1 s3 e1 h1 .none e3 h3⟩
  | some d =>
    obtain ⟨alpha, beta⟩ := d
    obtain ⟨s2, h2⟩ := exists_done (numBlocks (ataPattern M nc).numRows B) wgs
      (dampKernel B (ataPattern M nc) alpha beta) ((launch (numBlocks M.numRows B) wgs
        (multKernel B M (ataPattern M nc) val.data) fun _ => 0).run s1).mem
    refine ⟨_, .mk s1 s3 e1 h1 (.some s2 (m := (launch (numBlocks (ataPattern M nc).numRows B) wgs
      (dampKernel B (ataPattern M nc) alpha beta) ((launch (numBlocks M.numRows B) wgs
        (multKernel B M (ataPattern M nc) val.data) fun _ => 0).run s1).mem).run s2) ?_ h2) e3 h3⟩
    unfold applyDamping
    rw [if_neg (by simp)]

/-- The schedules make no difference. -/
theorem lu_forward_deterministic {M : CsrArr} {nc B : ℕ} (hM : M.Legal nc) (val b : Ten ℝ)
    {damping : Option ((ℕ → ℝ) × (ℕ → ℝ))} (hcol : damping.isSome → ColumnsStored M nc)
    {x y : ℕ → ℝ} (hx : LuForward B M nc val b damping x) (hy : LuForward B M nc val b damping y)
    {k j : ℕ} (hk : k < B) (hj : j < nc) : x (k * nc + j) = y (k * nc + j) := by
  rw [lu_forward_solves hM val b hcol hx hk hj, lu_forward_solves hM val b hcol hy hk hj]

/-! ## Non-vacuity and witnesses -/

/-- Two rows, two columns: `[[x, y], [0, z]]`. -/
def exM : CsrArr := ⟨[0, 2, 3], [0, 1, 1]⟩

theorem exM_legal : exM.Legal 2 := ⟨rfl, rfl, by decide, rfl, by decide⟩

theorem exM_columns : ColumnsStored exM 2 := by
  intro j hj
  have : j = 0 ∨ j = 1 := by omega
  rcases this with rfl | rfl
  · exact ⟨0, by decide, 0, ⟨by decide, by decide⟩, by decide⟩
  · exact ⟨1, by decide, 2, ⟨by decide, by decide⟩, by decide⟩

example : ∃ x, LuForward 3 exM 2 ⟨3, 3, fun a => a + 1⟩ ⟨3, 2, fun a => a⟩
    (some (fun _ => 0, fun _ => 1)) x ∧ ∀ k < 3, ∀ j < 2, x (k * 2 + j)
      = forward (exM.pattern 2) 0 1 (fun p => (k * 3 + p : ℕ) + 1) (fun r => (k * 2 + r : ℕ)) j := by
  obtain ⟨x, hx⟩ := lu_forward_exists (M := exM) (nc := 2) (B := 3) ⟨3, 3, fun a => a + 1⟩
    ⟨3, 2, fun a => a⟩ rfl rfl rfl rfl (some (fun _ => 0, fun _ => 1))
  exact ⟨x, hx, fun k hk j hj => lu_forward_solves exM_legal _ _ (fun _ => exM_columns) hx hk hj⟩

example : ∃ sched m, cudaMatVec 2 2 exM ⟨2, 3, fun a => (a : ℤ) + 1⟩ ⟨2, 2, fun a => a⟩ (fun _ => 77)
    sched = .ok m ∧ m.Done ∧ m.mem (1 * 2 + 0) = 4 * 2 + 5 * 3 := by
  obtain ⟨s, h⟩ := exists_done (R := ℤ) (numBlocks 2 2) wgs
    (matVecKernel 2 exM 2 (fun a => (a : ℤ) + 1) fun a => a) fun _ => 77
  refine ⟨s, _, rfl, h, ?_⟩
  have := cuda_mat_vec (B := 2) exM_legal (⟨2, 3, fun a => (a : ℤ) + 1⟩ : Ten ℤ) ⟨2, 2, fun a => a⟩
    rfl (fun _ => 77) s rfl h (b := 1) (r := 0) (by decide) (by decide)
  refine this.trans ?_
  simp [Finset.sum_range_succ, CsrArr.mat, denote, exM, at', CsrArr.nnz]

example : (ataPattern exM 2) = ⟨[0, 2, 4], [0, 1, 0, 1]⟩ := by decide +kernel

/-- The matrix-vector kernel on the GPU does not check the width of the vector: the call with a
vector that is too narrow is accepted and the result is what happens to be next to it in memory (the
other kernels check, and on the CPU the product raises). -/
theorem cuda_mat_vec_reads_outside : ∃ (M : CsrArr) (val vec vec' : Ten ℤ) (sched : List Tid)
    (m m' : Machine ℤ), M.Legal 2 ∧ vec.cols = 1 ∧ vec'.cols = 1 ∧
      (∀ a < vec.rows * vec.cols, vec.data a = vec'.data a) ∧
      cudaMatVec 1 2 M val vec (fun _ => 0) sched = .ok m ∧ m.Done ∧
      cudaMatVec 1 2 M val vec' (fun _ => 0) sched = .ok m' ∧ m'.Done ∧ m.mem 0 ≠ m'.mem 0 := by
  have hd : ∀ v : ℕ → ℤ, ((launch (numBlocks 1 1) wgs (matVecKernel 1 ⟨[0, 1], [1]⟩ 2 (fun _ => 1) v)
      fun _ => 0).run [⟨0, 0, 0, 0⟩]).Done := by
    intro v t
    simp only [Machine.run]
    by_cases ht : t = ⟨0, 0, 0, 0⟩
    · subst ht
      simp [Machine.step, launch, numBlocks, wgs, matVecKernel, CsrArr.numRows]
    · simp only [Machine.step, launch, numBlocks, wgs, matVecKernel, CsrArr.numRows, Ins.set,
        Ins.exec]
      simp [Function.update_of_ne ht]
      split
      · rename_i h
        obtain ⟨h1, h2, h3, h4⟩ := h
        by_cases h5 : t.ty = 0
        · exact absurd (by cases t; simp_all) ht
        · simp; omega
      · rfl
  refine ⟨⟨[0, 1], [1]⟩, ⟨1, 1, fun _ => 1⟩, ⟨1, 1, fun _ => 0⟩, ⟨1, 1, fun a => if a = 0 then 0 else 1⟩,
    [⟨0, 0, 0, 0⟩], _, _, ⟨rfl, rfl, by decide, rfl, by decide⟩, rfl, rfl, ?_, rfl, hd _, rfl, hd _, ?_⟩
  · intro a ha
    have : a = 0 := by simpa using ha
    simp [this]
  · simp [Machine.run, Machine.step, launch, numBlocks, wgs, matVecKernel, CsrArr.numRows, Ins.set,
      Ins.exec, at']

/-- Without a stored entry in a column the damping of that column is lost: the condition on the
columns is needed. -/
theorem damping_needs_columns : ∃ (M : CsrArr) (val : Ten ℝ) (F : ℕ → ℝ) (sched : List Tid)
    (m : Machine ℝ), M.Legal 1 ∧ multMtM 1 M val (ataPattern M 1) sched = .ok m ∧ m.Done ∧
      Damped 1 (ataPattern M 1) m.mem (some (fun _ => 0, fun _ => 1)) F ∧
      valueMatrix (ataPattern M 1) 1 F 0 0 0 = 0 ∧
      (M.pattern 1).normal 0 1 (fun p => val.data (0 * M.nnz + p)) 0 0 = 1 := by
  obtain ⟨s1, h1⟩ := exists_done (R := ℝ) (numBlocks 1 1) wgs
    (multKernel 1 ⟨[0, 0], []⟩ (ataPattern ⟨[0, 0], []⟩ 1) fun _ => 0) fun _ => 0
  obtain ⟨s2, h2⟩ := exists_done (R := ℝ) (numBlocks (ataPattern ⟨[0, 0], []⟩ 1).numRows 1) wgs
    (dampKernel 1 (ataPattern ⟨[0, 0], []⟩ 1) (fun _ => 0) (fun _ => 1)) ((launch (numBlocks 1 1) wgs
    (multKernel 1 ⟨[0, 0], []⟩ (ataPattern ⟨[0, 0], []⟩ 1) fun _ => 0) fun _ => 0).run s1).mem
  refine ⟨⟨[0, 0], []⟩, ⟨1, 0, fun _ => 0⟩, _, s1, _, ⟨rfl, rfl, by decide, rfl, by decide⟩, rfl, h1,
    .some s2 ?_ h2, ?_, ?_⟩
  · unfold applyDamping
    rw [if_neg (by simp)]
    rfl
  · rw [valueMatrix_eq]
    refine mat_absent ?_
    rintro ⟨p, hp, -⟩
    have := hp.2
    have e : ataPattern ⟨[0, 0], []⟩ 1 = ⟨[0, 0], []⟩ := by decide +kernel
    rw [e] at this
    simp [at'] at this
  · refine (congrArg₂ (· + ·) (gram_eq (M := ⟨[0, 0], []⟩) (nc := 1) (fun _ => (0 : ℝ)) 0 0 0)
      (if_pos rfl)).trans ?_
    simp [CsrArr.mat, denote, at', CsrArr.numRows]

end Verif.Ext
