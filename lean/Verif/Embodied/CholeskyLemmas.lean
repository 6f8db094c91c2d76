import Verif.Embodied.Motion
import Mathlib.Analysis.Matrix.LDL
import Mathlib.Algebra.Order.Star.Real
import Mathlib.Tactic

/-!
# A matrix has a Cholesky factor exactly when it is positive definite
-/

namespace Verif.Embodied
open Matrix
variable {n : ℕ}

theorem det_lower {C : Matrix (Fin n) (Fin n) ℝ} (h : ∀ i j, i < j → C i j = 0) :
    C.det = ∏ i, C i i :=
  Matrix.det_of_isLowerTriangular C fun i j hij => h i j (by simpa using hij)

theorem IsCholesky.det_pos {S C : Matrix (Fin n) (Fin n) ℝ} (h : IsCholesky S C) : 0 < C.det := by
  rw [det_lower h.lower]
  exact Finset.prod_pos fun i _ => h.pos i

theorem IsCholesky.posDef {S C : Matrix (Fin n) (Fin n) ℝ} (h : IsCholesky S C) : S.PosDef := by
  have hu : IsUnit C := by
    rw [Matrix.isUnit_iff_isUnit_det]
    exact isUnit_iff_ne_zero.mpr h.det_pos.ne'
  have h1 := PosDef.mul_mul_conjTranspose_same (A := (1 : Matrix (Fin n) (Fin n) ℝ)) (B := C)
    PosDef.one (Matrix.vecMul_injective_of_isUnit hu)
  rw [Matrix.mul_one, Matrix.conjTranspose_eq_transpose_of_trivial, h.eq] at h1
  exact h1

theorem exists_cholesky {S : Matrix (Fin n) (Fin n) ℝ} (hS : S.PosDef) : ∃ C, IsCholesky S C := by
  set A := LDL.lowerInv hS with hA
  set M := LDL.lower hS with hM
  have hAl : ∀ i j, i < j → A i j = 0 := fun i j h => LDL.lowerInv_triangular hS h
  have hMl : ∀ i j, i < j → M i j = 0 := by
    have h1 : A.BlockTriangular OrderDual.toDual := fun i j h => hAl i j (by simpa using h)
    have h2 := Matrix.blockTriangular_inv_of_blockTriangular h1
    exact fun i j h => h2 (by simpa using h)
  have hMA : M * A = 1 := by
    rw [hM, LDL.lower]
    exact Matrix.inv_mul_of_invertible A
  have hdet : M.det ≠ 0 := by
    intro h0
    have := congrArg Matrix.det hMA
    simp [h0] at this
  have hdiag : ∀ i, M i i ≠ 0 := by
    rw [det_lower hMl, Finset.prod_ne_zero_iff] at hdet
    exact fun i => hdet i (Finset.mem_univ i)
  have hD : (LDL.diag hS).PosDef := by
    rw [LDL.diag_eq_lowerInv_conj]
    refine hS.mul_mul_conjTranspose_same (Matrix.vecMul_injective_of_isUnit ?_)
    exact isUnit_of_invertible _
  have hd : ∀ i, 0 < LDL.diagEntries hS i := by
    intro i
    have := hD.diag_pos (i := i)
    simpa [LDL.diag] using this
  set d := LDL.diagEntries hS with hdd
  let w : Fin n → ℝ := fun i => Real.sqrt (d i) * (if 0 < M i i then 1 else -1)
  have hw : ∀ i, w i * w i = d i := by
    intro i
    have := Real.mul_self_sqrt (hd i).le
    simp only [w]
    split_ifs <;> nlinarith
  refine ⟨M * Matrix.diagonal w, ?_, ?_, ?_⟩
  · intro i j h
    rw [Matrix.mul_diagonal, hMl i j h, zero_mul]
  · intro i
    rw [Matrix.mul_diagonal]
    have h1 := Real.sqrt_pos.mpr (hd i)
    simp only [w]
    split_ifs with h
    · positivity
    · have h2 : M i i < 0 := lt_of_le_of_ne (not_lt.mp h) (hdiag i)
      nlinarith
  · have h1 := LDL.lower_conj_diag hS
    rw [Matrix.conjTranspose_eq_transpose_of_trivial] at h1
    rw [Matrix.transpose_mul, Matrix.diagonal_transpose, ← Matrix.mul_assoc,
      Matrix.mul_assoc M, Matrix.diagonal_mul_diagonal]
    simp only [hw]
    exact h1

/-- `torch.linalg.cholesky` succeeds exactly when the symmetric matrix with the given lower triangle
is positive definite. -/
theorem cholesky_isSome_iff (M : Matrix (Fin n) (Fin n) ℝ) :
    (cholesky M).isSome ↔ (lowerSymm M).PosDef := by
  unfold cholesky
  by_cases h : ∃ C, IsCholesky (lowerSymm M) C
  · obtain ⟨C, hC⟩ := id h
    simp [h, hC.posDef]
  · simp only [h, dite_false, Option.isSome_none, Bool.false_eq_true, false_iff]
    exact fun hp => h (exists_cholesky hp)

theorem cholesky_spec {M C : Matrix (Fin n) (Fin n) ℝ} (h : cholesky M = some C) :
    IsCholesky (lowerSymm M) C := by
  unfold cholesky at h
  split_ifs at h with h1
  rw [Option.some.injEq] at h
  rw [← h]
  exact h1.choose_spec

theorem lowerSymm_of_symm {M : Matrix (Fin n) (Fin n) ℝ} (h : Mᵀ = M) : lowerSymm M = M := by
  ext i j
  simp only [lowerSymm, Matrix.of_apply]
  split_ifs
  · rfl
  · exact congrFun (congrFun h i) j

end Verif.Embodied
