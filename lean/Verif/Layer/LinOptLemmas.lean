import Verif.Layer.LinOpt
import Verif.Steps.Lemmas
import Verif.Embodied.CholeskyLemmas
import Mathlib.Analysis.Matrix.Order
/-!
# Lemmas about Gram matrices and normal equations
-/
namespace Verif.Layer
open Matrix Verif.Steps Verif.Embodied
open scoped Classical
variable {p d n : Nat}

theorem gram_posSemidef (L : Lin ℝ p d) : L.AtA.PosSemidef := by
  have := Matrix.posSemidef_conjTranspose_mul_self L.A
  rwa [Matrix.conjTranspose_eq_transpose_of_trivial] at this

theorem gram_symm (L : Lin ℝ p d) : L.AtAᵀ = L.AtA := by
  unfold Lin.AtA; rw [transpose_mul, transpose_transpose]

theorem gram_posDef_iff (L : Lin ℝ p d) : L.AtA.PosDef ↔ L.AtA.det ≠ 0 := by
  constructor
  · intro h; exact h.det_pos.ne'
  · exact (gram_posSemidef L).posDef_iff_det_ne_zero.2

theorem solve_unique {M : Matrix (Fin d) (Fin d) ℝ} (h : M.det ≠ 0) (v w : Fin d → ℝ) :
    w = M⁻¹ *ᵥ v ↔ M *ᵥ w = v := by
  have hu : IsUnit M.det := isUnit_iff_ne_zero.2 h
  constructor
  · rintro rfl
    rw [mulVec_mulVec, Matrix.mul_nonsing_inv _ hu, one_mulVec]
  · rintro rfl
    rw [mulVec_mulVec, Matrix.nonsing_inv_mul _ hu, one_mulVec]

/-- For a symmetric matrix the Cholesky solver needs a positive definite matrix and solves the system. -/
theorem chol_case {M : Matrix (Fin d) (Fin d) ℝ} (hs : Mᵀ = M) :
    ((cholesky M).isSome ↔ M.PosDef) ∧ ∀ C, cholesky M = some C → C * Cᵀ = M := by
  refine ⟨?_, ?_⟩
  · rw [cholesky_isSome_iff, lowerSymm_of_symm hs]
  · intro C h
    have := (cholesky_spec h).eq
    rwa [lowerSymm_of_symm hs] at this

/-- On symmetric positive semidefinite systems both solvers do the same thing. -/
theorem solveSystem_eq (k : Kind) (s : Sys n d) (hs : ∀ i, (s.AtA i).PosSemidef) :
    solveSystem k s = if ∀ i, (s.AtA i).det ≠ 0 then .ok fun i => (s.AtA i)⁻¹ *ᵥ s.Atb i
      else .error .runtime := by
  cases k
  · rfl
  · have hsym : ∀ i, (s.AtA i)ᵀ = s.AtA i := by
      intro i
      have := (hs i).isHermitian
      rwa [Matrix.IsHermitian, Matrix.conjTranspose_eq_transpose_of_trivial] at this
    have hpd : ∀ i, (cholesky (s.AtA i)).isSome ↔ (s.AtA i).det ≠ 0 := by
      intro i
      rw [(chol_case (hsym i)).1, (hs i).posDef_iff_det_ne_zero]
    simp only [solveSystem, hpd]
    split_ifs with h
    · congr 1
      funext i
      have hi := (hpd i).2 (h i)
      obtain ⟨C, hC⟩ := Option.isSome_iff_exists.1 hi
      rw [hC]
      simp only
      rw [(chol_case (hsym i)).2 C hC]
    · rfl

theorem damped_posDef (L : Lin ℝ p d) {lam eps : ℝ} {ell : Bool} (hl : 0 ≤ lam) (he : 0 ≤ eps)
    (h : L.AtA.det ≠ 0 ∨ (if ell then 0 < eps else 0 < lam)) :
    (applyDamping L.AtA lam ell eps).PosDef := by
  have hdiag : ∀ j, 0 ≤ (if ell then lam * L.AtA j j + eps else lam) := by
    intro j
    have := AtA_diag_nonneg L j
    split_ifs <;> positivity
  have hH : (applyDamping L.AtA lam ell eps).IsHermitian := by
    rw [Matrix.IsHermitian, Matrix.conjTranspose_eq_transpose_of_trivial]
    unfold applyDamping
    split_ifs
    · rw [transpose_add, gram_symm, diagonal_transpose]
    · rw [transpose_add, gram_symm, transpose_smul, transpose_one]
  refine Matrix.PosDef.of_dotProduct_mulVec_pos hH ?_
  intro v hv
  rw [star_trivial, dot_damped]
  rcases h with h | h
  · have hp := (gram_posDef_iff L).2 h
    have := hp.dotProduct_mulVec_pos hv
    rw [star_trivial, dot_AtA] at this
    have h2 := weighted_sum_nonneg (v := v) hdiag
    have h3 : 0 < Steps.sq (L.A *ᵥ v) := this
    linarith
  · have h1 := sq_nonneg' (L.A *ᵥ v)
    have h2 : 0 < ∑ j, (if ell then lam * L.AtA j j + eps else lam) * v j ^ 2 := by
      refine weighted_sum_pos ?_ hv
      intro j
      have := AtA_diag_nonneg L j
      cases ell
      · simpa using h
      · simp only [if_true] at h ⊢
        positivity
    linarith

theorem mem_goodIdx {s : Sys n d} {i : Fin n} : i ∈ goodIdx s ↔ (s.AtA i).det ≠ 0 := by
  simp [goodIdx]

theorem goodIdx_get (s : Sys n d) (j : Fin (goodIdx s).length) : (s.AtA ((goodIdx s).get j)).det ≠ 0 :=
  mem_goodIdx.1 (List.get_mem _ _)

theorem goodIdx_idx {s : Sys n d} {i : Fin n} (h : i ∈ goodIdx s) :
    (goodIdx s).get ⟨(goodIdx s).idxOf i, List.idxOf_lt_length_iff.2 h⟩ = i := by
  simp

theorem goodIdx_length_lt {s : Sys n d} {i : Fin n} (h : (s.AtA i).det = 0) : (goodIdx s).length < n := by
  have h1 : (goodIdx s).length < (List.finRange n).length := by
    unfold goodIdx
    rw [List.length_filter_lt_length_iff_exists]
    exact ⟨i, List.mem_finRange i, by simp [h]⟩
  simpa using h1

/-- The squared residual splits at a solution of the normal equations. -/
theorem residual_split (L : Lin ℝ p d) {v : Fin d → ℝ} (h : L.AtA *ᵥ v = L.Atb) (w : Fin d → ℝ) :
    Steps.sq (L.A *ᵥ w - L.b) = Steps.sq (L.A *ᵥ v - L.b) + Steps.sq (L.A *ᵥ (w - v)) := by
  have e : L.A *ᵥ w - L.b = (L.A *ᵥ v - L.b) + L.A *ᵥ (w - v) := by
    rw [mulVec_sub]; abel
  rw [e, sq_add]
  have h0 : (L.A *ᵥ v - L.b) ⬝ᵥ (L.A *ᵥ (w - v)) = 0 := by
    have h1 := dot_AtA L (w - v) v
    have h2 := dot_Atb L (w - v)
    rw [h] at h1
    rw [sub_dotProduct, dotProduct_comm, ← h1, dotProduct_comm L.b, ← h2, sub_self]
  rw [h0]; ring

theorem gram_injective (L : Lin ℝ p d) (h : L.AtA.det ≠ 0) {v : Fin d → ℝ} (hv : L.A *ᵥ v = 0) : v = 0 := by
  by_contra hne
  have := ((gram_posDef_iff L).2 h).dotProduct_mulVec_pos hne
  rw [star_trivial, dot_AtA, hv] at this
  simp at this

end Verif.Layer
