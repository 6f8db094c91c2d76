import Verif.Steps.Model
import Mathlib.Tactic.Linarith
import Mathlib.Tactic.Ring
import Mathlib.Tactic.FieldSimp
import Mathlib.Tactic.Positivity
/-!
# Lemmas about damped systems and steps
-/
namespace Verif.Steps
set_option linter.unusedSectionVars false
open Matrix Verif.Nlopt
variable {K : Type} [Field K] [LinearOrder K] [IsStrictOrderedRing K] {p d : Nat}

theorem sq_nonneg' (v : Fin d → K) : 0 ≤ sq v := by
  unfold sq dotProduct
  exact Finset.sum_nonneg fun i _ => mul_self_nonneg _

theorem sq_eq_zero' {v : Fin d → K} (h : sq v = 0) : v = 0 := by
  unfold sq dotProduct at h
  have := (Finset.sum_eq_zero_iff_of_nonneg (fun i _ => mul_self_nonneg (v i))).1 h
  funext i
  exact mul_self_eq_zero.1 (this i (Finset.mem_univ i))

theorem sq_pos' {v : Fin d → K} (h : v ≠ 0) : 0 < sq v :=
  lt_of_le_of_ne (sq_nonneg' v) fun e => h (sq_eq_zero' e.symm)

theorem sq_smul (c : K) (v : Fin d → K) : sq (c • v) = c ^ 2 * sq v := by
  simp only [sq, dotProduct_smul, smul_dotProduct, smul_eq_mul]; ring

theorem sq_add (u v : Fin d → K) : sq (u + v) = sq u + 2 * (u ⬝ᵥ v) + sq v := by
  simp only [sq, add_dotProduct, dotProduct_add, dotProduct_comm v u]; ring

/-- `δᵀ Aᵀ b = (A δ)ᵀ b`. -/
theorem dot_Atb (L : Lin K p d) (v : Fin d → K) : v ⬝ᵥ L.Atb = (L.A *ᵥ v) ⬝ᵥ L.b := by
  unfold Lin.Atb
  rw [dotProduct_mulVec, vecMul_transpose]

theorem dot_AtA (L : Lin K p d) (u v : Fin d → K) : u ⬝ᵥ (L.AtA *ᵥ v) = (L.A *ᵥ u) ⬝ᵥ (L.A *ᵥ v) := by
  unfold Lin.AtA
  rw [← mulVec_mulVec, dotProduct_mulVec, vecMul_transpose]

theorem AtA_diag_nonneg (L : Lin K p d) (j : Fin d) : 0 ≤ L.AtA j j := by
  unfold Lin.AtA
  simp only [mul_apply, transpose_apply]
  exact Finset.sum_nonneg fun i _ => mul_self_nonneg _

theorem dot_diagonal (w v : Fin d → K) : v ⬝ᵥ (diagonal w *ᵥ v) = ∑ j, w j * v j ^ 2 := by
  simp only [dotProduct, mulVec_diagonal]
  exact Finset.sum_congr rfl fun j _ => by ring

/-- The quadratic form of a damped matrix. -/
theorem dot_damped (L : Lin K p d) (lam eps : K) (ell : Bool) (v : Fin d → K) :
    v ⬝ᵥ (applyDamping L.AtA lam ell eps *ᵥ v) = sq (L.A *ᵥ v) +
      ∑ j, (if ell then lam * L.AtA j j + eps else lam) * v j ^ 2 := by
  unfold applyDamping
  cases ell
  · simp only [Bool.false_eq_true, if_false, add_mulVec, dotProduct_add, dot_AtA, smul_mulVec, one_mulVec,
      dotProduct_smul, smul_eq_mul]
    congr 1
    rw [dotProduct, Finset.mul_sum]
    exact Finset.sum_congr rfl fun j _ => by ring
  · simp only [if_true, add_mulVec, dotProduct_add, dot_AtA, dot_diagonal]
    rfl

theorem weighted_sum_nonneg {w v : Fin d → K} (hw : ∀ j, 0 ≤ w j) : 0 ≤ ∑ j, w j * v j ^ 2 :=
  Finset.sum_nonneg fun j _ => mul_nonneg (hw j) (sq_nonneg _)

theorem weighted_sum_pos {w v : Fin d → K} (hw : ∀ j, 0 < w j) (hv : v ≠ 0) : 0 < ∑ j, w j * v j ^ 2 := by
  obtain ⟨j, hj⟩ : ∃ j, v j ≠ 0 := by
    by_contra hc
    push Not at hc
    exact hv (funext hc)
  exact Finset.sum_pos' (fun j _ => mul_nonneg (hw j).le (sq_nonneg _))
    ⟨j, Finset.mem_univ j, mul_pos (hw j) (by positivity)⟩

end Verif.Steps
