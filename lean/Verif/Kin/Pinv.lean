import Mathlib.Analysis.Matrix.Spectrum
import Mathlib.Algebra.Order.Star.Real

/-!
# The Moore–Penrose inverse

`torch.Tensor.pinverse` is specified by the four Penrose equations; they have exactly one solution.
-/

namespace Verif.Kin
open Matrix

/-- `P` is the Moore–Penrose inverse of `A`. -/
structure IsPinv {m n : ℕ} (A : Matrix (Fin m) (Fin n) ℝ) (P : Matrix (Fin n) (Fin m) ℝ) : Prop where
  apa : A * P * A = A
  pap : P * A * P = P
  ap_symm : (A * P)ᵀ = A * P
  pa_symm : (P * A)ᵀ = P * A

theorem eq_zero_of_transpose_mul_self {m n : ℕ} {B : Matrix (Fin m) (Fin n) ℝ} (h : Bᵀ * B = 0) :
    B = 0 := by
  have := Matrix.conjTranspose_mul_self_eq_zero (A := B)
  rw [Matrix.conjTranspose_eq_transpose_of_trivial] at this
  exact this.mp h

/-- Every matrix has a Moore–Penrose inverse. -/
theorem IsPinv.exists {m n : ℕ} (A : Matrix (Fin m) (Fin n) ℝ) : ∃ P, IsPinv A P := by
  have hH : (Aᵀ * A).IsHermitian := by
    rw [Matrix.IsHermitian, Matrix.conjTranspose_eq_transpose_of_trivial, Matrix.transpose_mul,
      Matrix.transpose_transpose]
  obtain ⟨U, d, hU1, hU2, hspec⟩ : ∃ (U : Matrix (Fin n) (Fin n) ℝ) (d : Fin n → ℝ),
      Uᵀ * U = 1 ∧ U * Uᵀ = 1 ∧ Aᵀ * A = U * diagonal d * Uᵀ := by
    refine ⟨hH.eigenvectorUnitary, hH.eigenvalues, ?_, ?_, ?_⟩
    · have := Unitary.coe_star_mul_self hH.eigenvectorUnitary
      rwa [Matrix.star_eq_conjTranspose, Matrix.conjTranspose_eq_transpose_of_trivial] at this
    · have := Unitary.coe_mul_star_self hH.eigenvectorUnitary
      rwa [Unitary.coe_star, Matrix.star_eq_conjTranspose, Matrix.conjTranspose_eq_transpose_of_trivial] at this
    · have := hH.spectral_theorem
      rw [Unitary.conjStarAlgAut_apply, Matrix.star_eq_conjTranspose,
        Matrix.conjTranspose_eq_transpose_of_trivial] at this
      exact this
  let e : Fin n → ℝ := fun i => (d i)⁻¹
  let p : Fin n → ℝ := fun i => e i * d i
  have hpe : diagonal p * diagonal e = diagonal e := by
    rw [diagonal_mul_diagonal]
    congr 1; funext i
    simp only [p, e]
    by_cases h : d i = 0
    · simp [h]
    · field_simp
  have hed : diagonal e * diagonal d = diagonal p := by rw [diagonal_mul_diagonal]
  have hdp : diagonal d * diagonal p = diagonal d := by
    rw [diagonal_mul_diagonal]
    congr 1; funext i
    simp only [p, e]
    by_cases h : d i = 0
    · simp [h]
    · field_simp
  have hPA : U * diagonal e * Uᵀ * Aᵀ * A = U * diagonal p * Uᵀ := by
    rw [Matrix.mul_assoc _ Aᵀ A, hspec]
    calc U * diagonal e * Uᵀ * (U * diagonal d * Uᵀ)
        = U * diagonal e * (Uᵀ * U) * diagonal d * Uᵀ := by simp only [Matrix.mul_assoc]
      _ = U * (diagonal e * diagonal d) * Uᵀ := by rw [hU1]; simp only [Matrix.mul_assoc, Matrix.mul_one]
      _ = _ := by rw [hed]
  have hAP : A * (U * diagonal p * Uᵀ) = A := by
    have h0 : A * (U * diagonal p * Uᵀ) - A = 0 := by
      apply eq_zero_of_transpose_mul_self
      have ht : (U * diagonal p * Uᵀ)ᵀ = U * diagonal p * Uᵀ := by
        simp only [Matrix.transpose_mul, Matrix.transpose_transpose, diagonal_transpose,
          Matrix.mul_assoc]
      have e1 : Aᵀ * (A * (U * diagonal p * Uᵀ)) = Aᵀ * A := by
        rw [← Matrix.mul_assoc, hspec]
        calc U * diagonal d * Uᵀ * (U * diagonal p * Uᵀ)
            = U * diagonal d * (Uᵀ * U) * diagonal p * Uᵀ := by simp only [Matrix.mul_assoc]
          _ = U * (diagonal d * diagonal p) * Uᵀ := by rw [hU1]; simp only [Matrix.mul_assoc, Matrix.mul_one]
          _ = _ := by rw [hdp]
      rw [Matrix.transpose_sub, Matrix.sub_mul, Matrix.mul_sub, Matrix.mul_sub, e1,
        sub_self, sub_zero, Matrix.transpose_mul, ht, Matrix.mul_assoc _ Aᵀ, e1, Matrix.mul_assoc _ Aᵀ,
        sub_self]
    exact sub_eq_zero.mp h0
  refine ⟨U * diagonal e * Uᵀ * Aᵀ, ⟨?_, ?_, ?_, ?_⟩⟩
  · rw [Matrix.mul_assoc A, hPA, hAP]
  · rw [hPA]
    calc U * diagonal p * Uᵀ * (U * diagonal e * Uᵀ * Aᵀ)
        = U * diagonal p * (Uᵀ * U) * diagonal e * Uᵀ * Aᵀ := by simp only [Matrix.mul_assoc]
      _ = U * (diagonal p * diagonal e) * Uᵀ * Aᵀ := by rw [hU1]; simp only [Matrix.mul_assoc, Matrix.mul_one]
      _ = _ := by rw [hpe]
  · simp only [Matrix.transpose_mul, Matrix.transpose_transpose, diagonal_transpose, Matrix.mul_assoc]
  · rw [hPA]
    simp only [Matrix.transpose_mul, Matrix.transpose_transpose, diagonal_transpose, Matrix.mul_assoc]

/-- A matrix has only one. -/
theorem IsPinv.unique {m n : ℕ} {A : Matrix (Fin m) (Fin n) ℝ} {P Q : Matrix (Fin n) (Fin m) ℝ}
    (h : IsPinv A P) (k : IsPinv A Q) : P = Q := by
  have h1 : A * P = A * Q := by
    calc A * P = (A * P)ᵀ := h.ap_symm.symm
      _ = (A * Q * (A * P))ᵀ := by rw [← Matrix.mul_assoc, k.apa]
      _ = (A * P)ᵀ * (A * Q)ᵀ := Matrix.transpose_mul _ _
      _ = A * P * (A * Q) := by rw [h.ap_symm, k.ap_symm]
      _ = A * Q := by rw [← Matrix.mul_assoc, h.apa]
  have h2 : P * A = Q * A := by
    calc P * A = (P * A)ᵀ := h.pa_symm.symm
      _ = (P * A * (Q * A))ᵀ := by
          rw [Matrix.mul_assoc P A, ← Matrix.mul_assoc A Q A, k.apa]
      _ = (Q * A)ᵀ * (P * A)ᵀ := Matrix.transpose_mul _ _
      _ = Q * A * (P * A) := by rw [h.pa_symm, k.pa_symm]
      _ = Q * A := by rw [Matrix.mul_assoc Q A, ← Matrix.mul_assoc A P A, h.apa]
  calc P = P * A * P := h.pap.symm
    _ = Q * A * P := by rw [h2]
    _ = Q * (A * P) := Matrix.mul_assoc _ _ _
    _ = Q * (A * Q) := by rw [h1]
    _ = Q := by rw [← Matrix.mul_assoc, k.pap]

theorem IsPinv.solves {m n : ℕ} {A : Matrix (Fin m) (Fin n) ℝ} {P : Matrix (Fin n) (Fin m) ℝ}
    (h : IsPinv A P) (y : Fin n → ℝ) : A *ᵥ (P *ᵥ (A *ᵥ y)) = A *ᵥ y := by
  rw [Matrix.mulVec_mulVec, Matrix.mulVec_mulVec, h.apa]

/-- The step is a least-squares solution. -/
theorem IsPinv.least {m n : ℕ} {A : Matrix (Fin m) (Fin n) ℝ} {P : Matrix (Fin n) (Fin m) ℝ}
    (h : IsPinv A P) (e : Fin m → ℝ) (y : Fin n → ℝ) :
    (A *ᵥ y - e) ⬝ᵥ (A *ᵥ y - e) = (A *ᵥ (P *ᵥ e) - e) ⬝ᵥ (A *ᵥ (P *ᵥ e) - e)
      + (A *ᵥ (y - P *ᵥ e)) ⬝ᵥ (A *ᵥ (y - P *ᵥ e)) := by
  have hT : Aᵀ * (A * P) = Aᵀ := by
    have := congrArg Matrix.transpose h.apa
    rwa [Matrix.transpose_mul, h.ap_symm] at this
  have hz : ∀ z, (A *ᵥ z) ⬝ᵥ (A *ᵥ (P *ᵥ e) - e) = 0 := by
    intro z
    rw [dotProduct_comm, Matrix.dotProduct_mulVec, ← Matrix.mulVec_transpose, Matrix.mulVec_sub,
      Matrix.mulVec_mulVec, Matrix.mulVec_mulVec, Matrix.mul_assoc, hT, sub_self, zero_dotProduct]
  have e1 : A *ᵥ y - e = (A *ᵥ (P *ᵥ e) - e) + A *ᵥ (y - P *ᵥ e) := by
    rw [Matrix.mulVec_sub]; abel
  rw [e1, add_dotProduct, dotProduct_add, dotProduct_add, hz, dotProduct_comm _ (A *ᵥ (y - _)), hz]
  ring

/-- Among the least-squares solutions it is the shortest. -/
theorem IsPinv.shortest {m n : ℕ} {A : Matrix (Fin m) (Fin n) ℝ} {P : Matrix (Fin n) (Fin m) ℝ}
    (h : IsPinv A P) (e : Fin m → ℝ) {y : Fin n → ℝ} (hy : A *ᵥ y = A *ᵥ (P *ᵥ e)) :
    (P *ᵥ e) ⬝ᵥ (P *ᵥ e) ≤ y ⬝ᵥ y := by
  have hz : A *ᵥ (y - P *ᵥ e) = 0 := by rw [Matrix.mulVec_sub, hy, sub_self]
  have ho : (y - P *ᵥ e) ⬝ᵥ (P *ᵥ e) = 0 := by
    have e1 : P *ᵥ e = (P * A)ᵀ *ᵥ (P *ᵥ e) := by
      rw [h.pa_symm, Matrix.mulVec_mulVec, h.pap]
    calc (y - P *ᵥ e) ⬝ᵥ (P *ᵥ e) = (y - P *ᵥ e) ⬝ᵥ ((P * A)ᵀ *ᵥ (P *ᵥ e)) := by rw [← e1]
      _ = 0 := by
        rw [Matrix.dotProduct_mulVec, ← Matrix.mulVec_transpose, Matrix.transpose_transpose,
          ← Matrix.mulVec_mulVec, hz, Matrix.mulVec_zero, zero_dotProduct]
  have e2 : y = (y - P *ᵥ e) + P *ᵥ e := by abel
  have : y ⬝ᵥ y = (y - P *ᵥ e) ⬝ᵥ (y - P *ᵥ e) + (P *ᵥ e) ⬝ᵥ (P *ᵥ e) := by
    conv_lhs => rw [e2]
    rw [add_dotProduct, dotProduct_add, dotProduct_add, ho, dotProduct_comm (P *ᵥ e) (y - _), ho]
    ring
  rw [this]
  have : 0 ≤ (y - P *ᵥ e) ⬝ᵥ (y - P *ᵥ e) :=
    Finset.sum_nonneg fun i _ => mul_self_nonneg _
  linarith

end Verif.Kin
