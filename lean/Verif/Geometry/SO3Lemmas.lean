import Verif.Geometry.Spatial
import Verif.Geometry.PlanarLemmas
import Mathlib.LinearAlgebra.Matrix.Determinant.Basic
import Mathlib.Analysis.SpecialFunctions.Sqrt

namespace Verif.Geometry
open Matrix

namespace SO3

/-- Legal rotation matrices. -/
def Valid (R : M3) : Prop := Rᵀ * R = 1 ∧ R.det = 1

/-- `SO3` in the 3x3 matrices. -/
def emb : Embedding 3 3 M3 where
  valid := Valid
  toMatrix R := R
  hat := hat

theorem hat_add (u v : V3) : hat (u + v) = hat u + hat v := by
  ext i j; fin_cases i <;> fin_cases j <;> simp [hat] <;> ring

theorem hat_smul (r : ℝ) (v : V3) : hat (r • v) = r • hat v := by
  ext i j; fin_cases i <;> fin_cases j <;> simp [hat]

theorem hat_mulVec (u v : V3) : hat u *ᵥ v = cross3 u v := by
  ext i; fin_cases i <;> simp [hat, cross3, Matrix.mulVec, dotProduct, Fin.sum_univ_three] <;> ring

/-- `Mᵀ hat(M v) M = det(M) hat(v)`. -/
theorem conj_hat (M : M3) (v : V3) : Mᵀ * hat (M *ᵥ v) * M = M.det • hat v := by
  ext i j
  fin_cases i <;> fin_cases j <;>
    simp [hat, Matrix.mul_apply, Matrix.mulVec, dotProduct, Fin.sum_univ_three,
      Matrix.det_fin_three] <;> ring

theorem Valid.mul_transpose {R : M3} (h : Valid R) : R * Rᵀ = 1 := mul_eq_one_comm.mp h.1

theorem adjoint_hat {R : M3} (h : Valid R) (v : V3) : R * hat v = hat (R *ᵥ v) * R := by
  have h1 := conj_hat R v
  rw [h.2, one_smul] at h1
  rw [← h1, ← Matrix.mul_assoc, ← Matrix.mul_assoc, h.mul_transpose, Matrix.one_mul]

theorem Valid.mul {A B : M3} (ha : Valid A) (hb : Valid B) : Valid (A * B) := by
  constructor
  · rw [Matrix.transpose_mul, Matrix.mul_assoc, ← Matrix.mul_assoc Aᵀ, ha.1, Matrix.one_mul, hb.1]
  · rw [Matrix.det_mul, ha.2, hb.2, mul_one]

theorem Valid.transpose {A : M3} (ha : Valid A) : Valid Aᵀ := by
  constructor
  · rw [Matrix.transpose_transpose]; exact ha.mul_transpose
  · rw [Matrix.det_transpose]; exact ha.2

/-- When the assembled matrix is a rotation. -/
theorem rod_valid {k c s : ℝ} {v : V3} (h1 : c + k * dot3 v v = 1)
    (h2 : s ^ 2 = k * (1 + c)) : Valid (rod k c s v) := by
  have h2' : s * s = k * (1 + c) := by rw [← h2]; ring
  unfold dot3 at h1
  have hc : c = 1 - k * (v 0 * v 0 + v 1 * v 1 + v 2 * v 2) := by linarith
  constructor
  · subst hc
    ext i j
    fin_cases i <;> fin_cases j <;>
      simp [rod, outer3, hat, Matrix.mul_apply, Fin.sum_univ_three]
    · linear_combination (v 1 ^ 2 + v 2 ^ 2) * h2'
    · linear_combination (-(v 0 * v 1)) * h2'
    · linear_combination (-(v 0 * v 2)) * h2'
    · linear_combination (-(v 0 * v 1)) * h2'
    · linear_combination (v 0 ^ 2 + v 2 ^ 2) * h2'
    · linear_combination (-(v 1 * v 2)) * h2'
    · linear_combination (-(v 0 * v 2)) * h2'
    · linear_combination (-(v 1 * v 2)) * h2'
    · linear_combination (v 0 ^ 2 + v 1 ^ 2) * h2'
  · subst hc
    simp [rod, outer3, hat, Matrix.det_fin_three]
    linear_combination (v 0 ^ 2 + v 1 ^ 2 + v 2 ^ 2) * h2'

theorem dot_self_nonneg (v : V3) : 0 ≤ dot3 v v := by
  unfold dot3; nlinarith [sq_nonneg (v 0), sq_nonneg (v 1), sq_nonneg (v 2)]

theorem norm3_sq (v : V3) : norm3 v ^ 2 = dot3 v v := Real.sq_sqrt (dot_self_nonneg v)

theorem norm3_nonneg (v : V3) : 0 ≤ norm3 v := Real.sqrt_nonneg _

theorem dot_self_eq_zero {v : V3} : dot3 v v = 0 ↔ v = 0 := by
  constructor
  · intro h
    unfold dot3 at h
    ext i
    fin_cases i <;> simp <;> nlinarith [sq_nonneg (v 0), sq_nonneg (v 1), sq_nonneg (v 2)]
  · rintro rfl; simp [dot3]

theorem norm3_eq_zero {v : V3} : norm3 v = 0 ↔ v = 0 := by
  rw [← dot_self_eq_zero, ← norm3_sq, sq_eq_zero_iff]

/-- The coefficients of the exponential satisfy the two identities, in both branches. -/
theorem exp_coeffs {eps θ : ℝ} (he : 0 < eps) :
    expC eps θ + expK eps θ * θ ^ 2 = 1 ∧
      expS eps θ ^ 2 = expK eps θ * (1 + expC eps θ) := by
  by_cases h : θ < eps
  · have hp : 4 + θ ^ 2 ≠ 0 := by positivity
    simp only [expK, expS, expC, if_pos h]
    constructor
    · field_simp; ring
    · field_simp; ring
  · have hθ : θ ≠ 0 := by intro h0; rw [h0] at h; exact h he
    have hsc := Real.cos_sq_add_sin_sq θ
    simp only [expK, expS, expC, if_neg h]
    constructor
    · field_simp; ring
    · field_simp; linear_combination hsc

theorem exp_valid {eps : ℝ} (he : 0 < eps) (v : V3) : Valid (exp eps v) := by
  obtain ⟨h1, h2⟩ := exp_coeffs (θ := norm3 v) he
  rw [norm3_sq] at h1
  exact rod_valid h1 h2

theorem exp_zero {eps : ℝ} (he : 0 < eps) : exp eps 0 = 1 := by
  have h0 : norm3 (0 : V3) = 0 := norm3_eq_zero.mpr rfl
  ext i j
  fin_cases i <;> fin_cases j <;>
    simp [exp, rod, outer3, hat, h0, expC, he] <;> norm_num

/-- A curve of tangent vectors stays in the small-angle branch near a vector in it. -/
theorem near_of_curve {eps : ℝ} {x : ℝ → V3} {x' : V3} (hx : VecDeriv x x')
    (h : norm3 (x 0) < eps) : ∀ᶠ t in nhds 0, norm3 (x t) < eps := by
  have hc : ContinuousAt (fun t => norm3 (x t)) 0 := by
    unfold norm3 dot3
    have h0 := (hx 0).continuousAt
    have h1 := (hx 1).continuousAt
    have h2 := (hx 2).continuousAt
    exact Real.continuous_sqrt.continuousAt.comp
      (((h0.mul h0).add (h1.mul h1)).add (h2.mul h2))
  exact hc.eventually_lt continuousAt_const h

theorem far_of_curve {eps : ℝ} {x : ℝ → V3} {x' : V3} (hx : VecDeriv x x')
    (h : eps < norm3 (x 0)) : ∀ᶠ t in nhds 0, eps < norm3 (x t) := by
  have hc : ContinuousAt (fun t => norm3 (x t)) 0 := by
    unfold norm3 dot3
    have h0 := (hx 0).continuousAt
    have h1 := (hx 1).continuousAt
    have h2 := (hx 2).continuousAt
    exact Real.continuous_sqrt.continuousAt.comp
      (((h0.mul h0).add (h1.mul h1)).add (h2.mul h2))
  exact continuousAt_const.eventually_lt hc h

theorem dot_deriv {x : ℝ → V3} {x' : V3} (hx : VecDeriv x x') :
    HasDerivAt (fun t => dot3 (x t) (x t)) (2 * dot3 (x 0) x') 0 := by
  have := (((hx 0).fun_mul (hx 0)).fun_add ((hx 1).fun_mul (hx 1))).fun_add ((hx 2).fun_mul (hx 2))
  exact this.congr_deriv (by simp only [dot3]; ring)

/-- The derivative of the assembled matrix along a curve. -/
theorem rod_deriv {k c s : ℝ → ℝ} {x : ℝ → V3} {x' : V3} {q : ℝ}
    (hx : VecDeriv x x')
    (hk : HasDerivAt k ((s 0 * q - k 0 ^ 2) * dot3 (x 0) x') 0)
    (hs : HasDerivAt s ((c 0 * q - k 0 * s 0) * dot3 (x 0) x') 0)
    (hc : HasDerivAt c (-(s 0 * (s 0 + q * dot3 (x 0) (x 0))) * dot3 (x 0) x') 0)
    (h1 : c 0 + k 0 * dot3 (x 0) (x 0) = 1) (h2 : s 0 ^ 2 = k 0 * (1 + c 0)) :
    MatDeriv (fun t => rod (k t) (c t) (s t) (x t))
      (rod (k 0) (c 0) (s 0) (x 0) * hat (jexpOf (s 0) (k 0) q (x 0) *ᵥ x')) := by
  have hd : ∀ i j, HasDerivAt (fun t => k t * (x t i * x t j))
      ((s 0 * q - k 0 ^ 2) * dot3 (x 0) x' * (x 0 i * x 0 j)
        + k 0 * (x' i * x 0 j + x 0 i * x' j)) 0 := fun i j => by
    exact (hk.fun_mul ((hx i).fun_mul (hx j)))
  have ha : ∀ i, HasDerivAt (fun t => s t * x t i)
      ((c 0 * q - k 0 * s 0) * dot3 (x 0) x' * x 0 i + s 0 * x' i) 0 := fun i =>
    hs.fun_mul (hx i)
  simp only [dot3] at *
  generalize hk0 : k 0 = k0 at *
  generalize hs0 : s 0 = s0 at *
  generalize hc0 : c 0 = c0 at *
  generalize hv : x 0 = v at *
  intro i j
  fin_cases i <;> fin_cases j
  · refine (((hd 0 0).add hc).congr_deriv ?_).congr_of_eventuallyEq
      (Filter.Eventually.of_forall fun t => ?_)
    · simp [rod, outer3, hat, jexpOf, Matrix.mul_apply, Matrix.mulVec, dotProduct,
        Fin.sum_univ_three]
      linear_combination (-(k0 * (v 0 * x' 0))) * h1 - (x' 0 * v 0) * h2
    · simp [rod, outer3, hat]
  · refine (((hd 0 1).sub (ha 2)).congr_deriv ?_).congr_of_eventuallyEq
      (Filter.Eventually.of_forall fun t => ?_)
    · simp [rod, outer3, hat, jexpOf, Matrix.mul_apply, Matrix.mulVec, dotProduct,
        Fin.sum_univ_three]
      linear_combination (-(k0 * (v 0 * x' 1)) + s0 * x' 2) * h1 - (x' 0 * v 1) * h2
    · simp [rod, outer3, hat]; ring
  · refine (((hd 0 2).add (ha 1)).congr_deriv ?_).congr_of_eventuallyEq
      (Filter.Eventually.of_forall fun t => ?_)
    · simp [rod, outer3, hat, jexpOf, Matrix.mul_apply, Matrix.mulVec, dotProduct,
        Fin.sum_univ_three]
      linear_combination (-(k0 * (v 0 * x' 2)) - s0 * x' 1) * h1 - (x' 0 * v 2) * h2
    · simp [rod, outer3, hat]
  · refine (((hd 1 0).add (ha 2)).congr_deriv ?_).congr_of_eventuallyEq
      (Filter.Eventually.of_forall fun t => ?_)
    · simp [rod, outer3, hat, jexpOf, Matrix.mul_apply, Matrix.mulVec, dotProduct,
        Fin.sum_univ_three]
      linear_combination (-(k0 * (v 1 * x' 0)) - s0 * x' 2) * h1 - (x' 1 * v 0) * h2
    · simp [rod, outer3, hat]
  · refine (((hd 1 1).add hc).congr_deriv ?_).congr_of_eventuallyEq
      (Filter.Eventually.of_forall fun t => ?_)
    · simp [rod, outer3, hat, jexpOf, Matrix.mul_apply, Matrix.mulVec, dotProduct,
        Fin.sum_univ_three]
      linear_combination (-(k0 * (v 1 * x' 1))) * h1 - (x' 1 * v 1) * h2
    · simp [rod, outer3, hat]
  · refine (((hd 1 2).sub (ha 0)).congr_deriv ?_).congr_of_eventuallyEq
      (Filter.Eventually.of_forall fun t => ?_)
    · simp [rod, outer3, hat, jexpOf, Matrix.mul_apply, Matrix.mulVec, dotProduct,
        Fin.sum_univ_three]
      linear_combination (-(k0 * (v 1 * x' 2)) + s0 * x' 0) * h1 - (x' 1 * v 2) * h2
    · simp [rod, outer3, hat]; ring
  · refine (((hd 2 0).sub (ha 1)).congr_deriv ?_).congr_of_eventuallyEq
      (Filter.Eventually.of_forall fun t => ?_)
    · simp [rod, outer3, hat, jexpOf, Matrix.mul_apply, Matrix.mulVec, dotProduct,
        Fin.sum_univ_three]
      linear_combination (-(k0 * (v 2 * x' 0)) + s0 * x' 1) * h1 - (x' 2 * v 0) * h2
    · simp [rod, outer3, hat]; ring
  · refine (((hd 2 1).add (ha 0)).congr_deriv ?_).congr_of_eventuallyEq
      (Filter.Eventually.of_forall fun t => ?_)
    · simp [rod, outer3, hat, jexpOf, Matrix.mul_apply, Matrix.mulVec, dotProduct,
        Fin.sum_univ_three]
      linear_combination (-(k0 * (v 2 * x' 1)) - s0 * x' 0) * h1 - (x' 2 * v 1) * h2
    · simp [rod, outer3, hat]
  · refine (((hd 2 2).add hc).congr_deriv ?_).congr_of_eventuallyEq
      (Filter.Eventually.of_forall fun t => ?_)
    · simp [rod, outer3, hat, jexpOf, Matrix.mul_apply, Matrix.mulVec, dotProduct,
        Fin.sum_univ_three]
      linear_combination (-(k0 * (v 2 * x' 2))) * h1 - (x' 2 * v 2) * h2
    · simp [rod, outer3, hat]

end SO3
end Verif.Geometry
