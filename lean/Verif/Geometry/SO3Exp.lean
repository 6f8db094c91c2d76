import Verif.Geometry.SO3Lemmas
import Verif.Geometry.LieProps

/-!
# The exponential of `SO3`: its derivative, in both branches
-/

namespace Verif.Geometry
open Matrix

namespace SO3

/-- The derivative of the norm along a curve that is not at zero. -/
theorem norm_deriv {x : ℝ → V3} {x' : V3} (hx : VecDeriv x x') (h0 : norm3 (x 0) ≠ 0) :
    HasDerivAt (fun t => norm3 (x t)) (dot3 (x 0) x' / norm3 (x 0)) 0 := by
  have hd : dot3 (x 0) (x 0) ≠ 0 := by rw [← norm3_sq]; exact pow_ne_zero 2 h0
  have := (dot_deriv hx).sqrt hd
  refine this.congr_deriv ?_
  change _ / (2 * norm3 (x 0)) = _
  field_simp

theorem k_deriv {eps : ℝ} (he : 0 < eps) {x : ℝ → V3} {x' : V3} (hx : VecDeriv x x')
    (h : norm3 (x 0) ≠ eps) :
    HasDerivAt (fun t => expK eps (norm3 (x t)))
      ((expS eps (norm3 (x 0)) * expQ eps (norm3 (x 0)) - expK eps (norm3 (x 0)) ^ 2)
        * dot3 (x 0) x') 0 := by
  rcases lt_or_gt_of_ne h with h | h
  · have hp : 4 + dot3 (x 0) (x 0) ≠ 0 := by have := dot_self_nonneg (x 0); linarith
    have hk : HasDerivAt (fun t => 2 / (4 + dot3 (x t) (x t)))
        (-(2 / (4 + dot3 (x 0) (x 0))) ^ 2 * dot3 (x 0) x') 0 := by
      refine ((hasDerivAt_const (0 : ℝ) (2 : ℝ)).fun_div ((dot_deriv hx).const_add 4) hp).congr_deriv ?_
      field_simp; ring
    have e : ∀ t, norm3 (x t) < eps → expK eps (norm3 (x t)) = 2 / (4 + dot3 (x t) (x t)) := by
      intro t ht
      have hp : 4 + dot3 (x t) (x t) ≠ 0 := by have := dot_self_nonneg (x t); linarith
      simp only [expK, expS, expC, if_pos ht, norm3_sq]
      field_simp; ring
    refine (hk.congr_of_eventuallyEq ((near_of_curve hx h).mono fun t ht => e t ht)).congr_deriv ?_
    rw [e 0 h, expQ, if_pos h]; ring
  · have h0 : norm3 (x 0) ≠ 0 := by linarith
    have hθ := norm_deriv hx h0
    have hk : HasDerivAt (fun t => (1 - Real.cos (norm3 (x t))) / norm3 (x t) ^ 2)
        _ 0 := ((hθ.cos.const_sub 1).fun_div (hθ.fun_pow 2) (pow_ne_zero 2 h0))
    refine (hk.congr_of_eventuallyEq ((far_of_curve hx h).mono fun t ht => ?_)).congr_deriv ?_
    · simp only [expK, expC, if_neg (not_lt.mpr ht.le)]
    · simp only [expK, expS, expC, expQ, if_neg (not_lt.mpr h.le)]
      have hsc := Real.cos_sq_add_sin_sq (norm3 (x 0))
      field_simp
      simp
      linear_combination (norm3 (x 0) * dot3 (x 0) x') * hsc

theorem s_deriv {eps : ℝ} (he : 0 < eps) {x : ℝ → V3} {x' : V3} (hx : VecDeriv x x')
    (h : norm3 (x 0) ≠ eps) :
    HasDerivAt (fun t => expS eps (norm3 (x t)))
      ((expC eps (norm3 (x 0)) * expQ eps (norm3 (x 0))
        - expK eps (norm3 (x 0)) * expS eps (norm3 (x 0))) * dot3 (x 0) x') 0 := by
  rcases lt_or_gt_of_ne h with h | h
  · have hp : 4 + dot3 (x 0) (x 0) ≠ 0 := by have := dot_self_nonneg (x 0); linarith
    have hk : HasDerivAt (fun t => 4 / (4 + dot3 (x t) (x t)))
        (-(8 / (4 + dot3 (x 0) (x 0)) ^ 2) * dot3 (x 0) x') 0 := by
      refine ((hasDerivAt_const (0 : ℝ) (4 : ℝ)).fun_div ((dot_deriv hx).const_add 4) hp).congr_deriv ?_
      field_simp; ring
    have e : ∀ t, norm3 (x t) < eps → expS eps (norm3 (x t)) = 4 / (4 + dot3 (x t) (x t)) := by
      intro t ht
      have hp : 4 + dot3 (x t) (x t) ≠ 0 := by have := dot_self_nonneg (x t); linarith
      simp only [expS, expC, if_pos ht, norm3_sq]
      field_simp; ring
    refine (hk.congr_of_eventuallyEq ((near_of_curve hx h).mono fun t ht => e t ht)).congr_deriv ?_
    rw [expK, if_pos h, e 0 h, expQ, if_pos h]; field_simp; ring
  · have h0 : norm3 (x 0) ≠ 0 := by linarith
    have hθ := norm_deriv hx h0
    have hk : HasDerivAt (fun t => Real.sin (norm3 (x t)) / norm3 (x t))
        _ 0 := (hθ.sin.fun_div hθ h0)
    refine (hk.congr_of_eventuallyEq ((far_of_curve hx h).mono fun t ht => ?_)).congr_deriv ?_
    · simp only [expS, if_neg (not_lt.mpr ht.le)]
    · simp only [expK, expS, expC, expQ, if_neg (not_lt.mpr h.le)]
      field_simp
      ring

theorem c_deriv {eps : ℝ} (he : 0 < eps) {x : ℝ → V3} {x' : V3} (hx : VecDeriv x x')
    (h : norm3 (x 0) ≠ eps) :
    HasDerivAt (fun t => expC eps (norm3 (x t)))
      (-(expS eps (norm3 (x 0)) * (expS eps (norm3 (x 0))
        + expQ eps (norm3 (x 0)) * dot3 (x 0) (x 0))) * dot3 (x 0) x') 0 := by
  rcases lt_or_gt_of_ne h with h | h
  · have hp : 4 + dot3 (x 0) (x 0) ≠ 0 := by have := dot_self_nonneg (x 0); linarith
    have hk : HasDerivAt (fun t => 8 / (4 + dot3 (x t) (x t)) - 1)
        (-(16 / (4 + dot3 (x 0) (x 0)) ^ 2) * dot3 (x 0) x') 0 := by
      refine (((hasDerivAt_const (0 : ℝ) (8 : ℝ)).fun_div ((dot_deriv hx).const_add 4) hp).sub_const
        1).congr_deriv ?_
      field_simp; ring
    have e : ∀ t, norm3 (x t) < eps → expC eps (norm3 (x t)) = 8 / (4 + dot3 (x t) (x t)) - 1 := by
      intro t ht
      simp only [expC, if_pos ht, norm3_sq]
    refine (hk.congr_of_eventuallyEq ((near_of_curve hx h).mono fun t ht => e t ht)).congr_deriv ?_
    rw [expS, if_pos h, e 0 h, expQ, if_pos h]; field_simp; ring
  · have h0 : norm3 (x 0) ≠ 0 := by linarith
    have hθ := norm_deriv hx h0
    refine (hθ.cos.congr_of_eventuallyEq ((far_of_curve hx h).mono fun t ht => ?_)).congr_deriv ?_
    · simp only [expC, if_neg (not_lt.mpr ht.le)]
    · simp only [expS, expQ, if_neg (not_lt.mpr h.le), ← norm3_sq]
      field_simp
      ring

/-- `jexp` is the derivative of `exp`, in both branches. -/
theorem exp_curve {eps : ℝ} (he : 0 < eps) {x : ℝ → V3} {x' : V3} (hx : VecDeriv x x')
    (h : norm3 (x 0) ≠ eps) :
    MatDeriv (fun t => exp eps (x t)) (exp eps (x 0) * hat (jexp eps (x 0) *ᵥ x')) := by
  obtain ⟨h1, h2⟩ := exp_coeffs (θ := norm3 (x 0)) he
  rw [norm3_sq] at h1
  exact rod_deriv (k := fun t => expK eps (norm3 (x t))) (c := fun t => expC eps (norm3 (x t)))
    (s := fun t => expS eps (norm3 (x t))) hx (k_deriv he hx h) (s_deriv he hx h) (c_deriv he hx h)
    h1 h2

theorem line_deriv (v δ : V3) : VecDeriv (fun t : ℝ => v + t • δ) δ := fun i => by
  simpa using ((hasDerivAt_id (0 : ℝ)).mul_const (δ i)).const_add (v i)

theorem jexp_zero {eps : ℝ} (he : 0 < eps) : jexp eps 0 = 1 := by
  have h0 : norm3 (0 : V3) = 0 := norm3_eq_zero.mpr rfl
  ext i j
  fin_cases i <;> fin_cases j <;>
    simp [jexp, jexpOf, outer3, hat, h0, expC, expS, he] <;> norm_num

theorem lawful {eps : ℝ} (he : 0 < eps) (deps epi : ℝ) : emb.Lawful (ops eps deps epi) where
  toMatrix_inj _ _ h := h
  hat_add := hat_add
  hat_smul := hat_smul
  compose_valid _ _ ha hb := ha.mul hb
  inverse_valid _ ha := ha.transpose
  exp_valid := exp_valid he
  toMatrix_compose _ _ := rfl
  toMatrix_inverse _ ha := ha.1
  adjoint_hat _ v ha := adjoint_hat ha v
  exp_zero := exp_zero he
  exp_deriv v := by
    have h0 : norm3 (0 : V3) = 0 := norm3_eq_zero.mpr rfl
    have h := exp_curve he (x := fun t : ℝ => t • v) (x' := v)
      (fun i => by simpa using (hasDerivAt_id (0 : ℝ)).mul_const (v i))
      (by simp [h0]; exact he.ne)
    simp only [zero_smul, exp_zero he, jexp_zero he, Matrix.one_mul, Matrix.one_mulVec] at h
    exact h

end SO3
end Verif.Geometry
