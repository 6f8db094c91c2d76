import Verif.Geometry.SE3Lemmas

/-!
# The exponential of `SE3` and its Jacobian
-/

namespace Verif.Geometry
open Matrix

namespace SE3

/-- The coefficients used by the code outside the small-angle branch. -/
theorem far_coeffs {eps θ : ℝ} (he : 0 < eps) (h : eps ≤ θ) :
    SO3.expS eps θ + expQt eps θ * θ ^ 2 = 1 ∧
    dK eps θ = SO3.expS eps θ * expQt eps θ - SO3.expK eps θ ^ 2 ∧
    dQ eps θ * θ ^ 2 = SO3.expK eps θ - 3 * expQt eps θ ∧
    SO3.expQ eps θ = expQt eps θ := by
  have hn : ¬ θ < eps := not_lt.mpr h
  have h0 : θ ≠ 0 := by linarith
  have hsc := Real.cos_sq_add_sin_sq θ
  refine ⟨?_, ?_, ?_, ?_⟩
  · simp only [SO3.expS, expQt, if_neg hn]; field_simp; ring
  · simp only [dK, SO3.expS, SO3.expK, SO3.expC, expQt, if_neg hn]
    field_simp
    linear_combination hsc
  · simp only [dQ, if_neg hn]; field_simp
  · simp only [SO3.expQ, expQt]; rw [if_neg hn, if_neg hn]

theorem q_deriv_far {eps : ℝ} (he : 0 < eps) {w : ℝ → V3} {w' : V3} (hw : VecDeriv w w')
    (h : eps < norm3 (w 0)) :
    HasDerivAt (fun t => expQt eps (norm3 (w t))) (dQ eps (norm3 (w 0)) * dot3 (w 0) w') 0 := by
  have h0 : norm3 (w 0) ≠ 0 := by linarith
  have hθ := SO3.norm_deriv hw h0
  have hd := (hθ.fun_sub hθ.sin).fun_div (hθ.fun_mul (hθ.fun_pow 2))
    (mul_ne_zero h0 (pow_ne_zero 2 h0))
  refine (hd.congr_of_eventuallyEq ((SO3.far_of_curve hw h).mono fun t ht => ?_)).congr_deriv ?_
  · simp only [expQt, if_neg (not_lt.mpr ht.le)]
  · simp only [dQ, SO3.expK, SO3.expC, expQt, if_neg (not_lt.mpr h.le)]
    field_simp
    ring

theorem q_deriv_zero {eps : ℝ} (he : 0 < eps) {w : ℝ → V3} {w' : V3} (hw : VecDeriv w w')
    (h : w 0 = 0) : HasDerivAt (fun t => expQt eps (norm3 (w t))) 0 0 := by
  have h0 : norm3 (w 0) < eps := by rw [h, SO3.norm3_eq_zero.mpr rfl]; exact he
  have hd := ((SO3.dot_deriv hw).div_const 120).const_sub (1 / 6)
  refine (hd.congr_of_eventuallyEq ((SO3.near_of_curve hw h0).mono fun t ht => ?_)).congr_deriv ?_
  · simp only [expQt, if_pos ht, SO3.norm3_sq]
  · rw [h]; simp [dot3]

theorem jexpT_alg {k q dk dq : ℝ} {u w : V3} (hdq : dq * dot3 w w = k - 3 * q) (w' : V3) :
    ((q - k) * dot3 w w') • u + ((dk * dot3 w w') • cross3 w u + k • cross3 w' u)
      + ((dq * dot3 w w') • (dot3 w u • w) + q • (dot3 w' u • w + dot3 w u • w'))
    = jexpT k q dk dq u w *ᵥ w' := by
  rw [jexpT_mulVec]
  ext i
  simp only [Pi.add_apply, Pi.sub_apply, Pi.smul_apply, smul_eq_mul]
  unfold dot3 at *
  fin_cases i
  · simp [cross3]
    linear_combination (u 0 * (w 0 * w' 0 + w 1 * w' 1 + w 2 * w' 2)) * hdq
  · simp [cross3]
    linear_combination (u 1 * (w 0 * w' 0 + w 1 * w' 1 + w 2 * w' 2)) * hdq
  · simp [cross3]
    linear_combination (u 2 * (w 0 * w' 0 + w 1 * w' 1 + w 2 * w' 2)) * hdq

theorem jexpT_alg_zero {k q dk dq : ℝ} (u w' : V3) :
    k • cross3 w' u = jexpT k q dk dq u 0 *ᵥ w' := by
  rw [jexpT_mulVec]
  ext i
  simp only [Pi.add_apply, Pi.sub_apply, Pi.smul_apply, smul_eq_mul]
  fin_cases i <;> simp [cross3, dot3] <;> ring

/-- The Jacobian of the exponential, applied to a direction. -/
theorem jexp_mulVec (eps : ℝ) (x v : Fin 6 → ℝ) :
    lin (jexp eps x *ᵥ v) = SO3.jexpOf (SO3.expS eps (norm3 (ang x))) (SO3.expK eps (norm3 (ang x)))
        (if norm3 (ang x) < eps then 0 else expQt eps (norm3 (ang x))) (ang x) *ᵥ lin v
      + ((SO3.exp eps (ang x))ᵀ * jexpT (SO3.expK eps (norm3 (ang x))) (expQt eps (norm3 (ang x)))
        (dK eps (norm3 (ang x))) (dQ eps (norm3 (ang x))) (lin x) (ang x)) *ᵥ ang v ∧
    ang (jexp eps x *ᵥ v) = SO3.jexp eps (ang x) *ᵥ ang v := by
  simp only [jexp]
  rw [block_mulVec, lin_join, ang_join, Matrix.zero_mulVec, zero_add]
  refine ⟨rfl, ?_⟩
  congr 1
  simp only [SO3.jexp]
  congr 1
  simp only [SO3.expQ, expQt]
  split_ifs <;> rfl

/-- `_jexp_impl` is the derivative of `_exp_impl`, outside the small-angle branch and at zero
angle. -/
theorem exp_curve {eps : ℝ} (he : 0 < eps) {x : ℝ → Fin 6 → ℝ} {x' : Fin 6 → ℝ}
    (hx : VecDeriv x x') (h : eps < norm3 (ang (x 0)) ∨ ang (x 0) = 0) :
    emb.Tangent (fun t => exp eps (x t)) (jexp eps (x 0) *ᵥ x') := by
  have hw := ang_deriv hx
  have hu := lin_deriv hx
  have hne : norm3 (ang (x 0)) ≠ eps := by
    rcases h with h | h
    · exact h.ne'
    · rw [h, SO3.norm3_eq_zero.mpr rfl]; exact he.ne
  obtain ⟨hl, ha⟩ := jexp_mulVec eps (x 0) x'
  refine tangent_iff.mpr ⟨fun t => SO3.exp_valid he _, ?_, ?_⟩
  · rw [ha]; exact SO3.exp_curve he hw hne
  · rw [hl, Matrix.mulVec_add, show (exp eps (x 0)).R = SO3.exp eps (ang (x 0)) from rfl,
      ← Matrix.mulVec_mulVec (v := ang x'),
      Matrix.mulVec_mulVec (M := SO3.exp eps (ang (x 0))) (N := (SO3.exp eps (ang (x 0)))ᵀ),
      (SO3.exp_valid he _).mul_transpose, Matrix.one_mulVec]
    have hs := SO3.s_deriv he hw hne
    have hk := SO3.k_deriv he hw hne
    obtain ⟨hc1, hc2⟩ := SO3.exp_coeffs (θ := norm3 (ang (x 0))) he
    rcases h with h | h
    · have hq := q_deriv_far he hw h
      obtain ⟨f1, f2, f3, f4⟩ := far_coeffs he h.le
      have hd := expT_deriv hs hk hq hu hw
      rw [if_neg (not_lt.mpr h.le)]
      rw [SO3.norm3_sq] at f1 f3 hc1
      have hrod := rod_jexp (q := expQt eps (norm3 (ang (x 0)))) hc1 hc2 f1 (lin x')
      intro i
      refine (hd i).congr_deriv ?_
      rw [← jexpT_alg f3 (ang x'), SO3.exp, hrod, f2, f4]
      have e : SO3.expC eps (norm3 (ang (x 0))) * expQt eps (norm3 (ang (x 0)))
          - SO3.expK eps (norm3 (ang (x 0))) * SO3.expS eps (norm3 (ang (x 0)))
          = expQt eps (norm3 (ang (x 0))) - SO3.expK eps (norm3 (ang (x 0))) := by
        linear_combination expQt eps (norm3 (ang (x 0))) * hc1
          - SO3.expK eps (norm3 (ang (x 0))) * f1
      rw [e]
    · have hq := q_deriv_zero he hw h
      have hd := expT_deriv hs hk hq hu hw
      have hn0 : norm3 (0 : V3) = 0 := SO3.norm3_eq_zero.mpr rfl
      intro i
      refine (hd i).congr_deriv ?_
      simp only [h]
      rw [← jexpT_alg_zero, hn0, if_pos he, SO3.exp_zero he, Matrix.one_mulVec, jexpOf_mulVec]
      simp [expT, dot3, cross3]

theorem exp_zero {eps : ℝ} (he : 0 < eps) : toMatrix (exp eps 0) = 1 := by
  have h1 : ang (0 : Fin 6 → ℝ) = 0 := by ext i; fin_cases i <;> simp [ang]
  have h2 : lin (0 : Fin 6 → ℝ) = 0 := by ext i; fin_cases i <;> simp [lin]
  rw [toMatrix, exp, ← hom_one]
  simp only [h1, h2, SO3.exp_zero he]
  congr 1
  ext i; fin_cases i <;> simp [expT, cross3]

theorem jexp_zero_mulVec {eps : ℝ} (he : 0 < eps) (v : Fin 6 → ℝ) : jexp eps 0 *ᵥ v = v := by
  have h1 : ang (0 : Fin 6 → ℝ) = 0 := by ext i; fin_cases i <;> simp [ang]
  have h2 : lin (0 : Fin 6 → ℝ) = 0 := by ext i; fin_cases i <;> simp [lin]
  have hn0 : norm3 (0 : V3) = 0 := SO3.norm3_eq_zero.mpr rfl
  obtain ⟨hl, ha⟩ := jexp_mulVec eps 0 v
  rw [h1, SO3.jexp_zero he, Matrix.one_mulVec] at ha
  refine ext6 ?_ ha
  have hJ := SO3.jexp_zero he
  rw [hl]
  simp only [h1, h2, hn0, if_pos he]
  have hz : SO3.expQ eps 0 = 0 := by rw [SO3.expQ, if_pos he]
  simp only [SO3.jexp, hn0, hz] at hJ
  rw [hJ, Matrix.one_mulVec, ← Matrix.mulVec_mulVec, ← jexpT_alg_zero, SO3.exp_zero he]
  ext i; fin_cases i <;> simp [cross3]

theorem lawful {eps : ℝ} (he : 0 < eps) (deps epi : ℝ) : emb.Lawful (ops eps deps epi) where
  toMatrix_inj a b h := by
    obtain ⟨h1, h2⟩ := hom_inj h
    exact SE3.ext h1 h2
  hat_add := hat_add
  hat_smul := hat_smul
  compose_valid _ _ ha hb := SO3.Valid.mul ha hb
  inverse_valid _ ha := SO3.Valid.transpose ha
  exp_valid v := SO3.exp_valid he _
  toMatrix_compose a b := by
    change hom _ _ _ = hom _ _ _ * hom _ _ _
    rw [hom_mul]; simp [ops, compose]
  toMatrix_inverse a ha := by
    change hom _ _ _ * hom _ _ _ = _
    rw [hom_mul]
    simp only [ops, inverse, Matrix.neg_mulVec, one_smul, add_neg_cancel, mul_one]
    have hR : a.Rᵀ * a.R = 1 := ha.1
    rw [hR, hom_one]
  adjoint_hat _ v ha := adjoint_hat ha v
  exp_zero := exp_zero he
  exp_deriv v := by
    have h1 : ang (0 : Fin 6 → ℝ) = 0 := by ext i; fin_cases i <;> simp [ang]
    have h := exp_curve he (x := fun t : ℝ => t • v) (x' := v)
      (fun i => by simpa using (hasDerivAt_id (0 : ℝ)).mul_const (v i))
      (Or.inr (by simp [h1]))
    have h2 := h.2
    simp only [zero_smul, jexp_zero_mulVec he] at h2
    change MatDeriv _ (toMatrix (exp eps 0) * hat v) at h2
    rw [exp_zero he, Matrix.one_mul] at h2
    exact h2

end SE3
end Verif.Geometry
