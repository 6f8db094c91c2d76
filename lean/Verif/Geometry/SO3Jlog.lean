import Verif.Geometry.SO3Pi

/-!
# The derivative of the logarithm of `SO3`
-/

namespace Verif.Geometry
open Matrix

namespace SO3

/-- A rotation other than a half turn, from its axis and cosine. -/
theorem Valid.decomp {R : M3} (h : Valid R) (h1 : 1 + cosine R ≠ 0) :
    R = rod (1 / (1 + cosine R)) (cosine R) 1 (sineAxis R) := by
  have hO := h.outer
  have := congrArg (fun M => (1 / (1 + cosine R)) • M) hO
  simp only [smul_add, smul_smul] at this
  rw [one_div_mul_cancel h1, one_smul, one_smul, ← mul_assoc, one_div_mul_cancel h1,
    one_mul] at this
  rw [rod, one_smul]
  exact this

/-- The derivatives of the sine axis and of the cosine along a curve of rotations. -/
theorem axis_deriv {x : ℝ → M3} {ξ : V3} (h : emb.Tangent x ξ) :
    VecDeriv (fun t => sineAxis (x t)) (sineAxis (x 0 * hat ξ)) ∧
    HasDerivAt (fun t => cosine (x t)) (-dot3 (sineAxis (x 0)) ξ) 0 := by
  obtain ⟨_, hd⟩ := h
  have hd' : ∀ i j, HasDerivAt (fun t => x t i j) ((x 0 * hat ξ) i j) 0 := hd
  constructor
  · intro i
    fin_cases i
    · exact ((hd' 2 1).fun_sub (hd' 1 2)).const_mul (1 / 2)
    · exact ((hd' 0 2).fun_sub (hd' 2 0)).const_mul (1 / 2)
    · exact ((hd' 1 0).fun_sub (hd' 0 1)).const_mul (1 / 2)
  · refine (((((hd' 0 0).fun_add (hd' 1 1)).fun_add (hd' 2 2)).sub_const 1).const_mul
      (1 / 2)).congr_deriv ?_
    simp [hat, sineAxis, dot3, Matrix.mul_apply, Fin.sum_univ_three]
    ring

theorem sineAxis_mul_hat {R : M3} (h : Valid R) (h1 : 1 + cosine R ≠ 0) (ξ : V3) :
    sineAxis (R * hat ξ) = ((1 + cosine R) / 2) • ξ
      - (dot3 (sineAxis R) ξ / (2 * (1 + cosine R))) • sineAxis R
      + (1 / 2 : ℝ) • cross3 (sineAxis R) ξ := by
  have hU := h.unit
  have hd := h.decomp h1
  generalize hn : sineAxis R = n at *
  generalize hc : cosine R = c at *
  rw [hd]
  unfold dot3 at hU ⊢
  ext i
  fin_cases i
  · simp [sineAxis, rod, outer3, hat, cross3, Matrix.mul_apply, Fin.sum_univ_three]
    field_simp
    linear_combination (ξ 0) * hU
  · simp [sineAxis, rod, outer3, hat, cross3, Matrix.mul_apply, Fin.sum_univ_three]
    field_simp
    linear_combination (ξ 1) * hU
  · simp [sineAxis, rod, outer3, hat, cross3, Matrix.mul_apply, Fin.sum_univ_three]
    field_simp
    linear_combination (ξ 2) * hU

theorem sine_deriv {x : ℝ → M3} {ξ : V3} (h : emb.Tangent x ξ) (hs : sine (x 0) ≠ 0)
    (h1 : 1 + cosine (x 0) ≠ 0) :
    HasDerivAt (fun t => sine (x t))
      (cosine (x 0) * dot3 (sineAxis (x 0)) ξ / sine (x 0)) 0 := by
  have hV : Valid (x 0) := h.1 0
  refine (norm_deriv (axis_deriv h).1 hs).congr_deriv ?_
  rw [sineAxis_mul_hat hV h1]
  change _ / sine (x 0) = _
  congr 1
  have hU := hV.unit
  generalize sineAxis (x 0) = n at *
  simp only [dot3, Pi.add_apply, Pi.sub_apply, Pi.smul_apply, smul_eq_mul, cross3] at hU ⊢
  simp
  field_simp
  linear_combination (-(n 0 * ξ 0 + n 1 * ξ 1 + n 2 * ξ 2)) * hU

theorem theta_deriv {x : ℝ → M3} {ξ : V3} (h : emb.Tangent x ξ) (hs : 0 < sine (x 0))
    (h1 : 1 + cosine (x 0) ≠ 0) :
    HasDerivAt (fun t => theta (x t)) (dot3 (sineAxis (x 0)) ξ / sine (x 0)) 0 := by
  have hV : Valid (x 0) := h.1 0
  refine (hasDerivAt_atan2 (axis_deriv h).2 (sine_deriv h hs.ne' h1) ?_).congr_deriv ?_
  · rw [Complex.mem_slitPlane_iff]; right; exact hs.ne'
  · have hU := hV.unit'
    rw [hU]
    field_simp
    linear_combination (dot3 (sineAxis (x 0)) ξ) * hU

theorem outer_mulVec (u v x : V3) : outer3 u v *ᵥ x = dot3 v x • u := by
  ext i
  simp [outer3, Matrix.mulVec, dotProduct, Fin.sum_univ_three, dot3]; ring

theorem jlogOf_mulVec (a b : ℝ) (w ξ : V3) :
    jlogOf a b w *ᵥ ξ = (b * dot3 w ξ) • w + (1 / 2 : ℝ) • cross3 w ξ + a • ξ := by
  rw [jlogOf, Matrix.add_mulVec, Matrix.add_mulVec, outer_mulVec, hat_smul, Matrix.smul_mulVec,
    hat_mulVec, Matrix.smul_mulVec, Matrix.one_mulVec, smul_smul, mul_comm]

theorem log_jac_far {eps deps epi : ℝ} (he : 0 < eps) (hpi : 0 ≤ epi) {R : M3} (hR : Valid R)
    (h1 : eps < theta R) (hd1 : deps ≤ theta R) (hp : epi < 1 + cosine R) :
    emb.HasJac (ops eps deps epi).log R ((ops eps deps epi).dlog R) := by
  intro x ξ hx ht
  have hpos : 0 < theta R := he.trans h1
  have hs := hR.sine_pos hpos (by linarith)
  have hc1 : 1 + cosine R ≠ 0 := by linarith
  have hU := hR.unit'
  have hc2 : 2 * cosine R - 2 ≠ 0 := by
    intro h0
    have : cosine R = 1 := by linarith
    rw [this] at hU
    have : sine R ^ 2 = 0 := by linarith
    exact hs.ne' (pow_eq_zero_iff two_ne_zero |>.mp this)
  obtain ⟨hn', hc'⟩ := axis_deriv ht
  have hs' := sine_deriv ht (by rw [hx]; exact hs.ne') (by rw [hx]; exact hc1)
  have hθ' := theta_deriv ht (by rw [hx]; exact hs) (by rw [hx]; exact hc1)
  rw [hx] at hn' hc' hs' hθ'
  have hev : ∀ᶠ t in nhds 0, log eps epi (x t) = (theta (x t) / sine (x t)) • sineAxis (x t) := by
    have e1 : ∀ᶠ t in nhds 0, eps < theta (x t) :=
      continuousAt_const.eventually_lt hθ'.continuousAt (by rw [hx]; exact h1)
    have e2 : ∀ᶠ t in nhds 0, epi < 1 + cosine (x t) :=
      continuousAt_const.eventually_lt (hc'.const_add 1).continuousAt (by rw [hx]; exact hp)
    filter_upwards [e1, e2] with t a1 a2
    rw [log, if_neg (not_le.mpr a2), logScale, if_neg (by rintro (h | h) <;> linarith)]
  have hlogR : log eps epi R = (theta R / sine R) • sineAxis R := by
    have := hev.self_of_nhds; rwa [hx] at this
  intro i
  have hmain := (hθ'.fun_div hs' (by rw [hx]; exact hs.ne')).fun_mul (hn' i)
  refine (hmain.congr_of_eventuallyEq (hev.mono fun t e => ?_)).congr_deriv ?_
  · change log eps epi (x t) i = _
    rw [e]; rfl
  · rw [sineAxis_mul_hat hR hc1]
    simp only [ops, jlog, logA, logB, if_neg (not_lt.mpr hd1)]
    rw [hlogR]
    simp only [hx]
    have hθ0 := hpos.ne'
    have hs0 := hs.ne'
    have e2 : (1 : ℝ) / (1 + cosine R) = (1 - cosine R) / sine R ^ 2 := by
      rw [div_eq_div_iff hc1 (pow_ne_zero 2 hs0)]; linear_combination hU
    have e3 : 1 / (2 * cosine R - 2) = -(1 + cosine R) / (2 * sine R ^ 2) := by
      rw [div_eq_div_iff hc2 (by positivity)]; linear_combination 2 * hU
    have e4 : dot3 (sineAxis R) ξ / (2 * (1 + cosine R))
        = dot3 (sineAxis R) ξ / 2 * ((1 - cosine R) / sine R ^ 2) := by
      rw [← e2]; field_simp
    have e5 : -(sine R * theta R) / (2 * cosine R - 2)
        = sine R * theta R * ((1 + cosine R) / (2 * sine R ^ 2)) := by
      rw [div_eq_mul_one_div, e3]; ring
    have e6 : (sine R * theta R + (2 * cosine R - 2)) / (theta R ^ 2 * (2 * cosine R - 2))
        = 1 / theta R ^ 2 - (sine R * theta R) / theta R ^ 2 *
          ((1 + cosine R) / (2 * sine R ^ 2)) := by
      have : (sine R * theta R + (2 * cosine R - 2)) / (theta R ^ 2 * (2 * cosine R - 2))
        = 1 / theta R ^ 2 + (sine R * theta R) / theta R ^ 2 * (1 / (2 * cosine R - 2)) := by
        generalize 2 * cosine R - 2 = D at hc2 ⊢
        field_simp
        ring
      rw [this, e3]; ring
    rw [e4, e5, e6, jlogOf_mulVec]
    generalize sineAxis R = n at *
    generalize cosine R = c at *
    generalize sine R = s at *
    generalize theta R = θ at *
    simp only [Pi.add_apply, Pi.sub_apply, Pi.smul_apply, smul_eq_mul]
    fin_cases i
    all_goals
      simp [dot3, cross3]
      field_simp
      ring

/-- The Jacobian of the logarithm at the identity. -/
theorem log_jac_one {eps deps epi : ℝ} (he : 0 < eps) (hd : 0 < deps) (hpi : epi < 2) :
    emb.HasJac (ops eps deps epi).log 1 ((ops eps deps epi).dlog 1) := by
  intro x ξ hx ht
  obtain ⟨hn', hc'⟩ := axis_deriv ht
  rw [hx] at hn' hc'
  have n1 : sineAxis (1 : M3) = 0 := by ext i; fin_cases i <;> simp [sineAxis]
  have c1 : cosine (1 : M3) = 1 := by simp [cosine]; norm_num
  have s1 : sine (1 : M3) = 0 := by rw [sine, n1]; exact norm3_eq_zero.mpr rfl
  have t1 : theta (1 : M3) = 0 := by
    rw [theta, s1, c1]; change Complex.arg ⟨1, 0⟩ = 0
    rw [Complex.arg_eq_zero_iff]; simp
  have hs2 : HasDerivAt (fun t => sine (x t) ^ 2) 0 0 := by
    have := dot_deriv hn'
    simp only [hx, n1] at this
    refine (this.congr_of_eventuallyEq (Filter.Eventually.of_forall fun t => ?_)).congr_deriv ?_
    · simp only [sine, norm3_sq]
    · simp [dot3]
  have hsc : ContinuousAt (fun t => sine (x t)) 0 := by
    have : (fun t => sine (x t)) = fun t => Real.sqrt (sine (x t) ^ 2) := by
      funext t; exact (Real.sqrt_sq (norm3_nonneg _)).symm
    rw [this]
    exact Real.continuous_sqrt.continuousAt.comp hs2.continuousAt
  have hθc : ContinuousAt (fun t => theta (x t)) 0 := by
    have hz : ContinuousAt (fun t => (⟨cosine (x t), sine (x t)⟩ : ℂ)) 0 := by
      have h1 := (Complex.continuous_ofReal.continuousAt.comp hc'.continuousAt).add
        ((Complex.continuous_ofReal.continuousAt.comp hsc).mul
          (continuousAt_const (y := Complex.I)))
      refine h1.congr (Filter.Eventually.of_forall fun t => ?_)
      apply Complex.ext <;> simp
    refine ContinuousAt.comp (f := fun t => (⟨cosine (x t), sine (x t)⟩ : ℂ)) (g := Complex.arg)
      (Complex.continuousAt_arg ?_) hz
    rw [hx, c1, s1, Complex.mem_slitPlane_iff]; left; norm_num
  have hev : ∀ᶠ t in nhds 0, log eps epi (x t) = (1 + sine (x t) ^ 2 / 6) • sineAxis (x t) := by
    have e1 : ∀ᶠ t in nhds 0, theta (x t) < eps :=
      hθc.eventually_lt continuousAt_const (by rw [hx, t1]; exact he)
    have e2 : ∀ᶠ t in nhds 0, epi < 1 + cosine (x t) :=
      continuousAt_const.eventually_lt (hc'.const_add 1).continuousAt (by rw [hx, c1]; linarith)
    filter_upwards [e1, e2] with t a1 a2
    rw [log, if_neg (not_le.mpr a2), logScale, if_pos (Or.inl a1)]
  have hlog1 : log eps epi 1 = 0 := by
    have := hev.self_of_nhds; rw [hx, n1] at this; simpa using this
  have hj : (ops eps deps epi).dlog 1 = 1 := by
    simp only [ops, jlog, hlog1, logA, logB, t1, if_pos hd]
    ext i j
    simp only [jlogOf, Matrix.add_apply]
    fin_cases i <;> fin_cases j <;> simp [outer3, hat]
  rw [hj, Matrix.one_mulVec]
  intro i
  have hmain := ((hs2.div_const 6).const_add 1).fun_mul (hn' i)
  refine (hmain.congr_of_eventuallyEq (hev.mono fun t e => ?_)).congr_deriv ?_
  · change log eps epi (x t) i = _
    rw [e]; rfl
  · simp only [hx, n1, s1, Matrix.one_mul]
    fin_cases i <;> simp [sineAxis, hat] <;> ring

theorem rod_jlog_comm (k c s a b : ℝ) (n : V3) (r : ℝ) :
    (rod k c s n)ᵀ * jlogOf a b (r • n) = jlogOf a b (r • n) * (rod k c s n)ᵀ := by
  ext i j
  simp only [rod, jlogOf, outer3, Matrix.mul_apply, Fin.sum_univ_three, Matrix.transpose_apply,
    Matrix.add_apply, Matrix.smul_apply, Matrix.of_apply, Pi.smul_apply]
  fin_cases i <;> fin_cases j <;> simp [hat, Matrix.one_apply] <;> ring

/-- The adjoint of a rotation commutes with the Jacobian of its logarithm, as long as the code
computes the logarithm from the sine axis. -/
theorem adjoint_dlog_comm {eps deps epi : ℝ} (hpi : 0 ≤ epi) {R : M3} (hR : Valid R)
    (hp : epi < 1 + cosine R) :
    (ops eps deps epi).adjoint ((ops eps deps epi).inverse R) * (ops eps deps epi).dlog R
      = (ops eps deps epi).dlog R * (ops eps deps epi).adjoint ((ops eps deps epi).inverse R) := by
  have hd := hR.decomp (show 1 + cosine R ≠ 0 by linarith)
  change Rᵀ * jlogOf _ _ (log eps epi R) = jlogOf _ _ (log eps epi R) * Rᵀ
  rw [log, if_neg (not_le.mpr hp)]
  conv_lhs => enter [1]; rw [hd]
  conv_rhs => enter [2]; rw [hd]
  exact rod_jlog_comm _ _ _ _ _ _ _

end SO3
end Verif.Geometry
