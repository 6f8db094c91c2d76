import Verif.Geometry.SE3Jlog
import Mathlib.Analysis.SpecialFunctions.Trigonometric.Bounds

/-!
# `SE3`: the Jacobian of the logarithm at pure translations, and conjugation
-/

namespace Verif.Geometry
open Matrix Filter Asymptotics

namespace SO3

theorem transpose_hat {R : M3} (h : Valid R) (v : V3) : R * hat v * Rᵀ = hat (R *ᵥ v) := by
  rw [adjoint_hat h, Matrix.mul_assoc, h.mul_transpose, Matrix.mul_one]

theorem outer_conj (R : M3) (u v : V3) : R * outer3 u v * Rᵀ = outer3 (R *ᵥ u) (R *ᵥ v) := by
  ext i j
  simp only [outer3, Matrix.mul_apply, Fin.sum_univ_three, Matrix.transpose_apply,
    Matrix.of_apply, Matrix.mulVec, dotProduct]
  ring

theorem dot_mulVec {R : M3} (h : Valid R) (u v : V3) : dot3 (R *ᵥ u) (R *ᵥ v) = dot3 u v := by
  have h1 : ∀ a b : V3, dot3 a b = a ⬝ᵥ b := by
    intro a b; simp [dot3, dotProduct, Fin.sum_univ_three]
  rw [h1, h1, Matrix.dotProduct_mulVec, Matrix.vecMul_mulVec, h.1, Matrix.vecMul_one]

theorem norm_mulVec {R : M3} (h : Valid R) (v : V3) : norm3 (R *ᵥ v) = norm3 v := by
  simp only [norm3, dot_mulVec h]

theorem cross_mulVec {R : M3} (h : Valid R) (u v : V3) :
    cross3 (R *ᵥ u) (R *ᵥ v) = R *ᵥ cross3 u v := by
  rw [← hat_mulVec, ← hat_mulVec, Matrix.mulVec_mulVec, ← adjoint_hat h, Matrix.mulVec_mulVec]

theorem rod_conj {R : M3} (h : Valid R) (k c s : ℝ) (v : V3) :
    rod k c s (R *ᵥ v) = R * rod k c s v * Rᵀ := by
  simp only [rod, Matrix.mul_add, Matrix.add_mul, Matrix.mul_smul, Matrix.smul_mul, outer_conj,
    Matrix.mul_one, h.mul_transpose, transpose_hat h, Matrix.mulVec_smul]

/-- Rotating the axis conjugates the rotation, in both branches of the exponential. -/
theorem exp_conj {R : M3} (h : Valid R) (eps : ℝ) (v : V3) :
    exp eps (R *ᵥ v) = R * exp eps v * Rᵀ := by
  simp only [exp, norm_mulVec h, rod_conj h]

theorem rod_mulVec (k c s : ℝ) (v x : V3) :
    rod k c s v *ᵥ x = (k * dot3 v x) • v + c • x + s • cross3 v x := by
  simp only [rod, Matrix.add_mulVec, Matrix.smul_mulVec, outer_mulVec, Matrix.one_mulVec,
    hat_smul, hat_mulVec, smul_smul]

theorem rod_neg (k c s : ℝ) (v : V3) : rod k c s (-v) = (rod k c s v)ᵀ := by
  ext i j
  simp only [rod, outer3, Matrix.add_apply, Matrix.smul_apply, Matrix.of_apply,
    Matrix.transpose_apply]
  fin_cases i <;> fin_cases j <;> simp [hat] <;> try (left; ring1)

theorem norm3_neg (v : V3) : norm3 (-v) = norm3 v := by simp [norm3, dot3]

theorem exp_neg (eps : ℝ) (v : V3) : exp eps (-v) = (exp eps v)ᵀ := by
  simp only [exp, norm3_neg, rod_neg]

end SO3

namespace SE3

theorem expT_rot {R : M3} (h : SO3.Valid R) (s k q : ℝ) (u w : V3) :
    expT s k q (R *ᵥ u) (R *ᵥ w) = R *ᵥ expT s k q u w := by
  simp only [expT, SO3.cross_mulVec h, SO3.dot_mulVec h, Matrix.mulVec_add, Matrix.mulVec_smul]

theorem ext3 {u v : V3} (h0 : u 0 = v 0) (h1 : u 1 = v 1) (h2 : u 2 = v 2) : u = v := by
  ext i; fin_cases i <;> assumption

theorem cross_x (u v : V3) : cross3 u v 0 = u 1 * v 2 - u 2 * v 1 := rfl
theorem cross_y (u v : V3) : cross3 u v 1 = u 2 * v 0 - u 0 * v 2 := rfl
theorem cross_z (u v : V3) : cross3 u v 2 = u 0 * v 1 - u 1 * v 0 := rfl

theorem rod_expT (k c s : ℝ) (v x : V3) : SO3.rod k c s v *ᵥ x = expT c s k x v := by
  rw [SO3.rod_mulVec]
  simp only [expT, smul_smul]
  abel

theorem expT_cross {k c s : ℝ} (q : ℝ) {w : V3} (h1 : c + k * dot3 w w = 1) (t : V3) :
    expT s k q (cross3 t w) w = t - SO3.rod k c s w *ᵥ t := by
  rw [rod_expT]
  have hc : c = 1 - k * dot3 w w := by linarith
  subst hc
  refine ext3 ?_ ?_ ?_ <;>
    simp only [Pi.sub_apply, expT_x, expT_y, expT_z, cross_x, cross_y, cross_z, dot3] <;> ring

/-- `h exp(y) h⁻¹ = exp(Ad_h y)`, in both branches of the exponential. -/
theorem exp_conj {eps : ℝ} (he : 0 < eps) {h : SE3} (hh : Valid h) (y : Fin 6 → ℝ) :
    exp eps (adjoint h *ᵥ y) = compose (compose h (exp eps y)) (inverse h) := by
  have ha : ang (adjoint h *ᵥ y) = h.R *ᵥ ang y := by
    rw [adjoint, block_mulVec, ang_join, Matrix.zero_mulVec, zero_add]
  have hl : lin (adjoint h *ᵥ y) = h.R *ᵥ lin y + cross3 h.t (h.R *ᵥ ang y) := by
    rw [adjoint, block_mulVec, lin_join, ← Matrix.mulVec_mulVec, SO3.hat_mulVec]
  obtain ⟨hc1, -⟩ := SO3.exp_coeffs (θ := norm3 (ang y)) he
  rw [SO3.norm3_sq, ← SO3.dot_mulVec hh] at hc1
  refine SE3.ext ?_ ?_
  · simp only [exp, ha, compose, inverse, SO3.exp_conj hh]
  · simp only [exp, ha, hl, compose, inverse, SO3.norm_mulVec hh, expT_add, expT_rot hh,
      expT_cross _ hc1]
    simp only [SO3.rod_conj hh, Matrix.neg_mulVec, Matrix.mulVec_neg, Matrix.mulVec_mulVec,
      SO3.exp]
    abel

/-- A tangent vector is fixed by the adjoint of its own exponential. -/
theorem adjoint_exp_self {eps : ℝ} (he : 0 < eps) (x : Fin 6 → ℝ) :
    adjoint (exp eps x) *ᵥ x = x := by
  obtain ⟨hc1, -⟩ := SO3.exp_coeffs (θ := norm3 (ang x)) he
  rw [SO3.norm3_sq] at hc1
  have hw : SO3.exp eps (ang x) *ᵥ ang x = ang x := by
    rw [SO3.exp, rod_expT, expT_self, hc1, one_smul]
  refine ext6 ?_ ?_
  · rw [adjoint, block_mulVec, lin_join, ← Matrix.mulVec_mulVec, SO3.hat_mulVec]
    change SO3.exp eps (ang x) *ᵥ lin x + cross3 _ (SO3.exp eps (ang x) *ᵥ ang x) = _
    rw [hw, SO3.exp, rod_expT]
    have hc : SO3.expC eps (norm3 (ang x))
        = 1 - SO3.expK eps (norm3 (ang x)) * dot3 (ang x) (ang x) := by linarith
    rw [hc]
    refine ext3 ?_ ?_ ?_ <;>
      simp only [Pi.add_apply, exp, expT_x, expT_y, expT_z, cross_x, cross_y, cross_z, dot3] <;>
      ring
  · rw [adjoint, block_mulVec, ang_join, Matrix.zero_mulVec, zero_add]
    exact hw

theorem exp_neg (eps : ℝ) (he : 0 < eps) (x : Fin 6 → ℝ) :
    exp eps (-x) = inverse (exp eps x) := by
  have ha : ang (-x) = -ang x := by ext i; fin_cases i <;> rfl
  have hl : lin (-x) = -lin x := by ext i; fin_cases i <;> rfl
  obtain ⟨hc1, hc2⟩ := SO3.exp_coeffs (θ := norm3 (ang x)) he
  rw [SO3.norm3_sq] at hc1
  refine SE3.ext ?_ ?_
  · simp only [exp, ha, inverse, SO3.exp_neg]
  · have hneg : ∀ s k q (u w : V3), expT s k q (-u) (-w) = -expT s (-k) q u w := by
      intro s k q u w
      refine ext3 ?_ ?_ ?_ <;>
        simp only [Pi.neg_apply, expT_x, expT_y, expT_z, dot3] <;> ring
    have hneg' : ∀ s k q (u w : V3), expT s k q u (-w) = expT s (-k) q u w := by
      intro s k q u w
      refine ext3 ?_ ?_ ?_ <;>
        simp only [Pi.neg_apply, expT_x, expT_y, expT_z, dot3] <;> ring
    simp only [exp, ha, hl, inverse, SO3.norm3_neg, Matrix.neg_mulVec, SO3.exp, ← SO3.rod_neg,
      rod_expT, hneg, hneg', expT_expT]
    congr 2
    · linear_combination (-SO3.expS eps (norm3 (ang x))) * hc1
    · linear_combination hc2
    · linear_combination (-expQt eps (norm3 (ang x))) * hc1

theorem tangent_unique {x : ℝ → SE3} {ξ ζ : Fin 6 → ℝ} (h1 : emb.Tangent x ξ)
    (h2 : emb.Tangent x ζ) : ξ = ζ := by
  have hm : toMatrix (x 0) * hat ξ = toMatrix (x 0) * hat ζ := by
    ext i j; exact (h1.2 i j).unique (h2.2 i j)
  have hL := (lawful (eps := 1) one_pos 1 1).toMatrix_inverse (x 0) (h1.1 0)
  have h3 := congrArg (fun M => toMatrix (inverse (x 0)) * M) hm
  simp only [← Matrix.mul_assoc] at h3
  change (emb.toMatrix ((ops 1 1 1).inverse (x 0)) * emb.toMatrix (x 0)) * _
    = (emb.toMatrix ((ops 1 1 1).inverse (x 0)) * emb.toMatrix (x 0)) * _ at h3
  rw [hL, Matrix.one_mul, Matrix.one_mul] at h3
  exact hat_inj h3

theorem line6_deriv (v δ : Fin 6 → ℝ) : VecDeriv (fun t : ℝ => v + t • δ) δ := fun i => by
  simpa using ((hasDerivAt_id (0 : ℝ)).mul_const (δ i)).const_add (v i)

theorem inverse_inverse (g : SE3) (hg : Valid g) : inverse (inverse g) = g := by
  refine SE3.ext ?_ ?_
  · simp [inverse]
  · simp only [inverse, Matrix.transpose_transpose, Matrix.neg_mulVec, Matrix.mulVec_neg, neg_neg]
    rw [Matrix.mulVec_mulVec, SO3.Valid.mul_transpose hg, Matrix.one_mulVec]

/-- The Jacobian of the exponential commutes with the adjoint of the exponential. -/
theorem jexp_adjoint_comm {eps : ℝ} (he : 0 < eps) {x : Fin 6 → ℝ}
    (hx : eps < norm3 (ang x) ∨ ang x = 0) (δ : Fin 6 → ℝ) :
    jexp eps x *ᵥ (adjoint (inverse (exp eps x)) *ᵥ δ)
      = adjoint (inverse (exp eps x)) *ᵥ (jexp eps x *ᵥ δ) := by
  set h := inverse (exp eps x) with hh
  have hv : Valid h := SO3.Valid.transpose (SO3.exp_valid he _)
  have hfix : adjoint h *ᵥ x = x := by
    have h1 := adjoint_exp_self he (-x)
    rw [exp_neg eps he, ← hh, Matrix.mulVec_neg] at h1
    exact neg_injective h1
  have hL := lawful (eps := eps) he 1 1
  have t1 : emb.Tangent (fun t : ℝ => exp eps (x + t • δ)) (jexp eps x *ᵥ δ) := by
    have := exp_curve he (line6_deriv x δ) (by simpa using hx)
    simpa using this
  have t2 := hL.compose_jac_right (a := h) (b := exp eps x) hv (fun t : ℝ => exp eps (x + t • δ))
    (jexp eps x *ᵥ δ) (by simp) t1
  have hvi : emb.valid (inverse h) := SO3.Valid.transpose hv
  have t3 := hL.compose_jac_left (a := compose h (exp eps x)) (b := inverse h) hvi
    (fun t : ℝ => compose h (exp eps (x + t • δ))) _ (by simp) t2
  have t4 : emb.Tangent (fun t : ℝ => exp eps (x + t • (adjoint h *ᵥ δ)))
      (jexp eps x *ᵥ (adjoint h *ᵥ δ)) := by
    have := exp_curve he (line6_deriv x (adjoint h *ᵥ δ)) (by simpa using hx)
    simpa using this
  have e : (fun t : ℝ => exp eps (x + t • (adjoint h *ᵥ δ)))
      = fun t : ℝ => compose (compose h (exp eps (x + t • δ))) (inverse h) := by
    funext t
    rw [← exp_conj he hv, Matrix.mulVec_add, hfix, Matrix.mulVec_smul]
  rw [e] at t4
  have := tangent_unique t4 t3
  rw [this]
  simp only [Ops.composeJac, ops, Matrix.one_mulVec]
  rw [inverse_inverse h hv]

/-- The adjoint of a pose commutes with the Jacobian of its logarithm. -/
theorem adjoint_dlog_comm_far {eps deps epi : ℝ} (he : 0 < eps) (hpi : 0 ≤ epi) {g : SE3}
    (hg : Valid g) (h1 : eps < SO3.theta g.R) (hd1 : deps ≤ SO3.theta g.R)
    (hp : epi < 1 + SO3.cosine g.R) :
    adjoint (inverse g) * jlog eps deps epi g = jlog eps deps epi g * adjoint (inverse g) := by
  have hn := SO3.norm_log_far he hpi hg h1.le hp
  have hr := SO3.exp_log_far he hpi hg h1.le hp
  have hx : exp eps (log eps epi g) = g := exp_log_of he hg h1.le hn hr
  have hinv : jlog eps deps epi g * jexp eps (log eps epi g) = 1 := by
    refine Matrix.ext_of_mulVec_single fun i => ?_
    rw [← Matrix.mulVec_mulVec, jlog_jexp he hg h1.le hd1 hn, Matrix.one_mulVec]
  have hinv' := mul_eq_one_comm.mp hinv
  have hc : jexp eps (log eps epi g) * adjoint (inverse g)
      = adjoint (inverse g) * jexp eps (log eps epi g) := by
    refine Matrix.ext_of_mulVec_single fun i => ?_
    have := jexp_adjoint_comm he (x := log eps epi g) (Or.inl (by
      simp only [log, ang_join]; rw [hn]; exact h1)) (Pi.single i 1)
    rw [hx] at this
    rw [← Matrix.mulVec_mulVec, ← Matrix.mulVec_mulVec, this]
  calc adjoint (inverse g) * jlog eps deps epi g
      = jlog eps deps epi g * jexp eps (log eps epi g) * (adjoint (inverse g)
          * jlog eps deps epi g) := by rw [hinv, Matrix.one_mul]
    _ = jlog eps deps epi g * (jexp eps (log eps epi g) * adjoint (inverse g))
          * jlog eps deps epi g := by simp only [Matrix.mul_assoc]
    _ = jlog eps deps epi g * adjoint (inverse g)
          * (jexp eps (log eps epi g) * jlog eps deps epi g) := by
        rw [hc]; simp only [Matrix.mul_assoc]
    _ = _ := by rw [hinv', Matrix.mul_one]

/-- `theta ^ 2` has derivative 0 at the identity. -/
theorem theta_sq_deriv {x : ℝ → M3} {ξ : V3} (hx : x 0 = 1) (h : SO3.emb.Tangent x ξ) :
    HasDerivAt (fun t => SO3.theta (x t) ^ 2) 0 0 := by
  obtain ⟨hn', hc'⟩ := SO3.axis_deriv h
  obtain ⟨-, ht1, hc1, hs1, hn1⟩ := log_of_one (eps := 1) (epi := 1) (by norm_num)
  have hs2 : HasDerivAt (fun t => SO3.sine (x t) ^ 2) 0 0 := by
    have := SO3.dot_deriv hn'
    simp only [hx, hn1] at this
    refine (this.congr_of_eventuallyEq (Filter.Eventually.of_forall fun t => ?_)).congr_deriv ?_
    · simp only [SO3.sine, SO3.norm3_sq]
    · simp [dot3]
  rw [hasDerivAt_iff_isLittleO] at hs2 ⊢
  have hev : ∀ᶠ t in nhds 0, 0 < SO3.cosine (x t) :=
    continuousAt_const.eventually_lt hc'.continuousAt (by rw [hx, hc1]; exact one_pos)
  refine IsBigO.trans_isLittleO (IsBigO.of_bound ((Real.pi / 2) ^ 2) ?_) hs2
  filter_upwards [hev] with t hct
  have hv := h.1 t
  have h0 := SO3.Valid.theta_nonneg hv
  have hcos := SO3.Valid.cos_theta hv
  have hsin := SO3.Valid.sin_theta hv
  have hle : SO3.theta (x t) ≤ Real.pi / 2 := by
    by_contra hcon
    have := Real.cos_nonpos_of_pi_div_two_le_of_le (not_le.mp hcon).le
      (by linarith [SO3.theta_le (x t), Real.pi_pos])
    rw [hcos] at this
    linarith
  have hj := Real.mul_le_sin h0 hle
  rw [hsin] at hj
  have hpi := Real.pi_pos
  have hk : SO3.theta (x t) ≤ Real.pi / 2 * SO3.sine (x t) := by
    have : SO3.theta (x t) = Real.pi / 2 * (2 / Real.pi * SO3.theta (x t)) := by field_simp
    rw [this]
    exact mul_le_mul_of_nonneg_left hj (by positivity)
  simp only [hx, ht1, hs1]
  simp only [smul_zero, sub_zero, ne_eq, OfNat.ofNat_ne_zero, not_false_eq_true, zero_pow,
    Real.norm_eq_abs, abs_pow]
  rw [sq_abs, sq_abs, ← mul_pow]
  exact pow_le_pow_left₀ h0 hk 2

/-- The Jacobian of the logarithm at a pure translation. -/
theorem jlog_trans {eps deps epi : ℝ} (he : 0 < eps) (hd : 0 < deps) (hpi : epi < 2) (t : V3) :
    jlog eps deps epi ⟨1, t⟩ = block 1 (SO3.hat ((1 / 2 : ℝ) • t)) 0 1 := by
  obtain ⟨hl, ht1, -, -, -⟩ := log_of_one (eps := eps) (epi := epi) hpi
  have hx := log_one_rot he hpi t
  simp only [jlog, hx, ang_join, lin_join]
  congr 1
  · simp only [SO3.jlogOf, SO3.logA, ht1, if_pos hd]
    ext i j
    simp only [Matrix.add_apply, Matrix.smul_apply, outer3, Matrix.of_apply]
    fin_cases i <;> fin_cases j <;> simp [SO3.hat]
  · simp only [jlogT]
    ext i j
    simp only [Matrix.add_apply, Matrix.smul_apply, outer3, Matrix.of_apply]
    simp [dot3]
  · simp only [SO3.jlogOf, SO3.logA, ht1, if_pos hd]
    ext i j
    simp only [Matrix.add_apply, Matrix.smul_apply, outer3, Matrix.of_apply]
    fin_cases i <;> fin_cases j <;> simp [SO3.hat]

theorem log_jac_trans {eps deps epi : ℝ} (he : 0 < eps) (hd : 0 < deps) (hpi : epi < 2) (t : V3) :
    emb.HasJac (ops eps deps epi).log ⟨1, t⟩ ((ops eps deps epi).dlog ⟨1, t⟩) := by
  intro x ξ hx ht
  have hrot := tangent_rot ht
  obtain ⟨hv, hdR, hdt⟩ := tangent_iff.mp ht
  have hR0 : (x 0).R = 1 := by rw [hx]
  obtain ⟨hl1, ht1, -, -, -⟩ := log_of_one (eps := eps) (epi := epi) hpi
  have hθ := theta_sq_deriv hR0 hrot
  have hw := SO3.log_jac_one (deps := deps) he hd hpi (fun t => (x t).R) (ang ξ) hR0 hrot
  have hj1 : (SO3.ops eps deps epi).dlog 1 = 1 := by
    simp only [SO3.ops, SO3.jlog, hl1, SO3.logA, ht1, if_pos hd]
    ext i j
    simp only [SO3.jlogOf, Matrix.add_apply]
    fin_cases i <;> fin_cases j <;> simp [outer3, SO3.hat]
  rw [hj1, Matrix.one_mulVec] at hw
  have hθc : ContinuousAt (fun t => SO3.theta (x t).R) 0 := by
    have : (fun t => SO3.theta (x t).R) = fun t => Real.sqrt (SO3.theta (x t).R ^ 2) := by
      funext t; exact (Real.sqrt_sq (SO3.Valid.theta_nonneg (hv t))).symm
    rw [this]
    exact Real.continuous_sqrt.continuousAt.comp hθ.continuousAt
  have hev : ∀ᶠ t in nhds 0, SO3.theta (x t).R < eps :=
    hθc.eventually_lt continuousAt_const (by rw [hR0, ht1]; exact he)
  have ha : HasDerivAt (fun t => SO3.logA eps (x t).R) 0 0 := by
    refine (((hθ.div_const 12).const_sub 1).congr_of_eventuallyEq
      (hev.mono fun t h => ?_)).congr_deriv (by simp)
    simp only [SO3.logA, if_pos h]
  have hb : HasDerivAt (fun t => SO3.logB eps (x t).R) 0 0 := by
    refine (((hθ.div_const 720).const_add (1 / 12)).congr_of_eventuallyEq
      (hev.mono fun t h => ?_)).congr_deriv (by simp)
    simp only [SO3.logB, if_pos h]
  have hlin := expT_deriv ha (hasDerivAt_const (0 : ℝ) (-(1 / 2 : ℝ))) hb hdt hw
  have hres : (ops eps deps epi).dlog ⟨1, t⟩ *ᵥ ξ
      = join (lin ξ + (1 / 2 : ℝ) • cross3 t (ang ξ)) (ang ξ) := by
    change jlog eps deps epi ⟨1, t⟩ *ᵥ ξ = _
    rw [jlog_trans he hd hpi, block_mulVec, Matrix.one_mulVec, Matrix.one_mulVec,
      Matrix.zero_mulVec, zero_add, SO3.hat_smul, Matrix.smul_mulVec, SO3.hat_mulVec]
  rw [hres]
  have hlin' : VecDeriv (fun t => lin (log eps epi (x t))) (lin ξ + (1 / 2 : ℝ) • cross3 t (ang ξ)) := by
    simp only [log, lin_join, logT_eq]
    intro i
    refine (hlin i).congr_deriv ?_
    simp only [hx, SO3.ops, hl1, SO3.logA, SO3.logB, ht1, if_pos he, Matrix.one_mulVec]
    revert i
    rw [← funext_iff]
    refine ext3 ?_ ?_ ?_ <;>
      simp [expT_x, expT_y, expT_z, cross_x, cross_y, cross_z, dot3] <;> ring
  intro i
  fin_cases i
  · exact hlin' 0
  · exact hlin' 1
  · exact hlin' 2
  · exact hw 0
  · exact hw 1
  · exact hw 2

theorem adjoint_dlog_comm_trans {eps deps epi : ℝ} (he : 0 < eps) (hd : 0 < deps) (hpi : epi < 2)
    (t : V3) :
    adjoint (inverse ⟨1, t⟩) * jlog eps deps epi ⟨1, t⟩
      = jlog eps deps epi ⟨1, t⟩ * adjoint (inverse ⟨1, t⟩) := by
  rw [jlog_trans he hd hpi]
  refine Matrix.ext_of_mulVec_single fun i => ?_
  rw [← Matrix.mulVec_mulVec, ← Matrix.mulVec_mulVec]
  generalize (Pi.single i 1 : Fin 6 → ℝ) = y
  simp only [adjoint, inverse, block_mulVec, lin_join, ang_join, Matrix.transpose_one,
    Matrix.one_mulVec, Matrix.zero_mulVec, Matrix.mul_one, zero_add, Matrix.neg_mulVec]
  congr 1
  abel

end SE3
end Verif.Geometry
