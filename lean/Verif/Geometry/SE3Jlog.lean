import Verif.Geometry.SE3Log

/-!
# `SE3`: round trips and the Jacobian of the logarithm
-/

namespace Verif.Geometry
open Matrix

namespace SE3

theorem log_exp_of {eps epi : ℝ} (he : 0 < eps) {v : Fin 6 → ℝ} (h1 : eps ≤ norm3 (ang v))
    (h2 : norm3 (ang v) ≤ Real.pi)
    (hr : SO3.log eps epi (SO3.exp eps (ang v)) = ang v) : log eps epi (exp eps v) = v := by
  obtain ⟨ht, -, -⟩ := SO3.theta_exp he h1 h2
  have hC := logCoeffs (deps := eps) he (SO3.exp_valid he (ang v)) (by rw [ht]; exact h1)
    (by rw [ht]; exact h1)
  rw [ht, SO3.norm3_sq] at hC
  have hT : dot3 (ang v) (ang v) ≠ 0 := by
    rw [← SO3.norm3_sq]; exact pow_ne_zero 2 (by linarith)
  refine ext6 ?_ ?_
  · simp only [log, lin_join]
    change logT _ _ _ (SO3.log eps epi (SO3.exp eps (ang v))) = _
    rw [hr]
    exact (logT_expT hC hT (lin v)).1
  · simp only [log, ang_join]; exact hr

theorem exp_log_of {eps epi : ℝ} (he : 0 < eps) {g : SE3} (hg : Valid g)
    (h1 : eps ≤ SO3.theta g.R) (hn : norm3 (SO3.log eps epi g.R) = SO3.theta g.R)
    (hr : SO3.exp eps (SO3.log eps epi g.R) = g.R) : exp eps (log eps epi g) = g := by
  have hC := logCoeffs (deps := eps) he hg h1 h1
  rw [← hn, SO3.norm3_sq] at hC
  have hT : dot3 (SO3.log eps epi g.R) (SO3.log eps epi g.R) ≠ 0 := by
    rw [← SO3.norm3_sq, hn]; exact pow_ne_zero 2 (by linarith)
  ext1
  · simp only [exp, log, ang_join]; exact hr
  · simp only [exp, log, ang_join, lin_join]
    exact (logT_expT hC hT g.t).2

theorem expT_neg (s k q : ℝ) (x w : V3) : expT s k q (-x) w = -expT s k q x w := by
  ext i
  fin_cases i <;> simp [expT_x, expT_y, expT_z, dot3] <;> ring

theorem log_of_one {eps epi : ℝ} (hpi : epi < 2) :
    SO3.log eps epi 1 = 0 ∧ SO3.theta 1 = 0 ∧ SO3.cosine 1 = 1 ∧ SO3.sine 1 = 0 ∧
      SO3.sineAxis 1 = 0 := by
  have n1 : SO3.sineAxis (1 : M3) = 0 := by ext i; fin_cases i <;> simp [SO3.sineAxis]
  have c1 : SO3.cosine (1 : M3) = 1 := by simp [SO3.cosine]; norm_num
  have s1 : SO3.sine (1 : M3) = 0 := by rw [SO3.sine, n1]; exact SO3.norm3_eq_zero.mpr rfl
  have t1 : SO3.theta (1 : M3) = 0 := by
    rw [SO3.theta, s1, c1]; change Complex.arg ⟨1, 0⟩ = 0
    rw [Complex.arg_eq_zero_iff]; simp
  refine ⟨?_, t1, c1, s1, n1⟩
  rw [SO3.log, if_neg (by rw [c1]; linarith), n1, smul_zero]

theorem log_one_rot {eps epi : ℝ} (he : 0 < eps) (hpi : epi < 2) (t : V3) :
    log eps epi ⟨1, t⟩ = join t 0 := by
  obtain ⟨l1, t1, -, -, -⟩ := log_of_one (eps := eps) hpi
  simp only [log, l1, SO3.logA, SO3.logB, t1, if_pos he]
  congr 1
  rw [logT_eq]
  ext i; fin_cases i <;> simp [expT_x, expT_y, expT_z, dot3]

theorem exp_pure {eps : ℝ} (he : 0 < eps) (u : V3) : exp eps (join u 0) = ⟨1, u⟩ := by
  have hn0 : norm3 (0 : V3) = 0 := SO3.norm3_eq_zero.mpr rfl
  simp only [exp, ang_join, lin_join, SO3.exp_zero he, hn0, SO3.expS, SO3.expC, if_pos he]
  congr 1
  ext i
  fin_cases i <;> simp [expT_x, expT_y, expT_z, dot3] <;> ring

/-- The two Jacobians are inverse of each other at corresponding points. -/
theorem jlog_jexp {eps deps epi : ℝ} (he : 0 < eps) {g : SE3} (hg : Valid g)
    (h1 : eps ≤ SO3.theta g.R) (hd1 : deps ≤ SO3.theta g.R)
    (hn : norm3 (SO3.log eps epi g.R) = SO3.theta g.R) (y : Fin 6 → ℝ) :
    jlog eps deps epi g *ᵥ (jexp eps (log eps epi g) *ᵥ y) = y := by
  have hC := logCoeffs (deps := deps) he hg h1 hd1
  obtain ⟨hl, ha⟩ := jexp_mulVec eps (log eps epi g) y
  have hang : ang (log eps epi g) = SO3.log eps epi g.R := by simp only [log, ang_join]
  rw [← hn, SO3.norm3_sq] at hC
  have hT : dot3 (SO3.log eps epi g.R) (SO3.log eps epi g.R) ≠ 0 := by
    rw [← SO3.norm3_sq, hn]; exact pow_ne_zero 2 (by linarith)
  have hnear : ¬ norm3 (SO3.log eps epi g.R) < eps := by rw [hn]; exact not_lt.mpr h1
  rw [hang, if_neg hnear] at hl
  rw [hang] at ha
  have hJ : SO3.jexp eps (SO3.log eps epi g.R) = SO3.jexpOf
      (SO3.expS eps (norm3 (SO3.log eps epi g.R))) (SO3.expK eps (norm3 (SO3.log eps epi g.R)))
      (expQt eps (norm3 (SO3.log eps epi g.R))) (SO3.log eps epi g.R) := by
    simp only [SO3.jexp, SO3.expQ, expQt, if_neg hnear]
  rw [hJ] at ha
  obtain ⟨hc1, hc2⟩ := SO3.exp_coeffs (θ := norm3 (SO3.log eps epi g.R)) he
  rw [SO3.norm3_sq] at hc1
  set w := SO3.log eps epi g.R with hw
  set S := SO3.expS eps (norm3 w)
  set K := SO3.expK eps (norm3 w)
  set Q := expQt eps (norm3 w)
  set u := lin (log eps epi g)
  have hrod : ∀ x, SO3.exp eps w *ᵥ (SO3.jexpOf S K Q w *ᵥ x) = expT S K Q x w :=
    fun x => rod_jexp hc1 hc2 hC.sq x
  have hback : ∀ z, SO3.jlogOf (SO3.logA deps g.R) (SO3.logB deps g.R) w *ᵥ
      ((SO3.exp eps w)ᵀ *ᵥ z) = logT (SO3.logA deps g.R) (SO3.logB deps g.R) z w := by
    intro z
    have h3 := hrod (logT (SO3.logA deps g.R) (SO3.logB deps g.R) z w)
    rw [(logT_expT hC hT z).2] at h3
    have h4 : (SO3.exp eps w)ᵀ *ᵥ z
        = SO3.jexpOf S K Q w *ᵥ logT (SO3.logA deps g.R) (SO3.logB deps g.R) z w := by
      conv_lhs => rw [← h3]
      rw [Matrix.mulVec_mulVec, (SO3.exp_valid he w).1, Matrix.one_mulVec]
    rw [h4, jlog_jexp_rot hC hT]
  have hcross : jlogT (SO3.logB deps g.R) (logC deps g.R) (logD deps g.R) u w *ᵥ
      (SO3.jexpOf S K Q w *ᵥ ang y)
      = -logT (SO3.logA deps g.R) (SO3.logB deps g.R)
          (jexpT K Q (dK eps (norm3 w)) (dQ eps (norm3 w)) u w *ᵥ ang y) w := by
    have h3 := jlog_jexp_cross hC u (ang y)
    rw [← jexpOf_mulVec] at h3
    have h4 := congrArg (fun z => logT (SO3.logA deps g.R) (SO3.logB deps g.R) z w) h3
    simp only [(logT_expT hC hT _).1] at h4
    rw [h4, logT_eq, logT_eq, expT_neg]
  refine ext6 ?_ ?_
  · simp only [jlog, hang]
    rw [block_mulVec, lin_join, ha, hl, Matrix.mulVec_add, jlog_jexp_rot hC hT,
      ← Matrix.mulVec_mulVec, hback, hcross]
    simp
  · simp only [jlog, hang]
    rw [block_mulVec, ang_join, Matrix.zero_mulVec, zero_add, ha, jlog_jexp_rot hC hT]

theorem log_jac_far {eps deps epi : ℝ} (he : 0 < eps) (hpi : 0 ≤ epi) {g : SE3} (hg : Valid g)
    (h1 : eps < SO3.theta g.R) (hd1 : deps ≤ SO3.theta g.R) (hp : epi < 1 + SO3.cosine g.R) :
    emb.HasJac (ops eps deps epi).log g ((ops eps deps epi).dlog g) := by
  intro x ξ hx ht
  have hrot := tangent_rot ht
  obtain ⟨hv, hdR, hdt⟩ := tangent_iff.mp ht
  have hpos : 0 < SO3.theta g.R := he.trans h1
  have hs := SO3.Valid.sine_pos hg hpos (by linarith)
  have hc1 : 1 + SO3.cosine g.R ≠ 0 := by linarith
  have hU := SO3.Valid.unit' hg
  have hc2 : 2 * SO3.cosine g.R - 2 ≠ 0 := by
    intro h0
    have : SO3.cosine g.R = 1 := by linarith
    rw [this] at hU
    have : SO3.sine g.R ^ 2 = 0 := by linarith
    exact hs.ne' (pow_eq_zero_iff two_ne_zero |>.mp this)
  have hc' := (SO3.axis_deriv hrot).2
  have hs' := SO3.sine_deriv hrot (by rw [hx]; exact hs.ne') (by rw [hx]; exact hc1)
  have hθ' := SO3.theta_deriv hrot (by rw [hx]; exact hs) (by rw [hx]; exact hc1)
  have e1 : ∀ᶠ t in nhds 0, eps < SO3.theta (x t).R :=
    continuousAt_const.eventually_lt hθ'.continuousAt (by rw [hx]; exact h1)
  have e2 : ∀ᶠ t in nhds 0, epi < 1 + SO3.cosine (x t).R :=
    continuousAt_const.eventually_lt (hc'.const_add 1).continuousAt (by rw [hx]; exact hp)
  have hw := SO3.log_jac_far (deps := deps) he hpi hg h1 hd1 hp (fun t => (x t).R) (ang ξ)
    (by rw [hx]) hrot
  obtain ⟨a', ha'⟩ : ∃ a', HasDerivAt (fun t => SO3.logA eps (x t).R) a' 0 := by
    have hd := (hs'.fun_mul hθ').fun_neg.fun_div ((hc'.const_mul 2).sub_const 2)
      (by rw [hx]; exact hc2)
    exact ⟨_, hd.congr_of_eventuallyEq (e1.mono fun t ht => by
      simp only [SO3.logA, if_neg (not_lt.mpr ht.le)])⟩
  obtain ⟨b', hb'⟩ : ∃ b', HasDerivAt (fun t => SO3.logB eps (x t).R) b' 0 := by
    have hden := ((hθ'.fun_pow 2).fun_mul ((hc'.const_mul 2).sub_const 2))
    have hd := ((hs'.fun_mul hθ').fun_add ((hc'.const_mul 2).sub_const 2)).fun_div hden
      (by rw [hx]; exact mul_ne_zero (pow_ne_zero 2 hpos.ne') hc2)
    exact ⟨_, hd.congr_of_eventuallyEq (e1.mono fun t ht => by
      simp only [SO3.logB, if_neg (not_lt.mpr ht.le)])⟩
  have hlin := expT_deriv ha' (hasDerivAt_const (0 : ℝ) (-(1 / 2 : ℝ))) hb' hdt hw
  obtain ⟨y', hy⟩ : ∃ y', VecDeriv (fun t => log eps epi (x t)) y' := by
    obtain ⟨l', hl⟩ : ∃ l', VecDeriv (fun t => lin (log eps epi (x t))) l' :=
      ⟨_, by simp only [log, lin_join, logT_eq]; exact hlin⟩
    obtain ⟨w', hw⟩ : ∃ w', VecDeriv (fun t => SO3.log eps epi (x t).R) w' := ⟨_, hw⟩
    refine ⟨join l' w', fun i => ?_⟩
    fin_cases i
    · exact hl 0
    · exact hl 1
    · exact hl 2
    · exact hw 0
    · exact hw 1
    · exact hw 2
  have hback : ∀ᶠ t in nhds 0, exp eps (log eps epi (x t)) = x t := by
    filter_upwards [e1, e2] with t a1 a2
    exact exp_log_of he (hv t) a1.le (SO3.norm_log_far he hpi (hv t) a1.le a2)
      (SO3.exp_log_far he hpi (hv t) a1.le a2)
  have hn := SO3.norm_log_far he hpi hg h1.le hp
  have hexp := exp_curve he hy (Or.inl (by
    simp only [hx, log, ang_join]; rw [hn]; exact h1))
  have hx0 : exp eps (log eps epi (x 0)) = x 0 := hback.self_of_nhds
  have hmat : toMatrix g * hat (jexp eps (log eps epi g) *ᵥ y') = toMatrix g * hat ξ := by
    ext i j
    have d1 := hexp.2 i j
    have d2 := ht.2 i j
    simp only [hx0] at d1
    rw [hx] at d1 d2
    refine d1.unique (d2.congr_of_eventuallyEq (hback.mono fun t e => ?_))
    simp only [e]
  have hL := lawful (eps := eps) he deps epi
  have hinv := hL.toMatrix_inverse g hg
  have h3 := congrArg (fun M => toMatrix (inverse g) * M) hmat
  simp only [← Matrix.mul_assoc] at h3
  change (emb.toMatrix ((ops eps deps epi).inverse g) * emb.toMatrix g) * _
    = (emb.toMatrix ((ops eps deps epi).inverse g) * emb.toMatrix g) * _ at h3
  rw [hinv, Matrix.one_mul, Matrix.one_mul] at h3
  have h4 := hat_inj h3
  have h5 : (ops eps deps epi).dlog g *ᵥ ξ = y' := by
    rw [← h4]; exact jlog_jexp he hg h1.le hd1 hn y'
  rw [h5]
  exact hy

end SE3
end Verif.Geometry
