import Verif.Geometry.PlanarLemmas
import Mathlib.Analysis.Complex.Trigonometric

namespace Verif.Geometry
open Matrix

namespace SE2

theorem rot_valid {a : SE2} (ha : a.Valid) : a.rot.Valid := ha

theorem s_ne_zero {a : SE2} (ha : a.Valid) (h0 : a.rot.log ≠ 0) (hpi : a.rot.log ≠ Real.pi) :
    a.s ≠ 0 := by
  intro h
  have hs : Real.sin a.rot.log = 0 := by rw [SO2.sin_log (rot_valid ha)]; exact h
  obtain ⟨h1, h2⟩ := SO2.log_mem a.rot
  rcases lt_trichotomy a.rot.log 0 with hlt | heq | hgt
  · exact absurd hs (Real.sin_neg_of_neg_of_neg_pi_lt hlt h1).ne
  · exact h0 heq
  · exact absurd hs (Real.sin_pos_of_pos_of_lt_pi hgt (lt_of_le_of_ne h2 hpi)).ne'

theorem c_s_of_log_zero {a : SE2} (ha : a.Valid) (h0 : a.rot.log = 0) : a.c = 1 ∧ a.s = 0 := by
  have h1 := SO2.cos_log (rot_valid ha)
  have h2 := SO2.sin_log (rot_valid ha)
  rw [h0] at h1 h2
  simp [rot] at h1 h2
  exact ⟨h1.symm, h2.symm⟩

theorem one_sub_c_ne {a : SE2} (ha : a.Valid) (hs : a.s ≠ 0) : 1 - a.c ≠ 0 := by
  intro h
  apply hs
  have : a.c = 1 := by linarith
  unfold Valid at ha
  rw [this] at ha
  have : a.s ^ 2 = 0 := by linarith
  exact pow_eq_zero_iff (two_ne_zero) |>.mp this

/-- The four data components of a curve in `SE2` and their derivatives. -/
theorem tangent_components {x : ℝ → SE2} {ξ : Fin 3 → ℝ} (h : emb.Tangent x ξ) :
    HasDerivAt (fun t => (x t).c) (-((x 0).s * ξ 2)) 0 ∧
    HasDerivAt (fun t => (x t).s) ((x 0).c * ξ 2) 0 ∧
    HasDerivAt (fun t => (x t).x) ((x 0).c * ξ 0 - (x 0).s * ξ 1) 0 ∧
    HasDerivAt (fun t => (x t).y) ((x 0).s * ξ 0 + (x 0).c * ξ 1) 0 := by
  obtain ⟨_, hd⟩ := h
  refine ⟨?_, ?_, ?_, ?_⟩
  · refine ((hd 0 0).congr_deriv ?_)
    simp [emb, toMatrix, hat, Matrix.mul_apply, Fin.sum_univ_three]
  · refine ((hd 1 0).congr_deriv ?_)
    simp [emb, toMatrix, hat, Matrix.mul_apply, Fin.sum_univ_three]
  · refine ((hd 0 2).congr_deriv ?_)
    simp [emb, toMatrix, hat, Matrix.mul_apply, Fin.sum_univ_three]; ring
  · refine ((hd 1 2).congr_deriv ?_)
    simp [emb, toMatrix, hat, Matrix.mul_apply, Fin.sum_univ_three]

theorem theta_deriv {x : ℝ → SE2} {ξ : Fin 3 → ℝ} (h : emb.Tangent x ξ)
    (hpi : (x 0).rot.log ≠ Real.pi) :
    HasDerivAt (fun t => (x t).rot.log) (ξ 2) 0 := by
  obtain ⟨hc, hs, _, _⟩ := tangent_components h
  have hv : (x 0).Valid := h.1 0
  refine (hasDerivAt_atan2 hc hs (SO2.slit_of_log (rot_valid hv) hpi)).congr_deriv ?_
  unfold Valid at hv
  rw [hv]
  linear_combination ξ 2 * hv

/-- Half-angle parametrisation of a unit pair with non-zero sine. -/
theorem half_angle {c s : ℝ} (h : c ^ 2 + s ^ 2 = 1) (hs : s ≠ 0) :
    ∃ q : ℝ, q ≠ 0 ∧ q ^ 2 + 1 ≠ 0 ∧ c = (q ^ 2 - 1) / (q ^ 2 + 1) ∧ s = 2 * q / (q ^ 2 + 1) := by
  have h1 : 1 + c ≠ 0 := by
    intro h0
    have : c = -1 := by linarith
    rw [this] at h
    apply hs
    have : s ^ 2 = 0 := by linarith
    exact pow_eq_zero_iff two_ne_zero |>.mp this
  have hq : ((1 + c) / s) ^ 2 + 1 ≠ 0 := by positivity
  have e : ((1 + c) / s) ^ 2 + 1 = 2 * (1 + c) / s ^ 2 := by
    field_simp; linear_combination h
  refine ⟨(1 + c) / s, div_ne_zero h1 hs, hq, ?_, ?_⟩
  · rw [e]; field_simp; linear_combination h
  · rw [e]; field_simp

/-- The Jacobian of the logarithm away from the approximations. -/
theorem log_jac_far {eps deps : ℝ} (h01 : eps < deps) (he : 0 ≤ eps) {g : SE2} (hg : g.Valid)
    (hbig : deps ≤ |g.rot.log|) (hpi : g.rot.log ≠ Real.pi) :
    emb.HasJac (log eps) g (dlog eps deps g) := by
  intro x ξ hx ht
  have hθ0 : g.rot.log ≠ 0 := by
    intro h; rw [h, abs_zero] at hbig; linarith
  have hs0 := s_ne_zero hg hθ0 hpi
  obtain ⟨hc, hs, hX, hY⟩ := tangent_components ht
  have hθ := theta_deriv ht (by rw [hx]; exact hpi)
  rw [hx] at hc hs hX hY
  have hs0' : (x 0).s ≠ 0 := by rw [hx]; exact hs0
  -- `h` near `t = 0`
  have hH : HasDerivAt (fun t => logH eps (x t))
      (1 / 2 * (-(g.s * ξ 2)) * (g.rot.log / g.s) +
        1 / 2 * (1 + g.c) * ((ξ 2 * g.s - g.rot.log * (g.c * ξ 2)) / g.s ^ 2)) 0 := by
    have h1 := (hc.const_add 1).const_mul (1 / 2)
    have h2 := h1.fun_mul (hθ.fun_div hs hs0')
    rw [hx] at h2
    refine h2.congr_of_eventuallyEq ?_
    have hcont : ContinuousAt (fun t => |(x t).rot.log|) 0 := hθ.continuousAt.abs
    have hev := continuousAt_const.eventually_lt hcont
      (show eps < |(x 0).rot.log| by rw [hx]; linarith)
    filter_upwards [hev] with t ht'
    have hn : ¬ |(x t).rot.log| < eps := by linarith
    simp [logH, logDenominator, hn]
  have hval : logH eps g = 1 / 2 * (1 + g.c) * (g.rot.log / g.s) := by
    have hn : ¬ |g.rot.log| < eps := by linarith
    simp only [logH, logDenominator, if_neg hn]
  have hnd : ¬ |g.rot.log| < deps := by linarith
  obtain ⟨q, hq0, hq1, hcq, hsq⟩ := half_angle hg hs0
  have e1 : (1 : ℝ) - (q ^ 2 - 1) / (q ^ 2 + 1) = 2 / (q ^ 2 + 1) := by field_simp; ring
  intro i
  fin_cases i
  · have h1 := (hH.fun_mul hX).add ((hθ.const_mul (1 / 2)).fun_mul hY)
    refine (h1.congr_deriv ?_)
    rw [hx, hval]
    simp only [dlog, log, hnd, if_false, hval]
    generalize g.rot.log = θ at *
    simp [Matrix.mulVec, dotProduct, Fin.sum_univ_three]
    rw [hcq, hsq, e1]
    field_simp
    ring
  · have h1 := (hH.fun_mul hY).sub ((hθ.const_mul (1 / 2)).fun_mul hX)
    refine (h1.congr_deriv ?_)
    rw [hx, hval]
    simp only [dlog, log, hnd, if_false, hval]
    generalize g.rot.log = θ at *
    simp [Matrix.mulVec, dotProduct, Fin.sum_univ_three]
    rw [hcq, hsq, e1]
    field_simp
    ring
  · simpa [dlog, log, Matrix.mulVec, dotProduct, Fin.sum_univ_three] using hθ

/-- The Jacobian of the logarithm at an element without rotation. -/
theorem log_jac_zero {eps deps : ℝ} (he : 0 < eps) (hd : 0 < deps) {g : SE2} (hg : g.Valid)
    (h0 : g.rot.log = 0) : emb.HasJac (log eps) g (dlog eps deps g) := by
  intro x ξ hx ht
  obtain ⟨hc, hs, hX, hY⟩ := tangent_components ht
  have hθ := theta_deriv ht (by rw [hx, h0]; exact Real.pi_pos.ne)
  rw [hx] at hc hs hX hY
  obtain ⟨hgc, hgs⟩ := c_s_of_log_zero hg h0
  have hH : HasDerivAt (fun t => logH eps (x t)) 0 0 := by
    have h1 := (hc.const_add 1).const_mul (1 / 2)
    have h2 := ((hs.fun_pow 2).div_const 6).const_add 1
    have h3 := h1.fun_mul h2
    rw [hx] at h3
    refine (h3.congr_deriv (by simp [hgs])).congr_of_eventuallyEq ?_
    have hcont : ContinuousAt (fun t => |(x t).rot.log|) 0 := hθ.continuousAt.abs
    have hev := hcont.eventually_lt continuousAt_const
      (show |(x 0).rot.log| < eps by rw [hx, h0]; simpa using he)
    filter_upwards [hev] with t ht'
    simp [logH, ht']
  have hval : logH eps g = 1 := by simp [logH, h0, he, hgc, hgs]; norm_num
  intro i
  fin_cases i
  · have h1 := (hH.fun_mul hX).add ((hθ.const_mul (1 / 2)).fun_mul hY)
    refine (h1.congr_deriv ?_)
    rw [hx, hval]
    simp [dlog, log, h0, hd, hval, hgc, hgs, Matrix.mulVec, dotProduct, Fin.sum_univ_three]
    ring
  · have h1 := (hH.fun_mul hY).sub ((hθ.const_mul (1 / 2)).fun_mul hX)
    refine (h1.congr_deriv ?_)
    rw [hx, hval]
    simp [dlog, log, h0, hd, hval, hgc, hgs, Matrix.mulVec, dotProduct, Fin.sum_univ_three]
    ring
  · simpa [dlog, log, Matrix.mulVec, dotProduct, Fin.sum_univ_three] using hθ

/-- The order of the factors in `LieGroup._local_impl` does not matter for `SE2`. -/
theorem adjoint_dlog_comm {eps deps : ℝ} (h01 : eps < deps) (he : 0 ≤ eps) {g : SE2} (hg : g.Valid)
    (h : (deps ≤ |g.rot.log| ∧ g.rot.log ≠ Real.pi) ∨ g.rot.log = 0) :
    adjoint (inverse g) * dlog eps deps g = dlog eps deps g * adjoint (inverse g) := by
  rcases h with ⟨hbig, hpi⟩ | h0
  · have hθ0 : g.rot.log ≠ 0 := by
      intro h; rw [h, abs_zero] at hbig; linarith
    have hs0 := s_ne_zero hg hθ0 hpi
    have hval : logH eps g = 1 / 2 * (1 + g.c) * (g.rot.log / g.s) := by
      have hn : ¬ |g.rot.log| < eps := by linarith
      simp only [logH, logDenominator, if_neg hn]
    have hnd : ¬ |g.rot.log| < deps := by linarith
    obtain ⟨q, hq0, hq1, hcq, hsq⟩ := half_angle hg hs0
    have e1 : (1 : ℝ) - (q ^ 2 - 1) / (q ^ 2 + 1) = 2 / (q ^ 2 + 1) := by field_simp; ring
    ext i j
    simp only [dlog, log, hnd, if_false, hval]
    generalize g.rot.log = θ at *
    fin_cases i <;> fin_cases j <;>
      simp [adjoint, inverse, mk', SO2.inverse, rot, SO2.rotate, SO2.rotateFromCosSin,
        Matrix.mul_apply, Fin.sum_univ_three] <;>
      rw [hcq, hsq] <;> (try rw [e1]) <;> field_simp <;> ring
  · obtain ⟨hgc, hgs⟩ := c_s_of_log_zero hg h0
    have hd : 0 < deps := by linarith
    ext i j
    simp only [dlog, h0, abs_zero, hd, if_true]
    fin_cases i <;> fin_cases j <;>
      simp [adjoint, inverse, mk', SO2.inverse, rot, SO2.rotate, SO2.rotateFromCosSin,
        Matrix.mul_apply, Fin.sum_univ_three, hgc, hgs, add_comm]

end SE2
end Verif.Geometry
