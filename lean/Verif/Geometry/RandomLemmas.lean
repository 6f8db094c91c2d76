import Verif.Geometry.Random
import Verif.Geometry.SO3Pi

/-!
# Lemmas about random group elements
-/

namespace Verif.Geometry.Random
open Matrix

/-- Every point of the circle is drawn by an angle `2 π t` with `t` in `[0, 1)`. -/
theorem exists_turn {c s : ℝ} (h : c ^ 2 + s ^ 2 = 1) :
    ∃ t : ℝ, 0 ≤ t ∧ t < 1 ∧ Real.cos (2 * Real.pi * t) = c ∧ Real.sin (2 * Real.pi * t) = s := by
  have hpi := Real.pi_pos
  set z : ℂ := ⟨c, s⟩ with hz
  have hn : ‖z‖ = 1 := by
    rw [Complex.norm_def, Complex.normSq_apply]
    simp only [hz]
    rw [show c * c + s * s = 1 by linarith, Real.sqrt_one]
  have hz0 : z ≠ 0 := by
    intro h0; rw [h0] at hn; simp at hn
  have hc : Real.cos z.arg = c := by rw [Complex.cos_arg hz0, hn, div_one]
  have hs : Real.sin z.arg = s := by rw [Complex.sin_arg, hn, div_one]
  have hlo := Complex.neg_pi_lt_arg z
  have hhi := Complex.arg_le_pi z
  by_cases h0 : 0 ≤ z.arg
  · refine ⟨z.arg / (2 * Real.pi), by positivity, ?_, ?_, ?_⟩
    · rw [div_lt_one (by positivity)]; linarith
    · rw [mul_div_cancel₀ _ (by positivity), hc]
    · rw [mul_div_cancel₀ _ (by positivity), hs]
  · push Not at h0
    refine ⟨(z.arg + 2 * Real.pi) / (2 * Real.pi), ?_, ?_, ?_, ?_⟩
    · apply div_nonneg <;> linarith
    · rw [div_lt_one (by positivity)]; linarith
    · rw [mul_div_cancel₀ _ (by positivity), Real.cos_add_two_pi, hc]
    · rw [mul_div_cancel₀ _ (by positivity), Real.sin_add_two_pi, hs]

/-- The quaternion drawn is a unit quaternion. -/
theorem so3Quat_unit {u1 : ℝ} (u2 u3 : ℝ) (h0 : 0 ≤ u1) (h1 : u1 < 1) :
    so3Quat u1 u2 u3 0 ^ 2 + so3Quat u1 u2 u3 1 ^ 2 + so3Quat u1 u2 u3 2 ^ 2 + so3Quat u1 u2 u3 3 ^ 2 = 1 := by
  have ha := Real.sq_sqrt (show (0 : ℝ) ≤ 1 - u1 by linarith)
  have hb := Real.sq_sqrt h0
  have e2 := Real.sin_sq_add_cos_sq (u2 * 2 * Real.pi)
  have e3 := Real.sin_sq_add_cos_sq (u3 * 2 * Real.pi)
  simp only [so3Quat, Matrix.cons_val_zero, Matrix.cons_val_one, Matrix.cons_val]
  simp only [mul_pow, ha, hb]
  linear_combination (1 - u1) * e2 + u1 * e3

theorem so3Quat_norm {u1 : ℝ} (u2 u3 : ℝ) (h0 : 0 ≤ u1) (h1 : u1 < 1) :
    SO3.quatNorm (so3Quat u1 u2 u3) = 1 := by
  rw [SO3.quatNorm, so3Quat_unit u2 u3 h0 h1, Real.sqrt_one]

/-- The squares of the first two components add up to `1 - u1`, which is not 0. -/
theorem so3Quat_first {u1 : ℝ} (u2 u3 : ℝ) (h1 : u1 < 1) :
    so3Quat u1 u2 u3 0 ^ 2 + so3Quat u1 u2 u3 1 ^ 2 = 1 - u1 := by
  have ha := Real.sq_sqrt (show (0 : ℝ) ≤ 1 - u1 by linarith)
  have e2 := Real.sin_sq_add_cos_sq (u2 * 2 * Real.pi)
  simp only [so3Quat, Matrix.cons_val_zero, Matrix.cons_val_one]
  simp only [mul_pow, ha]
  linear_combination (1 - u1) * e2

/-- Every unit quaternion whose first two components are not both 0 is drawn. -/
theorem exists_so3Quat {q : Fin 4 → ℝ} (hq : q 0 ^ 2 + q 1 ^ 2 + q 2 ^ 2 + q 3 ^ 2 = 1)
    (hne : q 0 ^ 2 + q 1 ^ 2 ≠ 0) :
    ∃ u1 u2 u3 : ℝ, (0 ≤ u1 ∧ u1 < 1) ∧ (0 ≤ u2 ∧ u2 < 1) ∧ (0 ≤ u3 ∧ u3 < 1) ∧ so3Quat u1 u2 u3 = q := by
  have hpos : 0 < q 0 ^ 2 + q 1 ^ 2 := lt_of_le_of_ne (by positivity) (Ne.symm hne)
  set b2 := q 2 ^ 2 + q 3 ^ 2 with hb2
  have hb0 : 0 ≤ b2 := by positivity
  have ha2 : 1 - b2 = q 0 ^ 2 + q 1 ^ 2 := by rw [hb2]; linarith
  have hapos : 0 < 1 - b2 := by rw [ha2]; exact hpos
  set a := Real.sqrt (1 - b2) with ha
  have hasq : a ^ 2 = 1 - b2 := Real.sq_sqrt hapos.le
  have ha0 : 0 < a := Real.sqrt_pos.mpr hapos
  obtain ⟨t2, h20, h21, c2, s2⟩ := exists_turn (c := q 1 / a) (s := q 0 / a) (by
    rw [div_pow, div_pow, ← add_div, hasq, ha2, add_comm, div_self hne])
  have key : ∃ t3 : ℝ, 0 ≤ t3 ∧ t3 < 1 ∧ Real.sqrt b2 * Real.cos (2 * Real.pi * t3) = q 3 ∧
      Real.sqrt b2 * Real.sin (2 * Real.pi * t3) = q 2 := by
    by_cases hb : b2 = 0
    · refine ⟨0, le_rfl, one_pos, ?_, ?_⟩
      · have : q 3 ^ 2 = 0 := by
          have := sq_nonneg (q 2); have := sq_nonneg (q 3); rw [hb2] at hb; linarith
        rw [hb, Real.sqrt_zero, zero_mul, pow_eq_zero_iff two_ne_zero |>.mp this]
      · have : q 2 ^ 2 = 0 := by
          have := sq_nonneg (q 2); have := sq_nonneg (q 3); rw [hb2] at hb; linarith
        rw [hb, Real.sqrt_zero, zero_mul, pow_eq_zero_iff two_ne_zero |>.mp this]
    · have hbpos : 0 < b2 := lt_of_le_of_ne hb0 (Ne.symm hb)
      have hr : 0 < Real.sqrt b2 := Real.sqrt_pos.mpr hbpos
      have hrsq : Real.sqrt b2 ^ 2 = b2 := Real.sq_sqrt hb0
      obtain ⟨t3, h30, h31, c3, s3⟩ := exists_turn (c := q 3 / Real.sqrt b2) (s := q 2 / Real.sqrt b2) (by
        rw [div_pow, div_pow, ← add_div, hrsq, add_comm, ← hb2, div_self hb])
      refine ⟨t3, h30, h31, ?_, ?_⟩
      · rw [c3, mul_div_cancel₀ _ hr.ne']
      · rw [s3, mul_div_cancel₀ _ hr.ne']
  obtain ⟨t3, h30, h31, c3, s3⟩ := key
  refine ⟨b2, t2, t3, ⟨hb0, by linarith⟩, ⟨h20, h21⟩, ⟨h30, h31⟩, ?_⟩
  have e2 : t2 * 2 * Real.pi = 2 * Real.pi * t2 := by ring
  have e3 : t3 * 2 * Real.pi = 2 * Real.pi * t3 := by ring
  ext i
  fin_cases i
  · show Real.sqrt (1 - b2) * Real.sin (t2 * 2 * Real.pi) = q 0
    rw [e2, s2, ← ha, mul_div_cancel₀ _ ha0.ne']
  · show Real.sqrt (1 - b2) * Real.cos (t2 * 2 * Real.pi) = q 1
    rw [e2, c2, ← ha, mul_div_cancel₀ _ ha0.ne']
  · show Real.sqrt b2 * Real.sin (t3 * 2 * Real.pi) = q 2
    rw [e3, s3]
  · show Real.sqrt b2 * Real.cos (t3 * 2 * Real.pi) = q 3
    rw [e3, c3]

/-- The first diagonal entry of the rotation of a unit quaternion. -/
theorem ofQuaternion_first {q : Fin 4 → ℝ} (hq : q 0 ^ 2 + q 1 ^ 2 + q 2 ^ 2 + q 3 ^ 2 = 1) :
    SO3.ofQuaternion q 0 0 = 2 * (q 0 ^ 2 + q 1 ^ 2) - 1 := by
  rw [SO3.ofQuaternion_of_unit hq]
  simp only [SO3.quatMatrix, Matrix.of_apply, Matrix.cons_val_zero]
  linear_combination -hq

/-- Every rotation comes from a unit quaternion. -/
theorem exists_quaternion {R : M3} (h : SO3.Valid R) :
    ∃ q : Fin 4 → ℝ, q 0 ^ 2 + q 1 ^ 2 + q 2 ^ 2 + q 3 ^ 2 = 1 ∧ SO3.ofQuaternion q = R := by
  by_cases hw : 0 < SO3.quatW R
  · exact ⟨_, SO3.toQuaternion_far (epz := 0) (esq := 0) le_rfl h hw⟩
  · have hw0 : SO3.quatW R = 0 := le_antisymm (not_lt.mp hw) (SO3.quatW_nonneg R)
    have hc : 1 + SO3.cosine R = 0 := by
      have := h.quatW_sq
      rw [hw0] at this; linarith
    have hc' : SO3.cosine R = -1 := by linarith
    have hax := h.axis_zero hc
    have n0 : R 2 1 = R 1 2 := by
      have := congrFun hax 0; simp [SO3.sineAxis] at this; linarith
    have n1 : R 0 2 = R 2 0 := by
      have := congrFun hax 1; simp [SO3.sineAxis] at this; linarith
    have n2 : R 1 0 = R 0 1 := by
      have := congrFun hax 2; simp [SO3.sineAxis] at this; linarith
    have htr := SO3.sym_trace R
    rw [hc'] at htr
    -- a row of the symmetric part that does not vanish
    have hm : ∃ m : Fin 3, 0 < SO3.symPart R m m := by
      by_contra hno
      push Not at hno
      have := hno 0; have := hno 1; have := hno 2
      linarith
    obtain ⟨m, hm⟩ := hm
    set σ := SO3.symPart R m m with hσ
    have hr : Real.sqrt (2 * σ) ^ 2 = 2 * σ := Real.sq_sqrt (by linarith)
    have hr0 : Real.sqrt (2 * σ) ≠ 0 := (Real.sqrt_pos.mpr (by linarith)).ne'
    set a : V3 := fun i => SO3.symPart R m i / Real.sqrt (2 * σ) with ha
    have hprod : ∀ i j, 2 * (a i * a j) = SO3.symPart R i j := by
      intro i j
      have h1 := h.rank_one m i j
      simp only [ha]
      rw [div_mul_div_comm, h1, ← pow_two, hr, ← hσ]
      field_simp
    have hnorm : a 0 ^ 2 + a 1 ^ 2 + a 2 ^ 2 = 1 := by
      have h0 := hprod 0 0; have h1 := hprod 1 1; have h2 := hprod 2 2
      nlinarith
    refine ⟨![0, a 0, a 1, a 2], by simpa using hnorm, ?_⟩
    rw [SO3.ofQuaternion_of_unit (by simpa using hnorm)]
    simp only [Matrix.cons_val_zero, Matrix.cons_val_one, Matrix.cons_val]
    have hp : ∀ i j, 2 * (a i * a j) = 1 / 2 * (R i j + R j i) + (if j = i then 1 else 0) := by
      intro i j
      rw [hprod, SO3.symPart, hc']
      split <;> ring
    ext i j
    have p00 := hp 0 0; have p11 := hp 1 1; have p22 := hp 2 2
    have p01 := hp 0 1; have p02 := hp 0 2; have p12 := hp 1 2
    simp at p00 p11 p22 p01 p02 p12
    fin_cases i <;> fin_cases j <;> simp [SO3.quatMatrix] <;> linarith

/-- What the exponential of torchlie is for a vector along a unit vector, above the threshold. -/
theorem exp_eq_quat {eps θ : ℝ} {n : V3} (hn : dot3 n n = 1) (h0 : 0 < θ) (he : eps ≤ θ) :
    SO3.exp eps (θ • n) = SO3.quatMatrix (Real.cos (θ / 2)) (Real.sin (θ / 2) * n 0) (Real.sin (θ / 2) * n 1)
      (Real.sin (θ / 2) * n 2) := by
  have hnorm : norm3 (θ • n) = θ := by
    have : dot3 (θ • n) (θ • n) = θ ^ 2 := by
      have : dot3 (θ • n) (θ • n) = θ ^ 2 * dot3 n n := by simp [dot3]; ring
      rw [this, hn, mul_one]
    rw [norm3, this, Real.sqrt_sq h0.le]
  have hlt : ¬ θ < eps := not_lt.mpr he
  have hcos : Real.cos θ = Real.cos (θ / 2) ^ 2 - Real.sin (θ / 2) ^ 2 := by
    rw [← Real.cos_two_mul', show 2 * (θ / 2) = θ by ring]
  have hsin : Real.sin θ = 2 * Real.sin (θ / 2) * Real.cos (θ / 2) := by
    rw [← Real.sin_two_mul, show 2 * (θ / 2) = θ by ring]
  have hone := Real.sin_sq_add_cos_sq (θ / 2)
  simp only [SO3.exp, hnorm, SO3.expK, SO3.expC, SO3.expS, if_neg hlt]
  have hv : ∀ i, (Real.sin (θ / 2) • n) i = Real.sin (θ / 2) * n i := fun i => rfl
  rw [← hv 0, ← hv 1, ← hv 2, SO3.quatMatrix_rod]
  have hd : dot3 (Real.sin (θ / 2) • n) (Real.sin (θ / 2) • n) = Real.sin (θ / 2) ^ 2 := by
    have : dot3 (Real.sin (θ / 2) • n) (Real.sin (θ / 2) • n) = Real.sin (θ / 2) ^ 2 * dot3 n n := by
      simp [dot3]; ring
    rw [this, hn, mul_one]
  rw [hd]
  ext i j
  simp only [SO3.rod, Matrix.add_apply, Matrix.smul_apply, outer3, Matrix.of_apply, Pi.smul_apply, smul_eq_mul,
    SO3.hat_smul]
  rw [hcos, hsin]
  have e : 1 - (Real.cos (θ / 2) ^ 2 - Real.sin (θ / 2) ^ 2) = 2 * Real.sin (θ / 2) ^ 2 := by linarith
  rw [e]
  field_simp

/-- Every rotation is the exponential of a vector, whatever the threshold up to two turns. -/
theorem exists_exp {eps : ℝ} (he : eps ≤ 4 * Real.pi) {R : M3} (h : SO3.Valid R) :
    ∃ v : V3, SO3.exp eps v = R := by
  have hpi := Real.pi_pos
  obtain ⟨q, hq, rfl⟩ := exists_quaternion h
  -- the sine of half the angle and the axis
  set s := Real.sqrt (q 1 ^ 2 + q 2 ^ 2 + q 3 ^ 2) with hs
  have hs2 : s ^ 2 = q 1 ^ 2 + q 2 ^ 2 + q 3 ^ 2 := Real.sq_sqrt (by positivity)
  have haxis : ∃ n : V3, dot3 n n = 1 ∧ q 1 = s * n 0 ∧ q 2 = s * n 1 ∧ q 3 = s * n 2 := by
    by_cases h0 : s = 0
    · have hz : q 1 ^ 2 + q 2 ^ 2 + q 3 ^ 2 = 0 := by rw [← hs2, h0]; ring
      have h1 := sq_nonneg (q 1); have h2 := sq_nonneg (q 2); have h3 := sq_nonneg (q 3)
      refine ⟨![1, 0, 0], by simp [dot3], ?_, ?_, ?_⟩ <;> rw [h0, zero_mul] <;>
        refine pow_eq_zero_iff two_ne_zero |>.mp ?_ <;> linarith
    · refine ⟨![q 1 / s, q 2 / s, q 3 / s], ?_, ?_, ?_, ?_⟩
      · simp only [dot3, Matrix.cons_val_zero, Matrix.cons_val_one, Matrix.cons_val]
        field_simp
        linarith
      all_goals
        simp only [Matrix.cons_val_zero, Matrix.cons_val_one, Matrix.cons_val]
        field_simp
  obtain ⟨n, hn, h1, h2, h3⟩ := haxis
  obtain ⟨t, ht0, ht1, hct, hst⟩ := exists_turn (c := q 0) (s := s) (by rw [hs2]; linarith)
  -- half the angle is `2 π t`, or that plus half a turn with the opposite quaternion
  rw [SO3.ofQuaternion_of_unit hq, h1, h2, h3]
  refine ⟨(4 * Real.pi * t + 4 * Real.pi) • n, ?_⟩
  rw [exp_eq_quat hn (by positivity) (by nlinarith)]
  have e : (4 * Real.pi * t + 4 * Real.pi) / 2 = 2 * Real.pi * t + 2 * Real.pi := by ring
  rw [e, Real.cos_add_two_pi, Real.sin_add_two_pi, hct, hst]

end Verif.Geometry.Random
