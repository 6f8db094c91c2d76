import Verif.Geometry.SO3Exp

/-!
# The logarithm of `SO3`
-/

namespace Verif.Geometry
open Matrix

namespace SO3

/-- Every entry of a rotation matrix is its cofactor. -/
theorem Valid.cofactor {R : M3} (h : Valid R) : adjugate R = Rᵀ := by
  have h1 : adjugate R * R = 1 := by rw [adjugate_mul, h.2, one_smul]
  calc adjugate R = adjugate R * (R * Rᵀ) := by rw [h.mul_transpose, Matrix.mul_one]
    _ = Rᵀ := by rw [← Matrix.mul_assoc, h1, Matrix.one_mul]

/-- The polynomial identities satisfied by the nine entries of a rotation. -/
structure Eqs (R : M3) : Prop where
  c00 : R 0 0 = R 1 1 * R 2 2 - R 1 2 * R 2 1
  c11 : R 1 1 = R 0 0 * R 2 2 - R 0 2 * R 2 0
  c22 : R 2 2 = R 0 0 * R 1 1 - R 0 1 * R 1 0
  c01 : R 0 1 = -(R 1 0 * R 2 2 - R 1 2 * R 2 0)
  c10 : R 1 0 = -(R 0 1 * R 2 2 - R 0 2 * R 2 1)
  c02 : R 0 2 = R 1 0 * R 2 1 - R 1 1 * R 2 0
  c20 : R 2 0 = R 0 1 * R 1 2 - R 0 2 * R 1 1
  c12 : R 1 2 = -(R 0 0 * R 2 1 - R 0 1 * R 2 0)
  c21 : R 2 1 = -(R 0 0 * R 1 2 - R 0 2 * R 1 0)
  r00 : R 0 0 * R 0 0 + R 0 1 * R 0 1 + R 0 2 * R 0 2 = 1
  r11 : R 1 0 * R 1 0 + R 1 1 * R 1 1 + R 1 2 * R 1 2 = 1
  r22 : R 2 0 * R 2 0 + R 2 1 * R 2 1 + R 2 2 * R 2 2 = 1
  r01 : R 0 0 * R 1 0 + R 0 1 * R 1 1 + R 0 2 * R 1 2 = 0
  r02 : R 0 0 * R 2 0 + R 0 1 * R 2 1 + R 0 2 * R 2 2 = 0
  r12 : R 1 0 * R 2 0 + R 1 1 * R 2 1 + R 1 2 * R 2 2 = 0
  k00 : R 0 0 * R 0 0 + R 1 0 * R 1 0 + R 2 0 * R 2 0 = 1
  k11 : R 0 1 * R 0 1 + R 1 1 * R 1 1 + R 2 1 * R 2 1 = 1
  k22 : R 0 2 * R 0 2 + R 1 2 * R 1 2 + R 2 2 * R 2 2 = 1
  k01 : R 0 0 * R 0 1 + R 1 0 * R 1 1 + R 2 0 * R 2 1 = 0
  k02 : R 0 0 * R 0 2 + R 1 0 * R 1 2 + R 2 0 * R 2 2 = 0
  k12 : R 0 1 * R 0 2 + R 1 1 * R 1 2 + R 2 1 * R 2 2 = 0

theorem Valid.eqs {R : M3} (h : Valid R) : Eqs R := by
  have hc := h.cofactor
  have h1 := h.1
  have h2 := h.mul_transpose
  rw [Matrix.adjugate_fin_three] at hc
  have e : ∀ i j, _ := fun i j => congrFun (congrFun hc i) j
  have f : ∀ i j, _ := fun i j => congrFun (congrFun h1 i) j
  have g : ∀ i j, _ := fun i j => congrFun (congrFun h2 i) j
  have e00 := e 0 0; have e01 := e 0 1; have e02 := e 0 2
  have e10 := e 1 0; have e11 := e 1 1; have e12 := e 1 2
  have e20 := e 2 0; have e21 := e 2 1; have e22 := e 2 2
  have f00 := f 0 0; have f01 := f 0 1; have f02 := f 0 2
  have f11 := f 1 1; have f12 := f 1 2; have f22 := f 2 2
  have g00 := g 0 0; have g01 := g 0 1; have g02 := g 0 2
  have g11 := g 1 1; have g12 := g 1 2; have g22 := g 2 2
  simp [Matrix.mul_apply, Fin.sum_univ_three] at e00 e01 e02 e10 e11 e12 e20 e21 e22 f00 f01 f02 f11 f12 f22 g00 g01 g02 g11 g12 g22
  constructor <;> linarith

/-- `|n|² + c² = 1` for the sine axis `n` and the cosine `c` of a rotation. -/
theorem Valid.unit {R : M3} (h : Valid R) :
    cosine R ^ 2 + dot3 (sineAxis R) (sineAxis R) = 1 := by
  have e := h.eqs
  simp [cosine, sineAxis, dot3]
  linear_combination (1 / 4) * (e.r00 + e.r11 + e.r22) - (1 / 2) * (e.c00 + e.c11 + e.c22)

/-- `(1 + c)(sym R - c I) = n nᵀ`. -/
theorem Valid.outer {R : M3} (h : Valid R) :
    (1 + cosine R) • R = outer3 (sineAxis R) (sineAxis R)
      + ((1 + cosine R) * cosine R) • (1 : M3) + (1 + cosine R) • hat (sineAxis R) := by
  have e := h.eqs
  ext i j
  fin_cases i <;> fin_cases j <;> simp [cosine, sineAxis, outer3, hat]
  · linear_combination (1 / 4) * (e.k00 - e.r11 - e.r22) + (1 / 2) * e.c00
  · linear_combination (1 / 4) * (e.c10 + e.c01) + (1 / 4) * (e.k01 + e.r01)
  · linear_combination (1 / 4) * (e.c20 + e.c02) + (1 / 4) * (e.k02 + e.r02)
  · linear_combination (1 / 4) * (e.c10 + e.c01) + (1 / 4) * (e.k01 + e.r01)
  · linear_combination (1 / 4) * (e.k11 - e.r00 - e.r22) + (1 / 2) * e.c11
  · linear_combination (1 / 4) * (e.c12 + e.c21) + (1 / 4) * (e.k12 + e.r12)
  · linear_combination (1 / 4) * (e.c20 + e.c02) + (1 / 4) * (e.k02 + e.r02)
  · linear_combination (1 / 4) * (e.c12 + e.c21) + (1 / 4) * (e.k12 + e.r12)
  · linear_combination (1 / 4) * (e.k22 - e.r00 - e.r11) + (1 / 2) * e.c22

/-! ## The angle -/

theorem Valid.unit' {R : M3} (h : Valid R) : cosine R ^ 2 + sine R ^ 2 = 1 := by
  rw [sine, norm3_sq]; exact h.unit

/-- The angle and the pair (cosine, sine) as an `SO2` element. -/
theorem theta_eq (R : M3) : theta R = SO2.log ⟨cosine R, sine R⟩ := rfl

theorem Valid.cos_theta {R : M3} (h : Valid R) : Real.cos (theta R) = cosine R :=
  SO2.cos_log (a := ⟨cosine R, sine R⟩) h.unit'

theorem Valid.sin_theta {R : M3} (h : Valid R) : Real.sin (theta R) = sine R :=
  SO2.sin_log (a := ⟨cosine R, sine R⟩) h.unit'

theorem theta_le (R : M3) : theta R ≤ Real.pi := (SO2.log_mem ⟨cosine R, sine R⟩).2

theorem Valid.theta_nonneg {R : M3} (h : Valid R) : 0 ≤ theta R := by
  by_contra hn
  have h1 := Real.sin_neg_of_neg_of_neg_pi_lt (not_le.mp hn) (SO2.log_mem ⟨cosine R, sine R⟩).1
  rw [h.sin_theta] at h1
  exact absurd (norm3_nonneg _) (not_le.mpr h1)

theorem Valid.sine_pos {R : M3} (h : Valid R) (h0 : 0 < theta R) (h1 : 0 < 1 + cosine R) :
    0 < sine R := by
  rw [← h.sin_theta]
  refine Real.sin_pos_of_pos_of_lt_pi h0 (lt_of_le_of_ne (theta_le R) ?_)
  intro hp
  have := h.cos_theta
  rw [hp, Real.cos_pi] at this
  linarith

theorem norm3_smul (r : ℝ) (v : V3) : norm3 (r • v) = |r| * norm3 v := by
  have : dot3 (r • v) (r • v) = r ^ 2 * dot3 v v := by simp [dot3]; ring
  rw [norm3, this, Real.sqrt_mul (sq_nonneg r), Real.sqrt_sq_eq_abs, norm3]

/-! ## `log (exp v)` and `exp (log R)` -/

theorem sineAxis_rod (k c s : ℝ) (v : V3) : sineAxis (rod k c s v) = s • v := by
  ext i
  fin_cases i <;> simp [sineAxis, rod, outer3, hat] <;> ring

theorem cosine_rod (k c s : ℝ) (v : V3) :
    cosine (rod k c s v) = 1 / 2 * (k * dot3 v v + 3 * c - 1) := by
  simp [cosine, rod, outer3, hat, dot3]; ring

theorem cosine_exp {eps : ℝ} (he : 0 < eps) (v : V3) :
    cosine (exp eps v) = expC eps (norm3 v) := by
  have h := (exp_coeffs (θ := norm3 v) he).1
  rw [norm3_sq] at h
  rw [exp, cosine_rod]; linarith

/-- The angle of `exp v`, for `v` outside the small-angle branch. -/
theorem theta_exp {eps : ℝ} (he : 0 < eps) {v : V3} (h1 : eps ≤ norm3 v)
    (h2 : norm3 v ≤ Real.pi) : theta (exp eps v) = norm3 v ∧
      sine (exp eps v) = Real.sin (norm3 v) ∧ cosine (exp eps v) = Real.cos (norm3 v) := by
  have hn : ¬ norm3 v < eps := not_lt.mpr h1
  have hpos : 0 < norm3 v := lt_of_lt_of_le he h1
  have hs : sine (exp eps v) = Real.sin (norm3 v) := by
    rw [sine, exp, sineAxis_rod, norm3_smul, expS, if_neg hn, abs_of_nonneg]
    · field_simp
    · exact div_nonneg (Real.sin_nonneg_of_nonneg_of_le_pi hpos.le h2) hpos.le
  have hc : cosine (exp eps v) = Real.cos (norm3 v) := by
    rw [cosine_exp he, expC, if_neg hn]
  refine ⟨?_, hs, hc⟩
  rw [theta, hs, hc]
  exact SO2.arg_cos_sin (by linarith [Real.pi_pos]) h2

theorem log_exp_far {eps epi : ℝ} (he : 0 < eps) {v : V3} (h1 : eps ≤ norm3 v)
    (h2 : norm3 v < Real.pi) (hp : epi < 1 + Real.cos (norm3 v)) :
    log eps epi (exp eps v) = v := by
  obtain ⟨ht, hs, hc⟩ := theta_exp he h1 h2.le
  have hn : ¬ norm3 v < eps := not_lt.mpr h1
  have hpos : 0 < norm3 v := lt_of_lt_of_le he h1
  have hsp := Real.sin_pos_of_pos_of_lt_pi hpos h2
  rw [log, hc, if_neg (not_le.mpr hp), logScale, ht, hs, hc,
    if_neg (by rintro (h | h) <;> linarith), exp, sineAxis_rod, expS, if_neg hn, smul_smul]
  have : norm3 v / Real.sin (norm3 v) * (Real.sin (norm3 v) / norm3 v) = 1 := by field_simp
  rw [this, one_smul]

/-- The norm of the logarithm is the angle. -/
theorem norm_log_far {eps epi : ℝ} (he : 0 < eps) (hpi : 0 ≤ epi) {R : M3} (h : Valid R)
    (h1 : eps ≤ theta R) (hp : epi < 1 + cosine R) : norm3 (log eps epi R) = theta R := by
  have hpos : 0 < theta R := lt_of_lt_of_le he h1
  have hsp := h.sine_pos hpos (by linarith)
  rw [log, if_neg (not_le.mpr hp), logScale, if_neg (by rintro (h | h) <;> linarith), norm3_smul,
    abs_of_pos (by positivity)]
  change _ * sine R = _
  field_simp

theorem exp_log_far {eps epi : ℝ} (he : 0 < eps) (hpi : 0 ≤ epi) {R : M3} (h : Valid R)
    (h1 : eps ≤ theta R) (hp : epi < 1 + cosine R) : exp eps (log eps epi R) = R := by
  have hpos : 0 < theta R := lt_of_lt_of_le he h1
  have hsp := h.sine_pos hpos (by linarith)
  have hn : ¬ theta R < eps := not_lt.mpr h1
  have hlog : log eps epi R = (theta R / sine R) • sineAxis R := by
    rw [log, if_neg (not_le.mpr hp), logScale, if_neg (by rintro (h | h) <;> linarith)]
  have hO := h.outer
  have hU := h.unit'
  have h1c : 1 + cosine R ≠ 0 := by linarith
  have hR : R = (1 / (1 + cosine R)) • outer3 (sineAxis R) (sineAxis R) + cosine R • (1 : M3)
      + hat (sineAxis R) := by
    have := congrArg (fun M => (1 / (1 + cosine R)) • M) hO
    simp only [smul_add, smul_smul] at this
    rw [one_div_mul_cancel h1c, one_smul, one_smul, ← mul_assoc, one_div_mul_cancel h1c,
      one_mul] at this
    exact this
  simp only [exp, norm_log_far he hpi h h1 hp, expK, expS, expC, if_neg hn, h.cos_theta,
    h.sin_theta]
  rw [hlog]
  conv_rhs => rw [hR]
  have e1 : (sine R / theta R) • (theta R / sine R) • sineAxis R = sineAxis R := by
    rw [smul_smul]
    have : sine R / theta R * (theta R / sine R) = 1 := by field_simp
    rw [this, one_smul]
  rw [rod, e1]
  congr 2
  ext i j
  simp only [outer3, Matrix.smul_apply, Matrix.of_apply, Pi.smul_apply, smul_eq_mul]
  have : (1 - cosine R) * (1 + cosine R) = sine R ^ 2 := by linear_combination -hU
  field_simp
  linear_combination (sineAxis R i * sineAxis R j) * this

end SO3
end Verif.Geometry
