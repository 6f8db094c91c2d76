import Verif.Geometry.SpatialProps

/-!
# Quaternions: `SO3.to_quaternion` and `SE3.to_x_y_z_quaternion` (C61)
-/

namespace Verif.Geometry
open Matrix

namespace SO3

/-- `x.clamp(lo, hi)`. -/
noncomputable def clamp (lo hi x : ℝ) : ℝ := min (max x lo) hi

/-- `w` of `SO3.to_quaternion` (theseus/geometry/so3.py L197). -/
noncomputable def quatW (R : M3) : ℝ :=
  1 / 2 * Real.sqrt (clamp 0 4 (1 + R 0 0 + R 1 1 + R 2 2))

/-- `axis` of `SO3.to_quaternion` (so3.py L208-227), with `near_zero` tested on `w` (L199). -/
noncomputable def quatAxis (epz : ℝ) (R : M3) : V3 :=
  logSign R • ((if quatW R > 1 - epz then 1 else norm3 (selRow R))⁻¹ • selRow R)

/-- The divisor used for `axis` (so3.py L219-226). -/
noncomputable def quatAxisDenominator (epz : ℝ) (R : M3) : ℝ :=
  if quatW R > 1 - epz then 1 else norm3 (selRow R)

/-- `SO3.to_quaternion` (theseus/geometry/so3.py L192-236).  `epz`, `epi` and `esq` are the
thresholds `near_zero`, `near_pi` and `to_quaternion_sqrt`. -/
noncomputable def toQuaternion (epz epi esq : ℝ) (R : M3) : Fin 4 → ℝ :=
  let w := quatW R
  let xyz : V3 :=
    if w ≤ epi then Real.sqrt (clamp esq 1 (1 / 2 * (1 - cosine R))) • quatAxis epz R
    else (1 / 2 * w⁻¹) • sineAxis R
  ![w, xyz 0, xyz 1, xyz 2]

/-- The matrix of a quaternion in the form used for the exponential. -/
theorem quatMatrix_rod (w : ℝ) (v : V3) :
    quatMatrix w (v 0) (v 1) (v 2) = rod 2 (w ^ 2 - dot3 v v) (2 * w) v := by
  ext i j
  fin_cases i <;> fin_cases j <;> simp [quatMatrix, rod, outer3, hat, dot3] <;> ring

theorem ofQuaternion_of_unit {q : Fin 4 → ℝ} (h : q 0 ^ 2 + q 1 ^ 2 + q 2 ^ 2 + q 3 ^ 2 = 1) :
    ofQuaternion q = quatMatrix (q 0) (q 1) (q 2) (q 3) := by
  have : quatNorm q = 1 := by rw [quatNorm, h, Real.sqrt_one]
  simp [ofQuaternion, this]

theorem Valid.cosine_mem {R : M3} (h : Valid R) : -1 ≤ cosine R ∧ cosine R ≤ 1 := by
  have := h.unit'
  constructor <;> nlinarith [sq_nonneg (sine R), sq_nonneg (cosine R + 1), sq_nonneg (cosine R - 1)]

theorem Valid.quatW_sq {R : M3} (h : Valid R) : quatW R ^ 2 = (1 + cosine R) / 2 := by
  obtain ⟨h1, h2⟩ := h.cosine_mem
  have e : 1 + R 0 0 + R 1 1 + R 2 2 = 2 * (1 + cosine R) := by unfold cosine; ring
  have hc : clamp 0 4 (1 + R 0 0 + R 1 1 + R 2 2) = 2 * (1 + cosine R) := by
    rw [e, clamp, max_eq_left (by linarith), min_eq_left (by linarith)]
  rw [quatW, mul_pow, hc, Real.sq_sqrt (by linarith)]
  ring

theorem quatW_nonneg (R : M3) : 0 ≤ quatW R := by
  unfold quatW; positivity

/-- Away from π. -/
theorem toQuaternion_far {epz epi esq : ℝ} (hpi : 0 ≤ epi) {R : M3} (h : Valid R)
    (hw : epi < quatW R) :
    (toQuaternion epz epi esq R 0 ^ 2 + toQuaternion epz epi esq R 1 ^ 2
      + toQuaternion epz epi esq R 2 ^ 2 + toQuaternion epz epi esq R 3 ^ 2 = 1) ∧
    ofQuaternion (toQuaternion epz epi esq R) = R := by
  have hw0 : 0 < quatW R := lt_of_le_of_lt hpi hw
  have hsq := h.quatW_sq
  have hc : 0 < 1 + cosine R := by
    have : 0 < quatW R ^ 2 := by positivity
    linarith
  have hU := h.unit
  have hq : toQuaternion epz epi esq R = ![quatW R, ((1 / 2 * (quatW R)⁻¹) • sineAxis R) 0,
      ((1 / 2 * (quatW R)⁻¹) • sineAxis R) 1, ((1 / 2 * (quatW R)⁻¹) • sineAxis R) 2] := by
    simp only [toQuaternion, if_neg (not_le.mpr hw)]
  have hd : dot3 ((1 / 2 * (quatW R)⁻¹) • sineAxis R) ((1 / 2 * (quatW R)⁻¹) • sineAxis R)
      = (1 - cosine R) / 2 := by
    have e : dot3 ((1 / 2 * (quatW R)⁻¹) • sineAxis R) ((1 / 2 * (quatW R)⁻¹) • sineAxis R)
        = 1 / 4 * (quatW R ^ 2)⁻¹ * dot3 (sineAxis R) (sineAxis R) := by
      simp only [dot3, Pi.smul_apply, smul_eq_mul]
      field_simp
      ring
    rw [e, hsq]
    have : dot3 (sineAxis R) (sineAxis R) = (1 - cosine R) * (1 + cosine R) := by
      linear_combination hU
    rw [this]; field_simp; norm_num
  have hunit : toQuaternion epz epi esq R 0 ^ 2 + toQuaternion epz epi esq R 1 ^ 2
      + toQuaternion epz epi esq R 2 ^ 2 + toQuaternion epz epi esq R 3 ^ 2 = 1 := by
    rw [hq]
    simp only [dot3] at hd
    simp only [Matrix.cons_val_zero, Matrix.cons_val_one, Matrix.cons_val]
    linear_combination hsq + hd
  refine ⟨hunit, ?_⟩
  rw [ofQuaternion_of_unit hunit, hq]
  simp only [Matrix.cons_val_zero, Matrix.cons_val_one, Matrix.cons_val]
  rw [quatMatrix_rod, hd, hsq]
  have hdec := h.decomp hc.ne'
  conv_rhs => rw [hdec]
  have hx : 2 * ((1 / 2 * (quatW R)⁻¹) ^ 2) = (1 + cosine R)⁻¹ := by
    have : (1 / 2 * (quatW R)⁻¹) ^ 2 = 1 / 4 * (quatW R ^ 2)⁻¹ := by ring
    rw [this, hsq]; field_simp; norm_num
  have hy : 2 * quatW R * (1 / 2 * (quatW R)⁻¹) = 1 := by field_simp
  have hcc : (1 + cosine R) / 2 - (1 - cosine R) / 2 = cosine R := by ring
  rw [hcc]
  generalize sineAxis R = n at *
  generalize 1 / 2 * (quatW R)⁻¹ = r at *
  ext i j
  simp only [rod, Matrix.add_apply, Matrix.smul_apply, outer3, Matrix.of_apply, Pi.smul_apply,
    smul_eq_mul, hat_smul]
  have e1 : 2 * (r * n i * (r * n j)) = (2 * r ^ 2) * (n i * n j) := by ring
  have e2 : 2 * quatW R * (r * hat n i j) = (2 * quatW R * r) * hat n i j := by ring
  rw [e1, e2, hx, hy, one_div]

/-- Near π. -/
theorem toQuaternion_pi {epz epi esq : ℝ} (hz : epi ≤ 1 - epz)
    (hs : esq + epi ^ 2 ≤ 1) {R : M3} (h : Valid R) (hw : quatW R ≤ epi)
    (hne : cosine R ≠ 1) (hrow : selRow R ≠ 0) :
    (toQuaternion epz epi esq R 0 ^ 2 + toQuaternion epz epi esq R 1 ^ 2
      + toQuaternion epz epi esq R 2 ^ 2 + toQuaternion epz epi esq R 3 ^ 2 = 1) ∧
    ofQuaternion (toQuaternion epz epi esq R) = R := by
  have hsq := h.quatW_sq
  have hw0 := quatW_nonneg R
  obtain ⟨hc1, hc2⟩ := h.cosine_mem
  have hclt : cosine R < 1 := lt_of_le_of_ne hc2 hne
  have hnz : ¬ quatW R > 1 - epz := by rw [not_lt]; linarith
  have hwsq : quatW R ^ 2 ≤ epi ^ 2 := pow_le_pow_left₀ hw0 hw 2
  have hclamp : clamp esq 1 (1 / 2 * (1 - cosine R)) = 1 / 2 * (1 - cosine R) := by
    rw [clamp, max_eq_left (by linarith), min_eq_left (by linarith)]
  -- the rotation angle is positive
  have hθ : 0 < theta R := by
    refine lt_of_le_of_ne h.theta_nonneg fun h0 => hne ?_
    rw [← h.cos_theta, ← h0, Real.cos_zero]
  obtain ⟨hn, he⟩ := exp_log_pi (eps := theta R) (epi := 1 + cosine R) hθ h (le_refl _)
    (le_refl _) hrow
  set a := quatAxis epz R with ha
  have hlog : log (theta R) (1 + cosine R) R = theta R • a := by
    rw [log, if_pos (le_refl _), ha, quatAxis, if_neg hnz, axisDenominator,
      if_neg (lt_irrefl _), smul_smul, smul_smul, smul_smul, mul_assoc]
  rw [hlog] at hn he
  have ha1 : dot3 a a = 1 := by
    rw [norm3_smul, abs_of_pos hθ] at hn
    have : norm3 a = 1 := by
      have := mul_left_cancel₀ hθ.ne' (hn.trans (mul_one _).symm); exact this
    rw [← norm3_sq, this]; norm_num
  have hR : rod (1 - cosine R) (cosine R) (sine R) a = R := by
    conv_rhs => rw [← he]
    rw [exp, hn]
    simp only [expK, expC, expS, if_neg (lt_irrefl _), h.cos_theta, h.sin_theta]
    generalize theta R = t at hθ
    ext i j
    simp only [rod, Matrix.add_apply, Matrix.smul_apply, outer3, Matrix.of_apply, Pi.smul_apply,
      smul_eq_mul, hat_smul]
    field_simp
  set r := Real.sqrt (1 / 2 * (1 - cosine R)) with hr
  have hr2 : r ^ 2 = (1 - cosine R) / 2 := by rw [hr, Real.sq_sqrt (by linarith)]; ring
  have hwr : 2 * quatW R * r = sine R := by
    have hp : 0 ≤ 2 * quatW R * r := by positivity
    have hs' : 0 ≤ sine R := norm3_nonneg _
    have : (2 * quatW R * r) ^ 2 = sine R ^ 2 := by
      have e : (2 * quatW R * r) ^ 2 = 4 * quatW R ^ 2 * r ^ 2 := by ring
      rw [e, hsq, hr2]
      linear_combination -h.unit'
    exact (pow_left_inj₀ hp hs' (by norm_num)).mp this
  have hq : toQuaternion epz epi esq R = ![quatW R, (r • a) 0, (r • a) 1, (r • a) 2] := by
    simp only [toQuaternion, if_pos hw, hclamp, ← hr, ← ha]
  have hd : dot3 (r • a) (r • a) = (1 - cosine R) / 2 := by
    have : dot3 (r • a) (r • a) = r ^ 2 * dot3 a a := by simp [dot3]; ring
    rw [this, ha1, mul_one, hr2]
  have hunit : toQuaternion epz epi esq R 0 ^ 2 + toQuaternion epz epi esq R 1 ^ 2
      + toQuaternion epz epi esq R 2 ^ 2 + toQuaternion epz epi esq R 3 ^ 2 = 1 := by
    rw [hq]
    simp only [dot3] at hd
    simp only [Matrix.cons_val_zero, Matrix.cons_val_one, Matrix.cons_val]
    linear_combination hsq + hd
  refine ⟨hunit, ?_⟩
  rw [ofQuaternion_of_unit hunit, hq]
  simp only [Matrix.cons_val_zero, Matrix.cons_val_one, Matrix.cons_val]
  rw [quatMatrix_rod, hd, hsq]
  conv_rhs => rw [← hR]
  ext i j
  have e0 : (1 + cosine R) / 2 - (1 - cosine R) / 2 = cosine R := by ring
  rw [e0]
  simp only [rod, Matrix.add_apply, Matrix.smul_apply, outer3, Matrix.of_apply, Pi.smul_apply,
    smul_eq_mul, hat_smul]
  linear_combination 2 * (a i * a j) * hr2 + hat a i j * hwr

end SO3

namespace SE3

/-- `SE3.to_x_y_z_quaternion` (theseus/geometry/se3.py L270-276). -/
noncomputable def toXyzQuaternion (epz epi esq : ℝ) (g : SE3) : Fin 7 → ℝ :=
  let q := SO3.toQuaternion epz epi esq g.R
  ![g.t 0, g.t 1, g.t 2, q 0, q 1, q 2, q 3]

/-- `SE3.x_y_z_unit_quaternion_to_SE3` (se3.py L127-144), without the shape check. -/
noncomputable def ofXyzQuaternion (x : Fin 7 → ℝ) : SE3 :=
  ⟨SO3.ofQuaternion ![x 3, x 4, x 5, x 6], ![x 0, x 1, x 2]⟩

end SE3

/-! ## The properties -/

/-- `to_quaternion` returns a unit quaternion with non-negative real part (the cosine of half the
rotation angle) that `unit_quaternion_to_SO3` turns back into the rotation.  Near π the code
divides by the norm of one row of a matrix, which must not vanish
(`so3_to_quaternion_divides_by_zero`).  The inequalities between thresholds hold for the library's
(float32: 1e-2, 1e-2, 1e-6; float64: 5e-3, 1e-7, 1e-6). -/
theorem so3_to_quaternion_partial {epz epi esq : ℝ} (hpi : 0 ≤ epi) (hz : epi ≤ 1 - epz)
    (h1 : epi < 1) (hs : esq + epi ^ 2 ≤ 1) {R : M3} (hR : Rᵀ * R = 1 ∧ R.det = 1)
    (hrow : Real.cos (SO3.theta R / 2) ≤ epi → ¬ SO3.TieAxis R) :
    let q := SO3.toQuaternion epz epi esq R
    q 0 ^ 2 + q 1 ^ 2 + q 2 ^ 2 + q 3 ^ 2 = 1 ∧ q 0 = Real.cos (SO3.theta R / 2) ∧ 0 ≤ q 0 ∧
    SO3.ofQuaternion q = R := by
  have hv : SO3.Valid R := hR
  have hw : SO3.quatW R = Real.cos (SO3.theta R / 2) := by
    have h0 : 0 ≤ Real.cos (SO3.theta R / 2) :=
      Real.cos_nonneg_of_mem_Icc ⟨by linarith [hv.theta_nonneg, Real.pi_pos],
        by linarith [SO3.theta_le R]⟩
    refine (pow_left_inj₀ (SO3.quatW_nonneg R) h0 (two_ne_zero)).mp ?_
    rw [hv.quatW_sq, Real.cos_sq, ← hv.cos_theta]
    rw [show 2 * (SO3.theta R / 2) = SO3.theta R by ring]; ring
  have hq0 : SO3.toQuaternion epz epi esq R 0 = SO3.quatW R := by simp [SO3.toQuaternion]
  rw [← hw] at hrow
  intro q
  have key : q 0 ^ 2 + q 1 ^ 2 + q 2 ^ 2 + q 3 ^ 2 = 1 ∧ SO3.ofQuaternion q = R := by
    by_cases hp : SO3.quatW R ≤ epi
    · have hne : SO3.cosine R ≠ 1 := by
        intro hc
        have h2 := hv.quatW_sq
        rw [hc] at h2
        have h3 : SO3.quatW R ^ 2 < 1 := by
          have := SO3.quatW_nonneg R
          nlinarith
        linarith
      exact SO3.toQuaternion_pi hz hs hv hp hne (SO3.selRow_ne_zero hv hne (hrow hp))
    · exact SO3.toQuaternion_far hpi hv (not_le.mp hp)
  exact ⟨key.1, hq0.trans hw, by rw [show q 0 = SO3.quatW R from hq0]; exact SO3.quatW_nonneg R,
    key.2⟩

/-- A unit quaternion gives a rotation about one of the two axes only if it has that axis. -/
theorem SO3.tie_quat {q : Fin 4 → ℝ} (hq : q 0 ^ 2 + q 1 ^ 2 + q 2 ^ 2 + q 3 ^ 2 = 1)
    (h : ¬ (q 1 = 0 ∧ (q 2 = q 3 ∨ q 2 = -q 3))) : ¬ SO3.TieAxis (SO3.ofQuaternion q) := by
  intro ht
  have hv : SO3.Valid (SO3.ofQuaternion q) := (so3_quaternion.1 q (by
    rintro rfl; simp at hq))
  obtain ⟨h1, h2⟩ := hv.tie_iff.mp ht
  rw [SO3.ofQuaternion_of_unit hq] at h1 h2
  simp [SO3.cosine, SO3.quatMatrix] at h1 h2
  refine h ⟨?_, sq_eq_sq_iff_eq_or_eq_neg.mp (by linarith)⟩
  have : q 1 ^ 2 = 0 := by linarith
  exact pow_eq_zero_iff two_ne_zero |>.mp this

/-- Conversely, `to_quaternion` gives back every unit quaternion with positive real part (each rotation
below half a turn has exactly one), except where the near-π branch divides by zero. -/
theorem so3_quaternion_roundtrip_partial {epz epi esq : ℝ} (hpi : 0 ≤ epi) (hz : epi ≤ 1 - epz)
    (h1 : epi < 1) (hs : esq + epi ^ 2 ≤ 1) {q : Fin 4 → ℝ}
    (hq : q 0 ^ 2 + q 1 ^ 2 + q 2 ^ 2 + q 3 ^ 2 = 1) (h0 : 0 < q 0)
    (hrow : q 0 ≤ epi → ¬ (q 1 = 0 ∧ (q 2 = q 3 ∨ q 2 = -q 3))) :
    SO3.toQuaternion epz epi esq (SO3.ofQuaternion q) = q := by
  have hv : SO3.Valid (SO3.ofQuaternion q) := (so3_quaternion.1 q (by
    rintro rfl; simp at hq))
  have hcos : ∀ p : Fin 4 → ℝ, p 0 ^ 2 + p 1 ^ 2 + p 2 ^ 2 + p 3 ^ 2 = 1 →
      SO3.cosine (SO3.ofQuaternion p) = 2 * p 0 ^ 2 - 1 := by
    intro p hp
    rw [SO3.ofQuaternion_of_unit hp]
    simp [SO3.cosine, SO3.quatMatrix]
    linear_combination -(1 / 2) * hp
  have haxis : ∀ p : Fin 4 → ℝ, p 0 ^ 2 + p 1 ^ 2 + p 2 ^ 2 + p 3 ^ 2 = 1 →
      SO3.sineAxis (SO3.ofQuaternion p) = ![2 * p 0 * p 1, 2 * p 0 * p 2, 2 * p 0 * p 3] := by
    intro p hp
    rw [SO3.ofQuaternion_of_unit hp]
    ext i
    fin_cases i <;> simp [SO3.sineAxis, SO3.quatMatrix] <;> ring
  have hhalf : Real.cos (SO3.theta (SO3.ofQuaternion q) / 2) = q 0 := by
    have h0' : 0 ≤ Real.cos (SO3.theta (SO3.ofQuaternion q) / 2) :=
      Real.cos_nonneg_of_mem_Icc ⟨by linarith [hv.theta_nonneg, Real.pi_pos],
        by linarith [SO3.theta_le (SO3.ofQuaternion q)]⟩
    refine (pow_left_inj₀ h0' h0.le two_ne_zero).mp ?_
    rw [Real.cos_sq, show 2 * (SO3.theta (SO3.ofQuaternion q) / 2) = SO3.theta (SO3.ofQuaternion q) by ring,
      hv.cos_theta, hcos q hq]
    ring
  obtain ⟨k1, k2, -, k4⟩ := so3_to_quaternion_partial (epz := epz) (esq := esq) hpi hz h1 hs hv
    (by rw [hhalf]; exact fun h => SO3.tie_quat hq (hrow h))
  set p := SO3.toQuaternion epz epi esq (SO3.ofQuaternion q) with hp
  have e0 : p 0 = q 0 := by rw [k2, hhalf]
  have hx := haxis p k1
  rw [k4, haxis q hq, e0] at hx
  have x0 := congrFun hx 0
  have x1 := congrFun hx 1
  have x2 := congrFun hx 2
  simp [h0.ne'] at x0 x1 x2
  ext i
  fin_cases i
  · exact e0
  · exact x0.symm
  · exact x1.symm
  · exact x2.symm

/-- In the near-π branch `to_quaternion` divides by the norm of one row of a matrix, which is 0 exactly for
the rotations about `(0, 1, 1)` and `(0, 1, -1)`; the half turn about `(0, 1, 1)` is one, in that branch for
every threshold. -/
theorem so3_to_quaternion_divides_by_zero {epz epi : ℝ} (hpi : 0 ≤ epi) (h1 : epi < 1) (hz : epi ≤ 1 - epz) :
    (∀ R : M3, (Rᵀ * R = 1 ∧ R.det = 1) → SO3.quatW R ≤ epi →
      (SO3.quatAxisDenominator epz R = 0 ↔
        R *ᵥ ![0, 1, 1] = ![0, 1, 1] ∨ R *ᵥ ![0, 1, -1] = ![0, 1, -1])) ∧
    (SO3.tieᵀ * SO3.tie = 1 ∧ SO3.tie.det = 1) ∧ SO3.quatW SO3.tie ≤ epi ∧
    SO3.tie *ᵥ ![0, 1, 1] = ![0, 1, 1] := by
  have h0 : SO3.quatW SO3.tie = 0 := by
    have := SO3.Valid.quatW_sq SO3.tie_valid
    rw [SO3.tie_cosine] at this
    exact pow_eq_zero_iff (two_ne_zero) |>.mp (by linarith)
  refine ⟨fun R hR hp => ?_, SO3.tie_valid, by rw [h0]; exact hpi,
    (so3_log_divides_by_zero (eps := 0) (epi := 0)).2.2.2.1⟩
  have hv : SO3.Valid R := hR
  have hne : SO3.cosine R ≠ 1 := by
    intro hc
    have h2 := hv.quatW_sq
    rw [hc] at h2
    have h3 : SO3.quatW R ^ 2 < 1 := by
      have := SO3.quatW_nonneg R
      nlinarith
    linarith
  rw [SO3.quatAxisDenominator, if_neg (by rw [gt_iff_lt, not_lt]; linarith), SO3.norm3_eq_zero,
    hv.selRow_eq_zero_iff hne]
  rfl

/-- `SE3`: the two conversions undo each other. -/
theorem se3_xyz_quaternion_partial {epz epi esq : ℝ} (hpi : 0 ≤ epi) (hz : epi ≤ 1 - epz)
    (h1 : epi < 1) (hs : esq + epi ^ 2 ≤ 1) :
    (∀ g : SE3, (g.Rᵀ * g.R = 1 ∧ g.R.det = 1) →
      (Real.cos (SO3.theta g.R / 2) ≤ epi → ¬ SO3.TieAxis g.R) →
      SE3.ofXyzQuaternion (g.toXyzQuaternion epz epi esq) = g) ∧
    (∀ x : Fin 7 → ℝ, x 3 ^ 2 + x 4 ^ 2 + x 5 ^ 2 + x 6 ^ 2 = 1 → 0 < x 3 →
      (x 3 ≤ epi → ¬ (x 4 = 0 ∧ (x 5 = x 6 ∨ x 5 = -x 6))) →
      (SE3.ofXyzQuaternion x).toXyzQuaternion epz epi esq = x) := by
  constructor
  · intro g hg hrow
    have h := (so3_to_quaternion_partial hpi hz h1 hs hg hrow).2.2.2
    refine SE3.ext ?_ ?_
    · have e : (![g.toXyzQuaternion epz epi esq 3, g.toXyzQuaternion epz epi esq 4,
          g.toXyzQuaternion epz epi esq 5, g.toXyzQuaternion epz epi esq 6] : Fin 4 → ℝ)
          = SO3.toQuaternion epz epi esq g.R := by
        ext i; fin_cases i <;> rfl
      simp only [SE3.ofXyzQuaternion, e]
      exact h
    · ext i; fin_cases i <;> rfl
  · intro x hx h3 hr
    have h := so3_quaternion_roundtrip_partial (epz := epz) (esq := esq) hpi hz h1 hs
      (q := ![x 3, x 4, x 5, x 6]) (by simpa using hx) (by simpa using h3) (by simpa using hr)
    ext i
    simp only [SE3.toXyzQuaternion, SE3.ofXyzQuaternion, h]
    fin_cases i <;> rfl

/-- Non-vacuity: the quarter turn, with the float64 thresholds; and the half turn about x, in the
near-π branch. -/
example : SO3.ofQuaternion (SO3.toQuaternion (5 / 1000) (1 / 10 ^ 7) (1 / 10 ^ 6) SO3.quarter)
      = SO3.quarter ∧
    SO3.ofQuaternion (SO3.toQuaternion (5 / 1000) (1 / 10 ^ 7) (1 / 10 ^ 6)
      !![1, 0, 0; 0, -1, 0; 0, 0, -1]) = !![1, 0, 0; 0, -1, 0; 0, 0, -1] := by
  constructor
  · refine (so3_to_quaternion_partial (by norm_num) (by norm_num) (by norm_num)
      (by norm_num) SO3.quarter_valid ?_).2.2.2
    intro _ h
    have := ((SO3.Valid.tie_iff SO3.quarter_valid).mp h).1
    simp [SO3.quarter] at this
  · have hv : SO3.Valid !![1, 0, 0; 0, -1, 0; 0, 0, -1] := by
      constructor
      · ext i j
        fin_cases i <;> fin_cases j <;> simp [Matrix.mul_apply, Fin.sum_univ_three]
      · simp [Matrix.det_fin_three]
    refine (so3_to_quaternion_partial (by norm_num) (by norm_num) (by norm_num)
      (by norm_num) hv ?_).2.2.2
    intro _ h
    have := (hv.tie_iff.mp h).2
    simp [SO3.cosine] at this
    linarith

end Verif.Geometry
