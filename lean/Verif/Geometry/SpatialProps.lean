import Verif.Geometry.SO3Pi
import Verif.Geometry.SE3More
import Verif.Geometry.PlanarJac
import Verif.Geometry.SpatialPi

/-!
# Properties of `SO3` and `SE3`: groups, exponential, logarithm (C45, C46, C48, C59)

A rotation is a 3x3 matrix with `Rᵀ R = 1` and determinant 1; a pose is a rotation and a
translation.  The thresholds are those of `LIE_PARAMS` (float64 defaults: `near_zero` 5e-3,
`d_near_zero` 1e-2, `near_pi` 1e-7; float32: 1e-2, 2e-1, 1e-2).
-/

namespace Verif.Geometry
open Matrix

/-! ## C45: `SO3` -/

/-- Rotations are closed under `compose` and `inverse`, which satisfy the group laws with the
identity matrix (`SO3.identity`, and the initial tensor of theseus's `SO3`). -/
theorem so3_group (eps deps epi : ℝ) :
    (∀ A B : M3, (Aᵀ * A = 1 ∧ A.det = 1) → (Bᵀ * B = 1 ∧ B.det = 1) →
      ((SO3.ops eps deps epi).compose A B)ᵀ * (SO3.ops eps deps epi).compose A B = 1 ∧
      ((SO3.ops eps deps epi).compose A B).det = 1) ∧
    (∀ A : M3, (Aᵀ * A = 1 ∧ A.det = 1) →
      ((SO3.ops eps deps epi).inverse A)ᵀ * (SO3.ops eps deps epi).inverse A = 1 ∧
      ((SO3.ops eps deps epi).inverse A).det = 1 ∧
      (SO3.ops eps deps epi).compose A ((SO3.ops eps deps epi).inverse A) = 1 ∧
      (SO3.ops eps deps epi).compose ((SO3.ops eps deps epi).inverse A) A = 1) ∧
    (∀ A B C : M3, (SO3.ops eps deps epi).compose ((SO3.ops eps deps epi).compose A B) C
      = (SO3.ops eps deps epi).compose A ((SO3.ops eps deps epi).compose B C)) ∧
    (∀ A : M3, (SO3.ops eps deps epi).compose A 1 = A ∧ (SO3.ops eps deps epi).compose 1 A = A) :=
  ⟨fun _ _ ha hb => SO3.Valid.mul ha hb,
   fun _ ha => ⟨(SO3.Valid.transpose ha).1, (SO3.Valid.transpose ha).2,
    SO3.Valid.mul_transpose ha, ha.1⟩,
   fun _ _ _ => Matrix.mul_assoc _ _ _, fun _ => ⟨Matrix.mul_one _, Matrix.one_mul _⟩⟩

/-- `rotate` is an action by isometries that preserves the orientation (cross products), and
`unrotate` is its inverse. -/
theorem so3_action {R : M3} (hR : Rᵀ * R = 1 ∧ R.det = 1) (S : M3) (p q : V3) :
    SO3.transform (R * S) p = SO3.transform R (SO3.transform S p) ∧
    SO3.transform 1 p = p ∧
    SO3.untransform R (SO3.transform R p) = p ∧
    SO3.transform R (SO3.untransform R p) = p ∧
    SO3.untransform R p = SO3.transform Rᵀ p ∧
    norm3 (SO3.transform R p - SO3.transform R q) = norm3 (p - q) ∧
    cross3 (SO3.transform R p) (SO3.transform R q) = SO3.transform R (cross3 p q) := by
  have hv : SO3.Valid R := hR
  refine ⟨?_, ?_, ?_, ?_, rfl, ?_, ?_⟩
  · simp only [SO3.transform, Matrix.mulVec_mulVec]
  · simp [SO3.transform]
  · simp only [SO3.transform, SO3.untransform, Matrix.mulVec_mulVec, hv.1, Matrix.one_mulVec]
  · simp only [SO3.transform, SO3.untransform, Matrix.mulVec_mulVec, hv.mul_transpose,
      Matrix.one_mulVec]
  · simp only [SO3.transform, ← Matrix.mulVec_sub, SO3.norm_mulVec hv]
  · exact SO3.cross_mulVec hv p q

/-- `exp_map` returns a rotation for every tangent vector, in the small-angle branch as well; it
fixes its axis, and the inverse rotation is the exponential of the opposite vector. -/
theorem so3_exp_rotation {eps : ℝ} (he : 0 < eps) (v : V3) :
    (SO3.exp eps v)ᵀ * SO3.exp eps v = 1 ∧ (SO3.exp eps v).det = 1 ∧
    SO3.exp eps v *ᵥ v = v ∧
    SO3.exp eps (-v) = (SO3.exp eps v)ᵀ ∧
    SO3.exp eps 0 = 1 ∧
    (∀ R : M3, (Rᵀ * R = 1 ∧ R.det = 1) → SO3.exp eps (R *ᵥ v) = R * SO3.exp eps v * Rᵀ) := by
  refine ⟨(SO3.exp_valid he v).1, (SO3.exp_valid he v).2, ?_, SO3.exp_neg eps v, SO3.exp_zero he,
    fun R hR => SO3.exp_conj hR eps v⟩
  obtain ⟨hc1, -⟩ := SO3.exp_coeffs (θ := norm3 v) he
  rw [SO3.norm3_sq] at hc1
  rw [SO3.exp, SE3.rod_expT, SE3.expT_self, hc1, one_smul]

/-- Beyond the small-angle threshold the exponential is Rodrigues' rotation by the angle `‖v‖`:
its trace and its action on the plane orthogonal to `v` are those of the rotation by `‖v‖`. -/
theorem so3_exp_angle {eps : ℝ} {v : V3} (h : eps ≤ norm3 v) (x : V3)
    (hx : dot3 v x = 0) :
    SO3.exp eps v *ᵥ x = Real.cos (norm3 v) • x
      + Real.sin (norm3 v) • cross3 ((norm3 v)⁻¹ • v) x := by
  have hn : ¬ norm3 v < eps := not_lt.mpr h
  rw [SO3.exp, SO3.rod_mulVec, hx, mul_zero, zero_smul, zero_add]
  simp only [SO3.expC, SO3.expS, if_neg hn]
  congr 1
  refine SE3.ext3 ?_ ?_ ?_ <;>
    simp only [Pi.smul_apply, SE3.cross_x, SE3.cross_y, SE3.cross_z, smul_eq_mul] <;> ring

/-- The unit quaternion product (Hamilton convention, `w x y z`); not part of the code. -/
def quatMul (p q : Fin 4 → ℝ) : Fin 4 → ℝ :=
  ![p 0 * q 0 - p 1 * q 1 - p 2 * q 2 - p 3 * q 3,
    p 0 * q 1 + p 1 * q 0 + p 2 * q 3 - p 3 * q 2,
    p 0 * q 2 - p 1 * q 3 + p 2 * q 0 + p 3 * q 1,
    p 0 * q 3 + p 1 * q 2 - p 2 * q 1 + p 3 * q 0]

theorem SO3.quatNorm_sq (q : Fin 4 → ℝ) :
    SO3.quatNorm q ^ 2 = q 0 ^ 2 + q 1 ^ 2 + q 2 ^ 2 + q 3 ^ 2 := Real.sq_sqrt (by positivity)

theorem SO3.quatNorm_ne_zero {q : Fin 4 → ℝ} (hq : q ≠ 0) : SO3.quatNorm q ≠ 0 := by
  intro h
  apply hq
  have h2 := SO3.quatNorm_sq q
  rw [h] at h2
  ext i
  fin_cases i <;> simp <;> nlinarith [sq_nonneg (q 0), sq_nonneg (q 1), sq_nonneg (q 2),
    sq_nonneg (q 3)]

theorem SO3.quatMatrix_valid {w x y z : ℝ} (h : w ^ 2 + x ^ 2 + y ^ 2 + z ^ 2 = 1) :
    SO3.Valid (SO3.quatMatrix w x y z) := by
  have hrod : SO3.quatMatrix w x y z
      = SO3.rod 2 (w ^ 2 - x ^ 2 - y ^ 2 - z ^ 2) (2 * w) ![x, y, z] := by
    ext i j
    simp only [SO3.rod, outer3, SO3.hat_smul, Matrix.add_apply, Matrix.smul_apply, Matrix.of_apply]
    fin_cases i <;> fin_cases j <;> simp [SO3.quatMatrix, SO3.hat] <;> ring
  rw [hrod]
  refine SO3.rod_valid ?_ ?_
  · simp only [dot3, Matrix.cons_val_zero, Matrix.cons_val_one, Matrix.cons_val]
    linear_combination h
  · linear_combination 2 * h

theorem SO3.ofQuaternion_unit {q : Fin 4 → ℝ} (hq : q ≠ 0) :
    (q 0 / SO3.quatNorm q) ^ 2 + (q 1 / SO3.quatNorm q) ^ 2 + (q 2 / SO3.quatNorm q) ^ 2
      + (q 3 / SO3.quatNorm q) ^ 2 = 1 := by
  have h0 := SO3.quatNorm_ne_zero hq
  have h2 := SO3.quatNorm_sq q
  simp only [div_pow]
  rw [← add_div, ← add_div, ← add_div, ← h2, div_self (pow_ne_zero 2 h0)]

/-- `quaternion_to_rotation` gives a rotation for every nonzero quaternion, does not depend on its
norm or sign, sends the product of quaternions to the product of matrices and `(1, 0, 0, 0)` to
the identity; for the zero quaternion it divides by zero. -/
theorem so3_quaternion :
    (∀ q : Fin 4 → ℝ, q ≠ 0 →
      (SO3.ofQuaternion q)ᵀ * SO3.ofQuaternion q = 1 ∧ (SO3.ofQuaternion q).det = 1) ∧
    (∀ (q : Fin 4 → ℝ) (r : ℝ), r ≠ 0 → SO3.ofQuaternion (r • q) = SO3.ofQuaternion q) ∧
    (∀ p q : Fin 4 → ℝ, p ≠ 0 → q ≠ 0 →
      SO3.ofQuaternion (quatMul p q) = SO3.ofQuaternion p * SO3.ofQuaternion q) ∧
    SO3.ofQuaternion ![1, 0, 0, 0] = 1 ∧
    SO3.quatNorm 0 = 0 := by
  refine ⟨fun q hq => SO3.quatMatrix_valid (SO3.ofQuaternion_unit hq), ?_, ?_, ?_, ?_⟩
  · intro q r hr
    have hn : SO3.quatNorm (r • q) = |r| * SO3.quatNorm q := by
      simp only [SO3.quatNorm, Pi.smul_apply, smul_eq_mul]
      rw [← Real.sqrt_sq_eq_abs, ← Real.sqrt_mul (sq_nonneg r)]
      congr 1; ring
    have hr2 : r * r / (|r| * |r|) = 1 := by
      rw [abs_mul_abs_self]; exact div_self (mul_ne_zero hr hr)
    have hprod : ∀ a b : ℝ, (r * a / (|r| * SO3.quatNorm q)) * (r * b / (|r| * SO3.quatNorm q))
        = (a / SO3.quatNorm q) * (b / SO3.quatNorm q) := by
      intro a b
      rw [div_mul_div_comm, div_mul_div_comm]
      have e1 : r * a * (r * b) = (r * r) * (a * b) := by ring
      have e2 : |r| * SO3.quatNorm q * (|r| * SO3.quatNorm q)
          = (|r| * |r|) * (SO3.quatNorm q * SO3.quatNorm q) := by ring
      rw [e1, e2, mul_div_mul_comm, hr2, one_mul]
    ext i j
    simp only [SO3.ofQuaternion, hn, Pi.smul_apply, smul_eq_mul, SO3.quatMatrix, hprod]
  · intro p q hp hq
    have hn : SO3.quatNorm (quatMul p q) = SO3.quatNorm p * SO3.quatNorm q := by
      rw [SO3.quatNorm, SO3.quatNorm, SO3.quatNorm, ← Real.sqrt_mul (by positivity)]
      congr 1
      simp [quatMul]; ring
    have h1 := SO3.quatNorm_ne_zero hp
    have h2 := SO3.quatNorm_ne_zero hq
    have e : ∀ i, quatMul p q i / SO3.quatNorm (quatMul p q)
        = quatMul (fun i => p i / SO3.quatNorm p) (fun i => q i / SO3.quatNorm q) i := by
      intro i
      rw [hn]
      fin_cases i <;> simp [quatMul] <;> field_simp
    simp only [SO3.ofQuaternion, e]
    ext i j
    simp only [quatMul, Matrix.mul_apply, Fin.sum_univ_three]
    fin_cases i <;> fin_cases j <;> simp [SO3.quatMatrix] <;> ring
  · ext i j
    simp only [SO3.ofQuaternion, SO3.quatNorm]
    fin_cases i <;> fin_cases j <;> simp [SO3.quatMatrix]
  · simp [SO3.quatNorm]

/-! ## C59: logarithm and exponential of `SO3` -/

/-- `log_map` undoes `exp_map` for angles from the small-angle threshold to π (excluded), exactly.
At π it returns `v` or `-v`.  Near π the code divides by the norm of one row of a matrix, which
must not vanish: that excludes exactly the two axes `(0, ±1, ±1)/√2` (`so3_log_divides_by_zero`). -/
theorem so3_log_exp_partial {eps epi : ℝ} (he : 0 < eps) {v : V3} (h1 : eps ≤ norm3 v)
    (h2 : norm3 v ≤ Real.pi)
    (hrow : 1 + Real.cos (norm3 v) ≤ epi → ¬ (v 0 = 0 ∧ (v 1 = v 2 ∨ v 1 = -v 2))) :
    (norm3 v < Real.pi → SO3.log eps epi (SO3.exp eps v) = v) ∧
    (norm3 v = Real.pi → 0 ≤ epi →
      SO3.log eps epi (SO3.exp eps v) = v ∨ SO3.log eps epi (SO3.exp eps v) = -v) := by
  have hne : SO3.cosine (SO3.exp eps v) ≠ 1 := by
    rw [(SO3.theta_exp he h1 h2).2.2]
    intro hc
    have := (Real.cos_eq_one_iff_of_lt_of_lt (by linarith [Real.pi_pos])
      (by linarith [Real.pi_pos])).mp hc
    linarith
  by_cases hp : 1 + Real.cos (norm3 v) ≤ epi
  · have := SO3.log_exp_pi he h1 h2 hp (SO3.selRow_ne_zero (SO3.exp_valid he v) hne
      (SO3.tie_exp he hne (hrow hp)))
    exact ⟨this.1, fun h _ => this.2 h⟩
  · refine ⟨fun h => SO3.log_exp_far he h1 h (not_le.mp hp), fun h h0 => ?_⟩
    rw [h, Real.cos_pi] at hp
    exact absurd h0 (by linarith [not_le.mp hp])

/-- `exp_map` undoes `log_map` for every rotation whose angle is at least the small-angle
threshold, up to and including half turns, except where the near-π branch divides by zero. -/
theorem so3_exp_log_partial {eps epi : ℝ} (he : 0 < eps) (hpi : 0 ≤ epi) {R : M3}
    (hR : Rᵀ * R = 1 ∧ R.det = 1) (h1 : eps ≤ SO3.theta R)
    (hrow : 1 + SO3.cosine R ≤ epi → ¬ SO3.TieAxis R) :
    SO3.exp eps (SO3.log eps epi R) = R ∧ norm3 (SO3.log eps epi R) = SO3.theta R ∧
      SO3.theta R ≤ Real.pi := by
  have hv : SO3.Valid R := hR
  have hne : SO3.cosine R ≠ 1 := by
    intro hc
    rw [← hv.cos_theta] at hc
    have := (Real.cos_eq_one_iff_of_lt_of_lt (by linarith [Real.pi_pos])
      (by linarith [Real.pi_pos, SO3.theta_le R])).mp hc
    linarith
  by_cases hp : 1 + SO3.cosine R ≤ epi
  · have := SO3.exp_log_pi he hv h1 hp (SO3.selRow_ne_zero hv hne (hrow hp))
    exact ⟨this.2, this.1, SO3.theta_le R⟩
  · exact ⟨SO3.exp_log_far he hpi hv h1 (not_le.mp hp),
      SO3.norm_log_far he hpi hv h1 (not_le.mp hp), SO3.theta_le R⟩

/-- In the near-π branch the code divides by the norm of one row of a matrix.  That norm is 0 (in floating
point the logarithm is NaN) exactly for the rotations about `(0, 1, 1)` and `(0, 1, -1)`; the half turn
about `(0, 1, 1)` is one, in the near-π branch for every threshold. -/
theorem so3_log_divides_by_zero {eps epi : ℝ} :
    (∀ R : M3, (Rᵀ * R = 1 ∧ R.det = 1) → 0 < SO3.theta R → eps ≤ SO3.theta R →
      (SO3.axisDenominator eps R = 0 ↔ R *ᵥ ![0, 1, 1] = ![0, 1, 1] ∨ R *ᵥ ![0, 1, -1] = ![0, 1, -1])) ∧
    (SO3.tieᵀ * SO3.tie = 1 ∧ SO3.tie.det = 1) ∧ SO3.theta SO3.tie = Real.pi ∧
    SO3.tie *ᵥ ![0, 1, 1] = ![0, 1, 1] ∧ (0 ≤ epi → 1 + SO3.cosine SO3.tie ≤ epi) := by
  have hth : SO3.theta SO3.tie = Real.pi := by
    have hc := SO3.Valid.cos_theta SO3.tie_valid
    rw [SO3.tie_cosine] at hc
    refine Real.injOn_cos ⟨SO3.Valid.theta_nonneg SO3.tie_valid, SO3.theta_le _⟩
      ⟨Real.pi_pos.le, le_refl _⟩ (by rw [hc, Real.cos_pi])
  refine ⟨fun R hR h0 h1 => ?_, SO3.tie_valid, hth, ?_, fun h => by rw [SO3.tie_cosine]; linarith⟩
  · have hv : SO3.Valid R := hR
    rw [SO3.axisDenominator, if_neg (not_lt.mpr h1), SO3.norm3_eq_zero,
      hv.selRow_eq_zero_iff (hv.cosine_ne_one h0)]
    rfl
  · ext i; fin_cases i <;> simp [SO3.tie, Matrix.mulVec, dotProduct, Fin.sum_univ_three]

/-! ## C46: `SE3` -/

/-- `compose`, `inverse` and the identity are a group on poses, faithfully represented by
`to_matrix`. -/
theorem se3_group :
    (∀ a b c : SE3, (a.compose b).compose c = a.compose (b.compose c)) ∧
    (∀ a : SE3, SE3.one.compose a = a ∧ a.compose SE3.one = a) ∧
    (∀ a : SE3, (a.Rᵀ * a.R = 1 ∧ a.R.det = 1) →
      a.compose a.inverse = SE3.one ∧ a.inverse.compose a = SE3.one) ∧
    (∀ a b : SE3, (a.Rᵀ * a.R = 1 ∧ a.R.det = 1) → (b.Rᵀ * b.R = 1 ∧ b.R.det = 1) →
      (a.compose b).Rᵀ * (a.compose b).R = 1 ∧ (a.compose b).R.det = 1) ∧
    (∀ a : SE3, (a.Rᵀ * a.R = 1 ∧ a.R.det = 1) →
      a.inverse.Rᵀ * a.inverse.R = 1 ∧ a.inverse.R.det = 1) ∧
    (∀ a b : SE3, (a.compose b).toMatrix = a.toMatrix * b.toMatrix) ∧
    (∀ a b : SE3, a.toMatrix = b.toMatrix → a = b) ∧
    SE3.one.toMatrix = 1 := by
  have L := SE3.lawful (eps := 1) one_pos 1 1
  have hone : SE3.one.toMatrix = 1 := by
    rw [← SE3.hom_one]
    simp only [SE3.toMatrix, SE3.one]
    congr 1
    ext i; fin_cases i <;> rfl
  have hinj : ∀ a b : SE3, a.toMatrix = b.toMatrix → a = b := L.toMatrix_inj
  have hmul : ∀ a b : SE3, (a.compose b).toMatrix = a.toMatrix * b.toMatrix := L.toMatrix_compose
  refine ⟨fun a b c => hinj _ _ (by simp only [hmul, Matrix.mul_assoc]), fun a => ⟨hinj _ _ ?_,
    hinj _ _ ?_⟩, fun a ha => ⟨hinj _ _ ?_, hinj _ _ ?_⟩, fun a b ha hb => SO3.Valid.mul ha hb,
    fun a ha => SO3.Valid.transpose ha, hmul, hinj, hone⟩
  · rw [hmul, hone, Matrix.one_mul]
  · rw [hmul, hone, Matrix.mul_one]
  · rw [hmul, hone]; exact mul_eq_one_comm.mp (L.toMatrix_inverse a ha)
  · rw [hmul, hone]; exact L.toMatrix_inverse a ha

/-- `transform_from` is an action by isometries, `transform_to` its inverse. -/
theorem se3_action (a b : SE3) (p q : V3) :
    (a.compose b).transform p = a.transform (b.transform p) ∧
    SE3.one.transform p = p ∧
    ((a.Rᵀ * a.R = 1 ∧ a.R.det = 1) →
      a.untransform (a.transform p) = p ∧ a.transform (a.untransform p) = p ∧
      a.untransform p = a.inverse.transform p ∧
      norm3 (a.transform p - a.transform q) = norm3 (p - q)) ∧
    a.toMatrix *ᵥ ![p 0, p 1, p 2, 1]
      = ![a.transform p 0, a.transform p 1, a.transform p 2, 1] := by
  refine ⟨?_, ?_, ?_, ?_⟩
  · simp only [SE3.transform, SE3.compose, Matrix.mulVec_add, ← Matrix.mulVec_mulVec]
    abel
  · simp only [SE3.transform, SE3.one, Matrix.one_mulVec]
    ext i; fin_cases i <;> simp
  · intro h
    have hv : SO3.Valid a.R := h
    refine ⟨?_, ?_, ?_, ?_⟩
    · simp only [SE3.transform, SE3.untransform, add_sub_cancel_left, Matrix.mulVec_mulVec, hv.1,
        Matrix.one_mulVec]
    · simp only [SE3.transform, SE3.untransform, Matrix.mulVec_mulVec, hv.mul_transpose,
        Matrix.one_mulVec]
      abel
    · simp only [SE3.transform, SE3.untransform, SE3.inverse, Matrix.mulVec_sub,
        Matrix.neg_mulVec]
      abel
    · simp only [SE3.transform, add_sub_add_left_eq_sub, ← Matrix.mulVec_sub, SO3.norm_mulVec hv]
  · ext i
    fin_cases i <;>
      simp [SE3.toMatrix, SE3.hom, SE3.transform, Matrix.mulVec, dotProduct, Fin.sum_univ_succ] <;>
      ring

/-- The adjoint is conjugation of the tangent space, a homomorphism, and compatible with the
exponential. -/
theorem se3_adjoint (a b : SE3) (v : Fin 6 → ℝ) (ha : a.Rᵀ * a.R = 1 ∧ a.R.det = 1)
    (hb : b.Rᵀ * b.R = 1 ∧ b.R.det = 1) :
    a.toMatrix * SE3.hat v * a.inverse.toMatrix = SE3.hat (a.adjoint *ᵥ v) ∧
    (a.compose b).adjoint = a.adjoint * b.adjoint ∧
    a.inverse.adjoint * a.adjoint = 1 ∧
    (∀ eps : ℝ, 0 < eps →
      SE3.exp eps (a.adjoint *ᵥ v) = (a.compose (SE3.exp eps v)).compose a.inverse) := by
  have L := SE3.lawful (eps := 1) one_pos 1 1
  have hai : a.toMatrix * a.inverse.toMatrix = 1 := mul_eq_one_comm.mp (L.toMatrix_inverse a ha)
  have hconj : ∀ (a : SE3) (v : Fin 6 → ℝ), (a.Rᵀ * a.R = 1 ∧ a.R.det = 1) →
      a.toMatrix * SE3.hat v * a.inverse.toMatrix = SE3.hat (a.adjoint *ᵥ v) := by
    intro a v ha
    have hai : a.toMatrix * a.inverse.toMatrix = 1 := mul_eq_one_comm.mp (L.toMatrix_inverse a ha)
    rw [SE3.adjoint_hat ha, Matrix.mul_assoc, hai, Matrix.mul_one]
  have hhom : ∀ a b : SE3, (a.Rᵀ * a.R = 1 ∧ a.R.det = 1) → (b.Rᵀ * b.R = 1 ∧ b.R.det = 1) →
      (a.compose b).adjoint = a.adjoint * b.adjoint := by
    intro a b ha hb
    refine Matrix.ext_of_mulVec_single fun i => SE3.hat_inj ?_
    have hab : SO3.Valid (a.compose b).R := SO3.Valid.mul ha hb
    have e1 := SE3.adjoint_hat hab (Pi.single i 1)
    have e2 := SE3.adjoint_hat hb (Pi.single i 1)
    have e3 := SE3.adjoint_hat ha (b.adjoint *ᵥ Pi.single i 1)
    have hmul : (a.compose b).toMatrix = a.toMatrix * b.toMatrix := L.toMatrix_compose a b
    have hinv : (a.compose b).toMatrix * (a.compose b).inverse.toMatrix = 1 :=
      mul_eq_one_comm.mp (L.toMatrix_inverse (a.compose b) hab)
    rw [← Matrix.mulVec_mulVec]
    have : SE3.hat ((a.compose b).adjoint *ᵥ Pi.single i 1) * (a.compose b).toMatrix
        = SE3.hat (a.adjoint *ᵥ (b.adjoint *ᵥ Pi.single i 1)) * (a.compose b).toMatrix := by
      rw [← e1, hmul, ← Matrix.mul_assoc (SE3.hat _), ← e3, Matrix.mul_assoc, e2,
        Matrix.mul_assoc]
    have h2 := congrArg (fun M => M * (a.compose b).inverse.toMatrix) this
    simpa only [Matrix.mul_assoc, hinv, Matrix.mul_one] using h2
  refine ⟨hconj a v ha, hhom a b ha hb, ?_, fun eps he => SE3.exp_conj he ha v⟩
  have hi : SO3.Valid a.inverse.R := SO3.Valid.transpose ha
  rw [← hhom _ _ hi ha, se3_group.2.2.1 a ha |>.2]
  refine Matrix.ext_of_mulVec_single fun i => ?_
  rw [SE3.adjoint, SE3.block_mulVec, Matrix.one_mulVec]
  refine SE3.ext6 ?_ ?_
  · rw [SE3.lin_join]
    have h0 : SO3.hat SE3.one.t = 0 := by
      ext i j; fin_cases i <;> fin_cases j <;> simp [SO3.hat, SE3.one]
    rw [h0]
    simp [SE3.one]
  · rw [SE3.ang_join]; simp [SE3.one]

/-- `exp_map` gives a pose with a proper rotation, for every tangent vector; the inverse pose is
the exponential of the opposite vector. -/
theorem se3_exp_pose {eps : ℝ} (he : 0 < eps) (v : Fin 6 → ℝ) :
    ((SE3.exp eps v).Rᵀ * (SE3.exp eps v).R = 1 ∧ (SE3.exp eps v).R.det = 1) ∧
    SE3.exp eps (-v) = (SE3.exp eps v).inverse ∧
    SE3.exp eps 0 = SE3.one ∧
    (SE3.exp eps v).adjoint *ᵥ v = v := by
  refine ⟨SO3.exp_valid he _, SE3.exp_neg eps he v, ?_, SE3.adjoint_exp_self he v⟩
  have L := SE3.lawful (eps := eps) he 1 1
  exact L.toMatrix_inj _ _ (L.exp_zero.trans se3_group.2.2.2.2.2.2.2.symm)

/-! ## C59: logarithm and exponential of `SE3` -/

/-- `log_map` undoes `exp_map` when the rotation is zero, or between the small-angle threshold and
π (excluded), except where the near-π branch divides by zero. -/
theorem se3_log_exp_partial {eps epi : ℝ} (he : 0 < eps) (hpi : epi < 2) {v : Fin 6 → ℝ}
    (h : (eps ≤ norm3 ![v 3, v 4, v 5] ∧ norm3 ![v 3, v 4, v 5] < Real.pi ∧
      (1 + Real.cos (norm3 ![v 3, v 4, v 5]) ≤ epi → ¬ (v 3 = 0 ∧ (v 4 = v 5 ∨ v 4 = -v 5)))) ∨
      (v 3 = 0 ∧ v 4 = 0 ∧ v 5 = 0)) :
    SE3.log eps epi (SE3.exp eps v) = v := by
  rcases h with ⟨h1, h2, h3⟩ | ⟨h3, h4, h5⟩
  · exact SE3.log_exp_of he h1 h2.le ((so3_log_exp_partial he h1 h2.le h3).1 h2)
  · have hv : v = SE3.join (SE3.lin v) 0 := by
      conv_lhs => rw [← SE3.join_eta v]
      congr 1
      ext i; fin_cases i <;> simp [SE3.ang, h3, h4, h5]
    rw [hv, SE3.exp_pure he, SE3.log_one_rot he hpi]

/-- `exp_map` undoes `log_map` when the rotation is the identity, or its angle is at least the
small-angle threshold, half turns included, except where the near-π branch divides by zero. -/
theorem se3_exp_log_partial {eps epi : ℝ} (he : 0 < eps) (hpi0 : 0 ≤ epi) (hpi : epi < 2)
    {g : SE3} (hg : g.Rᵀ * g.R = 1 ∧ g.R.det = 1)
    (h : (eps ≤ SO3.theta g.R ∧
      (1 + SO3.cosine g.R ≤ epi → ¬ SO3.TieAxis g.R)) ∨ g.R = 1) :
    SE3.exp eps (SE3.log eps epi g) = g := by
  rcases h with ⟨h1, h2⟩ | h1
  · obtain ⟨e1, e2, -⟩ := so3_exp_log_partial he hpi0 hg h1 h2
    exact SE3.exp_log_of he hg h1 e2 e1
  · have hgt : g = ⟨1, g.t⟩ := by ext1 <;> simp [h1]
    rw [hgt, SE3.log_one_rot he hpi, SE3.exp_pure he]

/-! ## C48: local and retract on `SO3` and `SE3` -/

theorem so3_local_retract_partial {eps deps epi : ℝ} (he : 0 < eps) (hpi : 0 ≤ epi) {A B : M3}
    (hA : Aᵀ * A = 1 ∧ A.det = 1) (hB : Bᵀ * B = 1 ∧ B.det = 1) (d : V3) :
    (eps ≤ SO3.theta (Aᵀ * B) →
      (1 + SO3.cosine (Aᵀ * B) ≤ epi → ¬ SO3.TieAxis (Aᵀ * B)) →
      (SO3.ops eps deps epi).retract A ((SO3.ops eps deps epi).local A B) = B) ∧
    (A = B → epi < 2 → (SO3.ops eps deps epi).retract A ((SO3.ops eps deps epi).local A B) = B) ∧
    (eps ≤ norm3 d → norm3 d < Real.pi →
      (1 + Real.cos (norm3 d) ≤ epi → ¬ (d 0 = 0 ∧ (d 1 = d 2 ∨ d 1 = -d 2))) →
      (SO3.ops eps deps epi).local A ((SO3.ops eps deps epi).retract A d) = d) ∧
    (epi < 2 → (SO3.ops eps deps epi).local A ((SO3.ops eps deps epi).retract A 0) = 0) := by
  have L := SO3.lawful (eps := eps) he deps epi
  have hAB : SO3.Valid (Aᵀ * B) := SO3.Valid.mul (SO3.Valid.transpose hA) hB
  refine ⟨fun h1 h2 => retract_local L hA (so3_exp_log_partial he hpi hAB h1 h2).1, ?_,
    fun h1 h2 h3 => local_retract L hA ((so3_log_exp_partial he h1 h2.le h3).1 h2), fun h => ?_⟩
  · rintro rfl h
    refine retract_local L hA ?_
    change SO3.exp eps (SO3.log eps epi (Aᵀ * A)) = Aᵀ * A
    rw [hA.1, (SE3.log_of_one h).1, SO3.exp_zero he]
  · refine local_retract L hA ?_
    change SO3.log eps epi (SO3.exp eps 0) = 0
    rw [SO3.exp_zero he, (SE3.log_of_one h).1]

theorem se3_local_retract_partial {eps deps epi : ℝ} (he : 0 < eps) (hpi0 : 0 ≤ epi)
    (hpi : epi < 2) {a b : SE3} (ha : a.Rᵀ * a.R = 1 ∧ a.R.det = 1)
    (hb : b.Rᵀ * b.R = 1 ∧ b.R.det = 1) (d : Fin 6 → ℝ) :
    ((eps ≤ SO3.theta (a.Rᵀ * b.R) ∧
        (1 + SO3.cosine (a.Rᵀ * b.R) ≤ epi → ¬ SO3.TieAxis (a.Rᵀ * b.R)))
        ∨ a.R = b.R →
      (SE3.ops eps deps epi).retract a ((SE3.ops eps deps epi).local a b) = b) ∧
    ((eps ≤ norm3 ![d 3, d 4, d 5] ∧ norm3 ![d 3, d 4, d 5] < Real.pi ∧
        (1 + Real.cos (norm3 ![d 3, d 4, d 5]) ≤ epi → ¬ (d 3 = 0 ∧ (d 4 = d 5 ∨ d 4 = -d 5)))) ∨
        (d 3 = 0 ∧ d 4 = 0 ∧ d 5 = 0) →
      (SE3.ops eps deps epi).local a ((SE3.ops eps deps epi).retract a d) = d) := by
  have L := SE3.lawful (eps := eps) he deps epi
  have hab : SE3.Valid (a.inverse.compose b) := SO3.Valid.mul (SO3.Valid.transpose ha) hb
  refine ⟨fun h => retract_local L ha (se3_exp_log_partial he hpi0 hpi hab ?_),
    fun h => local_retract L ha (se3_log_exp_partial he hpi h)⟩
  rcases h with h | h
  · exact Or.inl h
  · right
    change a.Rᵀ * b.R = 1
    rw [← h]; exact ha.1

/-! ## Non-vacuity: the quarter turn about the z axis, with the float64 thresholds -/

/-- The quarter turn about z. -/
def SO3.quarter : M3 := !![0, -1, 0; 1, 0, 0; 0, 0, 1]

theorem SO3.quarter_valid : SO3.quarterᵀ * SO3.quarter = 1 ∧ SO3.quarter.det = 1 := by
  constructor
  · ext i j
    fin_cases i <;> fin_cases j <;> simp [SO3.quarter, Matrix.mul_apply, Fin.sum_univ_three]
  · simp [SO3.quarter, Matrix.det_fin_three]

theorem SO3.quarter_cosine : SO3.cosine SO3.quarter = 0 := by simp [SO3.quarter, SO3.cosine]

theorem SO3.quarter_theta : SO3.theta SO3.quarter = Real.pi / 2 := by
  have hc := SO3.Valid.cos_theta SO3.quarter_valid
  rw [SO3.quarter_cosine] at hc
  exact Real.injOn_cos ⟨SO3.Valid.theta_nonneg SO3.quarter_valid, SO3.theta_le _⟩
    ⟨by positivity, by linarith [Real.pi_pos]⟩ (by rw [hc, Real.cos_pi_div_two])

/-- `so3_exp_log_partial` and `se3_exp_log_partial` apply to it. -/
example : (5 / 1000 : ℝ) ≤ SO3.theta SO3.quarter ∧
    ¬ (1 + SO3.cosine SO3.quarter ≤ 1 / 10 ^ 7) ∧
    SO3.exp (5 / 1000) (SO3.log (5 / 1000) (1 / 10 ^ 7) SO3.quarter) = SO3.quarter ∧
    SE3.exp (5 / 1000) (SE3.log (5 / 1000) (1 / 10 ^ 7) ⟨SO3.quarter, ![1, 2, 3]⟩)
      = ⟨SO3.quarter, ![1, 2, 3]⟩ := by
  have h1 : (5 / 1000 : ℝ) ≤ SO3.theta SO3.quarter := by
    rw [SO3.quarter_theta]; linarith [Real.pi_gt_three]
  have h2 : ¬ (1 + SO3.cosine SO3.quarter ≤ 1 / 10 ^ 7) := by
    rw [SO3.quarter_cosine]; norm_num
  exact ⟨h1, h2, (so3_exp_log_partial (by norm_num) (by norm_num) SO3.quarter_valid h1
    (fun h => absurd h h2)).1, se3_exp_log_partial (by norm_num) (by norm_num) (by norm_num)
    SO3.quarter_valid (Or.inl ⟨h1, fun h => absurd h h2⟩)⟩

theorem SO3.norm3_quarter : norm3 ![0, 0, Real.pi / 2] = Real.pi / 2 := by
  have : dot3 ![0, 0, Real.pi / 2] ![0, 0, Real.pi / 2] = (Real.pi / 2) ^ 2 := by
    simp [dot3]; ring
  rw [norm3, this, Real.sqrt_sq (by positivity)]

/-- `so3_log_exp_partial`, `se3_log_exp_partial` and the `local`/`retract` theorems apply to a
quarter turn with a translation. -/
example : (5 / 1000 : ℝ) ≤ norm3 ![0, 0, Real.pi / 2] ∧ norm3 ![0, 0, Real.pi / 2] < Real.pi ∧
    (1 / 10 ^ 7 : ℝ) < 1 + Real.cos (norm3 ![0, 0, Real.pi / 2]) ∧
    SE3.log (5 / 1000) (1 / 10 ^ 7) (SE3.exp (5 / 1000) ![1, 2, 3, 0, 0, Real.pi / 2])
      = ![1, 2, 3, 0, 0, Real.pi / 2] := by
  have h1 : (5 / 1000 : ℝ) ≤ norm3 ![0, 0, Real.pi / 2] := by
    rw [SO3.norm3_quarter]; linarith [Real.pi_gt_three]
  have h2 : norm3 ![0, 0, Real.pi / 2] < Real.pi := by
    rw [SO3.norm3_quarter]; linarith [Real.pi_pos]
  have h3 : (1 / 10 ^ 7 : ℝ) < 1 + Real.cos (norm3 ![0, 0, Real.pi / 2]) := by
    rw [SO3.norm3_quarter, Real.cos_pi_div_two]; norm_num
  refine ⟨h1, h2, h3, se3_log_exp_partial (by norm_num) (by norm_num) (Or.inl ?_)⟩
  exact ⟨h1, h2, fun h => absurd h (not_le.mpr h3)⟩

/-- An angle below π in the near-π branch (with the float32 thresholds). -/
example : 1 + Real.cos (norm3 ![31 / 10, 0, 0]) ≤ 1 / 100 ∧
    SE3.log (1 / 100) (1 / 100) (SE3.exp (1 / 100) ![1, 2, 3, 31 / 10, 0, 0]) = ![1, 2, 3, 31 / 10, 0, 0] := by
  have hn : norm3 ![31 / 10, 0, 0] = 31 / 10 := by
    have : dot3 ![31 / 10, 0, 0] ![31 / 10, 0, 0] = (31 / 10 : ℝ) ^ 2 := by simp [dot3]; ring
    rw [norm3, this, Real.sqrt_sq (by positivity)]
  have h1 : (1 / 100 : ℝ) ≤ norm3 ![31 / 10, 0, 0] := by rw [hn]; norm_num
  have h2 : norm3 ![31 / 10, 0, 0] < Real.pi := by rw [hn]; linarith [Real.pi_gt_d2]
  refine ⟨?_, se3_log_exp_partial (by norm_num) (by norm_num) (Or.inl ⟨h1, h2, fun _ h => ?_⟩)⟩
  · rw [hn]
    have h3 := Real.one_sub_sq_div_two_le_cos (x := Real.pi - 31 / 10)
    rw [Real.cos_pi_sub] at h3
    have h4 : Real.pi - 31 / 10 ≤ 1 / 10 := by linarith [Real.pi_lt_d2]
    have h5 : 0 ≤ Real.pi - 31 / 10 := by linarith [Real.pi_gt_d2]
    nlinarith
  · have h0 : (31 / 10 : ℝ) = 0 := h.1
    norm_num at h0

/-- `so3_quaternion`, on a quaternion that is not a unit. -/
example : SO3.ofQuaternion ![2, 0, 0, 2] = SO3.quarter := by
  have hs : SO3.quatNorm ![2, 0, 0, 2] ^ 2 = 8 := by
    rw [SO3.quatNorm, Real.sq_sqrt (by positivity)]; simp; norm_num
  have hn : SO3.quatNorm ![2, 0, 0, 2] ≠ 0 := by intro h; rw [h] at hs; norm_num at hs
  ext i j
  fin_cases i <;> fin_cases j <;> simp [SO3.ofQuaternion, SO3.quatMatrix, SO3.quarter]
  · field_simp; linarith
  · field_simp; linarith
  · field_simp; linarith

end Verif.Geometry
