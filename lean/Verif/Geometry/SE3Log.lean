import Verif.Geometry.SE3Exp

/-!
# The logarithm of `SE3` and its Jacobian
-/

namespace Verif.Geometry
open Matrix

namespace SE3

/-- The coefficients of the logarithm and of its Jacobian, in terms of those of the exponential. -/
structure LogCoeffs (s k q a b c d dk dq T : ℝ) : Prop where
  sq : s + q * T = 1
  ab : a + b * T = 1
  ka : k * a = s / 2
  bs : b * s + q = k / 2
  det : s ^ 2 + k ^ 2 * T = 2 * k
  dkT : dk * T = s - 2 * k
  dqT : dq * T = k - 3 * q
  dkb : dk = -(2 * b * k)
  dk2 : dk = s * q - k ^ 2
  kd : 2 * k * d = -q
  cc : c + 2 * b * q + d * (q * (1 + s) - k ^ 2) = -dq

theorem logCoeffs {eps deps : ℝ} (he : 0 < eps) {R : M3} (hR : SO3.Valid R)
    (h1 : eps ≤ SO3.theta R) (hd1 : deps ≤ SO3.theta R) :
    LogCoeffs (SO3.expS eps (SO3.theta R)) (SO3.expK eps (SO3.theta R))
      (expQt eps (SO3.theta R)) (SO3.logA deps R) (SO3.logB deps R) (logC deps R) (logD deps R)
      (dK eps (SO3.theta R)) (dQ eps (SO3.theta R)) (SO3.theta R ^ 2) := by
  have hn : ¬ SO3.theta R < eps := not_lt.mpr h1
  have hn' : ¬ SO3.theta R < deps := not_lt.mpr hd1
  have hsc := hR.unit'
  have h0 : SO3.theta R ≠ 0 := by linarith
  have hc2 : 2 * SO3.cosine R - 2 ≠ 0 := by
    intro h
    have h3 : Real.cos (SO3.theta R) = 1 := by rw [hR.cos_theta]; linarith
    have h4 := (Real.cos_eq_one_iff_of_lt_of_lt (by linarith [Real.pi_pos, hR.theta_nonneg])
      (by linarith [Real.pi_pos, SO3.theta_le R])).mp h3
    exact h0 h4
  simp only [SO3.expS, SO3.expK, SO3.expC, expQt, SO3.logA, SO3.logB, logC, logD, dK, dQ, if_neg hn,
    if_neg hn', hR.cos_theta, hR.sin_theta]
  generalize SO3.theta R = θ at *
  generalize SO3.cosine R = c at *
  generalize SO3.sine R = s at *
  obtain ⟨D, hD⟩ : ∃ D, D = 2 * c - 2 := ⟨_, rfl⟩
  have hc : c = D / 2 + 1 := by linarith
  subst hc
  have hD' : 2 * (D / 2 + 1) - 2 = D := by ring
  rw [hD'] at hc2 ⊢
  have hs2 : s ^ 2 = -D - D ^ 2 / 4 := by linear_combination hsc
  constructor
  · field_simp; ring
  · field_simp; ring
  · field_simp; ring
  · field_simp
    linear_combination 4 * θ * hs2
  · field_simp
    linear_combination 4 * hs2
  · field_simp
  · field_simp
  · field_simp; ring
  · field_simp
    linear_combination 4 * hs2
  · field_simp; ring
  · field_simp
    linear_combination (4 * s - 12 * θ) * hs2

/-! ## The matrix identities -/

theorem logT_eq (a b : ℝ) (t w : V3) : logT a b t w = expT a (-(1 / 2)) b t w := by
  rw [logT, expT, neg_smul, ← sub_eq_add_neg]

theorem jlogOf_mulVec' (a b : ℝ) (w x : V3) :
    SO3.jlogOf a b w *ᵥ x = expT a (1 / 2) b x w := by
  rw [SO3.jlogOf_mulVec, expT]; module

/-- Product of two matrices of the form `s I + k hat(w) + q w wᵀ`. -/
theorem expT_expT (s k q s' k' q' : ℝ) (x w : V3) :
    expT s k q (expT s' k' q' x w) w = expT (s * s' - k * k' * dot3 w w) (s * k' + k * s')
      (s * q' + q * s' + k * k' + q * q' * dot3 w w) x w := by
  ext i
  fin_cases i <;> simp [expT_x, expT_y, expT_z, dot3] <;> ring

theorem expT_one (x w : V3) : expT 1 0 0 x w = x := by
  ext i
  fin_cases i <;> simp [expT_x, expT_y, expT_z]

variable {s k q a b c d dk dq T : ℝ} {w : V3}

/-- The translation factor of the logarithm inverts that of the exponential. -/
theorem logT_expT (h : LogCoeffs s k q a b c d dk dq (dot3 w w)) (hk : dot3 w w ≠ 0) (u : V3) :
    logT a b (expT s k q u w) w = u ∧ expT s k q (logT a b u w) w = u := by
  have e1 : s * a + 1 / 2 * k * dot3 w w = 1 := by
    have : dot3 w w * (s * a + 1 / 2 * k * dot3 w w) = dot3 w w * 1 := by
      have hs : s = 1 - q * dot3 w w := by linear_combination h.sq
      have ha : a = 1 - b * dot3 w w := by linear_combination h.ab
      have hb := h.bs
      rw [ha]
      linear_combination dot3 w w * h.sq - dot3 w w ^ 2 * hb
    exact mul_left_cancel₀ hk this
  have e2 : a * q + b * s - 1 / 2 * k + b * q * dot3 w w = 0 := by
    linear_combination q * h.ab + h.bs
  constructor
  · rw [logT_eq, expT_expT]
    have f1 : a * s - -(1 / 2) * k * dot3 w w = 1 := by linear_combination e1
    have f2 : a * k + -(1 / 2) * s = 0 := by linear_combination h.ka
    have f3 : a * q + b * s + -(1 / 2) * k + b * q * dot3 w w = 0 := by linear_combination e2
    rw [f1, f2, f3, expT_one]
  · rw [logT_eq, expT_expT]
    have f1 : s * a - k * -(1 / 2) * dot3 w w = 1 := by linear_combination e1
    have f2 : s * -(1 / 2) + k * a = 0 := by linear_combination h.ka
    have f3 : s * b + q * a + k * -(1 / 2) + q * b * dot3 w w = 0 := by linear_combination e2
    rw [f1, f2, f3, expT_one]

/-- The rotational blocks of the two Jacobians are inverse. -/
theorem jlog_jexp_rot (h : LogCoeffs s k q a b c d dk dq (dot3 w w)) (hk : dot3 w w ≠ 0) (x : V3) :
    SO3.jlogOf a b w *ᵥ (SO3.jexpOf s k q w *ᵥ x) = x := by
  have e1 : s * a + 1 / 2 * k * dot3 w w = 1 := by
    have : dot3 w w * (s * a + 1 / 2 * k * dot3 w w) = dot3 w w * 1 := by
      have ha : a = 1 - b * dot3 w w := by linear_combination h.ab
      have hb := h.bs
      rw [ha]
      linear_combination dot3 w w * h.sq - dot3 w w ^ 2 * hb
    exact mul_left_cancel₀ hk this
  have e2 : a * q + b * s - 1 / 2 * k + b * q * dot3 w w = 0 := by
    linear_combination q * h.ab + h.bs
  rw [jexpOf_mulVec, jlogOf_mulVec', expT_expT]
  have f1 : a * s - 1 / 2 * -k * dot3 w w = 1 := by linear_combination e1
  have f2 : a * -k + 1 / 2 * s = 0 := by linear_combination -h.ka
  have f3 : a * q + b * s + 1 / 2 * -k + b * q * dot3 w w = 0 := by linear_combination e2
  rw [f1, f2, f3, expT_one]

/-- `V hat(u) Vᵀ` for `V = s I + k hat(w) + q w wᵀ`, applied to a vector. -/
theorem conj_V (s k q : ℝ) (u w x : V3) :
    expT s k q (cross3 u (expT s (-k) q x w)) w
      = cross3 (expT ((s + q * dot3 w w) * s) ((s + q * dot3 w w) * k) (k ^ 2 - s * q) u w) x := by
  ext i
  fin_cases i <;> simp [expT_x, expT_y, expT_z, dot3, cross3] <;> ring

theorem jlogT_mulVec (b c d : ℝ) (u w x : V3) :
    jlogT b c d u w *ᵥ x = (c * dot3 w u * dot3 w x) • w
      + (b * dot3 u x) • w + (b * dot3 w x) • u
      + (dot3 w u * d) • x + (1 / 2 : ℝ) • cross3 u x := by
  simp only [jlogT]
  rw [Matrix.add_mulVec, Matrix.add_mulVec, Matrix.add_mulVec, Matrix.add_mulVec,
    SO3.outer_mulVec, SO3.outer_mulVec, SO3.outer_mulVec, SO3.hat_smul, Matrix.smul_mulVec,
    Matrix.smul_mulVec, Matrix.one_mulVec, SO3.hat_mulVec]
  have : dot3 (b • w) x = b * dot3 w x := by simp [dot3]; ring
  rw [this]
  module

theorem expT_add (s k q : ℝ) (x y w : V3) :
    expT s k q (x + y) w = expT s k q x w + expT s k q y w := by
  ext i
  fin_cases i <;> simp [expT_x, expT_y, expT_z, dot3] <;> ring

theorem expT_smul (s k q r : ℝ) (x w : V3) :
    expT s k q (r • x) w = r • expT s k q x w := by
  ext i
  fin_cases i <;> simp [expT_x, expT_y, expT_z, dot3] <;> ring

theorem expT_self (s k q : ℝ) (w : V3) : expT s k q w w = (s + q * dot3 w w) • w := by
  ext i
  fin_cases i <;> simp [expT_x, expT_y, expT_z, dot3] <;> ring

theorem dot_expT (s k q : ℝ) (u x w : V3) :
    dot3 u (expT s (-k) q x w) = dot3 (expT s k q u w) x := by
  simp [dot3, expT_x, expT_y, expT_z]; ring

theorem dot_expT_self (s k q : ℝ) (x w : V3) :
    dot3 w (expT s k q x w) = (s + q * dot3 w w) * dot3 w x := by
  simp [dot3, expT_x, expT_y, expT_z]; ring

/-- `V Q Vᵀ = -jac_temp_t`: the upper right blocks of the two Jacobians. -/
theorem jlog_jexp_cross (h : LogCoeffs s k q a b c d dk dq (dot3 w w)) (u x : V3) :
    expT s k q (jlogT b c d u w *ᵥ expT s (-k) q x w) w = -(jexpT k q dk dq u w *ᵥ x) := by
  rw [jlogT_mulVec, jexpT_mulVec]
  obtain ⟨hsq, hab, hka, hbs, hdet, hdkT, hdqT, hdkb, hdk2, hkd, hcc⟩ := h
  rw [expT_add, expT_add, expT_add, expT_add, expT_smul, expT_smul, expT_smul, expT_smul, expT_smul,
    conj_V, expT_self, expT_expT, dot_expT_self, dot_expT, hsq, one_mul, one_mul, one_smul]
  have e1 : s * s - k * -k * dot3 w w = 2 * k := by linear_combination hdet
  have e2 : s * -k + k * s = 0 := by ring
  have e3 : s * q + q * s + k * -k + q * q * dot3 w w = q * (1 + s) - k ^ 2 := by
    linear_combination q * hsq
  have e4 : k ^ 2 - s * q = -dk := by linear_combination hdk2
  rw [e1, e2, e3, e4, one_mul]
  ext i
  simp only [Pi.add_apply, Pi.sub_apply, Pi.neg_apply, Pi.smul_apply, smul_eq_mul]
  unfold dot3 at hdqT hdkT
  fin_cases i
  all_goals simp [cross3, expT_x, expT_y, expT_z, dot3]
  · linear_combination ((w 0 * u 0 + w 1 * u 1 + w 2 * u 2) * (w 0 * x 0 + w 1 * x 1 + w 2 * x 2) * w 0) * hcc
      + ((u 0 * x 0 + u 1 * x 1 + u 2 * x 2) * w 0 + (w 0 * x 0 + w 1 * x 1 + w 2 * x 2) * u 0) * hbs
      - ((w 0 * x 0 + w 1 * x 1 + w 2 * x 2) * u 0) * hdqT
      + ((w 0 * u 0 + w 1 * u 1 + w 2 * u 2) * x 0) * hkd
      - (1 / 2 * (u 1 * x 2 - u 2 * x 1)) * hdkT
      + (1 / 2 * ((w 0 * x 0 + w 1 * x 1 + w 2 * x 2) * (w 1 * u 2 - w 2 * u 1)
        + ((w 1 * u 2 - w 2 * u 1) * x 0 + (w 2 * u 0 - w 0 * u 2) * x 1
          + (w 0 * u 1 - w 1 * u 0) * x 2) * w 0)) * hdkb
  · linear_combination ((w 0 * u 0 + w 1 * u 1 + w 2 * u 2) * (w 0 * x 0 + w 1 * x 1 + w 2 * x 2) * w 1) * hcc
      + ((u 0 * x 0 + u 1 * x 1 + u 2 * x 2) * w 1 + (w 0 * x 0 + w 1 * x 1 + w 2 * x 2) * u 1) * hbs
      - ((w 0 * x 0 + w 1 * x 1 + w 2 * x 2) * u 1) * hdqT
      + ((w 0 * u 0 + w 1 * u 1 + w 2 * u 2) * x 1) * hkd
      - (1 / 2 * (u 2 * x 0 - u 0 * x 2)) * hdkT
      + (1 / 2 * ((w 0 * x 0 + w 1 * x 1 + w 2 * x 2) * (w 2 * u 0 - w 0 * u 2)
        + ((w 1 * u 2 - w 2 * u 1) * x 0 + (w 2 * u 0 - w 0 * u 2) * x 1
          + (w 0 * u 1 - w 1 * u 0) * x 2) * w 1)) * hdkb
  · linear_combination ((w 0 * u 0 + w 1 * u 1 + w 2 * u 2) * (w 0 * x 0 + w 1 * x 1 + w 2 * x 2) * w 2) * hcc
      + ((u 0 * x 0 + u 1 * x 1 + u 2 * x 2) * w 2 + (w 0 * x 0 + w 1 * x 1 + w 2 * x 2) * u 2) * hbs
      - ((w 0 * x 0 + w 1 * x 1 + w 2 * x 2) * u 2) * hdqT
      + ((w 0 * u 0 + w 1 * u 1 + w 2 * u 2) * x 2) * hkd
      - (1 / 2 * (u 0 * x 1 - u 1 * x 0)) * hdkT
      + (1 / 2 * ((w 0 * x 0 + w 1 * x 1 + w 2 * x 2) * (w 0 * u 1 - w 1 * u 0)
        + ((w 1 * u 2 - w 2 * u 1) * x 0 + (w 2 * u 0 - w 0 * u 2) * x 1
          + (w 0 * u 1 - w 1 * u 0) * x 2) * w 2)) * hdkb

end SE3
end Verif.Geometry
