import Verif.Geometry.PlanarNear
import Verif.Geometry.SpatialJac
import Verif.Geometry.SO3Near

/-!
# The Jacobians of `SO3.log_map` and `SE3.log_map` in the small-angle branch (C60)

Below the threshold the code replaces the coefficients by truncated series.  For `SO3` the Jacobian
returned is within `θ⁴/16` of the derivative of the logarithm; for `SE3` one of the series has the
wrong sign, so that the error is of order `θ³`.
-/

namespace Verif.Geometry
open Matrix

/-- The scale of the logarithm below its threshold, relative to the exact one. -/
theorem near_lambda {θ : ℝ} (h0 : 0 < θ) (h1 : θ ≤ 1) :
    |(1 + Real.sin θ ^ 2 / 6) / (θ / Real.sin θ) - 1| ≤ θ ^ 4 / 12 := by
  have hs : 0 < Real.sin θ := Real.sin_pos_of_pos_of_lt_pi h0 (by linarith [Real.pi_gt_three])
  have hup := SO3.sin_series_le h0.le
  obtain ⟨-, hb⟩ := sin_cos_taylor (θ := θ) (by rw [abs_of_pos h0]; exact h1)
  have hlow : θ - θ ^ 3 / 6 ≤ Real.sin θ := by
    have := (abs_le.mp hb).1
    have p7 : θ ^ 7 ≤ θ ^ 5 := pow_le_pow_of_le_one h0.le h1 (by norm_num)
    have p8 : θ ^ 8 ≤ θ ^ 5 := pow_le_pow_of_le_one h0.le h1 (by norm_num)
    have p5 : 0 < θ ^ 5 := by positivity
    linarith
  have hx : 0 ≤ θ - θ ^ 3 / 6 := by
    have : θ ^ 3 ≤ θ := by nlinarith [mul_pos h0 h0]
    linarith
  have h3 : (θ - θ ^ 3 / 6) ^ 3 ≤ Real.sin θ ^ 3 := pow_le_pow_left₀ hx hlow 3
  have h3' : θ ^ 3 - θ ^ 5 / 2 ≤ (θ - θ ^ 3 / 6) ^ 3 := by
    have e : (θ - θ ^ 3 / 6) ^ 3 = θ ^ 3 - θ ^ 5 / 2 + θ ^ 7 / 12 * (1 - θ ^ 2 / 18) := by ring
    rw [e]
    have : 0 ≤ 1 - θ ^ 2 / 18 := by nlinarith
    have : 0 ≤ θ ^ 7 / 12 * (1 - θ ^ 2 / 18) := by positivity
    linarith
  have e : (1 + Real.sin θ ^ 2 / 6) / (θ / Real.sin θ) - 1
      = (Real.sin θ + Real.sin θ ^ 3 / 6 - θ) / θ := by field_simp
  rw [e, abs_div, abs_of_pos h0, div_le_iff₀ h0, abs_le]
  have e5 : θ ^ 4 / 12 * θ = θ ^ 5 / 12 := by ring
  rw [e5]
  have p5 : 0 < θ ^ 5 := by positivity
  constructor <;> linarith

/-- The lower bound of `1 - cos θ` used below. -/
theorem one_sub_cos_ge {θ : ℝ} (h : |θ| ≤ 1) : 45 / 100 * θ ^ 2 ≤ 1 - Real.cos θ := by
  obtain ⟨hc, -⟩ := sin_cos_taylor h
  have h1 : θ ^ 2 ≤ 1 := by rw [← sq_abs]; exact pow_le_one₀ (abs_nonneg _) h
  have p4 : θ ^ 4 ≤ θ ^ 2 := by nlinarith [sq_nonneg θ]
  have p6 : θ ^ 6 ≤ θ ^ 4 := by nlinarith [sq_nonneg (θ ^ 2)]
  have p8 : θ ^ 8 ≤ θ ^ 6 := by nlinarith [sq_nonneg (θ ^ 3)]
  have p60 : 0 ≤ θ ^ 6 := by positivity
  have := (abs_le.mp hc).2
  linarith

/-- The coefficient `d` and its series. -/
theorem coeffD_series {θ : ℝ} (h0 : 0 < θ) (h1 : θ ≤ 1) :
    |(θ - Real.sin θ) / (θ * (2 * Real.cos θ - 2)) - (-1 / 6 - θ ^ 2 / 180)| ≤ θ ^ 4 / 3600 := by
  have habs : |θ| ≤ 1 := by rw [abs_of_pos h0]; exact h1
  obtain ⟨hc, hs⟩ := sin_cos_taylor habs
  have hden := one_sub_cos_ge habs
  set ec := Real.cos θ - (1 - θ ^ 2 / 2 + θ ^ 4 / 24 - θ ^ 6 / 720) with hec
  set es := Real.sin θ - (θ - θ ^ 3 / 6 + θ ^ 5 / 120 - θ ^ 7 / 5040) with hes
  have p7 : 0 ≤ θ ^ 7 := by positivity
  have p8 : θ ^ 8 ≤ θ ^ 7 := pow_le_pow_of_le_one h0.le h1 (by norm_num)
  have p9 : θ ^ 9 ≤ θ ^ 7 := pow_le_pow_of_le_one h0.le h1 (by norm_num)
  have p9' : 0 ≤ θ ^ 9 := by positivity
  have h2 : 0 < θ ^ 2 := by positivity
  have h21 : θ ^ 2 ≤ 1 := pow_le_one₀ h0.le h1
  have hpos : 0 < 1 - Real.cos θ := lt_of_lt_of_le (by positivity) hden
  have hD : 0 < 2 * θ * (1 - Real.cos θ) := by positivity
  have hD' : 2 * Real.cos θ - 2 ≠ 0 := by linarith
  have e : (θ - Real.sin θ) / (θ * (2 * Real.cos θ - 2)) - (-1 / 6 - θ ^ 2 / 180)
      = -(((θ - Real.sin θ) - (1 / 6 + θ ^ 2 / 180) * (2 * θ * (1 - Real.cos θ)))
        / (2 * θ * (1 - Real.cos θ))) := by
    have : (2 * Real.cos θ - 2) = -(2 * (1 - Real.cos θ)) := by ring
    rw [this]
    have := hpos.ne'
    field_simp
    ring
  have hn : (θ - Real.sin θ) - (1 / 6 + θ ^ 2 / 180) * (2 * θ * (1 - Real.cos θ))
      = θ ^ 7 * (1 / 5040) - θ ^ 9 * (1 / 64800) - es + (1 / 6 + θ ^ 2 / 180) * (2 * θ) * ec := by
    rw [hec, hes]; ring
  rw [e, abs_neg, abs_div, abs_of_pos hD, div_le_iff₀ hD, hn]
  have t3 : |(1 / 6 + θ ^ 2 / 180) * (2 * θ) * ec| ≤ 1 / 2 * (θ ^ 8 / 35000) := by
    rw [abs_mul]
    refine mul_le_mul ?_ hc (abs_nonneg _) (by norm_num)
    rw [abs_of_pos (by positivity)]
    nlinarith
  have hb : |θ ^ 7 * (1 / 5040) - θ ^ 9 * (1 / 64800) - es + (1 / 6 + θ ^ 2 / 180) * (2 * θ) * ec|
      ≤ θ ^ 7 / 4000 := by
    rw [abs_le] at hs t3 ⊢
    constructor <;> linarith [hs.1, hs.2, t3.1, t3.2]
  refine hb.trans ?_
  have : θ ^ 4 / 3600 * (2 * θ * (45 / 100 * θ ^ 2)) ≤ θ ^ 4 / 3600 * (2 * θ * (1 - Real.cos θ)) := by
    gcongr
  have e7 : θ ^ 4 / 3600 * (2 * θ * (45 / 100 * θ ^ 2)) = θ ^ 7 / 4000 := by ring
  linarith

/-- The coefficient `c` and its series, whose first term is `1/360`. -/
theorem coeffC_series {θ : ℝ} (h0 : 0 < θ) (h1 : θ ≤ 1) :
    |-(2 * (2 * Real.cos θ - 2) + θ * Real.sin θ + θ ^ 2) / ((θ ^ 2) ^ 2 * (2 * Real.cos θ - 2))
      - 1 / 360| ≤ θ ^ 2 / 1500 := by
  have habs : |θ| ≤ 1 := by rw [abs_of_pos h0]; exact h1
  obtain ⟨hc, hs⟩ := sin_cos_taylor habs
  have hden := one_sub_cos_ge habs
  set ec := Real.cos θ - (1 - θ ^ 2 / 2 + θ ^ 4 / 24 - θ ^ 6 / 720) with hec
  set es := Real.sin θ - (θ - θ ^ 3 / 6 + θ ^ 5 / 120 - θ ^ 7 / 5040) with hes
  have p8 : 0 ≤ θ ^ 8 := by positivity
  have p10 : θ ^ 10 ≤ θ ^ 8 := pow_le_pow_of_le_one h0.le h1 (by norm_num)
  have p10' : 0 ≤ θ ^ 10 := by positivity
  have h2 : 0 < θ ^ 2 := by positivity
  have hpos : 0 < 1 - Real.cos θ := lt_of_lt_of_le (by positivity) hden
  have hD : 0 < 2 * θ ^ 4 * (1 - Real.cos θ) := by positivity
  have e : -(2 * (2 * Real.cos θ - 2) + θ * Real.sin θ + θ ^ 2)
        / ((θ ^ 2) ^ 2 * (2 * Real.cos θ - 2)) - 1 / 360
      = ((-4 * (1 - Real.cos θ) + θ * Real.sin θ + θ ^ 2)
          - 1 / 360 * (2 * θ ^ 4 * (1 - Real.cos θ))) / (2 * θ ^ 4 * (1 - Real.cos θ)) := by
    have : (2 * Real.cos θ - 2) = -(2 * (1 - Real.cos θ)) := by ring
    rw [this]
    have := hpos.ne'
    field_simp
    ring
  have hn : (-4 * (1 - Real.cos θ) + θ * Real.sin θ + θ ^ 2)
        - 1 / 360 * (2 * θ ^ 4 * (1 - Real.cos θ))
      = θ ^ 8 * (1 / 4320 - 1 / 5040) - θ ^ 10 * (1 / 129600) + 4 * ec + θ * es
        + 1 / 180 * θ ^ 4 * ec := by
    rw [hec, hes]; ring
  rw [e, abs_div, abs_of_pos hD, div_le_iff₀ hD, hn]
  have t1 : |θ * es| ≤ 1 * (θ ^ 8 / 35000) := by
    rw [abs_mul]; exact mul_le_mul habs hs (abs_nonneg _) (by norm_num)
  have t2 : |1 / 180 * θ ^ 4 * ec| ≤ 1 / 180 * (θ ^ 8 / 35000) := by
    rw [abs_mul]
    refine mul_le_mul ?_ hc (abs_nonneg _) (by norm_num)
    rw [abs_of_pos (by positivity)]
    have : θ ^ 4 ≤ 1 := pow_le_one₀ h0.le h1
    linarith
  have hb : |θ ^ 8 * (1 / 4320 - 1 / 5040) - θ ^ 10 * (1 / 129600) + 4 * ec + θ * es
        + 1 / 180 * θ ^ 4 * ec| ≤ θ ^ 8 / 5000 := by
    rw [abs_le] at hc t1 t2 ⊢
    constructor <;> linarith [hc.1, hc.2, t1.1, t1.2, t2.1, t2.2]
  refine hb.trans ?_
  have : θ ^ 2 / 1500 * (2 * θ ^ 4 * (45 / 100 * θ ^ 2))
      ≤ θ ^ 2 / 1500 * (2 * θ ^ 4 * (1 - Real.cos θ)) := by
    gcongr
  have e8 : θ ^ 2 / 1500 * (2 * θ ^ 4 * (45 / 100 * θ ^ 2)) = θ ^ 8 * (3 / 5000) := by ring
  linarith

/-- The exact coefficients `a` and `b` of the logarithm's Jacobian at the rotation angle `θ`. -/
theorem coeffAB_series {θ : ℝ} (h0 : 0 < θ) (h1 : θ ≤ 1) :
    |1 - θ ^ 2 / 12 - -(Real.sin θ * θ) / (2 * Real.cos θ - 2)| ≤ θ ^ 4 / 600 ∧
    |1 / 12 + θ ^ 2 / 720 - (Real.sin θ * θ + (2 * Real.cos θ - 2))
      / (θ ^ 2 * (2 * Real.cos θ - 2))| ≤ θ ^ 4 / 5000 ∧
    -(Real.sin θ * θ) / (2 * Real.cos θ - 2) + θ ^ 2 * ((Real.sin θ * θ + (2 * Real.cos θ - 2))
      / (θ ^ 2 * (2 * Real.cos θ - 2))) = 1 := by
  have habs : |θ| ≤ 1 := by rw [abs_of_pos h0]; exact h1
  have hR := half_cot_series habs h0.ne'
  have hden := one_sub_cos_ge habs
  have hpos : 0 < 1 - Real.cos θ := lt_of_lt_of_le (by positivity) hden
  have hc : (2 * Real.cos θ - 2) = -(2 * (1 - Real.cos θ)) := by ring
  have hA : -(Real.sin θ * θ) / (2 * Real.cos θ - 2)
      = 1 / 2 * θ * Real.sin θ / (1 - Real.cos θ) := by
    rw [hc]; have := hpos.ne'; field_simp
  have hB : (Real.sin θ * θ + (2 * Real.cos θ - 2)) / (θ ^ 2 * (2 * Real.cos θ - 2))
      = (1 - 1 / 2 * θ * Real.sin θ / (1 - Real.cos θ)) / θ ^ 2 := by
    rw [hc]; have := hpos.ne'; field_simp; ring
  rw [hA, hB]
  set D := 1 / 2 * θ * Real.sin θ / (1 - Real.cos θ)
  have p6 : θ ^ 6 ≤ θ ^ 4 := pow_le_pow_of_le_one h0.le h1 (by norm_num)
  have p4 : 0 ≤ θ ^ 4 := by positivity
  refine ⟨?_, ?_, ?_⟩
  · rw [abs_le] at hR ⊢
    constructor <;> linarith [hR.1, hR.2]
  · have e : 1 / 12 + θ ^ 2 / 720 - (1 - D) / θ ^ 2 = (D - (1 - θ ^ 2 / 12 - θ ^ 4 / 720)) / θ ^ 2 := by
      field_simp; ring
    rw [e, abs_div, abs_of_pos (by positivity : 0 < θ ^ 2), div_le_iff₀ (by positivity)]
    refine hR.trans (le_of_eq ?_)
    ring
  · field_simp; ring

namespace SO3

/-- Not near π if the angle is at most 1. -/
theorem Valid.far_of_le_one {R : M3} (hR : Valid R) {epi : ℝ} (hpi : epi ≤ 1) (h1 : theta R ≤ 1) :
    epi < 1 + cosine R := by
  have : 0 < cosine R := by
    rw [← hR.cos_theta]
    exact Real.cos_pos_of_mem_Ioo ⟨by linarith [Real.pi_pos, hR.theta_nonneg],
      by linarith [Real.pi_gt_three]⟩
  linarith

/-- The logarithm as computed is the exact one scaled by `l`, below and above the threshold. -/
theorem log_scaled {eps epi : ℝ} (hpi : epi ≤ 1) {R : M3} (hR : Valid R) (h0 : 0 < theta R)
    (h1 : theta R ≤ 1) : ∃ l, |l - 1| ≤ theta R ^ 4 / 12 ∧
      log eps epi R = l • ((theta R / sine R) • sineAxis R) := by
  have hf := hR.far_of_le_one hpi h1
  have hs := hR.sine_pos h0 (by linarith [hR.far_of_le_one (le_refl 1) h1])
  unfold log
  rw [if_neg (by linarith)]
  unfold logScale
  split_ifs with h
  · refine ⟨(1 + sine R ^ 2 / 6) / (theta R / sine R), ?_, ?_⟩
    · have := near_lambda h0 h1
      rwa [hR.sin_theta] at this
    · rw [smul_smul]
      congr 1
      field_simp
  · exact ⟨1, by simp; positivity, by rw [one_smul]⟩

theorem log_exact {δ epi : ℝ} (hpi : epi ≤ 1) {R : M3} (hR : Valid R)
    (h1 : theta R ≤ 1) (hδ : δ ≤ theta R) :
    log δ epi R = (theta R / sine R) • sineAxis R := by
  have hf := hR.far_of_le_one hpi h1
  unfold log
  rw [if_neg (by linarith), logScale, if_neg]
  push Not
  exact ⟨hδ, hf⟩

theorem exact_norm {R : M3} (hR : Valid R) (h0 : 0 < theta R) (h1 : theta R ≤ 1) :
    norm3 ((theta R / sine R) • sineAxis R) = theta R := by
  have hs := hR.sine_pos h0 (by linarith [hR.far_of_le_one (le_refl 1) h1])
  rw [norm3_smul, abs_of_pos (by positivity), ← sine]
  field_simp

theorem abs_hat_le {w : V3} {r : ℝ} (h : ∀ i, |w i| ≤ r) (i j : Fin 3) : |hat w i j| ≤ r := by
  have h0 : 0 ≤ r := (abs_nonneg _).trans (h 0)
  fin_cases i <;> fin_cases j <;> simp [hat, h0, h]

/-- The square of the scale times the coefficient `b`. -/
theorem scale_sq {p l b' b : ℝ} (hp1 : p ≤ 1) (hl : |l - 1| ≤ p / 12)
    (hb' : |b'| ≤ 1 / 10) (hb : |b' - b| ≤ p / 5000) : |b' * l ^ 2 - b| ≤ p / 50 := by
  have e : b' * l ^ 2 - b = b' * ((l - 1) * (l + 1)) + (b' - b) := by ring
  have hl1 : |l + 1| ≤ 2 + 1 / 12 := by
    rw [abs_le] at hl ⊢
    constructor <;> linarith [hl.1, hl.2]
  have hp0 : 0 ≤ p := by linarith [abs_nonneg (l - 1)]
  have h1 : |(l - 1) * (l + 1)| ≤ p / 12 * (2 + 1 / 12) := by
    rw [abs_mul]; exact mul_le_mul hl hl1 (abs_nonneg _) (by positivity)
  have h2 : |b' * ((l - 1) * (l + 1))| ≤ 1 / 10 * (p / 12 * (2 + 1 / 12)) := by
    rw [abs_mul]; exact mul_le_mul hb' h1 (abs_nonneg _) (by norm_num)
  rw [e]
  refine (abs_add_le _ _).trans ?_
  linarith

theorem jlogOf_diff {p θ l a' a b' b : ℝ} {w : V3} (hp1 : p ≤ 1) (hθ : θ ≤ 1)
    (hw : ∀ i, |w i| ≤ θ) (hl : |l - 1| ≤ p / 12) (hb' : |b'| ≤ 1 / 10) (ha : |a' - a| ≤ p / 600)
    (hb : |b' - b| ≤ p / 5000) (i j : Fin 3) :
    |jlogOf a' b' (l • w) i j - jlogOf a b w i j| ≤ p / 16 := by
  have hp0 : 0 ≤ p := by linarith [abs_nonneg (l - 1)]
  have e : jlogOf a' b' (l • w) i j - jlogOf a b w i j
      = (b' * l ^ 2 - b) * (w i * w j) + (l - 1) * (1 / 2 * hat w i j)
        + (a' - a) * (1 : M3) i j := by
    simp only [jlogOf, outer3, Matrix.add_apply, Matrix.of_apply, Pi.smul_apply, smul_eq_mul,
      hat_smul, Matrix.smul_apply]
    ring
  have hsq := scale_sq hp1 hl hb' hb
  have t1 : |(b' * l ^ 2 - b) * (w i * w j)| ≤ p / 50 * 1 := by
    rw [abs_mul]
    refine mul_le_mul hsq ?_ (abs_nonneg _) (by positivity)
    rw [abs_mul]
    calc |w i| * |w j| ≤ 1 * 1 :=
          mul_le_mul ((hw i).trans hθ) ((hw j).trans hθ) (abs_nonneg _) (by norm_num)
      _ = 1 := by norm_num
  have t2 : |(l - 1) * (1 / 2 * hat w i j)| ≤ p / 12 * (1 / 2) := by
    rw [abs_mul]
    refine mul_le_mul hl ?_ (abs_nonneg _) (by positivity)
    rw [abs_mul, abs_of_pos (by norm_num : (0 : ℝ) < 1 / 2)]
    linarith [(abs_hat_le hw i j).trans hθ]
  rw [e]
  by_cases hij : i = j
  · have hz : hat w i j = 0 := by
      subst hij; fin_cases i <;> simp [hat]
    have t3 : |(a' - a) * (1 : M3) i j| ≤ p / 600 := by
      rw [hij, Matrix.one_apply_eq, mul_one]; exact ha
    rw [hz, mul_zero, mul_zero, add_zero]
    refine (abs_add_le _ _).trans ?_
    linarith
  · rw [Matrix.one_apply_ne hij, mul_zero, add_zero]
    refine (abs_add_le _ _).trans ?_
    linarith

end SO3

/-- Below the threshold every entry of the Jacobian returned by `SO3.log_map` is within `θ⁴/16` of
that of the derivative `J` of the logarithm (the formula that `log_map` uses above its own
threshold, the inverse of `exp_map`). -/
theorem so3_log_jac_near {eps deps epi : ℝ} (hd : deps ≤ 1) (hpi0 : 0 ≤ epi) (hpi : epi ≤ 1)
    {R : M3} (hR : Rᵀ * R = 1 ∧ R.det = 1) (h0 : 0 < SO3.theta R) (h1 : SO3.theta R < deps) :
    ∃ J : M3, (∀ δ, 0 < δ → δ < SO3.theta R → SO3.emb.HasJac (SO3.log δ epi) R J) ∧
      ∀ i j, |SO3.jlog eps deps epi R i j - J i j| ≤ SO3.theta R ^ 4 / 16 := by
  have hR' : SO3.Valid R := hR
  have hθ1 : SO3.theta R ≤ 1 := (h1.trans_le hd).le
  have hf := hR'.far_of_le_one hpi hθ1
  obtain ⟨l, hl, hlog⟩ := SO3.log_scaled (eps := eps) hpi hR' h0 hθ1
  obtain ⟨hA, hB, -⟩ := coeffAB_series h0 hθ1
  rw [hR'.sin_theta, hR'.cos_theta] at hA hB
  have hn := SO3.exact_norm hR' h0 hθ1
  set w := (SO3.theta R / SO3.sine R) • SO3.sineAxis R with hw
  have hwi : ∀ i, |w i| ≤ SO3.theta R := fun i => by
    rw [← hn]; exact SO3.abs_le_norm3 w i
  refine ⟨SO3.jlogOf (SO3.logA 0 R) (SO3.logB 0 R) w, fun δ hδ hlt => ?_, fun i j => ?_⟩
  · have := SO3.log_jac_far (deps := 0) hδ hpi0 hR' hlt h0.le hf
    simp only [SO3.ops, SO3.jlog, SO3.log_exact hpi hR' hθ1 hlt.le, ← hw] at this
    exact this
  · simp only [SO3.jlog, hlog]
    set θ := SO3.theta R
    have hnn : ¬ θ < 0 := not_lt.mpr h0.le
    simp only [SO3.logA, SO3.logB, if_pos (show SO3.theta R < deps from h1),
      if_neg (show ¬ SO3.theta R < 0 from hnn)]
    have hp : θ ^ 4 ≤ 1 := pow_le_one₀ h0.le hθ1
    refine SO3.jlogOf_diff hp hθ1 hwi hl ?_ hA hB i j
    have : θ ^ 2 ≤ 1 := pow_le_one₀ h0.le hθ1
    rw [abs_of_pos (by positivity)]
    linarith

namespace SE3

/-- The sum of the absolute values of the components. -/
def sum3 (t : V3) : ℝ := |t 0| + |t 1| + |t 2|

theorem abs_le_sum3 (t : V3) (i : Fin 3) : |t i| ≤ sum3 t := by
  have h0 := abs_nonneg (t 0)
  have h1 := abs_nonneg (t 1)
  have h2 := abs_nonneg (t 2)
  unfold sum3
  fin_cases i
  · show |t 0| ≤ _; linarith
  · show |t 1| ≤ _; linarith
  · show |t 2| ≤ _; linarith

theorem abs_dot_le {w t : V3} {r : ℝ} (h : ∀ i, |w i| ≤ r) : |dot3 w t| ≤ r * sum3 t := by
  unfold dot3 sum3
  refine (abs_add_three _ _ _).trans ?_
  rw [abs_mul, abs_mul, abs_mul]
  have h0 := mul_le_mul_of_nonneg_right (h 0) (abs_nonneg (t 0))
  have h1 := mul_le_mul_of_nonneg_right (h 1) (abs_nonneg (t 1))
  have h2 := mul_le_mul_of_nonneg_right (h 2) (abs_nonneg (t 2))
  linarith

theorem abs_dot_le' {w d : V3} {r q : ℝ} (hr : 0 ≤ r) (h : ∀ i, |w i| ≤ r) (hd : ∀ i, |d i| ≤ q) :
    |dot3 w d| ≤ r * (3 * q) := by
  refine (abs_dot_le h).trans (mul_le_mul_of_nonneg_left ?_ hr)
  unfold sum3
  linarith [hd 0, hd 1, hd 2]

theorem abs_cross_le {w t : V3} {r : ℝ} (h : ∀ i, |w i| ≤ r) (i : Fin 3) :
    |cross3 w t i| ≤ r * sum3 t := by
  have key : ∀ i j k l : Fin 3, |w i * t j - w k * t l| ≤ r * (|t j| + |t l|) := by
    intro i j k l
    refine (abs_sub _ _).trans ?_
    rw [abs_mul, abs_mul]
    have h0 := mul_le_mul_of_nonneg_right (h i) (abs_nonneg (t j))
    have h1 := mul_le_mul_of_nonneg_right (h k) (abs_nonneg (t l))
    linarith
  have hr : 0 ≤ r := (abs_nonneg _).trans (h 0)
  have h0 := abs_nonneg (t 0)
  have h1 := abs_nonneg (t 1)
  have h2 := abs_nonneg (t 2)
  unfold sum3
  fin_cases i
  · exact (key 1 2 2 1).trans (mul_le_mul_of_nonneg_left (by linarith) hr)
  · exact (key 2 0 0 2).trans (mul_le_mul_of_nonneg_left (by linarith) hr)
  · exact (key 0 1 1 0).trans (mul_le_mul_of_nonneg_left (by linarith) hr)

theorem logT_diff {p θ l a' a b' b : ℝ} {w t : V3} (hp1 : p ≤ 1) (hθ : θ ≤ 1)
    (hw : ∀ i, |w i| ≤ θ) (hl : |l - 1| ≤ p / 12) (hb' : |b'| ≤ 1 / 10) (ha : |a' - a| ≤ p / 600)
    (hb : |b' - b| ≤ p / 5000) (i : Fin 3) :
    |logT a' b' t (l • w) i - logT a b t w i| ≤ p / 15 * sum3 t := by
  have hp0 : 0 ≤ p := by linarith [abs_nonneg (l - 1)]
  have hT : 0 ≤ sum3 t := (abs_nonneg _).trans (abs_le_sum3 t 0)
  have hw1 : ∀ i, |w i| ≤ 1 := fun i => (hw i).trans hθ
  have e : logT a' b' t (l • w) i - logT a b t w i
      = (a' - a) * t i - (l - 1) * (1 / 2 * cross3 w t i) + (b' * l ^ 2 - b) * (dot3 w t * w i) := by
    have hc : cross3 (l • w) t i = l * cross3 w t i := by
      fin_cases i <;> simp [cross3] <;> ring
    have hd : dot3 (l • w) t = l * dot3 w t := by simp [dot3]; ring
    simp only [logT, Pi.add_apply, Pi.sub_apply, Pi.smul_apply, smul_eq_mul, hc, hd]
    ring
  have hsq := SO3.scale_sq hp1 hl hb' hb
  have t1 : |(a' - a) * t i| ≤ p / 600 * sum3 t := by
    rw [abs_mul]; exact mul_le_mul ha (abs_le_sum3 t i) (abs_nonneg _) (by positivity)
  have t2 : |(l - 1) * (1 / 2 * cross3 w t i)| ≤ p / 12 * (1 / 2 * sum3 t) := by
    rw [abs_mul]
    refine mul_le_mul hl ?_ (abs_nonneg _) (by positivity)
    rw [abs_mul, abs_of_pos (by norm_num : (0 : ℝ) < 1 / 2)]
    linarith [abs_cross_le (t := t) hw1 i]
  have t3 : |(b' * l ^ 2 - b) * (dot3 w t * w i)| ≤ p / 50 * (sum3 t * 1) := by
    rw [abs_mul]
    refine mul_le_mul hsq ?_ (abs_nonneg _) (by positivity)
    rw [abs_mul]
    exact mul_le_mul (by linarith [abs_dot_le (t := t) hw1]) (hw1 i) (abs_nonneg _) hT
  rw [e]
  have hpT : 0 ≤ p * sum3 t := by positivity
  refine ((abs_add_le _ _).trans (add_le_add_left (abs_sub _ _) _)).trans ?_
  linarith

theorem logT_bound {θ a b : ℝ} {w t : V3} (hθ : θ ≤ 1) (hw : ∀ i, |w i| ≤ θ) (ha : |a| ≤ 1)
    (hb : |b| ≤ 1 / 10) (i : Fin 3) : |logT a b t w i| ≤ 8 / 5 * sum3 t := by
  have hT : 0 ≤ sum3 t := (abs_nonneg _).trans (abs_le_sum3 t 0)
  have hw1 : ∀ i, |w i| ≤ 1 := fun i => (hw i).trans hθ
  simp only [logT, Pi.add_apply, Pi.sub_apply, Pi.smul_apply, smul_eq_mul]
  have t1 : |a * t i| ≤ 1 * sum3 t := by
    rw [abs_mul]; exact mul_le_mul ha (abs_le_sum3 t i) (abs_nonneg _) (by norm_num)
  have t2 : |1 / 2 * cross3 w t i| ≤ 1 / 2 * sum3 t := by
    rw [abs_mul, abs_of_pos (by norm_num : (0 : ℝ) < 1 / 2)]
    linarith [abs_cross_le (t := t) hw1 i]
  have t3 : |b * (dot3 w t * w i)| ≤ 1 / 10 * (sum3 t * 1) := by
    rw [abs_mul]
    refine mul_le_mul hb ?_ (abs_nonneg _) (by norm_num)
    rw [abs_mul]
    exact mul_le_mul (by linarith [abs_dot_le (t := t) hw1]) (hw1 i) (abs_nonneg _) hT
  refine ((abs_add_le _ _).trans (add_le_add_left (abs_sub _ _) _)).trans ?_
  linarith

theorem dot_logT {θ a b : ℝ} {w t : V3} (hw : dot3 w w = θ ^ 2) (hab : a + θ ^ 2 * b = 1) :
    dot3 w (logT a b t w) = dot3 w t := by
  have e : dot3 w (logT a b t w) = (a + dot3 w w * b) * dot3 w t := by
    simp only [dot3, logT, cross3, Pi.add_apply, Pi.sub_apply, Pi.smul_apply, smul_eq_mul,
      Matrix.cons_val_zero, Matrix.cons_val_one, Matrix.cons_val]
    ring
  rw [e, hw, hab, one_mul]

/-- The upper right block: `p` stands for `θ⁴`. -/
theorem jlogT_diff {p θ l b' b c' c d' d T : ℝ} {w u' u : V3} (hp : p = θ ^ 4) (h0 : 0 ≤ θ)
    (hθ : θ ≤ 1) (hT : 0 ≤ T) (hw : ∀ i, |w i| ≤ θ) (hl : |l - 1| ≤ p / 12) (hb' : |b'| ≤ 1 / 10)
    (hb : |b' - b| ≤ p / 5000) (hc' : |c'| ≤ 1 / 300) (hc : |c' - c| ≤ 1 / 180 + θ ^ 2 / 1200)
    (hd' : |d'| ≤ 1 / 5) (hd : |d' - d| ≤ p / 3600) (hu : ∀ i, |u i| ≤ 8 / 5 * T)
    (huu : ∀ i, |u' i - u i| ≤ p / 15 * T) (he : |dot3 w u| ≤ θ * T) (i j : Fin 3) :
    |jlogT b' c' d' u' (l • w) i j - jlogT b c d u w i j| ≤ θ ^ 3 / 180 * T + p / 7 * T := by
  have hp0 : 0 ≤ p := by rw [hp]; positivity
  have hp1 : p ≤ 1 := by rw [hp]; exact pow_le_one₀ h0 hθ
  have hpT : 0 ≤ p * T := by positivity
  have hl2 : |l| ≤ 13 / 12 := by
    rw [abs_le] at hl ⊢
    constructor <;> linarith [hl.1, hl.2]
  set e := dot3 w u with hedef
  have hdsub : dot3 (l • w) u' - e = (l - 1) * e + l * dot3 w (u' - u) := by
    simp [hedef, dot3]; ring
  set e' := dot3 (l • w) u' with he'def
  have hdd : |dot3 w (u' - u)| ≤ θ * (3 * (p / 15 * T)) :=
    abs_dot_le' h0 hw (fun i => huu i)
  have hee : |e' - e| ≤ 3 / 10 * p * (θ * T) := by
    rw [hdsub]
    have t1 : |(l - 1) * e| ≤ p / 12 * (θ * T) := by
      rw [abs_mul]; exact mul_le_mul hl he (abs_nonneg _) (by positivity)
    have t2 : |l * dot3 w (u' - u)| ≤ 13 / 12 * (θ * (3 * (p / 15 * T))) := by
      rw [abs_mul]; exact mul_le_mul hl2 hdd (abs_nonneg _) (by norm_num)
    refine (abs_add_le _ _).trans ?_
    have : 0 ≤ p * (θ * T) := by positivity
    linarith
  have hθT : θ * T ≤ T := by
    have := mul_le_mul_of_nonneg_right hθ hT
    linarith
  have hθT0 : 0 ≤ θ * T := by positivity
  -- the four terms
  have e0 : jlogT b' c' d' u' (l • w) i j - jlogT b c d u w i j
      = ((c' - c) * e + c' * (l ^ 2 * (e' - e) + (l - 1) * (l + 1) * e)) * (w i * w j)
        + (w i * ((b' * (l - 1) + (b' - b)) * u j + b' * l * (u' j - u j))
          + w j * ((b' * (l - 1) + (b' - b)) * u i + b' * l * (u' i - u i)))
        + ((e' - e) * d' + e * (d' - d)) * (1 : M3) i j
        + 1 / 2 * SO3.hat (u' - u) i j := by
    have hh : SO3.hat (u' - u) i j = SO3.hat u' i j - SO3.hat u i j := by
      fin_cases i <;> fin_cases j <;> simp [SO3.hat] <;> ring
    simp only [jlogT, ← he'def, ← hedef, outer3, Matrix.add_apply, Matrix.of_apply, Pi.smul_apply,
      smul_eq_mul, Matrix.smul_apply, SO3.hat_smul, hh]
    ring
  have hww : |w i * w j| ≤ θ ^ 2 := by
    rw [abs_mul, sq]; exact mul_le_mul (hw i) (hw j) (abs_nonneg _) h0
  have hl1 : |l + 1| ≤ 25 / 12 := by
    rw [abs_le] at hl ⊢
    constructor <;> linarith [hl.1, hl.2]
  have s1 : |(c' - c) * e| ≤ (1 / 180 + θ ^ 2 / 1200) * (θ * T) := by
    rw [abs_mul]; exact mul_le_mul hc he (abs_nonneg _) (by positivity)
  have s2 : |l ^ 2 * (e' - e)| ≤ (13 / 12) ^ 2 * (3 / 10 * p * (θ * T)) := by
    rw [abs_mul, abs_pow]
    exact mul_le_mul (pow_le_pow_left₀ (abs_nonneg _) hl2 2) hee (abs_nonneg _) (by norm_num)
  have s3 : |(l - 1) * (l + 1) * e| ≤ p / 12 * (25 / 12) * (θ * T) := by
    rw [abs_mul, abs_mul]
    exact mul_le_mul (mul_le_mul hl hl1 (abs_nonneg _) (by positivity)) he (abs_nonneg _)
      (by positivity)
  have hpθT : 0 ≤ p * (θ * T) := by positivity
  have s4 : |c' * (l ^ 2 * (e' - e) + (l - 1) * (l + 1) * e)| ≤ 1 / 300 * (p * (θ * T)) := by
    rw [abs_mul]
    refine mul_le_mul hc' ((abs_add_le _ _).trans ?_) (abs_nonneg _) (by norm_num)
    linarith
  have s5 : |(c' - c) * e + c' * (l ^ 2 * (e' - e) + (l - 1) * (l + 1) * e)|
      ≤ (1 / 180 + θ ^ 2 / 1200) * (θ * T) + 1 / 300 * (p * (θ * T)) :=
    (abs_add_le _ _).trans (add_le_add s1 s4)
  have hθ2 : θ ^ 2 ≤ 1 := pow_le_one₀ h0 hθ
  have term1 : |((c' - c) * e + c' * (l ^ 2 * (e' - e) + (l - 1) * (l + 1) * e)) * (w i * w j)|
      ≤ θ ^ 3 / 180 * T + 1 / 200 * (p * T) := by
    rw [abs_mul]
    have hq : 0 ≤ (1 / 180 + θ ^ 2 / 1200) * (θ * T) + 1 / 300 * (p * (θ * T)) := by positivity
    refine (mul_le_mul s5 hww (abs_nonneg _) hq).trans ?_
    have e3 : ((1 / 180 + θ ^ 2 / 1200) * (θ * T) + 1 / 300 * (p * (θ * T))) * θ ^ 2
        = θ ^ 3 / 180 * T + 1 / 1200 * (p * (θ * T)) + 1 / 300 * (p * (θ * T)) * θ ^ 2 := by
      rw [hp]; ring
    rw [e3]
    have q1 : p * (θ * T) ≤ p * T := mul_le_mul_of_nonneg_left hθT hp0
    have q2 : 1 / 300 * (p * (θ * T)) * θ ^ 2 ≤ 1 / 300 * (p * T) := by
      calc 1 / 300 * (p * (θ * T)) * θ ^ 2 ≤ 1 / 300 * (p * (θ * T)) * 1 :=
            mul_le_mul_of_nonneg_left hθ2 (by positivity)
        _ ≤ _ := by linarith
    linarith
  have hbl : |b' * (l - 1) + (b' - b)| ≤ p / 115 := by
    have : |b' * (l - 1)| ≤ 1 / 10 * (p / 12) := by
      rw [abs_mul]; exact mul_le_mul hb' hl (abs_nonneg _) (by norm_num)
    refine (abs_add_le _ _).trans ?_
    linarith
  have hb2 : |b' * l| ≤ 1 / 10 * (13 / 12) := by
    rw [abs_mul]; exact mul_le_mul hb' hl2 (abs_nonneg _) (by norm_num)
  have cross : ∀ i j, |w i * ((b' * (l - 1) + (b' - b)) * u j + b' * l * (u' j - u j))|
      ≤ 22 / 1000 * (p * T) := by
    intro i j
    have a1 : |(b' * (l - 1) + (b' - b)) * u j| ≤ p / 115 * (8 / 5 * T) := by
      rw [abs_mul]; exact mul_le_mul hbl (hu j) (abs_nonneg _) (by positivity)
    have a2 : |b' * l * (u' j - u j)| ≤ 1 / 10 * (13 / 12) * (p / 15 * T) := by
      rw [abs_mul]; exact mul_le_mul hb2 (huu j) (abs_nonneg _) (by norm_num)
    have a3 : |(b' * (l - 1) + (b' - b)) * u j + b' * l * (u' j - u j)| ≤ 22 / 1000 * (p * T) := by
      refine (abs_add_le _ _).trans ?_
      linarith
    rw [abs_mul]
    calc _ ≤ 1 * (22 / 1000 * (p * T)) :=
          mul_le_mul ((hw i).trans hθ) a3 (abs_nonneg _) (by norm_num)
      _ = _ := one_mul _
  have term2 := (abs_add_le _ _).trans (add_le_add (cross i j) (cross j i))
  have t3 : |(e' - e) * d' + e * (d' - d)| ≤ 61 / 1000 * (p * T) := by
    have a1 : |(e' - e) * d'| ≤ 3 / 10 * p * (θ * T) * (1 / 5) := by
      rw [abs_mul]; exact mul_le_mul hee hd' (abs_nonneg _) (by positivity)
    have a2 : |e * (d' - d)| ≤ θ * T * (p / 3600) := by
      rw [abs_mul]; exact mul_le_mul he hd (abs_nonneg _) (by positivity)
    have q1 : p * (θ * T) ≤ p * T := mul_le_mul_of_nonneg_left hθT hp0
    refine (abs_add_le _ _).trans ?_
    linarith
  have hhat : |1 / 2 * SO3.hat (u' - u) i j| ≤ 1 / 30 * (p * T) := by
    rw [abs_mul, abs_of_pos (by norm_num : (0 : ℝ) < 1 / 2)]
    have := SO3.abs_hat_le (w := u' - u) (fun i => huu i) i j
    linarith
  rw [e0]
  by_cases hij : i = j
  · have hz : SO3.hat (u' - u) i j = 0 := by subst hij; fin_cases i <;> simp [SO3.hat]
    rw [hz, mul_zero, add_zero, hij, Matrix.one_apply_eq, mul_one, ← hij]
    refine (abs_add_three _ _ _).trans ?_
    rw [hij] at term1 term2 ⊢
    linarith
  · rw [Matrix.one_apply_ne hij, mul_zero, add_zero]
    refine (abs_add_three _ _ _).trans ?_
    linarith

theorem block_diff {A A' B B' : M3} {r : ℝ} (hr : 0 ≤ r) (hA : ∀ i j, |A i j - A' i j| ≤ r)
    (hB : ∀ i j, |B i j - B' i j| ≤ r) (i j : Fin 6) :
    |block A B 0 A i j - block A' B' 0 A' i j| ≤ r := by
  fin_cases i <;> fin_cases j <;>
    first
    | exact hA _ _
    | exact hB _ _
    | simpa [block] using hr

end SE3

theorem coeff_bounds {θ : ℝ} (h0 : 0 < θ) (h1 : θ ≤ 1) :
    |1 / 12 + θ ^ 2 / 720| ≤ 1 / 10 ∧ |-1 / 360 - θ ^ 2 / 7560| ≤ 1 / 300 ∧
    |-1 / 6 - θ ^ 2 / 180| ≤ 1 / 5 := by
  have h2 : θ ^ 2 ≤ 1 := pow_le_one₀ h0.le h1
  have h3 : 0 < θ ^ 2 := by positivity
  refine ⟨?_, ?_, ?_⟩ <;> rw [abs_le] <;> constructor <;> linarith

/-- Below the threshold every entry of the Jacobian returned by `SE3.log_map` is within
`θ³/180 (|t₀| + |t₁| + |t₂|)` and terms of fourth order of that of the derivative `J` of the
logarithm (the formula that `log_map` uses above its own threshold).  The term of third order is
due to a wrong sign, see `se3_log_jac_wrong`. -/
theorem se3_log_jac_near {eps deps epi : ℝ} (hd : deps ≤ 1) (hpi0 : 0 ≤ epi) (hpi : epi ≤ 1)
    {g : SE3} (hg : g.Rᵀ * g.R = 1 ∧ g.R.det = 1) (h0 : 0 < SO3.theta g.R)
    (h1 : SO3.theta g.R < deps) :
    ∃ J : Matrix (Fin 6) (Fin 6) ℝ,
      (∀ δ, 0 < δ → δ < SO3.theta g.R → SE3.emb.HasJac (SE3.log δ epi) g J) ∧
      ∀ i j, |SE3.jlog eps deps epi g i j - J i j|
        ≤ SO3.theta g.R ^ 3 / 180 * (|g.t 0| + |g.t 1| + |g.t 2|)
          + SO3.theta g.R ^ 4 * (1 / 16 + (|g.t 0| + |g.t 1| + |g.t 2|) / 7) := by
  have hR' : SO3.Valid g.R := hg
  have hθ1 : SO3.theta g.R ≤ 1 := (h1.trans_le hd).le
  have hf := hR'.far_of_le_one hpi hθ1
  obtain ⟨l, hl, hlog⟩ := SO3.log_scaled (eps := eps) hpi hR' h0 hθ1
  obtain ⟨hA, hB, hAB⟩ := coeffAB_series h0 hθ1
  have hC := coeffC_series h0 hθ1
  have hD := coeffD_series h0 hθ1
  obtain ⟨bB, bC, bD⟩ := coeff_bounds h0 hθ1
  rw [hR'.sin_theta, hR'.cos_theta] at hA hB hAB hC hD
  have hn := SO3.exact_norm hR' h0 hθ1
  set w := (SO3.theta g.R / SO3.sine g.R) • SO3.sineAxis g.R with hw
  have hwi : ∀ i, |w i| ≤ SO3.theta g.R := fun i => by
    rw [← hn]; exact SO3.abs_le_norm3 w i
  have hww : dot3 w w = SO3.theta g.R ^ 2 := by rw [← SO3.norm3_sq, hn]
  have hp : SO3.theta g.R ^ 4 ≤ 1 := pow_le_one₀ h0.le hθ1
  have hp0 : 0 ≤ SO3.theta g.R ^ 4 := by positivity
  have hsq1 : SO3.theta g.R ^ 2 ≤ 1 := pow_le_one₀ h0.le hθ1
  have hsq0 : 0 < SO3.theta g.R ^ 2 := by positivity
  have hsq4 : SO3.theta g.R ^ 4 ≤ SO3.theta g.R ^ 2 :=
    pow_le_pow_of_le_one h0.le hθ1 (by norm_num)
  have hnn : ∀ δ, δ ≤ SO3.theta g.R → ¬ SO3.theta g.R < δ := fun δ h => not_lt.mpr h
  -- the exact coefficients
  have hexA : ∀ δ, δ ≤ SO3.theta g.R → SO3.logA δ g.R
      = -(SO3.sine g.R * SO3.theta g.R) / (2 * SO3.cosine g.R - 2) := fun δ h => by
    simp only [SO3.logA, if_neg (hnn δ h)]
  have hexB : ∀ δ, δ ≤ SO3.theta g.R → SO3.logB δ g.R
      = (SO3.sine g.R * SO3.theta g.R + (2 * SO3.cosine g.R - 2))
        / (SO3.theta g.R ^ 2 * (2 * SO3.cosine g.R - 2)) := fun δ h => by
    simp only [SO3.logB, if_neg (hnn δ h)]
  have hexC : SE3.logC 0 g.R
      = -(2 * (2 * SO3.cosine g.R - 2) + SO3.theta g.R * SO3.sine g.R + SO3.theta g.R ^ 2)
        / ((SO3.theta g.R ^ 2) ^ 2 * (2 * SO3.cosine g.R - 2)) := by
    simp only [SE3.logC, if_neg (hnn 0 h0.le)]
  have hexD : SE3.logD 0 g.R
      = (SO3.theta g.R - SO3.sine g.R) / (SO3.theta g.R * (2 * SO3.cosine g.R - 2)) := by
    simp only [SE3.logD, if_neg (hnn 0 h0.le)]
  rw [← hexA 0 h0.le] at hA hAB
  rw [← hexB 0 h0.le] at hB hAB
  rw [← hexC] at hC
  rw [← hexD] at hD
  set a := SO3.logA 0 g.R
  set b := SO3.logB 0 g.R
  have ha1 : |a| ≤ 1 := by
    rw [abs_le] at hA ⊢
    constructor <;> linarith [hA.1, hA.2]
  have hb1 : |b| ≤ 1 / 10 := by
    rw [abs_le] at hB ⊢
    constructor <;> linarith [hB.1, hB.2]
  refine ⟨SE3.block (SO3.jlogOf a b w) (SE3.jlogT b (SE3.logC 0 g.R) (SE3.logD 0 g.R)
      (SE3.logT a b g.t w) w) 0 (SO3.jlogOf a b w), fun δ hδ hlt => ?_, ?_⟩
  · have := SE3.log_jac_far (deps := 0) hδ hpi0 hg hlt h0.le hf
    simp only [SE3.ops, SE3.jlog, SE3.log, SO3.log_exact hpi hR' hθ1 hlt.le, ← hw,
      SE3.ang_join, SE3.lin_join, hexA δ hlt.le, hexB δ hlt.le, ← hexA 0 h0.le,
      ← hexB 0 h0.le] at this
    exact this
  · simp only [SE3.jlog, SE3.log, SE3.ang_join, SE3.lin_join, hlog]
    have hA' : SO3.logA deps g.R = 1 - SO3.theta g.R ^ 2 / 12 := by simp [SO3.logA, h1]
    have hB' : SO3.logB deps g.R = 1 / 12 + SO3.theta g.R ^ 2 / 720 := by simp [SO3.logB, h1]
    have hC' : SE3.logC deps g.R = -1 / 360 - SO3.theta g.R ^ 2 / 7560 := by simp [SE3.logC, h1]
    have hD' : SE3.logD deps g.R = -1 / 6 - SO3.theta g.R ^ 2 / 180 := by simp [SE3.logD, h1]
    rw [hA', hB', hC', hD']
    -- the logarithm itself
    have hu : ∀ i, |SE3.logT (SO3.logA eps g.R) (SO3.logB eps g.R) g.t (l • w) i
        - SE3.logT a b g.t w i| ≤ SO3.theta g.R ^ 4 / 15 * SE3.sum3 g.t := by
      intro i
      by_cases hlt : SO3.theta g.R < eps
      · refine SE3.logT_diff hp hθ1 hwi hl ?_ ?_ ?_ i
        · simp only [SO3.logB, if_pos hlt]; exact bB
        · simp only [SO3.logA, if_pos hlt]; exact hA
        · simp only [SO3.logB, if_pos hlt]; exact hB
      · have hle := not_lt.mp hlt
        refine SE3.logT_diff hp hθ1 hwi hl ?_ ?_ ?_ i
        · rw [hexB eps hle, ← hexB 0 h0.le]; exact hb1
        · rw [hexA eps hle, ← hexA 0 h0.le, sub_self, abs_zero]; positivity
        · rw [hexB eps hle, ← hexB 0 h0.le, sub_self, abs_zero]; positivity
    have hT : (0 : ℝ) ≤ SE3.sum3 g.t := (abs_nonneg _).trans (SE3.abs_le_sum3 g.t 0)
    have hTe : |g.t 0| + |g.t 1| + |g.t 2| = SE3.sum3 g.t := rfl
    rw [hTe]
    have hc : |-1 / 360 - SO3.theta g.R ^ 2 / 7560 - SE3.logC 0 g.R|
        ≤ 1 / 180 + SO3.theta g.R ^ 2 / 1200 := by
      rw [abs_le] at hC ⊢
      constructor <;> linarith [hC.1, hC.2]
    have he : |dot3 w (SE3.logT a b g.t w)| ≤ SO3.theta g.R * SE3.sum3 g.t := by
      rw [SE3.dot_logT hww hAB]
      exact SE3.abs_dot_le hwi
    have hJ := SO3.jlogOf_diff hp hθ1 hwi hl bB hA hB
    have hK := SE3.jlogT_diff rfl h0.le hθ1 hT hwi hl bB hB bC hc bD
      (by rw [abs_sub_comm]; exact hD) (SE3.logT_bound hθ1 hwi ha1 hb1) hu he
    have hq : 0 ≤ SO3.theta g.R ^ 3 / 180 * SE3.sum3 g.t := by positivity
    have hq' : 0 ≤ SO3.theta g.R ^ 4 * (SE3.sum3 g.t / 7) := by positivity
    refine SE3.block_diff (by positivity) (fun i j => (hJ i j).trans ?_)
      (fun i j => (hK i j).trans ?_)
    · linarith
    · linarith

/-- **A defect.**  Below the threshold the Jacobian returned by `SE3.log_map` is wrong: the series
of its third coefficient should start with `+1/360`.  For a rotation by `θ` about the third axis and
a unit translation along it, turning further does not change the third component of the logarithm,
but the entry returned is `-θ³/180 - θ⁵/7560`. -/
theorem se3_log_jac_wrong {eps deps epi θ : ℝ} (he : 0 < eps) (h0 : eps < θ) (h1 : θ < deps)
    (hd : deps ≤ 1) (hpi0 : 0 ≤ epi) (hpi : epi ≤ 1) :
    ∃ g : SE3, (g.Rᵀ * g.R = 1 ∧ g.R.det = 1) ∧ SO3.theta g.R = θ ∧
      SE3.jlog eps deps epi g 2 5 = -θ ^ 3 / 180 - θ ^ 5 / 7560 ∧
      ∀ J, SE3.emb.HasJac (SE3.log eps epi) g J → J 2 5 = 0 := by
  have hθ0 : 0 < θ := he.trans h0
  have hθ1 : θ ≤ 1 := (h1.trans_le hd).le
  have hs : 0 < Real.sin θ := Real.sin_pos_of_pos_of_lt_pi hθ0 (by linarith [Real.pi_gt_three])
  set R : M3 := !![Real.cos θ, -Real.sin θ, 0; Real.sin θ, Real.cos θ, 0; 0, 0, 1] with hRdef
  have hid := Real.cos_sq_add_sin_sq θ
  have hR : Rᵀ * R = 1 ∧ R.det = 1 := by
    constructor
    · ext i j
      fin_cases i <;> fin_cases j <;>
        simp [hRdef, Matrix.mul_apply, Fin.sum_univ_three] <;> linarith
    · simp [hRdef, Matrix.det_fin_three]; linarith
  have hax : SO3.sineAxis R = ![0, 0, Real.sin θ] := by
    ext i; fin_cases i <;> simp [SO3.sineAxis, hRdef]; ring
  have hcos : SO3.cosine R = Real.cos θ := by simp [SO3.cosine, hRdef]; ring
  have hsin : SO3.sine R = Real.sin θ := by
    rw [SO3.sine, hax, norm3]
    have : dot3 ![0, 0, Real.sin θ] ![0, 0, Real.sin θ] = Real.sin θ ^ 2 := by simp [dot3]; ring
    rw [this, Real.sqrt_sq hs.le]
  have hth : SO3.theta R = θ := by
    rw [SO3.theta_eq, hcos, hsin]
    exact SO2.arg_cos_sin (by linarith [Real.pi_pos]) (by linarith [Real.pi_gt_three])
  have hf := SO3.Valid.far_of_le_one (R := R) hR hpi (by rw [hth]; exact hθ1)
  have hlog : SO3.log eps epi R = ![0, 0, θ] := by
    rw [SO3.log_exact (R := R) hpi hR (by rw [hth]; exact hθ1) (by rw [hth]; exact h0.le), hth, hsin,
      hax]
    ext i; fin_cases i <;> simp; field_simp
  obtain ⟨-, -, hAB⟩ := coeffAB_series hθ0 hθ1
  have hexA : SO3.logA eps R = -(Real.sin θ * θ) / (2 * Real.cos θ - 2) := by
    simp only [SO3.logA, hth, hsin, hcos, if_neg (not_lt.mpr h0.le)]
  have hexB : SO3.logB eps R = (Real.sin θ * θ + (2 * Real.cos θ - 2))
      / (θ ^ 2 * (2 * Real.cos θ - 2)) := by
    simp only [SO3.logB, hth, hsin, hcos, if_neg (not_lt.mpr h0.le)]
  have hu : SE3.logT (SO3.logA eps R) (SO3.logB eps R) ![0, 0, 1] ![0, 0, θ] = ![0, 0, 1] := by
    rw [← hexA, ← hexB] at hAB
    ext i; fin_cases i
    · simp [SE3.logT, cross3, dot3]
    · simp [SE3.logT, cross3, dot3]
    · simp [SE3.logT, cross3, dot3]; linarith
  refine ⟨⟨R, ![0, 0, 1]⟩, hR, hth, ?_, ?_⟩
  · have hB' : SO3.logB deps R = 1 / 12 + θ ^ 2 / 720 := by simp [SO3.logB, hth, h1]
    have hC' : SE3.logC deps R = -1 / 360 - θ ^ 2 / 7560 := by simp [SE3.logC, hth, h1]
    have hD' : SE3.logD deps R = -1 / 6 - θ ^ 2 / 180 := by simp [SE3.logD, hth, h1]
    simp only [SE3.jlog, SE3.log, hlog, hu, SE3.ang_join, SE3.lin_join]
    show SE3.jlogT _ _ _ _ _ 2 2 = _
    simp only [hB', hC', hD', SE3.jlogT, dot3, outer3, SO3.hat]
    simp
    ring
  · intro J hJ
    have hfar := SE3.log_jac_far (g := ⟨R, ![0, 0, 1]⟩) (deps := 0) he hpi0 hR
      (by rw [hth]; exact h0) (by rw [hth]; exact hθ0.le) hf
    have hval : SE3.emb.valid (⟨R, ![0, 0, 1]⟩ : SE3) := hR
    have := Embedding.HasJac.unique (SE3.lawful (deps := 0) (epi := epi) he) hval hJ hfar
    rw [this]
    have hB' : SO3.logB 0 R = (Real.sin θ * θ + (2 * Real.cos θ - 2))
      / (θ ^ 2 * (2 * Real.cos θ - 2)) := by
      simp only [SO3.logB, hth, hsin, hcos, if_neg (not_lt.mpr hθ0.le)]
    have hC' : SE3.logC 0 R = -(2 * (2 * Real.cos θ - 2) + θ * Real.sin θ + θ ^ 2)
        / ((θ ^ 2) ^ 2 * (2 * Real.cos θ - 2)) := by
      simp only [SE3.logC, hth, hsin, hcos, if_neg (not_lt.mpr hθ0.le)]
    have hD' : SE3.logD 0 R = (θ - Real.sin θ) / (θ * (2 * Real.cos θ - 2)) := by
      simp only [SE3.logD, hth, hsin, hcos, if_neg (not_lt.mpr hθ0.le)]
    have hc0 : 2 * Real.cos θ - 2 ≠ 0 := by
      have := one_sub_cos_ge (θ := θ) (by rw [abs_of_pos hθ0]; exact hθ1)
      have : 0 < 1 - Real.cos θ := lt_of_lt_of_le (by positivity) this
      linarith
    simp only [SE3.ops, SE3.jlog, SE3.log, hlog, hu, SE3.ang_join, SE3.lin_join]
    show SE3.jlogT _ _ _ _ _ 2 2 = _
    simp only [hB', hC', hD', SE3.jlogT, dot3, outer3, SO3.hat]
    simp
    field_simp
    ring

/-- Non-vacuity of the three theorems, with the thresholds of the library for float64: a rotation by
`7/1000`; the Jacobian returned is not the derivative. -/
example : ∃ g : SE3, (g.Rᵀ * g.R = 1 ∧ g.R.det = 1) ∧ 0 < SO3.theta g.R ∧
    SO3.theta g.R < (1 / 100 : ℝ) ∧
    ¬ SE3.emb.HasJac (SE3.log (5 / 1000) (1 / 10 ^ 7)) g
      (SE3.jlog (5 / 1000) (1 / 100) (1 / 10 ^ 7) g) := by
  obtain ⟨g, h1, h2, h3, h4⟩ := se3_log_jac_wrong (eps := 5 / 1000) (deps := 1 / 100)
    (epi := 1 / 10 ^ 7) (θ := 7 / 1000) (by norm_num) (by norm_num) (by norm_num) (by norm_num)
    (by norm_num) (by norm_num)
  refine ⟨g, h1, by rw [h2]; norm_num, by rw [h2]; norm_num, fun h => ?_⟩
  have := h4 _ h
  rw [h3] at this
  norm_num at this

end Verif.Geometry
