import Verif.Geometry.SO3Near
import Verif.Geometry.SE3More

/-!
# `SE3`: the small-angle branches of exponential and logarithm
-/

namespace Verif.Geometry
open Matrix
namespace SE3

theorem near_third {a b μ s q T P : ℝ} (hT0 : 0 ≤ T) (hTP : T ≤ P) (hP : P ≤ 1 / 4)
    (ha0 : 1 - P / 12 ≤ a) (ha1 : a ≤ 1) (hb0 : 1 / 12 ≤ b) (hb1 : b ≤ 1 / 12 + P / 720)
    (hm0 : 1 - P / 10 ≤ μ) (hm1 : μ ≤ 1) (hs0 : 1 - T / 4 ≤ s) (hs1 : s ≤ 1)
    (hq : q = 1 / 6 - T / 120) :
    |a * q + b * μ ^ 2 * s - μ / 2 * (s / 2) + b * μ ^ 2 * q * T| ≤ P / 8 := by
  have hP0 : 0 ≤ P := hT0.trans hTP
  have hPP : P * P ≤ P / 4 := by
    have := mul_le_mul_of_nonneg_left hP hP0
    linarith
  have hPP0 : 0 ≤ P * P := mul_nonneg hP0 hP0
  have hTT : P * T ≤ P * P := mul_le_mul_of_nonneg_left hTP hP0
  have hPT0 : 0 ≤ P * T := mul_nonneg hP0 hT0
  have hqT1 : q * T ≤ T / 6 := by
    have e : q * T = T / 6 - T * T / 120 := by rw [hq]; ring
    have := mul_nonneg hT0 hT0
    linarith
  have hqT0 : 0 ≤ q * T := mul_nonneg (by rw [hq]; linarith) hT0
  have haq1 : a * q ≤ 1 / 6 := by
    have : a * q ≤ 1 * (1 / 6) := mul_le_mul ha1 (by rw [hq]; linarith) (by rw [hq]; linarith) (by norm_num)
    linarith
  have haq0 : 1 / 6 - P / 40 ≤ a * q := by
    have : (1 - P / 12) * (1 / 6 - T / 120) ≤ a * q :=
      mul_le_mul ha0 hq.ge (by linarith) (by linarith)
    have e : (1 - P / 12) * (1 / 6 - T / 120) = 1 / 6 - T / 120 - P / 72 + P * T / 1440 := by ring
    linarith
  have hμ2 : μ ^ 2 ≤ 1 := by
    rw [sq]
    have : μ * μ ≤ 1 * 1 := mul_le_mul hm1 hm1 (by linarith) (by norm_num)
    linarith
  have hμ20 : 1 - P / 5 ≤ μ ^ 2 := by
    rw [sq]
    have : (1 - P / 10) * (1 - P / 10) ≤ μ * μ := mul_le_mul hm0 hm0 (by linarith) (by linarith)
    have e : (1 - P / 10) * (1 - P / 10) = 1 - P / 5 + P * P / 100 := by ring
    linarith
  have hb : b * μ ^ 2 ≤ 1 / 12 + P / 720 := by
    have : b * μ ^ 2 ≤ (1 / 12 + P / 720) * 1 := mul_le_mul hb1 hμ2 (sq_nonneg _) (by linarith)
    linarith
  have hb' : 1 / 12 - P / 60 ≤ b * μ ^ 2 := by
    have : 1 / 12 * (1 - P / 5) ≤ b * μ ^ 2 := mul_le_mul hb0 hμ20 (by linarith) (by linarith)
    linarith
  have hsq1 : s + q * T ≤ 1 + P / 6 := by linarith
  have hsq0 : 1 - P / 4 ≤ s + q * T := by linarith
  have hbs1 : b * μ ^ 2 * (s + q * T) ≤ (1 / 12 + P / 720) * (1 + P / 6) :=
    mul_le_mul hb hsq1 (by linarith) (by linarith)
  have hbs0 : (1 / 12 - P / 60) * (1 - P / 4) ≤ b * μ ^ 2 * (s + q * T) :=
    mul_le_mul hb' hsq0 (by linarith) (by linarith)
  have hms1 : μ * s ≤ 1 := by
    have : μ * s ≤ 1 * 1 := mul_le_mul hm1 hs1 (by linarith) (by norm_num)
    linarith
  have hms0 : (1 - P / 10) * (1 - P / 4) ≤ μ * s :=
    mul_le_mul hm0 (by linarith) (by linarith) (by linarith)
  have e : a * q + b * μ ^ 2 * s - μ / 2 * (s / 2) + b * μ ^ 2 * q * T
      = a * q + b * μ ^ 2 * (s + q * T) - μ * s / 4 := by ring
  have x1 : (1 / 12 + P / 720) * (1 + P / 6) = 1 / 12 + P / 72 + P / 720 + P * P / 4320 := by
    ring
  have x2 : (1 / 12 - P / 60) * (1 - P / 4) = 1 / 12 - P / 48 - P / 60 + P * P / 240 := by ring
  have x3 : (1 - P / 10) * (1 - P / 4) = 1 - P / 10 - P / 4 + P * P / 40 := by ring
  rw [x1] at hbs1
  rw [x2] at hbs0
  rw [x3] at hms0
  rw [e, abs_le]
  constructor <;> linarith

/-- The coefficients of `logT ∘ expT` (or the converse) in the small-angle branches. -/
theorem near_scalars {a b μ s q T P : ℝ} (hT0 : 0 ≤ T) (hTP : T ≤ P) (hP : P ≤ 1 / 4)
    (ha0 : 1 - P / 12 ≤ a) (ha1 : a ≤ 1) (hb0 : 1 / 12 ≤ b) (hb1 : b ≤ 1 / 12 + P / 720)
    (hm0 : 1 - P / 10 ≤ μ) (hm1 : μ ≤ 1) (hs : s = 4 / (4 + T)) (hq : q = 1 / 6 - T / 120) :
    |a * s + μ / 2 * (s / 2) * T - 1| ≤ P / 10 ∧ |a * (s / 2) - μ / 2 * s| ≤ P / 20 ∧
      |a * q + b * μ ^ 2 * s - μ / 2 * (s / 2) + b * μ ^ 2 * q * T| ≤ P / 8 := by
  have hP0 : 0 ≤ P := hT0.trans hTP
  have hid : s + s * T / 4 = 1 := by
    rw [hs]; field_simp
  have hs1 : s ≤ 1 := by rw [hs, div_le_one (by linarith)]; linarith
  have hs0 : 1 - T / 4 ≤ s := by
    rw [hs, le_div_iff₀ (by linarith)]; nlinarith
  have hspos : 0 < s := by rw [hs]; positivity
  have hμpos : 0 < μ := by linarith
  refine ⟨?_, ?_, ?_⟩
  · have e : a * s + μ / 2 * (s / 2) * T - 1 = -((1 - a) * s + (1 - μ) * (s * T / 4)) := by
      linear_combination hid
    have h1 : (1 - a) * s ≤ P / 12 := by nlinarith
    have h2 : (1 - μ) * (s * T / 4) ≤ P / 10 * (P / 4) := by
      refine mul_le_mul (by linarith) ?_ (by positivity) (by positivity)
      nlinarith
    have h3 : 0 ≤ (1 - a) * s := mul_nonneg (by linarith) hspos.le
    have h4 : 0 ≤ (1 - μ) * (s * T / 4) := mul_nonneg (by linarith) (by positivity)
    rw [e, abs_neg, abs_of_nonneg (by linarith)]
    nlinarith
  · have e : a * (s / 2) - μ / 2 * s = s / 2 * (a - μ) := by ring
    have h1 : |a - μ| ≤ P / 10 := by rw [abs_le]; constructor <;> linarith
    rw [e, abs_mul, abs_of_pos (by positivity)]
    nlinarith [abs_nonneg (a - μ)]
  · exact near_third hT0 hTP hP ha0 ha1 hb0 hb1 hm0 hm1 hs0 hs1 hq

/-- `(1 + x) u + y w×u + z (w·u) w` is close to `u` when the coefficients are small. -/
theorem expT_near {x y z P : ℝ} {u w : V3} (hw : norm3 w ^ 2 ≤ P) (hP : P ≤ 1 / 4)
    (hx : |x - 1| ≤ P / 10) (hy : |y| ≤ P / 20) (hz : |z| ≤ P / 8) (i : Fin 3) :
    |expT x y z u w i - u i| ≤ P / 4 * norm3 u := by
  have hn := SO3.norm3_nonneg w
  have hu0 := SO3.norm3_nonneg u
  have hP0 : 0 ≤ P := (sq_nonneg _).trans hw
  have hθ : norm3 w ≤ 1 / 2 := by nlinarith
  have hu : ∀ i, |u i| ≤ norm3 u := SO3.abs_le_norm3 u
  have hwi : ∀ i, |w i| ≤ norm3 w := SO3.abs_le_norm3 w
  have hprod : ∀ i j, |w i * u j| ≤ norm3 w * norm3 u := fun i j => by
    rw [abs_mul]; exact mul_le_mul (hwi i) (hu j) (abs_nonneg _) hn
  have hcross : ∀ i, |cross3 w u i| ≤ 2 * (norm3 w * norm3 u) := by
    have hsub : ∀ a b c d, |w a * u b - w c * u d| ≤ 2 * (norm3 w * norm3 u) := by
      intro a b c d
      have := abs_sub (w a * u b) (w c * u d)
      linarith [hprod a b, hprod c d]
    intro i; fin_cases i
    · exact hsub 1 2 2 1
    · exact hsub 2 0 0 2
    · exact hsub 0 1 1 0
  have hdot : |dot3 w u| ≤ 3 * (norm3 w * norm3 u) := by
    have h1 := abs_add_le (w 0 * u 0 + w 1 * u 1) (w 2 * u 2)
    have h2 := abs_add_le (w 0 * u 0) (w 1 * u 1)
    simp only [dot3]
    linarith [hprod 0 0, hprod 1 1, hprod 2 2]
  have hdw : ∀ i, |dot3 w u * w i| ≤ 3 * P * norm3 u := by
    intro i
    rw [abs_mul]
    calc |dot3 w u| * |w i| ≤ 3 * (norm3 w * norm3 u) * norm3 w :=
          mul_le_mul hdot (hwi i) (abs_nonneg _) (by positivity)
      _ = 3 * norm3 w ^ 2 * norm3 u := by ring
      _ ≤ _ := by nlinarith
  have e : expT x y z u w i - u i = (x - 1) * u i + y * cross3 w u i + z * (dot3 w u * w i) := by
    simp only [expT, Pi.add_apply, Pi.smul_apply, smul_eq_mul]; ring
  rw [e]
  refine (abs_add_le _ _).trans ?_
  have h1 := abs_add_le ((x - 1) * u i) (y * cross3 w u i)
  have b1 : |(x - 1) * u i| ≤ P / 10 * norm3 u := by
    rw [abs_mul]; exact mul_le_mul hx (hu i) (abs_nonneg _) (by positivity)
  have b2 : |y * cross3 w u i| ≤ P / 20 * (2 * (1 / 2 * norm3 u)) := by
    rw [abs_mul]
    refine mul_le_mul hy ((hcross i).trans ?_) (abs_nonneg _) (by positivity)
    nlinarith
  have b3 : |z * (dot3 w u * w i)| ≤ P / 8 * (3 * (1 / 4) * norm3 u) := by
    rw [abs_mul]
    refine mul_le_mul hz ((hdw i).trans ?_) (abs_nonneg _) (by positivity)
    nlinarith
  nlinarith [mul_nonneg hP0 hu0]

theorem expT_scale (s k q r : ℝ) (u w : V3) : expT s k q u (r • w) = expT s (k * r) (q * r ^ 2) u w := by
  refine ext3 ?_ ?_ ?_ <;>
    simp only [expT_x, expT_y, expT_z, Pi.smul_apply, smul_eq_mul, dot3] <;> ring

/-- Below the threshold `log(exp v)` shortens the rotation by a relative error of at most
`θ²/10`, and moves each component of the translation by at most `θ²/4` of its norm. -/
theorem log_exp_near {eps epi : ℝ} (he : 0 < eps) (he1 : eps ≤ 1 / 2) (hpi : epi ≤ 1)
    {v : Fin 6 → ℝ} (h : norm3 (ang v) < eps) :
    (∃ μ : ℝ, ang (log eps epi (exp eps v)) = μ • ang v ∧ 1 - norm3 (ang v) ^ 2 / 10 ≤ μ ∧ μ ≤ 1) ∧
    ∀ i, |lin (log eps epi (exp eps v)) i - lin v i| ≤ norm3 (ang v) ^ 2 / 4 * norm3 (lin v) := by
  obtain ⟨μ, hlog, hm0, hm1⟩ := SO3.log_exp_near he he1 hpi h
  have hθ := SO3.theta_exp_near he (by linarith) h
  have hθ0 := SO3.Valid.theta_nonneg (SO3.exp_valid he (ang v))
  obtain ⟨hC, hS, hK⟩ := SO3.near_coeffs h
  have hn := SO3.norm3_nonneg (ang v)
  refine ⟨⟨μ, by simp only [log, ang_join]; exact hlog, hm0, hm1⟩, fun i => ?_⟩
  have hlt := hθ.trans_lt h
  have hlin : lin (log eps epi (exp eps v))
      = expT (SO3.logA eps (SO3.exp eps (ang v))) (-(1 / 2)) (SO3.logB eps (SO3.exp eps (ang v)))
        (expT (SO3.expS eps (norm3 (ang v))) (SO3.expK eps (norm3 (ang v)))
          (expQt eps (norm3 (ang v))) (lin v) (ang v)) (μ • ang v) := by
    simp only [log, lin_join, logT_eq, exp]
    rw [hlog]
  have hφ : SO3.theta (SO3.exp eps (ang v)) ^ 2 ≤ norm3 (ang v) ^ 2 := by nlinarith
  have hφ0 : 0 ≤ SO3.theta (SO3.exp eps (ang v)) ^ 2 := sq_nonneg _
  have hP : norm3 (ang v) ^ 2 ≤ 1 / 4 := by nlinarith
  have hA : SO3.logA eps (SO3.exp eps (ang v))
      = 1 - SO3.theta (SO3.exp eps (ang v)) ^ 2 / 12 := by rw [SO3.logA, if_pos hlt]
  have hB : SO3.logB eps (SO3.exp eps (ang v))
      = 1 / 12 + SO3.theta (SO3.exp eps (ang v)) ^ 2 / 720 := by rw [SO3.logB, if_pos hlt]
  have hQ : expQt eps (norm3 (ang v)) = 1 / 6 - norm3 (ang v) ^ 2 / 120 := by
    rw [expQt, if_pos h]
  obtain ⟨c1, c2, c3⟩ := near_scalars (a := SO3.logA eps (SO3.exp eps (ang v)))
    (b := SO3.logB eps (SO3.exp eps (ang v))) (μ := μ) (sq_nonneg (norm3 (ang v))) le_rfl hP
    (by rw [hA]; linarith) (by rw [hA]; linarith) (by rw [hB]; linarith) (by rw [hB]; linarith)
    hm0 hm1 hS hQ
  have hK2 : SO3.expK eps (norm3 (ang v)) = SO3.expS eps (norm3 (ang v)) / 2 := by
    rw [hS, hK]; ring
  rw [hlin, expT_scale, expT_expT, ← SO3.norm3_sq]
  refine expT_near le_rfl hP ?_ ?_ ?_ i
  · rw [hK2]; convert c1 using 2; ring
  · rw [hK2]; convert c2 using 2; ring
  · rw [hK2]; convert c3 using 2; ring

/-- Below the threshold the translation of `exp(log g)` is within `θ²/4` of that of `g`, relative
to its norm. -/
theorem exp_log_near {eps epi : ℝ} (he : 0 < eps) (he1 : eps ≤ 1 / 2) (hpi : epi ≤ 1) {g : SE3}
    (hg : Valid g) (h : SO3.theta g.R < eps) (i : Fin 3) :
    |(exp eps (log eps epi g)).t i - g.t i| ≤ SO3.theta g.R ^ 2 / 4 * norm3 g.t := by
  obtain ⟨hw, hlt⟩ := SO3.log_near he1 hpi hg h
  obtain ⟨hC, hS, hK⟩ := SO3.near_coeffs (hw.trans_lt h)
  have hn := SO3.norm3_nonneg (SO3.log eps epi g.R)
  have h0 := SO3.Valid.theta_nonneg hg
  have hlin : (exp eps (log eps epi g)).t
      = expT (SO3.expS eps (norm3 (SO3.log eps epi g.R))) (SO3.expK eps (norm3 (SO3.log eps epi g.R)))
        (expQt eps (norm3 (SO3.log eps epi g.R)))
        (expT (SO3.logA eps g.R) (-(1 / 2)) (SO3.logB eps g.R) g.t (SO3.log eps epi g.R))
        (SO3.log eps epi g.R) := by
    simp only [log, exp, lin_join, ang_join, logT_eq]
  have hTP : norm3 (SO3.log eps epi g.R) ^ 2 ≤ SO3.theta g.R ^ 2 := by nlinarith
  have hP : SO3.theta g.R ^ 2 ≤ 1 / 4 := by nlinarith
  have hA : SO3.logA eps g.R = 1 - SO3.theta g.R ^ 2 / 12 := by rw [SO3.logA, if_pos h]
  have hB : SO3.logB eps g.R = 1 / 12 + SO3.theta g.R ^ 2 / 720 := by rw [SO3.logB, if_pos h]
  have hQ : expQt eps (norm3 (SO3.log eps epi g.R))
      = 1 / 6 - norm3 (SO3.log eps epi g.R) ^ 2 / 120 := by
    rw [expQt, if_pos (hw.trans_lt h)]
  have hP0 : 0 ≤ SO3.theta g.R ^ 2 := sq_nonneg _
  obtain ⟨c1, c2, c3⟩ := near_scalars (a := SO3.logA eps g.R) (b := SO3.logB eps g.R) (μ := 1)
    (sq_nonneg (norm3 (SO3.log eps epi g.R))) hTP hP
    (by rw [hA]) (by rw [hA]; linarith) (by rw [hB]; linarith) (by rw [hB])
    (by linarith) le_rfl hS hQ
  have hK2 : SO3.expK eps (norm3 (SO3.log eps epi g.R))
      = SO3.expS eps (norm3 (SO3.log eps epi g.R)) / 2 := by
    rw [hS, hK]; ring
  rw [hlin, expT_expT, ← SO3.norm3_sq]
  refine expT_near hTP hP ?_ ?_ ?_ i
  · rw [hK2]; convert c1 using 2; ring
  · rw [hK2]; convert c2 using 2; ring
  · rw [hK2]; convert c3 using 2; ring

/-- Non-vacuity: a rotation vector of norm 1/1000 is below the float64 threshold, and so is the
rotation it yields. -/
example : norm3 (ang ![1, 2, 3, 0, 0, 1 / 1000]) < 5 / 1000 ∧
    SO3.theta (exp (5 / 1000) ![1, 2, 3, 0, 0, 1 / 1000]).R < 5 / 1000 ∧
    Valid (exp (5 / 1000) ![1, 2, 3, 0, 0, 1 / 1000]) := by
  have h : norm3 (ang ![1, 2, 3, 0, 0, 1 / 1000]) = 1 / 1000 := by
    rw [norm3, Real.sqrt_eq_iff_mul_self_eq_of_pos (by norm_num)]
    simp only [ang, dot3, Matrix.cons_val]
    norm_num
  have h5 : norm3 (ang ![1, 2, 3, 0, 0, 1 / 1000]) < 5 / 1000 := by rw [h]; norm_num
  refine ⟨h5, lt_of_le_of_lt (SO3.theta_exp_near (by norm_num) (by norm_num) h5) h5, ?_⟩
  exact SO3.exp_valid (by norm_num) _

end SE3
end Verif.Geometry
