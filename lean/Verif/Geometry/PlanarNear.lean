import Verif.Geometry.PlanarJac
import Mathlib.Analysis.Complex.Exponential

/-!
# The Jacobian of `SE2.log_map` in the small-angle branch (C49)

Below the threshold the code replaces two coefficients by truncated series.  The theorem bounds the
distance of the returned Jacobian to the derivative of the logarithm.
-/

namespace Verif.Geometry
open Matrix

/-- Taylor polynomials of sine and cosine with eight terms. -/
theorem sin_cos_taylor {θ : ℝ} (h : |θ| ≤ 1) :
    |Real.cos θ - (1 - θ ^ 2 / 2 + θ ^ 4 / 24 - θ ^ 6 / 720)| ≤ θ ^ 8 / 35000 ∧
    |Real.sin θ - (θ - θ ^ 3 / 6 + θ ^ 5 / 120 - θ ^ 7 / 5040)| ≤ θ ^ 8 / 35000 := by
  have hb := Complex.exp_bound (x := θ * Complex.I) (by simpa using h) (n := 8) (by norm_num)
  have hn : ‖(θ * Complex.I : ℂ)‖ = |θ| := by simp
  rw [hn] at hb
  have he : |θ| ^ 8 = θ ^ 8 := by rw [← abs_pow, abs_of_nonneg (by positivity)]
  rw [he] at hb
  have hb' : θ ^ 8 * ((Nat.succ 8 : ℝ) * ((Nat.factorial 8 : ℝ) * (8 : ℕ))⁻¹) ≤ θ ^ 8 / 35000 := by
    have h8 : (0 : ℝ) ≤ θ ^ 8 := by positivity
    have : ((Nat.succ 8 : ℝ) * ((Nat.factorial 8 : ℝ) * (8 : ℕ))⁻¹) ≤ 1 / 35000 := by
      norm_num [Nat.factorial]
    calc _ ≤ θ ^ 8 * (1 / 35000) := mul_le_mul_of_nonneg_left this h8
      _ = _ := by ring
  have hb := hb.trans hb'
  have hE : Complex.exp (θ * Complex.I) = ⟨Real.cos θ, Real.sin θ⟩ := by
    rw [Complex.exp_mul_I]
    apply Complex.ext
    · simp [Complex.cos_ofReal_re, Complex.sin_ofReal_re, Complex.sin_ofReal_im]
    · simp [Complex.cos_ofReal_im, Complex.sin_ofReal_re]
  have hS : (∑ m ∈ Finset.range 8, (θ * Complex.I) ^ m / (m.factorial : ℂ))
      = ⟨1 - θ ^ 2 / 2 + θ ^ 4 / 24 - θ ^ 6 / 720, θ - θ ^ 3 / 6 + θ ^ 5 / 120 - θ ^ 7 / 5040⟩ := by
    have hI2 : Complex.I ^ 2 = -1 := Complex.I_sq
    have hI3 : Complex.I ^ 3 = -Complex.I := Complex.I_pow_three
    have hI4 : Complex.I ^ 4 = 1 := Complex.I_pow_four
    have hI5 : Complex.I ^ 5 = Complex.I := by rw [pow_succ, hI4, one_mul]
    have hI6 : Complex.I ^ 6 = -1 := by rw [pow_succ, hI5, ← sq, hI2]
    have hI7 : Complex.I ^ 7 = -Complex.I := by rw [pow_succ, hI6]; ring
    have : (⟨1 - θ ^ 2 / 2 + θ ^ 4 / 24 - θ ^ 6 / 720,
        θ - θ ^ 3 / 6 + θ ^ 5 / 120 - θ ^ 7 / 5040⟩ : ℂ)
        = ((1 - θ ^ 2 / 2 + θ ^ 4 / 24 - θ ^ 6 / 720 : ℝ) : ℂ)
          + ((θ - θ ^ 3 / 6 + θ ^ 5 / 120 - θ ^ 7 / 5040 : ℝ) : ℂ) * Complex.I := by
      rw [← Complex.mk_eq_add_mul_I]
    rw [this]
    simp only [Finset.sum_range_succ, Finset.sum_range_zero, mul_pow, hI2, hI3, hI4, hI5, hI6, hI7]
    push_cast
    simp only [Nat.factorial]
    push_cast
    ring
  rw [hE, hS] at hb
  constructor
  · refine le_trans ?_ hb
    simpa using Complex.abs_re_le_norm (⟨Real.cos θ, Real.sin θ⟩ -
      ⟨1 - θ ^ 2 / 2 + θ ^ 4 / 24 - θ ^ 6 / 720, θ - θ ^ 3 / 6 + θ ^ 5 / 120 - θ ^ 7 / 5040⟩ : ℂ)
  · refine le_trans ?_ hb
    simpa using Complex.abs_im_le_norm (⟨Real.cos θ, Real.sin θ⟩ -
      ⟨1 - θ ^ 2 / 2 + θ ^ 4 / 24 - θ ^ 6 / 720, θ - θ ^ 3 / 6 + θ ^ 5 / 120 - θ ^ 7 / 5040⟩ : ℂ)

/-- `θ/2 cot(θ/2)` and its series. -/
theorem half_cot_series {θ : ℝ} (h : |θ| ≤ 1) (h0 : θ ≠ 0) :
    |1 / 2 * θ * Real.sin θ / (1 - Real.cos θ) - (1 - θ ^ 2 / 12 - θ ^ 4 / 720)| ≤ θ ^ 6 / 5000 := by
  obtain ⟨hc, hs⟩ := sin_cos_taylor h
  have h1 : θ ^ 2 ≤ 1 := by rw [← sq_abs]; exact pow_le_one₀ (abs_nonneg _) h
  have h2 : 0 < θ ^ 2 := by positivity
  obtain ⟨c1, c2⟩ := abs_le.mp hc
  obtain ⟨b1, b2⟩ := abs_le.mp h
  set ec := Real.cos θ - (1 - θ ^ 2 / 2 + θ ^ 4 / 24 - θ ^ 6 / 720) with hec
  set es := Real.sin θ - (θ - θ ^ 3 / 6 + θ ^ 5 / 120 - θ ^ 7 / 5040) with hes
  have p4 : θ ^ 4 ≤ θ ^ 2 := by nlinarith
  have p6 : θ ^ 6 ≤ θ ^ 4 := by nlinarith [sq_nonneg (θ ^ 2)]
  have p8 : θ ^ 8 ≤ θ ^ 6 := by nlinarith [sq_nonneg (θ ^ 3)]
  have p80 : 0 ≤ θ ^ 8 := by positivity
  have hden : 45 / 100 * θ ^ 2 ≤ 1 - Real.cos θ := by
    have : Real.cos θ = 1 - θ ^ 2 / 2 + θ ^ 4 / 24 - θ ^ 6 / 720 + ec := by rw [hec]; ring
    rw [this]
    have : 0 ≤ θ ^ 6 := by positivity
    linarith
  have hdpos : 0 < 1 - Real.cos θ := lt_of_lt_of_le (by positivity) hden
  have hnum : 1 / 2 * θ * Real.sin θ / (1 - Real.cos θ) - (1 - θ ^ 2 / 12 - θ ^ 4 / 720)
      = (1 / 2 * θ * Real.sin θ - (1 - θ ^ 2 / 12 - θ ^ 4 / 720) * (1 - Real.cos θ))
        / (1 - Real.cos θ) := by
    field_simp
  rw [hnum, abs_div, abs_of_pos hdpos, div_le_iff₀ hdpos]
  have hn : 1 / 2 * θ * Real.sin θ - (1 - θ ^ 2 / 12 - θ ^ 4 / 720) * (1 - Real.cos θ)
      = θ ^ 8 * (-(1 / 10080) + 1 / 8640 - 1 / 17280 + θ ^ 2 / 518400)
        + 1 / 2 * θ * es + (1 - θ ^ 2 / 12 - θ ^ 4 / 720) * ec := by
    rw [hes, hec]; ring
  have hP : |1 - θ ^ 2 / 12 - θ ^ 4 / 720| ≤ 1 := by rw [abs_le]; constructor <;> nlinarith
  have hK : |-(1 / 10080) + 1 / 8640 - 1 / 17280 + θ ^ 2 / 518400| ≤ 1 / 23000 := by
    rw [abs_le]; constructor <;> linarith
  have hθ2 : |1 / 2 * θ| ≤ 1 / 2 := by rw [abs_le]; constructor <;> linarith
  rw [hn]
  have t1 : |θ ^ 8 * (-(1 / 10080) + 1 / 8640 - 1 / 17280 + θ ^ 2 / 518400)| ≤ θ ^ 8 * (1 / 23000) := by
    rw [abs_mul, abs_of_nonneg p80]; exact mul_le_mul_of_nonneg_left hK p80
  have t2 : |1 / 2 * θ * es| ≤ 1 / 2 * (θ ^ 8 / 35000) := by
    rw [abs_mul]; exact mul_le_mul hθ2 hs (abs_nonneg _) (by norm_num)
  have t3 : |(1 - θ ^ 2 / 12 - θ ^ 4 / 720) * ec| ≤ 1 * (θ ^ 8 / 35000) := by
    rw [abs_mul]; exact mul_le_mul hP hc (abs_nonneg _) (by norm_num)
  have t : |θ ^ 8 * (-(1 / 10080) + 1 / 8640 - 1 / 17280 + θ ^ 2 / 518400)
        + 1 / 2 * θ * es + (1 - θ ^ 2 / 12 - θ ^ 4 / 720) * ec|
      ≤ θ ^ 8 * (1 / 23000) + 1 / 2 * (θ ^ 8 / 35000) + 1 * (θ ^ 8 / 35000) :=
    (abs_add_three _ _ _).trans (by linarith)
  refine t.trans ?_
  have hfin : θ ^ 6 / 5000 * (45 / 100 * θ ^ 2) ≤ θ ^ 6 / 5000 * (1 - Real.cos θ) :=
    mul_le_mul_of_nonneg_left hden (by positivity)
  have e8 : θ ^ 6 / 5000 * (45 / 100 * θ ^ 2) = θ ^ 8 * (9 / 100000) := by ring
  rw [e8] at hfin
  linarith

theorem near_key {p k K h D : ℝ} (p4 : 0 ≤ p) (hkk : |k - K| ≤ p / 5000) (hhd : |h - D| ≤ p / 11)
    (hDle : |D| ≤ 1) (hk : |k| ≤ 1 / 10) (a b : ℝ) (σ : ℝ) (hσ : |σ| = 1 / 2) (τ : ℝ)
    (hτ : |τ| ≤ 1 / 2) :
    |(k * (h * a + τ * b) + σ * (h * b - τ * a)) - (K * (D * a + τ * b) + σ * (D * b - τ * a))|
      ≤ p / 20 * (|a| + |b|) := by
  have e : (k * (h * a + τ * b) + σ * (h * b - τ * a))
      - (K * (D * a + τ * b) + σ * (D * b - τ * a))
      = (k - K) * (D * a + τ * b) + k * (h - D) * a + σ * (h - D) * b := by ring
  rw [e]
  have t0 : |D * a + τ * b| ≤ |a| + |b| := by
    refine (abs_add_le _ _).trans ?_
    rw [abs_mul, abs_mul]
    have := mul_le_mul_of_nonneg_right hDle (abs_nonneg a)
    have := mul_le_mul_of_nonneg_right hτ (abs_nonneg b)
    linarith [abs_nonneg b]
  have t1 : |(k - K) * (D * a + τ * b)| ≤ p / 5000 * (|a| + |b|) := by
    rw [abs_mul]; exact mul_le_mul hkk t0 (abs_nonneg _) (by positivity)
  have t2 : |k * (h - D) * a| ≤ 1 / 10 * (p / 11) * |a| := by
    rw [abs_mul, abs_mul]
    exact mul_le_mul_of_nonneg_right (mul_le_mul hk hhd (abs_nonneg _) (by norm_num))
      (abs_nonneg _)
  have t3 : |σ * (h - D) * b| ≤ 1 / 2 * (p / 11) * |b| := by
    rw [abs_mul, abs_mul, hσ]
    exact mul_le_mul_of_nonneg_right (mul_le_mul_of_nonneg_left hhd (by norm_num))
      (abs_nonneg _)
  refine (abs_add_three _ _ _).trans ?_
  have ha := mul_nonneg p4 (abs_nonneg a)
  have hb := mul_nonneg p4 (abs_nonneg b)
  linarith

/-- Below the threshold the Jacobian returned by `log_map` differs from the derivative `J` of the
logarithm (the formula that `log_map` uses above its own threshold, the inverse of `exp_map` by
`se2_exp_log`) by at most `θ⁴/600` in the first two columns and `θ⁴/20 (|x| + |y|)` in the third;
the third row is exact. -/
theorem se2_log_jac_near {eps deps : ℝ} (hd : deps ≤ 1) {g : SE2} (hg : g.c ^ 2 + g.s ^ 2 = 1)
    (h0 : g.rot.log ≠ 0) (h1 : |g.rot.log| < deps) :
    ∃ J : Matrix (Fin 3) (Fin 3) ℝ,
      (∀ δ, 0 < δ → δ < |g.rot.log| → SE2.emb.HasJac (SE2.log δ) g J) ∧
      (∀ i, |(SE2.ops eps deps).dlog g i 0 - J i 0| ≤ g.rot.log ^ 4 / 600 ∧
        |(SE2.ops eps deps).dlog g i 1 - J i 1| ≤ g.rot.log ^ 4 / 600 ∧
        |(SE2.ops eps deps).dlog g i 2 - J i 2| ≤ g.rot.log ^ 4 / 20 * (|g.x| + |g.y|)) ∧
      ∀ j, (SE2.ops eps deps).dlog g 2 j = J 2 j := by
  have hθ : |g.rot.log| ≤ 1 := (h1.trans_le hd).le
  have hpi : g.rot.log ≠ Real.pi := by
    intro h
    rw [h, abs_of_pos Real.pi_pos] at hθ
    linarith [Real.pi_gt_three]
  have hc : Real.cos g.rot.log = g.c := SO2.cos_log hg
  have hs : Real.sin g.rot.log = g.s := SO2.sin_log hg
  have hs0 := SE2.s_ne_zero hg h0 hpi
  have hc0 := SE2.one_sub_c_ne hg hs0
  have hR := half_cot_series hθ h0
  have hH := SE2.small_h hθ
  rw [hc, hs] at hR hH
  have hneg : ∀ δ, δ ≤ |g.rot.log| → ¬ |g.rot.log| < δ := fun δ h => not_lt.mpr h
  have hlog : ∀ δ, δ ≤ |g.rot.log| → SE2.log δ g = SE2.log 0 g := by
    intro δ h
    simp only [SE2.log, SE2.logH, SE2.logDenominator, if_neg (hneg δ h),
      if_neg (hneg 0 (abs_nonneg _))]
  refine ⟨SE2.dlog 0 |g.rot.log| g, fun δ hδ hlt => ?_, ?_, ?_⟩
  · have := SE2.log_jac_far hlt hδ.le hg le_rfl hpi
    have e : SE2.dlog δ |g.rot.log| g = SE2.dlog 0 |g.rot.log| g := by
      unfold SE2.dlog
      rw [hlog δ hlt.le]
    rw [← e]
    exact this
  · set θ := g.rot.log with hθdef
    have b1 : θ ^ 2 ≤ 1 := by rw [← sq_abs]; exact pow_le_one₀ (abs_nonneg _) hθ
    have p4 : 0 ≤ θ ^ 4 := by positivity
    have p6 : θ ^ 6 ≤ θ ^ 4 := by nlinarith [sq_nonneg (θ ^ 2)]
    set D := 1 / 2 * θ * g.s / (1 - g.c) with hD
    have hdd : |1 - θ ^ 2 / 12 - D| ≤ θ ^ 4 / 600 := by
      rw [abs_le] at hR ⊢
      constructor <;> linarith [hR.1, hR.2]
    have hhs : 1 / 2 * (1 + g.c) * (θ / g.s) = D := by
      rw [hD]; field_simp; linear_combination -hg
    have hkk : |θ / 12 + θ ^ 3 / 720 - (1 / θ - 1 / 2 * g.s / (1 - g.c))| ≤ θ ^ 4 / 5000 := by
      have e : θ / 12 + θ ^ 3 / 720 - (1 / θ - 1 / 2 * g.s / (1 - g.c))
          = (D - (1 - θ ^ 2 / 12 - θ ^ 4 / 720)) / θ := by
        rw [hD]; field_simp; ring
      rw [e, abs_div, div_le_iff₀ (abs_pos.mpr h0)]
      refine hR.trans ?_
      have : θ ^ 6 ≤ θ ^ 4 * |θ| := by
        have e6 : θ ^ 6 = θ ^ 4 * |θ| ^ 2 := by rw [sq_abs]; ring
        rw [e6]
        exact mul_le_mul_of_nonneg_left (by nlinarith [abs_nonneg θ]) p4
      linarith
    -- the coefficient of the logarithm
    set h := SE2.logH eps g with hh
    have hhd : |h - D| ≤ θ ^ 4 / 11 := by
      rw [hh]
      unfold SE2.logH
      simp only [← hθdef]
      split_ifs with hlt
      · rw [abs_le] at hH hdd ⊢
        constructor <;> nlinarith [hH.1, hH.2, hdd.1, hdd.2]
      · simp only [SE2.logDenominator, ← hθdef, if_neg hlt]
        rw [hhs, sub_self, abs_zero]
        positivity
    have hDle : |D| ≤ 1 := by
      rw [abs_le] at hdd ⊢
      have : θ ^ 4 ≤ θ ^ 2 := by nlinarith [sq_nonneg θ]
      constructor <;> nlinarith [hdd.1, hdd.2, sq_nonneg θ]
    have hk : |θ / 12 + θ ^ 3 / 720| ≤ 1 / 10 := by
      have e : θ / 12 + θ ^ 3 / 720 = θ * (1 / 12 + θ ^ 2 / 720) := by ring
      rw [e, abs_mul]
      have : |1 / 12 + θ ^ 2 / 720| ≤ 1 / 10 := by
        rw [abs_le]; constructor <;> nlinarith [sq_nonneg θ]
      calc |θ| * |1 / 12 + θ ^ 2 / 720| ≤ 1 * (1 / 10) :=
            mul_le_mul hθ this (abs_nonneg _) (by norm_num)
        _ = 1 / 10 := by norm_num
    have hθ2 : |1 / 2 * θ| ≤ 1 / 2 := by
      rw [abs_mul]; norm_num; linarith
    set k := θ / 12 + θ ^ 3 / 720 with hkdef
    set K := 1 / θ - 1 / 2 * g.s / (1 - g.c) with hKdef
    have key := near_key p4 hkk hhd hDle hk
    have hL0 : SE2.logH 0 g = D := by
      simp only [SE2.logH, SE2.logDenominator, ← hθdef, if_neg (hneg 0 (abs_nonneg _))]
      exact hhs
    have hB : 0 ≤ θ ^ 4 / 20 * (|g.x| + |g.y|) := by positivity
    have hB' : 0 ≤ θ ^ 4 / 600 := by positivity
    intro i
    simp only [SE2.ops, SE2.dlog, SE2.log, ← hθdef, if_pos h1, if_neg (lt_irrefl |θ|), ← hh, hL0,
      ← hD, ← hkdef, ← hKdef]
    fin_cases i
    · refine ⟨by simpa using hdd, by simpa using hB', ?_⟩
      have := key g.x g.y (1 / 2) (by norm_num) (1 / 2 * θ) hθ2
      simpa using this
    · refine ⟨by simpa using hB', by simpa using hdd, ?_⟩
      have := key g.y g.x (-(1 / 2)) (by norm_num) (-(1 / 2 * θ)) (by rw [abs_neg]; exact hθ2)
      rw [add_comm |g.x|]
      refine le_trans (le_of_eq ?_) this
      simp
      ring_nf
    · exact ⟨by simpa using hB', by simpa using hB', by simpa using hB⟩
  · intro j
    fin_cases j <;> simp [SE2.ops, SE2.dlog]

/-- Non-vacuity: a rotation by `1/1000` with the thresholds of the library for float32. -/
example : (⟨1, 2, Real.cos (1 / 1000), Real.sin (1 / 1000)⟩ : SE2).rot.log ≠ 0 ∧
    |(⟨1, 2, Real.cos (1 / 1000), Real.sin (1 / 1000)⟩ : SE2).rot.log| < (1 / 10 : ℝ) := by
  have h : (⟨1, 2, Real.cos (1 / 1000), Real.sin (1 / 1000)⟩ : SE2).rot.log = 1 / 1000 :=
    SO2.arg_cos_sin (by linarith [Real.pi_pos]) (by linarith [Real.pi_gt_three])
  rw [h]
  norm_num [abs_of_pos]

end Verif.Geometry
