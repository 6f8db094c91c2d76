import Verif.Geometry.SO3Jlog
import Mathlib.Analysis.Calculus.Deriv.MeanValue
import Mathlib.Analysis.SpecialFunctions.Trigonometric.Bounds
import Mathlib.Analysis.Real.Pi.Bounds

/-!
# `SO3`: the small-angle branches of exponential and logarithm

Below the threshold the exponential is the Cayley-like rotation with `tan(φ/2) = ‖v‖/2` and the
logarithm a truncated series, so the round trips are approximate.
-/

namespace Verif.Geometry
open Matrix
namespace SO3

theorem near_coeffs {eps θ : ℝ} (h : θ < eps) :
    expC eps θ = 8 / (4 + θ ^ 2) - 1 ∧ expS eps θ = 4 / (4 + θ ^ 2) ∧
      expK eps θ = 2 / (4 + θ ^ 2) := by
  have h4 : (4 + θ ^ 2) ≠ 0 := by positivity
  refine ⟨by rw [expC, if_pos h], by rw [expS, expC, if_pos h, if_pos h]; ring, ?_⟩
  rw [expK, expS, expC, if_pos h, if_pos h, if_pos h]; ring

/-- The angle of the exponential does not exceed `‖v‖` in the small-angle branch. -/
theorem theta_exp_near {eps : ℝ} (he : 0 < eps) (he1 : eps ≤ 1) {v : V3} (h : norm3 v < eps) :
    theta (exp eps v) ≤ norm3 v := by
  have hv := exp_valid he v
  have h0 := hv.theta_nonneg
  have hcos := hv.cos_theta
  rw [cosine_exp he, (near_coeffs h).1] at hcos
  by_contra hcon
  have hcon := not_le.mp hcon
  have hn := norm3_nonneg v
  set θ := norm3 v
  have hlt : Real.cos (theta (exp eps v)) < Real.cos θ :=
    Real.cos_lt_cos_of_nonneg_of_le_pi hn (theta_le _) (by linarith)
  have hb := Real.cos_bound (x := θ) (by rw [abs_of_nonneg hn]; linarith)
  rw [abs_of_nonneg hn] at hb
  have hb' := (abs_le.mp hb).2
  have hp : (0 : ℝ) < 4 + θ ^ 2 := by positivity
  have hC : 8 / (4 + θ ^ 2) - 1 = 1 - θ ^ 2 / 2 + θ ^ 4 / (2 * (4 + θ ^ 2)) := by
    field_simp; ring
  have hθ2 : θ ^ 2 ≤ 1 := by nlinarith
  have hq : θ ^ 4 * (5 / 96) ≤ θ ^ 4 / (2 * (4 + θ ^ 2)) := by
    rw [le_div_iff₀ (by positivity)]
    have h4 : 0 ≤ θ ^ 4 := by positivity
    nlinarith
  rw [hcos, hC] at hlt
  linarith

/-- Below the threshold `log(exp v)` is `v` shortened by a relative error of at most `‖v‖²/10`. -/
theorem log_exp_near {eps epi : ℝ} (he : 0 < eps) (he1 : eps ≤ 1 / 2) (hpi : epi ≤ 1) {v : V3}
    (h : norm3 v < eps) :
    ∃ μ : ℝ, log eps epi (exp eps v) = μ • v ∧ 1 - norm3 v ^ 2 / 10 ≤ μ ∧ μ ≤ 1 := by
  obtain ⟨hC, hS, hK⟩ := near_coeffs h
  have hθ := (theta_exp_near he (by linarith) h).trans_lt h
  have hn := norm3_nonneg v
  have hx : sineAxis (exp eps v) = (4 / (4 + norm3 v ^ 2)) • v := by
    rw [exp, sineAxis_rod, hS]
  have hs : sine (exp eps v) = 4 / (4 + norm3 v ^ 2) * norm3 v := by
    rw [sine, hx, norm3_smul, abs_of_pos (by positivity)]
  have hc : ¬ 1 + cosine (exp eps v) ≤ epi := by
    rw [cosine_exp he, hC, not_le]
    have hp : (0 : ℝ) < 4 + norm3 v ^ 2 := by positivity
    have : 1 < 8 / (4 + norm3 v ^ 2) := by rw [lt_div_iff₀ hp]; nlinarith
    linarith
  refine ⟨(1 + (4 / (4 + norm3 v ^ 2) * norm3 v) ^ 2 / 6) * (4 / (4 + norm3 v ^ 2)), ?_, ?_, ?_⟩
  · rw [log, if_neg hc, logScale, if_pos (Or.inl hθ), hs, hx, smul_smul]
  all_goals
    set θ := norm3 v
    have hu : θ ^ 2 ≤ 1 / 4 := by nlinarith
    have hu0 : 0 ≤ θ ^ 2 := by positivity
    have e : (1 + (4 / (4 + θ ^ 2) * θ) ^ 2 / 6) * (4 / (4 + θ ^ 2))
        = (4 * (4 + θ ^ 2) ^ 2 + 32 / 3 * θ ^ 2) / (4 + θ ^ 2) ^ 3 := by
      field_simp; ring
    rw [e]
    clear_value θ
    generalize θ ^ 2 = u at *
  · rw [le_div_iff₀ (by positivity)]
    nlinarith [mul_nonneg hu0 hu0, mul_nonneg hu0 (mul_nonneg hu0 hu0),
      mul_nonneg (mul_nonneg hu0 hu0) (mul_nonneg hu0 hu0)]
  · rw [div_le_one (by positivity)]
    nlinarith [mul_nonneg hu0 hu0, mul_nonneg hu0 (mul_nonneg hu0 hu0)]

/-- `sin φ + sin³ φ / 6 ≤ φ`. -/
theorem sin_series_le {φ : ℝ} (h0 : 0 ≤ φ) : Real.sin φ + Real.sin φ ^ 3 / 6 ≤ φ := by
  have hd : ∀ x : ℝ, HasDerivAt (fun x => x - Real.sin x - Real.sin x ^ 3 / 6)
      ((1 - Real.cos x) ^ 2 * (2 + Real.cos x) / 2) x := by
    intro x
    have h := ((hasDerivAt_id x).fun_sub (Real.hasDerivAt_sin x)).fun_sub
      (((Real.hasDerivAt_sin x).fun_pow 3).div_const 6)
    refine h.congr_deriv ?_
    have := Real.sin_sq x
    simp only [Nat.cast_ofNat]
    norm_num
    rw [this]; ring
  have hm : Monotone fun x => x - Real.sin x - Real.sin x ^ 3 / 6 := by
    refine monotone_of_deriv_nonneg (fun x => (hd x).differentiableAt) fun x => ?_
    rw [(hd x).deriv]
    have := Real.neg_one_le_cos x
    have h2 : 0 ≤ 2 + Real.cos x := by linarith
    positivity
  have := hm h0
  simp at this
  linarith

theorem near_scalars {s c l C S K : ℝ} (hs0 : 0 ≤ s) (hs1 : s ≤ 1 / 2) (hcl : 1 / 2 ≤ c)
    (hunit : c ^ 2 + s ^ 2 = 1) (hl : l = 1 + s ^ 2 / 6)
    (hC : C = 8 / (4 + (l * s) ^ 2) - 1) (hS : S = 4 / (4 + (l * s) ^ 2))
    (hK : K = 2 / (4 + (l * s) ^ 2)) :
    |S * l - 1| ≤ s ^ 2 / 9 ∧ |C - c| ≤ s ^ 2 * s ^ 2 / 2 ∧
      (K * l ^ 2 - 1 / (1 + c)) * s ^ 2 = c - C := by
  have hden : (0 : ℝ) < 4 + (l * s) ^ 2 := by positivity
  have hu : s ^ 2 ≤ 1 / 4 := by nlinarith
  have hu0 : 0 ≤ s ^ 2 := by positivity
  have hlpos : 0 < l := by rw [hl]; positivity
  have hSl : |S * l - 1| ≤ s ^ 2 / 9 := by
    have e : S * l - 1 = -(s ^ 2 * (1 / 3 + s ^ 2 / 3 + s ^ 2 * s ^ 2 / 36) / (4 + (l * s) ^ 2)) := by
      rw [hS, hl]; field_simp; ring
    rw [e, abs_neg, abs_of_nonneg (by positivity), div_le_iff₀ hden]
    have : (0 : ℝ) ≤ (l * s) ^ 2 := by positivity
    have h3 : 1 / 3 + s ^ 2 / 3 + s ^ 2 * s ^ 2 / 36 ≤ 4 / 9 := by nlinarith
    nlinarith
  have hCu : C ^ 2 = 1 - S ^ 2 * l ^ 2 * s ^ 2 := by
    rw [hC, hS]; field_simp; ring
  have hl2 : l ≤ 2 := by rw [hl]; linarith
  have hCpos : 0 ≤ C := by
    rw [hC]
    have h2 : (l * s) ^ 2 ≤ 1 := by
      have h1 : 0 ≤ l * s := by positivity
      have h2 : l * s ≤ 1 := by nlinarith
      nlinarith
    have : 1 ≤ 8 / (4 + (l * s) ^ 2) := by rw [le_div_iff₀ hden]; linarith
    linarith
  have hSl1 : |S * l + 1| ≤ 2 + 1 / 36 := by
    have := abs_le.mp hSl
    rw [abs_le]; constructor <;> linarith
  refine ⟨hSl, ?_, ?_⟩
  · have e : (C - c) * (C + c) = -(s ^ 2 * ((S * l - 1) * (S * l + 1))) := by
      linear_combination hCu - hunit
    have e2 : |C - c| * (C + c) = s ^ 2 * (|S * l - 1| * |S * l + 1|) := by
      have h5 : C + c = |C + c| := (abs_of_nonneg (by linarith)).symm
      rw [h5, ← abs_mul, e, abs_neg, abs_mul, abs_mul, abs_of_nonneg hu0]
    have h3 : |S * l - 1| * |S * l + 1| ≤ s ^ 2 / 9 * (2 + 1 / 36) :=
      mul_le_mul hSl hSl1 (abs_nonneg _) (by positivity)
    have h4 : |C - c| * (1 / 2) ≤ |C - c| * (C + c) :=
      mul_le_mul_of_nonneg_left (by linarith) (abs_nonneg _)
    nlinarith [mul_le_mul_of_nonneg_left h3 hu0]
  · have e1 : K * l ^ 2 * s ^ 2 = 1 - C := by rw [hK, hC]; field_simp; ring
    have e2 : 1 / (1 + c) * s ^ 2 = 1 - c := by
      have : 1 + c ≠ 0 := by linarith
      field_simp
      linear_combination hunit
    linear_combination e1 - e2

theorem abs_le_norm3 (a : V3) (i : Fin 3) : |a i| ≤ norm3 a := by
  rw [norm3, ← Real.sqrt_sq_eq_abs]
  refine Real.sqrt_le_sqrt ?_
  fin_cases i <;> simp [dot3] <;>
    nlinarith [mul_self_nonneg (a 0), mul_self_nonneg (a 1), mul_self_nonneg (a 2)]

theorem rod_sub_bound {k c s k' c' s' l r e1 e2 e3 : ℝ} {a : V3} (hr : norm3 a ≤ r)
    (h1 : |k * l ^ 2 - k'| * r ^ 2 ≤ e1) (h2 : |c - c'| ≤ e2) (h3 : |s * l - s'| * r ≤ e3)
    (i j : Fin 3) : |rod k c s (l • a) i j - rod k' c' s' a i j| ≤ e1 + max e2 e3 := by
  have hr0 : 0 ≤ r := (norm3_nonneg a).trans hr
  have ha : ∀ i, |a i| ≤ r := fun i => (abs_le_norm3 a i).trans hr
  have hcoef : ∀ i j, |(k * l ^ 2 - k') * (a i * a j)| ≤ e1 := by
    intro i j
    rw [abs_mul, abs_mul]
    refine le_trans (mul_le_mul_of_nonneg_left ?_ (abs_nonneg _)) h1
    rw [sq]
    exact mul_le_mul (ha i) (ha j) (abs_nonneg _) hr0
  have hsk : ∀ m, |(s * l - s') * a m| ≤ e3 := by
    intro m
    rw [abs_mul]
    exact le_trans (mul_le_mul_of_nonneg_left (ha m) (abs_nonneg _)) h3
  have hent : ∀ i j, rod k c s (l • a) i j - rod k' c' s' a i j
      = (k * l ^ 2 - k') * (a i * a j)
        + ((c - c') * (1 : M3) i j + (s * l - s') * hat a i j) := by
    intro i j
    simp only [rod, hat_smul, outer3, Matrix.add_apply, Matrix.smul_apply, Matrix.of_apply,
      Pi.smul_apply, smul_eq_mul]
    ring
  rw [hent]
  refine (abs_add_le _ _).trans (add_le_add (hcoef i j) ?_)
  fin_cases i <;> fin_cases j <;> simp [hat] <;>
    first | exact Or.inl h2 | (rw [← abs_mul]; exact Or.inr (hsk _))

/-- Below the threshold the logarithm is at most as long as the rotation angle. -/
theorem log_near {eps epi : ℝ} (he1 : eps ≤ 1 / 2) (hpi : epi ≤ 1) {R : M3}
    (h : Valid R) (hθ : theta R < eps) :
    norm3 (log eps epi R) ≤ theta R ∧ log eps epi R = (1 + sine R ^ 2 / 6) • sineAxis R := by
  have h0 := h.theta_nonneg
  have hsin := h.sin_theta
  have hcpos : 0 < cosine R := by
    rw [← h.cos_theta]
    exact Real.cos_pos_of_mem_Ioo ⟨by linarith [Real.pi_pos], by linarith [Real.pi_gt_three]⟩
  have hlog : log eps epi R = (1 + sine R ^ 2 / 6) • sineAxis R := by
    rw [log, if_neg (by rw [not_le]; linarith), logScale, if_pos (Or.inl hθ)]
  refine ⟨?_, hlog⟩
  rw [hlog, norm3_smul, abs_of_pos (by positivity)]
  have := sin_series_le h0
  rw [hsin] at this
  have e : (1 + sine R ^ 2 / 6) * norm3 (sineAxis R) = sine R + sine R ^ 3 / 6 := by
    rw [← sine]; ring
  linarith

/-- Below the threshold every entry of `exp(log R)` is within `θ³/2` of that of `R`, where `θ` is
the rotation angle of `R`. -/
theorem exp_log_near {eps epi : ℝ} (he1 : eps ≤ 1 / 2) (hpi : epi ≤ 1) {R : M3}
    (h : Valid R) (hθ : theta R < eps) (i j : Fin 3) :
    |exp eps (log eps epi R) i j - R i j| ≤ theta R ^ 3 / 2 := by
  have h0 := h.theta_nonneg
  have hcos := h.cos_theta
  have hsin := h.sin_theta
  have hs0 : 0 ≤ sine R := norm3_nonneg _
  have hsφ : sine R ≤ theta R := by rw [← hsin]; exact Real.sin_le h0
  have hs1 : sine R ≤ 1 / 2 := by linarith
  have hunit : cosine R ^ 2 + sine R ^ 2 = 1 := h.unit'
  have hcpos : 0 < cosine R := by
    rw [← hcos]
    exact Real.cos_pos_of_mem_Ioo ⟨by linarith [Real.pi_pos], by linarith [Real.pi_gt_three]⟩
  have hcl : 1 / 2 ≤ cosine R := by nlinarith
  have hfar : ¬ 1 + cosine R ≤ epi := by rw [not_le]; linarith
  have hlog : log eps epi R = (1 + sine R ^ 2 / 6) • sineAxis R := by
    rw [log, if_neg hfar, logScale, if_pos (Or.inl hθ)]
  have hlpos : 0 < 1 + sine R ^ 2 / 6 := by positivity
  have hnorm : norm3 ((1 + sine R ^ 2 / 6) • sineAxis R) = (1 + sine R ^ 2 / 6) * sine R := by
    rw [norm3_smul, abs_of_pos hlpos]; rfl
  have hx : (1 + sine R ^ 2 / 6) * sine R < eps := by
    have := sin_series_le h0
    rw [hsin] at this
    have e : (1 + sine R ^ 2 / 6) * sine R = sine R + sine R ^ 3 / 6 := by ring
    linarith
  obtain ⟨hC, hS, hK⟩ := near_coeffs hx
  obtain ⟨b1, b2, b3⟩ := near_scalars hs0 hs1 hcl hunit rfl hC hS hK
  have hR := h.decomp (by linarith)
  rw [hlog, exp, hnorm]
  conv_lhs => enter [1, 2]; rw [hR]
  have b3' : |expK eps ((1 + sine R ^ 2 / 6) * sine R) * (1 + sine R ^ 2 / 6) ^ 2
      - 1 / (1 + cosine R)| * sine R ^ 2 ≤ sine R ^ 2 * sine R ^ 2 / 2 := by
    rw [← abs_of_nonneg (sq_nonneg (sine R)), ← abs_mul, abs_of_nonneg (sq_nonneg (sine R)), b3,
      abs_sub_comm]
    exact b2
  have b1' : |expS eps ((1 + sine R ^ 2 / 6) * sine R) * (1 + sine R ^ 2 / 6) - 1| * sine R
      ≤ sine R ^ 2 / 9 * sine R := mul_le_mul_of_nonneg_right b1 hs0
  refine (rod_sub_bound (le_refl (norm3 (sineAxis R))) b3' b2 b1' i j).trans ?_
  have h3 : sine R ^ 3 ≤ theta R ^ 3 := pow_le_pow_left₀ hs0 hsφ 3
  have h4 : 0 ≤ sine R ^ 3 := by positivity
  have e4 : sine R ^ 2 * sine R ^ 2 / 2 ≤ sine R ^ 3 / 4 := by nlinarith
  have hm : max (sine R ^ 2 * sine R ^ 2 / 2) (sine R ^ 2 / 9 * sine R) ≤ sine R ^ 3 / 4 :=
    max_le e4 (by nlinarith)
  linarith

end SO3
end Verif.Geometry
