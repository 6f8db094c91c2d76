import Verif.Robust.Model
import Mathlib.Analysis.SpecialFunctions.ExpDeriv
import Mathlib.Analysis.SpecialFunctions.Sqrt
import Mathlib.Analysis.Calculus.Deriv.Inv
/-!
C39: the four robust losses are valid M-estimators. For a positive radius each loss is zero at zero,
nonnegative, nondecreasing and below the squared error, and `linearize` is its derivative, all up to
explicit multiples of the constant `1e-20` of the code. `HingeLoss` meets these only up to that
constant, and it is not below the squared error: the exact facts are stated.
-/
namespace Verif.Robust
open Set

theorem lossEps_pos : 0 < lossEps := by unfold lossEps; norm_num

/-- C39 for `WelschLoss`: value at zero, range, bound by the squared error and by the radius,
monotonicity, and `linearize` against the derivative. -/
theorem welsch_valid (r : ℝ) (hr : 0 < r) :
    welsch 0 r = 0 ∧
    (∀ x, 0 ≤ x → 0 ≤ welsch x r ∧ welsch x r ≤ x ∧ welsch x r ≤ r) ∧
    MonotoneOn (fun x => welsch x r) (Ici 0) ∧
    AntitoneOn (fun x => welschLin x r) (Ici 0) ∧
    ∀ x, 0 ≤ x → 0 ≤ welschLin x r ∧ welschLin x r ≤ 1 ∧
      ∃ D, HasDerivAt (fun y => welsch y r) D x ∧ |welschLin x r - D| ≤ lossEps / r := by
  have he := lossEps_pos
  have hre : 0 < r + lossEps := by linarith
  refine ⟨by simp [welsch], ?_, ?_, ?_, ?_⟩
  · intro x hx
    have h1 : Real.exp (-x / (r + lossEps)) ≤ 1 := by
      rw [Real.exp_le_one_iff]; exact div_nonpos_of_nonpos_of_nonneg (by linarith) hre.le
    have h2 := Real.add_one_le_exp (-x / (r + lossEps))
    have h3 := Real.exp_pos (-x / (r + lossEps))
    refine ⟨?_, ?_, ?_⟩
    · unfold welsch; nlinarith
    · unfold welsch
      have h4 : r * (x / (r + lossEps)) ≤ x := by
        rw [mul_div_assoc', div_le_iff₀ hre]; nlinarith
      have h5 : -x / (r + lossEps) = - (x / (r + lossEps)) := by ring
      rw [h5] at h2 ⊢
      nlinarith
    · unfold welsch; nlinarith
  · intro x _ y _ hxy
    have : Real.exp (-y / (r + lossEps)) ≤ Real.exp (-x / (r + lossEps)) := by
      rw [Real.exp_le_exp]; gcongr
    simp only [welsch]; nlinarith
  · intro x _ y _ hxy
    show Real.exp (-y / (r + lossEps)) ≤ Real.exp (-x / (r + lossEps))
    rw [Real.exp_le_exp]; gcongr
  · intro x hx
    have h1 : Real.exp (-x / (r + lossEps)) ≤ 1 := by
      rw [Real.exp_le_one_iff]; exact div_nonpos_of_nonpos_of_nonneg (by linarith) hre.le
    have h3 := Real.exp_pos (-x / (r + lossEps))
    refine ⟨h3.le, h1, r * Real.exp (-x / (r + lossEps)) / (r + lossEps), ?_, ?_⟩
    · have h := ((((hasDerivAt_id x).neg.div_const (r + lossEps)).exp).const_mul r).const_sub r
      unfold welsch
      refine h.congr_deriv ?_
      show -(r * (Real.exp (-x / (r + lossEps)) * (-1 / (r + lossEps)))) = _
      ring
    · unfold welschLin
      have : Real.exp (-x / (r + lossEps)) - r * Real.exp (-x / (r + lossEps)) / (r + lossEps)
          = Real.exp (-x / (r + lossEps)) * (lossEps / (r + lossEps)) := by field_simp; ring
      rw [this, abs_of_nonneg (by positivity)]
      calc _ ≤ 1 * (lossEps / (r + lossEps)) := by gcongr
        _ ≤ lossEps / r := by rw [one_mul]; gcongr; linarith

/-- C39 for `HuberLoss`, away from the kink at the radius for the derivative. -/
theorem huber_valid (r : ℝ) (hr : 0 < r) :
    huber 0 r = 0 ∧
    (∀ x, 0 ≤ x → 0 ≤ huber x r ∧ huber x r ≤ x + 2 * Real.sqrt lossEps) ∧
    (∀ x, x ≤ r → huber x r = x) ∧
    MonotoneOn (fun x => huber x r) (Ici 0) ∧
    AntitoneOn (fun x => huberLin x r) (Ici 0) ∧
    ∀ x, 0 ≤ x → x ≠ r → 0 ≤ huberLin x r ∧
      ∃ D, HasDerivAt (fun y => huber y r) D x ∧
        |huberLin x r - D| ≤ Real.sqrt lossEps + lossEps / r ^ 2 := by
  have he := lossEps_pos
  have hs := Real.sqrt_pos.2 he
  have hss := Real.mul_self_sqrt he.le
  refine ⟨by simp [huber, not_lt.2 hr.le], ?_, ?_, ?_, ?_, ?_⟩
  · intro x hx
    unfold huber
    split
    next h =>
      rw [max_eq_left (le_of_lt h)]
      constructor
      · have : r ≤ Real.sqrt (r * x + lossEps) := by
          apply Real.le_sqrt_of_sq_le; nlinarith
        linarith
      · have : Real.sqrt (r * x + lossEps) ≤ (x + r) / 2 + Real.sqrt lossEps := by
          apply Real.sqrt_le_iff.2 ⟨by positivity, ?_⟩
          nlinarith [sq_nonneg (x - r), mul_pos hs (show (0:ℝ) < x + r by linarith)]
        linarith
    next h => exact ⟨hx, by linarith⟩
  · intro x hx; simp [huber, not_lt.2 hx]
  · intro x hx y hy hxy
    simp only [huber]
    split
    next h =>
      have hy' : y > r := lt_of_lt_of_le h hxy
      rw [if_pos hy', max_eq_left (le_of_lt h), max_eq_left (le_of_lt hy')]
      have : Real.sqrt (r * x + lossEps) ≤ Real.sqrt (r * y + lossEps) := by
        apply Real.sqrt_le_sqrt; gcongr
      linarith
    next h =>
      split
      next h' =>
        rw [max_eq_left (le_of_lt h')]
        have : r ≤ Real.sqrt (r * y + lossEps) := by
          apply Real.le_sqrt_of_sq_le; nlinarith
        linarith [not_lt.1 h]
      next => exact hxy
  · intro x hx y hy hxy
    simp only [huberLin]
    apply Real.sqrt_le_sqrt
    have : 0 < max x r := lt_of_lt_of_le hr (le_max_right _ _)
    gcongr
  · intro x hx hne
    refine ⟨Real.sqrt_nonneg _, ?_⟩
    rcases lt_or_gt_of_ne hne with h | h
    · refine ⟨1, ?_, ?_⟩
      · apply (hasDerivAt_id x).congr_of_eventuallyEq
        filter_upwards [Iio_mem_nhds h] with y hy
        simp [huber, not_lt.2 (le_of_lt (show y < r from hy))]
      · unfold huberLin
        rw [max_eq_right h.le, div_self hr.ne']
        have h1 : 1 ≤ Real.sqrt (1 + lossEps) := Real.le_sqrt_of_sq_le (by linarith)
        have h2 : Real.sqrt (1 + lossEps) ≤ 1 + Real.sqrt lossEps :=
          Real.sqrt_le_iff.2 ⟨by positivity, by nlinarith⟩
        rw [abs_of_nonneg (by linarith)]
        have : 0 ≤ lossEps / r ^ 2 := by positivity
        linarith
    · have hx0 : 0 < x := lt_trans hr h
      have hq : 0 < r * x + lossEps := by positivity
      refine ⟨r / Real.sqrt (r * x + lossEps), ?_, ?_⟩
      · have h1 : HasDerivAt (fun y => r * y + lossEps) r x := by
          simpa using ((hasDerivAt_id x).const_mul r).add_const lossEps
        have h2 := ((h1.sqrt hq.ne').const_mul 2).sub_const r
        have h3 : 2 * (r / (2 * Real.sqrt (r * x + lossEps))) = r / Real.sqrt (r * x + lossEps) := by
          field_simp
        rw [h3] at h2
        apply h2.congr_of_eventuallyEq
        filter_upwards [Ioi_mem_nhds h] with y hy
        simp [huber, show r < y from hy, max_eq_left (le_of_lt (show r < y from hy))]
      · unfold huberLin
        rw [max_eq_left (le_of_lt h)]
        set Q := Real.sqrt (r * x + lossEps) with hQ
        have hQ0 : 0 < Q := Real.sqrt_pos.2 hq
        have hQ2 : Q * Q = r * x + lossEps := Real.mul_self_sqrt hq.le
        set D := r / Q with hD
        have hD0 : 0 < D := by positivity
        have hD2 : D * D = r ^ 2 / (r * x + lossEps) := by
          rw [hD, div_mul_div_comm, hQ2]; ring
        have hle : D * D ≤ r / x := by
          rw [hD2, div_le_div_iff₀ hq hx0]; nlinarith
        have hD1 : D ≤ 1 := by
          have : r / x ≤ 1 := by rw [div_le_one hx0]; exact h.le
          nlinarith
        have hlow : D ≤ Real.sqrt (r / x + lossEps) := by
          apply Real.le_sqrt_of_sq_le; nlinarith
        have hdiff : r / x - D * D ≤ D * (2 * (lossEps / r ^ 2)) := by
          have h5 : r / x - D * D = D * D * (lossEps / (r * x)) := by
            rw [hD2]; field_simp; ring
          rw [h5]
          have h6 : lossEps / (r * x) ≤ lossEps / r ^ 2 := by
            gcongr; nlinarith
          have h7 : 0 ≤ lossEps / r ^ 2 := by positivity
          calc D * D * (lossEps / (r * x)) ≤ D * 1 * (lossEps / r ^ 2) := by gcongr
            _ ≤ _ := by nlinarith
        have hup : Real.sqrt (r / x + lossEps) ≤ D + (Real.sqrt lossEps + lossEps / r ^ 2) := by
          apply Real.sqrt_le_iff.2 ⟨by positivity, ?_⟩
          have : 0 ≤ lossEps / r ^ 2 := by positivity
          nlinarith [mul_nonneg hD0.le hs.le, mul_nonneg this hs.le, mul_nonneg this this]
        rw [abs_of_nonneg (by linarith)]
        linarith

/-- C39 for `GemanMcClureLoss`, for a positive radius and control value. -/
theorem geman_valid (r mu : ℝ) (hr : 0 < r) (hmu : 0 < mu) :
    geman 0 r mu = 0 ∧
    (∀ x, 0 ≤ x → 0 ≤ geman x r mu ∧ geman x r mu ≤ x ∧ geman x r mu ≤ mu * r) ∧
    MonotoneOn (fun x => geman x r mu) (Ici 0) ∧
    AntitoneOn (fun x => gemanLin x r mu) (Ici 0) ∧
    ∀ x, 0 ≤ x → 0 ≤ gemanLin x r mu ∧ gemanLin x r mu ≤ 1 ∧
      ∃ D, HasDerivAt (fun y => geman y r mu) D x ∧
        |gemanLin x r mu - D| ≤ lossEps * (2 / (mu * r) ^ 2 + 4 / (mu * r) + 1 / (mu * r) ^ 3) := by
  have he := lossEps_pos
  obtain ⟨m, hm⟩ : ∃ m, m = mu * r := ⟨_, rfl⟩
  have hm0 : 0 < m := by rw [hm]; positivity
  refine ⟨by simp [geman], ?_, ?_, ?_, ?_⟩
  · intro x hx
    unfold geman
    rw [← hm]
    have hd : 0 < m + x + lossEps := by positivity
    refine ⟨by positivity, ?_, ?_⟩
    · rw [div_le_iff₀ hd]; nlinarith [mul_nonneg hx hx]
    · rw [div_le_iff₀ hd]; nlinarith
  · intro x hx y hy hxy
    have hx : 0 ≤ x := hx
    have hy : 0 ≤ y := hy
    simp only [geman]
    rw [← hm]
    have hd : 0 < m + x + lossEps := by positivity
    have hd' : 0 < m + y + lossEps := by positivity
    rw [div_le_div_iff₀ hd hd']
    nlinarith [mul_nonneg (mul_pos hm0 (show (0:ℝ) < m + lossEps by linarith)).le (sub_nonneg.2 hxy)]
  · intro x hx y hy hxy
    have hx : 0 ≤ x := hx
    simp only [gemanLin]
    rw [← hm]
    gcongr
  · intro x hx
    unfold gemanLin geman
    rw [← hm]
    have hd : 0 < m + x + lossEps := by positivity
    have hd2 : 0 < (m + x) ^ 2 + lossEps := by positivity
    refine ⟨by positivity, ?_, m * (m + lossEps) / (m + x + lossEps) ^ 2, ?_, ?_⟩
    · rw [div_le_one hd2]; nlinarith [mul_nonneg hm0.le hx, sq_nonneg x]
    · have h1 : HasDerivAt (fun y => m * y) m x := by simpa using (hasDerivAt_id x).const_mul m
      have h2 : HasDerivAt (fun y => m + y + lossEps) 1 x := by
        simpa using ((hasDerivAt_id x).const_add m).add_const lossEps
      refine (h1.div h2 hd.ne').congr_deriv ?_
      congr 1; ring
    · have hsm : m ≤ m + x := by linarith
      clear hd hd2
      generalize m + x = s at *
      have hs0 : 0 < s := by linarith
      have hle1 : lossEps ≤ 1 := by unfold lossEps; norm_num
      have key : m ^ 2 / (s ^ 2 + lossEps) - m * (m + lossEps) / (s + lossEps) ^ 2 =
          lossEps * (m * (2 * m * s + m * lossEps - m - s ^ 2 - lossEps) /
            ((s ^ 2 + lossEps) * (s + lossEps) ^ 2)) := by
        field_simp; ring
      rw [key, abs_mul, abs_of_pos he]
      apply mul_le_mul_of_nonneg_left _ he.le
      rw [abs_div, abs_of_pos (show 0 < (s ^ 2 + lossEps) * (s + lossEps) ^ 2 by positivity)]
      have hden : s ^ 2 * s ^ 2 ≤ (s ^ 2 + lossEps) * (s + lossEps) ^ 2 := by
        gcongr <;> linarith
      have hnum : |m * (2 * m * s + m * lossEps - m - s ^ 2 - lossEps)| ≤
          m * (2 * m * s + m * 1 + m + s ^ 2 + 1) := by
        rw [abs_mul, abs_of_pos hm0]
        gcongr
        have : m * lossEps ≤ m * 1 := by gcongr
        have : 0 ≤ m * lossEps := by positivity
        have : 0 ≤ m * s := by positivity
        rw [abs_le]; constructor <;> nlinarith [sq_nonneg s]
      calc _ ≤ m * (2 * m * s + m * 1 + m + s ^ 2 + 1) / (s ^ 2 * s ^ 2) := by gcongr
        _ ≤ 2 / m ^ 2 + 4 / m + 1 / m ^ 3 := by
          have e1 : m * (2 * m * s + m * 1 + m + s ^ 2 + 1) / (s ^ 2 * s ^ 2) =
              2 * (m ^ 2 / s ^ 3) + 2 * (m ^ 2 / s ^ 4) + m / s ^ 2 + m / s ^ 4 := by
            field_simp; ring
          rw [e1]
          have a1 : m ^ 2 / s ^ 3 ≤ 1 / m := by
            rw [div_le_div_iff₀ (by positivity) hm0]
            nlinarith [pow_le_pow_left₀ hm0.le hsm 3]
          have a2 : m ^ 2 / s ^ 4 ≤ 1 / m ^ 2 := by
            rw [div_le_div_iff₀ (by positivity) (by positivity)]
            nlinarith [pow_le_pow_left₀ hm0.le hsm 4]
          have a3 : m / s ^ 2 ≤ 1 / m := by
            rw [div_le_div_iff₀ (by positivity) hm0]
            nlinarith [pow_le_pow_left₀ hm0.le hsm 2]
          have a4 : m / s ^ 4 ≤ 1 / m ^ 3 := by
            rw [div_le_div_iff₀ (by positivity) (by positivity)]
            nlinarith [pow_le_pow_left₀ hm0.le hsm 4]
          have b1 : 2 / m ^ 2 = 2 * (1 / m ^ 2) := by ring
          have b2 : 4 / m = 4 * (1 / m) := by ring
          have : 0 < 1 / m := by positivity
          rw [b1, b2]; linarith

/-- C39 for `HingeLoss`: as coded it is `1e-20`, not zero, up to the radius, so it is nonnegative and
monotone only up to that constant; `linearize` is the derivative up to the constant. -/
theorem hinge_valid_partial (r : ℝ) (hr : 0 < r) :
    (∀ x, x ≤ r → hinge x r = lossEps ∧ hingeLin x r = 0) ∧
    (∀ x, 0 ≤ x → 0 ≤ hinge x r ∧ hinge x r ≤ max (Real.sqrt x) lossEps) ∧
    (∀ x y, 0 ≤ x → x ≤ y → hinge x r ≤ hinge y r + lossEps) ∧
    ∀ x, 0 ≤ x → x ≠ r → 0 ≤ hingeLin x r ∧
      ∃ D, HasDerivAt (fun y => hinge y r) D x ∧ |hingeLin x r - D| ≤ lossEps / (4 * r) := by
  have he := lossEps_pos
  refine ⟨?_, ?_, ?_, ?_⟩
  · intro x hx; simp [hinge, hingeLin, not_lt.2 hx]
  · intro x hx
    unfold hinge
    split
    next h =>
      have : Real.sqrt r ≤ Real.sqrt x := Real.sqrt_le_sqrt h.le
      have h0 := Real.sqrt_nonneg r
      exact ⟨by linarith, le_trans (by linarith) (le_max_left _ _)⟩
    next h => exact ⟨he.le, le_max_right _ _⟩
  · intro x y hx hxy
    unfold hinge
    split
    next h =>
      rw [if_pos (lt_of_lt_of_le h hxy)]
      have : Real.sqrt x ≤ Real.sqrt y := Real.sqrt_le_sqrt hxy
      linarith
    next h =>
      split
      next h' =>
        have : Real.sqrt r ≤ Real.sqrt y := Real.sqrt_le_sqrt (le_of_lt h')
        linarith
      next => linarith
  · intro x hx hne
    rcases lt_or_gt_of_ne hne with h | h
    · have hl : hingeLin x r = 0 := by simp [hingeLin, not_lt.2 h.le]
      refine ⟨hl.ge, 0, ?_, by rw [hl]; simp; positivity⟩
      apply (hasDerivAt_const x lossEps).congr_of_eventuallyEq
      filter_upwards [Iio_mem_nhds h] with y hy
      simp [hinge, not_lt.2 (le_of_lt (show y < r from hy))]
    · have hx0 : 0 < x := lt_trans hr h
      have hs := Real.sqrt_pos.2 hx0
      have hl : hingeLin x r = 1 / (2 * Real.sqrt x + lossEps) := by simp [hingeLin, h]
      refine ⟨by rw [hl]; positivity, 1 / (2 * Real.sqrt x), ?_, ?_⟩
      · have h2 := ((hasDerivAt_id x).sqrt hx0.ne').sub_const (Real.sqrt r)
        apply h2.congr_of_eventuallyEq
        filter_upwards [Ioi_mem_nhds h] with y hy
        simp [hinge, show r < y from hy]
      · rw [hl]
        have : 1 / (2 * Real.sqrt x + lossEps) - 1 / (2 * Real.sqrt x) =
            - (lossEps / ((2 * Real.sqrt x + lossEps) * (2 * Real.sqrt x))) := by field_simp; ring
        rw [this, abs_neg, abs_of_pos (by positivity)]
        have := Real.mul_self_sqrt hx0.le
        apply div_le_div_of_nonneg_left he.le (by positivity)
        nlinarith [mul_pos he hs]

/-- The full C39 fails for `HingeLoss`: it is not zero at zero, it decreases just above the radius,
and it can exceed the squared error. -/
theorem hinge_not_valid (r : ℝ) (hr : 0 < r) :
    hinge 0 r ≠ 0 ∧ ¬ MonotoneOn (fun x => hinge x r) (Ici 0) ∧
    ∃ r' x : ℝ, 0 < r' ∧ 0 ≤ x ∧ x < hinge x r' := by
  have he := lossEps_pos
  refine ⟨by simp [hinge, not_lt.2 hr.le, he.ne'], ?_, 1 / 100, 1 / 4, by norm_num, by norm_num, ?_⟩
  · intro hmono
    have h := hmono (show r ∈ Ici (0:ℝ) from hr.le)
      (show (Real.sqrt r + lossEps / 2) ^ 2 ∈ Ici (0:ℝ) from Set.mem_Ici.2 (sq_nonneg _))
    have hs := Real.sqrt_pos.2 hr
    have hss := Real.mul_self_sqrt hr.le
    have hgt : (Real.sqrt r + lossEps / 2) ^ 2 > r := by nlinarith
    have := h hgt.le
    simp only [hinge, if_neg (lt_irrefl r), if_pos hgt, gt_iff_lt] at this
    rw [Real.sqrt_sq (by positivity)] at this
    linarith
  · have h1 : Real.sqrt (1 / 4) = 1 / 2 := by
      rw [show (1 / 4 : ℝ) = (1 / 2) ^ 2 by norm_num]; exact Real.sqrt_sq (by norm_num)
    have h2 : Real.sqrt (1 / 100) = 1 / 10 := by
      rw [show (1 / 100 : ℝ) = (1 / 10) ^ 2 by norm_num]; exact Real.sqrt_sq (by norm_num)
    unfold hinge
    rw [if_pos (by norm_num), h1, h2]; norm_num

example : (0 : ℝ) < 1 ∧ huber 4 1 ≠ 4 := by
  refine ⟨one_pos, ?_⟩
  have h := (huber_valid 1 one_pos)
  unfold huber
  rw [if_pos (by norm_num)]
  have : Real.sqrt (1 * max 4 1 + lossEps) < 5 / 2 := by
    rw [Real.sqrt_lt' (by norm_num), max_eq_left (by norm_num)]
    unfold lossEps; norm_num
  intro h; linarith

end Verif.Robust
