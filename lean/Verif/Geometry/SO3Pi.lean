import Verif.Geometry.SO3Log

/-!
# The logarithm of `SO3` near half a turn
-/

namespace Verif.Geometry
open Matrix

namespace SO3

/-- The symmetric part of a rotation minus its cosine: `(1 - cos θ) a aᵀ` for the axis `a`. -/
noncomputable def symPart (R : M3) (i j : Fin 3) : ℝ :=
  1 / 2 * (R i j + R j i) - (if j = i then cosine R else 0)

theorem selRow_eq (R : M3) (j : Fin 3) : selRow R j = symPart R (major R) j := rfl

theorem Valid.sym_outer {R : M3} (h : Valid R) (i j : Fin 3) :
    (1 + cosine R) * symPart R i j = sineAxis R i * sineAxis R j := by
  have h1 := congrFun (congrFun h.outer i) j
  have h2 := congrFun (congrFun h.outer j) i
  simp only [Matrix.add_apply, Matrix.smul_apply, outer3, Matrix.of_apply, smul_eq_mul,
    Matrix.one_apply] at h1 h2
  have h3 : hat (sineAxis R) i j + hat (sineAxis R) j i = 0 := by
    fin_cases i <;> fin_cases j <;> simp [hat]
  unfold symPart
  by_cases hij : j = i
  · subst hij
    simp only [if_true] at *
    linear_combination (1 / 2) * h1 + (1 / 2) * h2 + (1 / 2) * (1 + cosine R) * h3
  · have hji : ¬ i = j := fun h => hij h.symm
    simp only [if_neg hij, if_neg hji] at *
    linear_combination (1 / 2) * h1 + (1 / 2) * h2 + (1 / 2) * (1 + cosine R) * h3

theorem Valid.axis_zero {R : M3} (h : Valid R) (hc : 1 + cosine R = 0) : sineAxis R = 0 := by
  rw [← dot_self_eq_zero]
  have := h.unit
  have hc' : cosine R = -1 := by linarith
  rw [hc'] at this; linarith

theorem sym_comm (R : M3) (i j : Fin 3) : symPart R i j = symPart R j i := by
  unfold symPart
  by_cases hij : j = i
  · subst hij; rfl
  · have hji : ¬ i = j := fun h => hij h.symm
    simp only [if_neg hij, if_neg hji]; ring

/-- The symmetric part has rank one. -/
theorem Valid.rank_one {R : M3} (h : Valid R) (m i j : Fin 3) :
    symPart R m i * symPart R m j = symPart R m m * symPart R i j := by
  by_cases hc : 1 + cosine R = 0
  · have hn := h.axis_zero hc
    have e := h.eqs
    have n0 := congrFun hn 0
    have n1 := congrFun hn 1
    have n2 := congrFun hn 2
    simp [sineAxis] at n0 n1 n2
    have hc' : cosine R = -1 := by linarith
    have htr : R 0 0 + R 1 1 + R 2 2 = -1 := by unfold cosine at hc; linarith
    obtain ⟨c00, c11, c22, c01, c10, c02, c20, c12, c21, -, -, -, -, -, -, -, -, -, -, -, -⟩ := e
    have s21 : R 2 1 = R 1 2 := by linarith
    have s20 : R 2 0 = R 0 2 := by linarith
    have s10 : R 1 0 = R 0 1 := by linarith
    have s22 : R 2 2 = -1 - R 0 0 - R 1 1 := by linarith
    simp only [s21, s20, s10, s22] at c00 c11 c22 c01 c10 c02 c20 c12 c21
    fin_cases m <;> fin_cases i <;> fin_cases j <;>
      simp only [symPart, hc', Fin.zero_eta, Fin.mk_one, Fin.reduceFinMk, Fin.reduceEq, if_true,
        if_false, s21, s20, s10, s22] <;>
      first
      | ring1
      | linear_combination c00
      | linear_combination -c00
      | linear_combination c11
      | linear_combination -c11
      | linear_combination c22
      | linear_combination -c22
      | linear_combination c01
      | linear_combination -c01
      | linear_combination c02
      | linear_combination -c02
      | linear_combination c12
      | linear_combination -c12
  · have h1 := h.sym_outer m i
    have h2 := h.sym_outer m j
    have h3 := h.sym_outer m m
    have h4 := h.sym_outer i j
    have : (1 + cosine R) ^ 2 * (symPart R m i * symPart R m j)
        = (1 + cosine R) ^ 2 * (symPart R m m * symPart R i j) := by
      calc _ = ((1 + cosine R) * symPart R m i) * ((1 + cosine R) * symPart R m j) := by ring
        _ = ((1 + cosine R) * symPart R m m) * ((1 + cosine R) * symPart R i j) := by
            rw [h1, h2, h3, h4]; ring
        _ = _ := by ring
    exact mul_left_cancel₀ (pow_ne_zero 2 hc) this

theorem sym_trace (R : M3) : symPart R 0 0 + symPart R 1 1 + symPart R 2 2 = 1 - cosine R := by
  simp only [symPart, if_true]
  unfold cosine; ring

theorem Valid.row_norm {R : M3} (h : Valid R) :
    dot3 (selRow R) (selRow R) = symPart R (major R) (major R) * (1 - cosine R) := by
  have h0 := h.rank_one (major R) 0 0
  have h1 := h.rank_one (major R) 1 1
  have h2 := h.rank_one (major R) 2 2
  have ht := sym_trace R
  simp only [dot3, selRow_eq]
  rw [h0, h1, h2, ← ht]; ring

/-- `exp (log R) = R` near half a turn, when the selected row does not vanish. -/
theorem exp_log_pi {eps epi : ℝ} (he : 0 < eps) {R : M3} (h : Valid R)
    (h1 : eps ≤ theta R) (hp : 1 + cosine R ≤ epi) (hrow : selRow R ≠ 0) :
    norm3 (log eps epi R) = theta R ∧ exp eps (log eps epi R) = R := by
  have hn : ¬ theta R < eps := not_lt.mpr h1
  have hpos : 0 < theta R := lt_of_lt_of_le he h1
  set N := norm3 (selRow R) with hN
  have hN0 : N ≠ 0 := fun h => hrow (norm3_eq_zero.mp h)
  have hNpos : 0 < N := lt_of_le_of_ne (norm3_nonneg _) (Ne.symm hN0)
  have hN2 : N ^ 2 = symPart R (major R) (major R) * (1 - cosine R) := by
    rw [hN, norm3_sq, h.row_norm]
  set sg := logSign R with hsg
  have hsg2 : sg * sg = 1 := by rw [hsg, logSign]; split_ifs <;> norm_num
  have hsgabs : |sg| = 1 := by rw [hsg, logSign]; split_ifs <;> norm_num
  have hlog : log eps epi R = (theta R * sg / N) • selRow R := by
    rw [log, if_pos hp, axisDenominator, if_neg hn, smul_smul, div_eq_mul_inv]
  have hnorm : norm3 (log eps epi R) = theta R := by
    rw [hlog, norm3_smul, abs_div, abs_mul, hsgabs, abs_of_pos hpos, abs_of_pos hNpos, ← hN]
    field_simp
  refine ⟨hnorm, ?_⟩
  have hm0 : symPart R (major R) (major R) ≠ 0 := by
    intro h0; rw [h0, zero_mul] at hN2; exact hN0 (pow_eq_zero_iff two_ne_zero |>.mp hN2)
  have hc0 : 1 - cosine R ≠ 0 := by
    intro h0; rw [h0, mul_zero] at hN2; exact hN0 (pow_eq_zero_iff two_ne_zero |>.mp hN2)
  have hax : ∀ i, sine R * sg / N * selRow R i = sineAxis R i := by
    intro i
    by_cases hc : 1 + cosine R = 0
    · have h0 := h.axis_zero hc
      have : sine R = 0 := by rw [sine, h0]; exact norm3_eq_zero.mpr rfl
      rw [this, h0]; simp
    · have hU := h.unit'
      have e1 := h.sym_outer (major R) i
      have e2 := h.sym_outer (major R) (major R)
      have hnm : sineAxis R (major R) ≠ 0 := by
        intro h0; rw [h0, mul_zero] at e2
        exact (mul_ne_zero hc hm0) e2
      have hcpos : 0 < 1 + cosine R := by
        have hle : 0 ≤ 1 + cosine R := by nlinarith [sq_nonneg (sine R)]
        exact lt_of_le_of_ne hle (Ne.symm hc)
      have habs : sg * sineAxis R (major R) = |sineAxis R (major R)| := by
        rw [hsg, logSign]
        split_ifs with hlt
        · rw [abs_of_neg hlt]; ring
        · rw [abs_of_nonneg (not_lt.mp hlt)]; ring
      have hNval : N * (1 + cosine R) = |sineAxis R (major R)| * sine R := by
        have hsn : 0 ≤ sine R := norm3_nonneg _
        have hl : 0 ≤ N * (1 + cosine R) := by positivity
        have hr : 0 ≤ |sineAxis R (major R)| * sine R := by positivity
        refine (sq_eq_sq₀ hl hr).mp ?_
        rw [mul_pow, hN2, mul_pow, sq_abs]
        linear_combination (1 - cosine R) * (1 + cosine R) * e2
          - sineAxis R (major R) ^ 2 * hU
      rw [selRow_eq]
      have : sine R * sg * symPart R (major R) i = sineAxis R i * N := by
        refine mul_left_cancel₀ hc ?_
        calc (1 + cosine R) * (sine R * sg * symPart R (major R) i)
            = sine R * sg * ((1 + cosine R) * symPart R (major R) i) := by ring
          _ = sine R * (sg * sineAxis R (major R)) * sineAxis R i := by rw [e1]; ring
          _ = (1 + cosine R) * (sineAxis R i * N) := by
            rw [habs]; linear_combination (-sineAxis R i) * hNval
      field_simp
      linear_combination this
  simp only [exp, hnorm, expK, expS, expC, if_neg hn, h.cos_theta, h.sin_theta]
  rw [hlog]
  have e1 : (sine R / theta R) • (theta R * sg / N) • selRow R = sineAxis R := by
    rw [smul_smul]
    ext i
    rw [← hax i]
    simp only [Pi.smul_apply, smul_eq_mul]
    field_simp
  rw [rod, e1]
  ext i j
  have hR : R i j = symPart R i j + (cosine R • (1 : M3)) i j + hat (sineAxis R) i j := by
    fin_cases i <;> fin_cases j <;> simp [symPart, hat, sineAxis] <;> ring
  rw [Matrix.add_apply, Matrix.add_apply, hR]
  congr 2
  have hr := h.rank_one (major R) i j
  simp only [outer3, Matrix.smul_apply, Matrix.of_apply, Pi.smul_apply, smul_eq_mul, selRow_eq]
  have hθ2 : theta R ^ 2 ≠ 0 := pow_ne_zero 2 hpos.ne'
  calc (1 - cosine R) / theta R ^ 2 * (theta R * sg / N * symPart R (major R) i
        * (theta R * sg / N * symPart R (major R) j))
      = (1 - cosine R) / N ^ 2 * (sg * sg) * (symPart R (major R) i * symPart R (major R) j) := by
        field_simp
    _ = symPart R i j := by
        rw [hN2, hsg2, hr]; field_simp

/-- The selected row vanishes only on a tie: the second and third diagonal entries are equal and
above the first. -/
theorem selRow_ne_zero_of_diag {R : M3} (h : Valid R) (h0 : cosine R ≠ 1)
    (ht : ¬ (R 1 1 = R 2 2 ∧ R 0 0 < R 1 1)) : selRow R ≠ 0 := by
  intro hrow
  have hle : cosine R < 1 := by
    have := h.unit'
    refine lt_of_le_of_ne ?_ h0
    nlinarith [sq_nonneg (sine R)]
  have hm : symPart R (major R) (major R) = 0 := by
    have := congrFun hrow (major R); rwa [selRow_eq] at this
  have htr := sym_trace R
  simp only [symPart, if_true] at htr hm
  unfold major at hm
  split_ifs at hm with h1 h2
  · obtain ⟨ha, hb⟩ := h1; linarith
  · obtain ⟨ha, hb⟩ := h2; linarith
  · have ha : R 1 1 ≤ R 0 0 := by
      by_contra hlt
      push Not at hlt
      rcases lt_trichotomy (R 1 1) (R 2 2) with hx | hx | hx
      · exact h2 ⟨by linarith, hx⟩
      · exact ht ⟨hx, hlt⟩
      · exact h1 ⟨hlt, hx⟩
    have hb : R 2 2 ≤ R 0 0 := by
      by_contra hlt
      push Not at hlt
      exact h2 ⟨hlt, by linarith⟩
    linarith

/-- `R` is a rotation about `(0, 1, 1)` or `(0, 1, -1)` (specification: it fixes one of them). -/
def TieAxis (R : M3) : Prop := R *ᵥ ![0, 1, 1] = ![0, 1, 1] ∨ R *ᵥ ![0, 1, -1] = ![0, 1, -1]

theorem Valid.tie_iff {R : M3} (h : Valid R) :
    TieAxis R ↔ R 1 1 = R 2 2 ∧ R 0 0 = cosine R := by
  have e := h.eqs
  have key : ∀ s : ℝ, R *ᵥ ![0, 1, s] = ![0, 1, s] ↔
      (R 0 1 + R 0 2 * s = 0 ∧ R 1 1 + R 1 2 * s = 1 ∧ R 2 1 + R 2 2 * s = s) := by
    intro s
    constructor
    · intro hs
      have a0 := congrFun hs 0; have a1 := congrFun hs 1; have a2 := congrFun hs 2
      simp [Matrix.mulVec, dotProduct, Fin.sum_univ_three] at a0 a1 a2
      exact ⟨a0, a1, a2⟩
    · rintro ⟨a0, a1, a2⟩
      ext i
      fin_cases i <;> simp [Matrix.mulVec, dotProduct, Fin.sum_univ_three, a0, a1, a2]
  have keyT : ∀ s : ℝ, R *ᵥ ![0, 1, s] = ![0, 1, s] → Rᵀ *ᵥ ![0, 1, s] = ![0, 1, s] := by
    intro s hs
    conv_lhs => rw [← hs]
    rw [Matrix.mulVec_mulVec, h.1, Matrix.one_mulVec]
  constructor
  · have main : ∀ s : ℝ, s * s = 1 → R *ᵥ ![0, 1, s] = ![0, 1, s] → R 1 1 = R 2 2 ∧ R 0 0 = cosine R := by
      intro s hss hs
      obtain ⟨a0, a1, a2⟩ := (key s).mp hs
      have hT := keyT s hs
      have b1 := congrFun hT 1; have b2 := congrFun hT 2
      simp [Matrix.mulVec, dotProduct, Fin.sum_univ_three] at b1 b2
      have h12 : R 1 2 = s * (1 - R 1 1) := by linear_combination s * a1 - R 1 2 * hss
      have h21 : R 2 1 = s * (1 - R 1 1) := by linear_combination s * b1 - R 2 1 * hss
      have h22 : R 2 2 = R 1 1 := by
        rw [h21] at a2
        linear_combination s * a2 - (R 2 2 + (1 - R 1 1) - 1) * hss
      have h00 := e.c00
      rw [h12, h21, h22] at h00
      refine ⟨h22.symm, ?_⟩
      unfold cosine
      rw [h22]
      linear_combination h00 / 2 - (1 - R 1 1) ^ 2 / 2 * hss
    rintro (hs | hs)
    · exact main 1 (by norm_num) hs
    · exact main (-1) (by norm_num) hs
  · rintro ⟨h1, h2⟩
    have h11 : R 1 1 = (1 + cosine R) / 2 := by
      have : cosine R = (R 0 0 + R 1 1 + R 2 2 - 1) / 2 := by unfold cosine; ring
      linarith
    have hn0 : R 1 2 = R 2 1 := by
      have h3 := h.sym_outer 0 0
      simp [symPart, sineAxis] at h3
      have h4 : (R 2 1 - R 1 2) ^ 2 = 0 := by
        have : (1 + cosine R) * (1 / 2 * (R 0 0 + R 0 0) - cosine R) = 0 := by rw [h2]; ring
        nlinarith [h3]
      have h5 := pow_eq_zero_iff (two_ne_zero) |>.mp h4
      linarith
    have hp : R 1 2 ^ 2 = ((1 - cosine R) / 2) ^ 2 := by
      have h3 := h.rank_one 1 2 2
      simp [symPart] at h3
      rw [← hn0, ← h1, h11] at h3
      linear_combination h3
    have main : ∀ s : ℝ, s * s = 1 → R 1 2 = s * ((1 - cosine R) / 2) → R *ᵥ ![0, 1, s] = ![0, 1, s] := by
      intro s hss h12
      refine (key s).mpr ⟨?_, ?_, ?_⟩
      · have hk := e.k12
        have hr := e.r00
        rw [h2] at hr
        rw [← hn0, ← h1, h11, h12] at hk
        have : (R 0 1 + R 0 2 * s) ^ 2 = 0 := by
          linear_combination hr + 2 * s * hk + (R 0 2 ^ 2 - (1 - cosine R) * (1 + cosine R)) * hss
        exact pow_eq_zero_iff two_ne_zero |>.mp this
      · rw [h12, h11]; linear_combination (1 - cosine R) / 2 * hss
      · rw [← hn0, ← h1, h12, h11]; ring
    rcases sq_eq_sq_iff_eq_or_eq_neg.mp hp with hq | hq
    · exact Or.inl (main 1 (by norm_num) (by linarith))
    · exact Or.inr (main (-1) (by norm_num) (by linarith))

/-- The selected row vanishes exactly for rotations about the two axes. -/
theorem Valid.selRow_eq_zero_iff {R : M3} (h : Valid R) (h0 : cosine R ≠ 1) :
    selRow R = 0 ↔ TieAxis R := by
  rw [h.tie_iff]
  have hle : cosine R < 1 := by
    have := h.unit'
    refine lt_of_le_of_ne ?_ h0
    nlinarith [sq_nonneg (sine R)]
  constructor
  · intro hrow
    by_cases ht : R 1 1 = R 2 2 ∧ R 0 0 < R 1 1
    · refine ⟨ht.1, ?_⟩
      have hm : major R = 0 := by
        unfold major
        rw [if_neg (by rintro ⟨-, b⟩; linarith [ht.1]), if_neg (by rintro ⟨-, b⟩; linarith [ht.1])]
      have h1 := congrFun hrow 0
      rw [selRow_eq, hm] at h1
      simp [symPart] at h1
      linarith
    · exact absurd hrow (selRow_ne_zero_of_diag h h0 ht)
  · rintro ⟨h1, h2⟩
    have hm : major R = 0 := by
      unfold major
      rw [if_neg (by rintro ⟨-, b⟩; linarith), if_neg (by rintro ⟨-, b⟩; linarith)]
    ext j
    rw [selRow_eq, hm]
    have h3 := h.rank_one 0 j j
    have h4 : symPart R 0 0 = 0 := by simp [symPart]; linarith
    rw [h4, zero_mul] at h3
    simpa using h3

theorem selRow_ne_zero {R : M3} (h : Valid R) (h0 : cosine R ≠ 1) (ht : ¬ TieAxis R) : selRow R ≠ 0 :=
  fun e => ht ((h.selRow_eq_zero_iff h0).mp e)

/-- The symmetric part of an exponential. -/
theorem symPart_exp {eps : ℝ} (he : 0 < eps) (v : V3) (i j : Fin 3) :
    symPart (exp eps v) i j = expK eps (norm3 v) * v i * v j := by
  rw [symPart, cosine_exp he, exp]
  simp only [rod, Matrix.add_apply, Matrix.smul_apply, outer3, Matrix.of_apply, smul_eq_mul,
    Matrix.one_apply]
  have h3 : hat (expS eps (norm3 v) • v) i j + hat (expS eps (norm3 v) • v) j i = 0 := by
    fin_cases i <;> fin_cases j <;> simp [hat]
  by_cases hj : j = i
  · subst hj; simp only [if_true]; linear_combination (1 / 2) * h3
  · have hj' : ¬ i = j := fun h => hj h.symm
    simp only [if_neg hj, if_neg hj']; linear_combination (1 / 2) * h3

/-- The exponential of `v` is a rotation about one of the two axes only if `v` points along one. -/
theorem tie_exp {eps : ℝ} (he : 0 < eps) {v : V3} (h0 : cosine (exp eps v) ≠ 1)
    (hv : ¬ (v 0 = 0 ∧ (v 1 = v 2 ∨ v 1 = -v 2))) : ¬ TieAxis (exp eps v) := by
  intro ht
  have hV := exp_valid he v
  obtain ⟨h1, h2⟩ := hV.tie_iff.mp ht
  have hs : ∀ i j, _ := symPart_exp he v
  have htr := sym_trace (exp eps v)
  rw [hs 0 0, hs 1 1, hs 2 2] at htr
  have hk : expK eps (norm3 v) ≠ 0 := by
    intro h; rw [h] at htr; apply h0; linarith
  have a0 := hs 0 0
  have a1 := hs 1 1
  have a2 := hs 2 2
  simp only [symPart, if_true] at a0 a1 a2
  have v0 : expK eps (norm3 v) * v 0 * v 0 = 0 := by linarith
  have v12 : expK eps (norm3 v) * (v 1 ^ 2 - v 2 ^ 2) = 0 := by linear_combination a2 - a1 + h1
  have v12' : v 1 ^ 2 = v 2 ^ 2 := by
    rcases mul_eq_zero.mp v12 with h | h
    · exact absurd h hk
    · linarith
  refine hv ⟨?_, sq_eq_sq_iff_eq_or_eq_neg.mp v12'⟩
  simpa [hk] using v0

/-- `log (exp v)` near half a turn: `v` itself below a half turn, `v` or `-v` at exactly a half
turn. -/
theorem log_exp_pi {eps epi : ℝ} (he : 0 < eps) {v : V3} (h1 : eps ≤ norm3 v)
    (h2 : norm3 v ≤ Real.pi) (hp : 1 + Real.cos (norm3 v) ≤ epi)
    (hrow : selRow (exp eps v) ≠ 0) :
    (norm3 v < Real.pi → log eps epi (exp eps v) = v) ∧
    (norm3 v = Real.pi → log eps epi (exp eps v) = v ∨ log eps epi (exp eps v) = -v) := by
  obtain ⟨ht, hs, hc⟩ := theta_exp he h1 h2
  have hn : ¬ norm3 v < eps := not_lt.mpr h1
  have hpos : 0 < norm3 v := lt_of_lt_of_le he h1
  have hV := exp_valid he v
  set m := major (exp eps v) with hm
  have hcoef := exp_coeffs (θ := norm3 v) he
  set k := expK eps (norm3 v) with hk
  have hk0 : 0 ≤ k := by
    rw [hk, expK, if_neg hn, expC, if_neg hn]
    have := Real.cos_le_one (norm3 v)
    exact div_nonneg (by linarith) (sq_nonneg _)
  have hsel : selRow (exp eps v) = (k * v m) • v := by
    ext j
    rw [selRow_eq, ← hm, symPart_exp he]
    simp [hk]
  have hkm : k * v m ≠ 0 := by
    intro h0; rw [h0, zero_smul] at hsel; exact hrow hsel
  have hkp : 0 < k := lt_of_le_of_ne hk0 fun h => hkm (by rw [← h, zero_mul])
  have hvm : v m ≠ 0 := fun h => hkm (by rw [h, mul_zero])
  have hvn : v ≠ 0 := fun h => hvm (by rw [h]; rfl)
  have hlog : log eps epi (exp eps v)
      = (logSign (exp eps v) * (v m / |v m|)) • v := by
    rw [log, hc, if_pos hp, axisDenominator, ht, if_neg hn, hsel, norm3_smul, abs_mul,
      abs_of_pos hkp, smul_smul, smul_smul]
    congr 1
    have : |v m| ≠ 0 := abs_ne_zero.mpr hvm
    field_simp
  have hsgn : sineAxis (exp eps v) m = Real.sin (norm3 v) / norm3 v * v m := by
    rw [exp, sineAxis_rod, expS, if_neg hn]; rfl
  constructor
  · intro hlt
    have hsp := Real.sin_pos_of_pos_of_lt_pi hpos hlt
    have hq : 0 < Real.sin (norm3 v) / norm3 v := div_pos hsp hpos
    rw [hlog, logSign, ← hm, hsgn]
    rcases lt_or_gt_of_ne hvm with hx | hx
    · rw [if_pos (mul_neg_of_pos_of_neg hq hx), abs_of_neg hx]
      have : -1 * (v m / -v m) = 1 := by field_simp
      rw [this, one_smul]
    · rw [if_neg (not_lt.mpr (mul_pos hq hx).le), abs_of_pos hx, div_self hvm]; simp
  · intro heq
    rw [hlog, logSign, ← hm, hsgn, heq]
    rcases lt_or_gt_of_ne hvm with hx | hx
    · right; simp [abs_of_neg hx, div_neg, div_self hvm]
    · left; simp [abs_of_pos hx, div_self hvm]

/-- The rotation by half a turn about `(0, 1, 1)/√2`. -/
def tie : M3 := !![-1, 0, 0; 0, 0, 1; 0, 1, 0]

theorem tie_valid : Valid tie := by
  constructor
  · ext i j; fin_cases i <;> fin_cases j <;> simp [tie, Matrix.mul_apply, Fin.sum_univ_three]
  · simp [tie, Matrix.det_fin_three]

theorem tie_row : selRow tie = 0 := by
  have hm : major tie = 0 := by simp [major, tie]
  ext j
  rw [selRow, hm]
  fin_cases j <;> simp [tie, cosine]; norm_num

theorem tie_cosine : cosine tie = -1 := by simp [cosine, tie]; norm_num

end SO3
end Verif.Geometry
