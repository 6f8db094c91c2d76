import Verif.Steps.Props
/-!
# Properties of Dogleg steps (C36, C56)
-/
namespace Verif.Steps
set_option linter.unusedSectionVars false
open Matrix Verif.Nlopt
variable {p d n : Nat}

theorem EPS_pos : 0 < EPS := by unfold EPS; norm_num

/-- The step of one batch element. -/
theorem dogleg_row (L : Fin n → Lin ℝ p d) (tr : Fin n → ℝ) (gn : Fin n → Fin d → ℝ) (i : Fin n) :
    (dogleg L tr gn i = gn i ∧ ∀ j, sq (gn j) < tr j ^ 2) ∨
    (¬ (∀ j, sq (gn j) < tr j ^ 2) ∧ deltaC2 (L i) ≤ tr i ^ 2 ∧
      dogleg L tr gn i = deltaC (L i) + tau (L i) (tr i) (gn i) • (gn i - deltaC (L i))) ∨
    (¬ (∀ j, sq (gn j) < tr j ^ 2) ∧ tr i ^ 2 < deltaC2 (L i) ∧
      dogleg L tr gn i = (tr i / Real.sqrt (deltaC2 (L i) + EPS)) • deltaC (L i)) := by
  classical
  by_cases h : ∀ j, sq (gn j) < tr j ^ 2
  · left
    exact ⟨by unfold dogleg; rw [if_pos h], h⟩
  · right
    by_cases hw : deltaC2 (L i) ≤ tr i ^ 2
    · left
      refine ⟨h, hw, ?_⟩
      unfold dogleg
      rw [if_neg h]
      simp only
      rw [if_pos ⟨i, hw⟩, if_pos hw]
    · right
      refine ⟨h, not_le.1 hw, ?_⟩
      unfold dogleg
      rw [if_neg h]
      simp only
      have hna : ¬ ∀ j, deltaC2 (L j) ≤ tr j ^ 2 := fun hc => hw (hc i)
      have e : (fun j => deltaC (L i) j * tr i / Real.sqrt (deltaC2 (L i) + EPS)) =
          (tr i / Real.sqrt (deltaC2 (L i) + EPS)) • deltaC (L i) := by
        funext j; simp only [Pi.smul_apply, smul_eq_mul]; ring
      split
      · beta_reduce; rw [if_neg hw, if_neg hw, e]
      · beta_reduce; rw [if_neg hw, e]

theorem deltaC2_eq (L : Lin ℝ p d) : deltaC2 L = sq (deltaC L) := by
  unfold deltaC2 deltaC; rw [sq_smul]; ring

/-- The quadratic of `dogleg.py:86-95`: the coefficients. -/
theorem sq_segment (u v : Fin d → ℝ) (t : ℝ) :
    sq (u + t • (v - u)) = sq u + t * (∑ j, 2 * u j * (v - u) j) + t ^ 2 * sq (v - u) := by
  rw [sq_add, sq_smul]
  have : ∑ j, 2 * u j * (v - u) j = 2 * (u ⬝ᵥ (v - u)) := by
    rw [dotProduct, Finset.mul_sum]
    exact Finset.sum_congr rfl fun j _ => by ring
  rw [this, dotProduct_smul, smul_eq_mul]; ring

theorem coeff_b_zero {u v : Fin d → ℝ} (h : sq (v - u) = 0) : ∑ j, 2 * u j * (v - u) j = 0 := by
  have := sq_eq_zero' h
  rw [this]; simp

/-- The root, as computed. -/
theorem quad_root {a b c E : ℝ} (ha : 0 ≤ a) (hc : c ≤ 0) (hE : 0 < E) (hab : a = 0 → b = 0) :
    let D := max (b ^ 2 - 4 * a * c) E
    let t := min ((-b + Real.sqrt D) / (2 * a + E)) 1
    0 ≤ t ∧ t ≤ 1 ∧ (E ≤ b ^ 2 - 4 * a * c → a * t ^ 2 + b * t + c ≤ 0) ∧
      a * t ^ 2 + b * t + c ≤ 2 * Real.sqrt E := by
  intro D t
  have hac : 0 ≤ -(4 * a * c) := by nlinarith
  have hD1 : b ^ 2 ≤ D := le_trans (by linarith) (le_max_left _ _)
  have hsq : |b| ≤ Real.sqrt D := by
    rw [← Real.sqrt_sq_eq_abs]; exact Real.sqrt_le_sqrt hD1
  have hb1 : b ≤ Real.sqrt D := le_trans (le_abs_self b) hsq
  have hb2 : -b ≤ Real.sqrt D := le_trans (neg_le_abs b) hsq
  have hden : 0 < 2 * a + E := by linarith
  have ht0 : 0 ≤ t := le_min (div_nonneg (by linarith) hden.le) (by norm_num)
  have ht1 : t ≤ 1 := min_le_right _ _
  have hroot : t * (2 * a + E) ≤ -b + Real.sqrt D := by
    have := min_le_left ((-b + Real.sqrt D) / (2 * a + E)) 1
    rwa [le_div_iff₀ hden] at this
  have hDs : Real.sqrt D ^ 2 = D := Real.sq_sqrt (le_trans (sq_nonneg b) hD1)
  have h2 : (2 * a * t + b) ^ 2 ≤ D := by
    rw [← hDs]
    apply sq_le_sq'
    · have : 0 ≤ a * t := mul_nonneg ha ht0
      linarith
    · have : 0 ≤ t * E := mul_nonneg ht0 hE.le
      linarith
  have h3 : 4 * a * (a * t ^ 2 + b * t + c) ≤ D - (b ^ 2 - 4 * a * c) := by nlinarith
  refine ⟨ht0, ht1, ?_, ?_⟩
  · intro hE'
    have : D = b ^ 2 - 4 * a * c := max_eq_left hE'
    rw [this, sub_self] at h3
    rcases eq_or_lt_of_le ha with h0 | hpos
    · rw [← h0, hab h0.symm]; linarith
    · by_contra hcon
      push Not at hcon
      have := mul_pos (show 0 < 4 * a by linarith) hcon
      linarith
  · have hsE : 0 < Real.sqrt E := Real.sqrt_pos.2 hE
    by_cases hE' : E ≤ b ^ 2 - 4 * a * c
    · have : D = b ^ 2 - 4 * a * c := max_eq_left hE'
      rw [this, sub_self] at h3
      rcases eq_or_lt_of_le ha with h0 | hpos
      · rw [← h0, hab h0.symm]; linarith
      · by_contra hcon
        push Not at hcon
        have := mul_pos (show 0 < 4 * a by linarith) (lt_trans (by positivity) hcon)
        linarith
    · push Not at hE'
      have hDE : D = E := max_eq_right hE'.le
      have hbE : b ≤ Real.sqrt E := by rw [← hDE]; exact hb1
      have hEs : Real.sqrt E * Real.sqrt E = E := Real.mul_self_sqrt hE.le
      by_cases hcase : a ≤ Real.sqrt E
      · have h4 : a * t ^ 2 ≤ a := by
          have : t ^ 2 ≤ 1 := by nlinarith
          nlinarith
        have h5 : b * t ≤ Real.sqrt E := by
          calc b * t ≤ Real.sqrt E * t := mul_le_mul_of_nonneg_right hbE ht0
            _ ≤ Real.sqrt E * 1 := mul_le_mul_of_nonneg_left ht1 hsE.le
            _ = Real.sqrt E := mul_one _
        linarith
      · push Not at hcase
        by_contra hcon
        push Not at hcon
        rw [hDE] at h3
        have h6 : 4 * a * (2 * Real.sqrt E) < 4 * a * (a * t ^ 2 + b * t + c) :=
          mul_lt_mul_of_pos_left hcon (by linarith)
        have h7 : Real.sqrt E * Real.sqrt E ≤ a * Real.sqrt E := mul_le_mul_of_nonneg_right hcase.le hsE.le
        nlinarith [sq_nonneg b]

/-- The discriminant of the quadratic solved by Dogleg for one batch element. -/
noncomputable def discriminant (L : Lin ℝ p d) (tr : ℝ) (gn : Fin d → ℝ) : ℝ :=
  (∑ j, 2 * deltaC L j * (gn - deltaC L) j) ^ 2 - 4 * sq (gn - deltaC L) * (sq (deltaC L) - tr ^ 2)

theorem tau_spec (L : Lin ℝ p d) (tr : ℝ) (gn : Fin d → ℝ) (hw : deltaC2 L ≤ tr ^ 2) :
    0 ≤ tau L tr gn ∧ tau L tr gn ≤ 1 ∧
    (EPS ≤ discriminant L tr gn → sq (deltaC L + tau L tr gn • (gn - deltaC L)) ≤ tr ^ 2) ∧
    sq (deltaC L + tau L tr gn • (gn - deltaC L)) ≤ tr ^ 2 + 2 * Real.sqrt EPS := by
  have h := quad_root (a := sq (gn - deltaC L)) (b := ∑ j, 2 * deltaC L j * (gn - deltaC L) j)
    (c := deltaC2 L - tr ^ 2) (E := EPS) (sq_nonneg' _) (by linarith) EPS_pos coeff_b_zero
  obtain ⟨h1, h2, h3, h4⟩ := h
  have ht : tau L tr gn = min ((-(∑ j, 2 * deltaC L j * (gn - deltaC L) j) +
      Real.sqrt (max ((∑ j, 2 * deltaC L j * (gn - deltaC L) j) ^ 2 - 4 * sq (gn - deltaC L) * (deltaC2 L - tr ^ 2)) EPS)) /
      (2 * sq (gn - deltaC L) + EPS)) 1 := rfl
  rw [← ht] at h1 h2 h3 h4
  rw [sq_segment]
  rw [deltaC2_eq] at h3 h4
  refine ⟨h1, h2, ?_, ?_⟩
  · intro hd
    have := h3 hd
    linarith
  · linarith

theorem truncated_norm (L : Lin ℝ p d) (tr : ℝ) :
    sq ((tr / Real.sqrt (deltaC2 L + EPS)) • deltaC L) ≤ tr ^ 2 := by
  have h0 : 0 ≤ deltaC2 L := by rw [deltaC2_eq]; exact sq_nonneg' _
  have hpos : 0 < deltaC2 L + EPS := by linarith [EPS_pos]
  rw [sq_smul, ← deltaC2_eq, div_pow, Real.sq_sqrt hpos.le, div_mul_eq_mul_div, div_le_iff₀ hpos]
  nlinarith [EPS_pos, sq_nonneg tr]

/-- C36 (partial): the step of every batch element has norm at most its radius, if, for the elements whose
Cauchy point is inside the region, the discriminant of the quadratic is at least `EPS`.  Missing: small
discriminants, where the code replaces them by `EPS` and the step can leave the region
(`dogleg_leaves_region`); `dogleg_norm_bound` bounds the violation. -/
theorem dogleg_in_region_partial (L : Fin n → Lin ℝ p d) (tr : Fin n → ℝ) (gn : Fin n → Fin d → ℝ) (i : Fin n)
    (hdisc : deltaC2 (L i) ≤ tr i ^ 2 → EPS ≤ discriminant (L i) (tr i) (gn i)) :
    sq (dogleg L tr gn i) ≤ tr i ^ 2 := by
  rcases dogleg_row L tr gn i with ⟨e, h⟩ | ⟨_, hw, e⟩ | ⟨_, _, e⟩
  · rw [e]; exact (h i).le
  · rw [e]; exact (tau_spec (L i) (tr i) (gn i) hw).2.2.1 (hdisc hw)
  · rw [e]; exact truncated_norm (L i) (tr i)

/-- C36: in all cases the squared norm of the step exceeds the squared radius by at most `2 √EPS` (about
6.4e-4). -/
theorem dogleg_norm_bound (L : Fin n → Lin ℝ p d) (tr : Fin n → ℝ) (gn : Fin n → Fin d → ℝ) (i : Fin n) :
    sq (dogleg L tr gn i) ≤ tr i ^ 2 + 2 * Real.sqrt EPS := by
  have hs := Real.sqrt_nonneg EPS
  rcases dogleg_row L tr gn i with ⟨e, h⟩ | ⟨_, hw, e⟩ | ⟨_, _, e⟩
  · rw [e]; linarith [(h i).le]
  · rw [e]; exact (tau_spec (L i) (tr i) (gn i) hw).2.2.2
  · rw [e]; linarith [truncated_norm (L i) (tr i)]

/-- C36: if the Gauss–Newton steps of the whole batch fit, they are taken. -/
theorem dogleg_takes_gn (L : Fin n → Lin ℝ p d) (tr : Fin n → ℝ) (gn : Fin n → Fin d → ℝ)
    (h : ∀ i, sq (gn i) < tr i ^ 2) : dogleg L tr gn = gn := by
  classical
  unfold dogleg; rw [if_pos h]

/-- C36: if some Gauss–Newton step does not fit, an element whose Cauchy point is outside the region takes
a step of norm at most the radius along the steepest descent direction. -/
theorem dogleg_truncates (L : Fin n → Lin ℝ p d) (tr : Fin n → ℝ) (gn : Fin n → Fin d → ℝ) (i : Fin n)
    (htr : 0 ≤ tr i) (h : ∃ j, tr j ^ 2 ≤ sq (gn j)) (hout : tr i ^ 2 < deltaC2 (L i)) :
    (∃ c : ℝ, 0 ≤ c ∧ dogleg L tr gn i = c • (L i).Atb) ∧ sq (dogleg L tr gn i) ≤ tr i ^ 2 := by
  rcases dogleg_row L tr gn i with ⟨_, h'⟩ | ⟨_, hw, _⟩ | ⟨_, _, e⟩
  · obtain ⟨j, hj⟩ := h
    exact absurd (h' j) (not_lt.2 hj)
  · exact absurd hw (not_le.2 hout)
  · refine ⟨⟨tr i / Real.sqrt (deltaC2 (L i) + EPS) * cauchySize (L i), ?_, ?_⟩, ?_⟩
    · apply mul_nonneg (div_nonneg htr (Real.sqrt_nonneg _))
      unfold cauchySize
      exact div_nonneg (sq_nonneg' _) (by linarith [EPS_pos, sq_nonneg' ((L i).A *ᵥ (L i).Atb)])
    · rw [e, deltaC, smul_smul]
    · rw [e]; exact truncated_norm (L i) (tr i)

/-! ### C56: predicted reduction -/

theorem pred_eq (L : Lin ℝ p d) (v : Fin d → ℝ) : predReduction L v = v ⬝ᵥ L.Atb - sq (L.A *ᵥ v) / 2 := by
  unfold predReduction sq
  rw [dotProduct_neg]; ring

theorem pred_segment (L : Lin ℝ p d) (u v : Fin d → ℝ) (t : ℝ) :
    predReduction L (u + t • (v - u)) =
      (1 - t) * predReduction L u + t * predReduction L v + t * (1 - t) / 2 * sq (L.A *ᵥ (v - u)) := by
  simp only [pred_eq, add_dotProduct, smul_dotProduct, sub_dotProduct, mulVec_add, mulVec_smul, mulVec_sub, smul_eq_mul]
  have h1 : sq (L.A *ᵥ u + t • (L.A *ᵥ v - L.A *ᵥ u)) = sq (L.A *ᵥ u) + 2 * t * ((L.A *ᵥ u) ⬝ᵥ (L.A *ᵥ v) - sq (L.A *ᵥ u)) +
      t ^ 2 * sq (L.A *ᵥ v - L.A *ᵥ u) := by
    rw [sq_add, sq_smul, dotProduct_smul, dotProduct_sub, smul_eq_mul]; simp only [sq]; ring
  have h2 : sq (L.A *ᵥ v - L.A *ᵥ u) = sq (L.A *ᵥ v) - 2 * ((L.A *ᵥ u) ⬝ᵥ (L.A *ᵥ v)) + sq (L.A *ᵥ u) := by
    simp only [sq, sub_dotProduct, dotProduct_sub, dotProduct_comm (L.A *ᵥ v) (L.A *ᵥ u)]; ring
  rw [h1, h2]; ring

theorem pred_gn (L : Lin ℝ p d) (gn : Fin d → ℝ) (h : L.AtA *ᵥ gn = L.Atb) : 0 ≤ predReduction L gn := by
  rw [pred_eq, ← h, dot_AtA]
  have := sq_nonneg' (L.A *ᵥ gn)
  unfold sq at *
  linarith

theorem pred_smul_Atb (L : Lin ℝ p d) (c : ℝ) (h0 : 0 ≤ c) (h1 : c ≤ cauchySize L) :
    0 ≤ predReduction L (c • L.Atb) := by
  rw [pred_eq, smul_dotProduct, mulVec_smul, sq_smul, smul_eq_mul]
  have hG : 0 ≤ sq L.Atb := sq_nonneg' _
  have hH : 0 ≤ sq (L.A *ᵥ L.Atb) := sq_nonneg' _
  have hE := EPS_pos
  have h2 : c * (sq (L.A *ᵥ L.Atb) + EPS) ≤ sq L.Atb := by
    unfold cauchySize at h1
    rwa [le_div_iff₀ (by linarith)] at h1
  have h3 : c * sq (L.A *ᵥ L.Atb) ≤ sq L.Atb := by nlinarith
  have h4 : c * (c * sq (L.A *ᵥ L.Atb)) ≤ c * sq L.Atb := mul_le_mul_of_nonneg_left h3 h0
  have h5 : 0 ≤ c * sq L.Atb := mul_nonneg h0 hG
  show 0 ≤ c * sq L.Atb - _
  nlinarith

theorem cauchySize_nonneg (L : Lin ℝ p d) : 0 ≤ cauchySize L := by
  unfold cauchySize
  exact div_nonneg (sq_nonneg' _) (by linarith [EPS_pos, sq_nonneg' (L.A *ᵥ L.Atb)])

/-- C56: if the Gauss–Newton steps are exact, the error reduction predicted by the quadratic model for the
Dogleg step, scaled by a step size in `[0, 1]`, is never negative. -/
theorem dogleg_predicted_reduction (L : Fin n → Lin ℝ p d) (tr : Fin n → ℝ) (gn : Fin n → Fin d → ℝ) (i : Fin n)
    (htr : 0 ≤ tr i) (hgn : (L i).AtA *ᵥ gn i = (L i).Atb) (s : ℝ) (hs0 : 0 ≤ s) (hs1 : s ≤ 1) :
    0 ≤ predReduction (L i) (s • dogleg L tr gn i) := by
  have hscale : ∀ v, 0 ≤ predReduction (L i) v → 0 ≤ predReduction (L i) (s • v) := by
    intro v hv
    rw [pred_eq] at hv ⊢
    rw [smul_dotProduct, mulVec_smul, sq_smul, smul_eq_mul]
    have h1 := sq_nonneg' ((L i).A *ᵥ v)
    have h2 : s ^ 2 * sq ((L i).A *ᵥ v) ≤ s * sq ((L i).A *ᵥ v) := by
      apply mul_le_mul_of_nonneg_right _ h1
      nlinarith
    nlinarith
  apply hscale
  rcases dogleg_row L tr gn i with ⟨e, _⟩ | ⟨_, hw, e⟩ | ⟨_, hout, e⟩
  · rw [e]; exact pred_gn _ _ hgn
  · rw [e, pred_segment]
    obtain ⟨t0, t1, _, _⟩ := tau_spec (L i) (tr i) (gn i) hw
    have h1 := pred_smul_Atb (L i) (cauchySize (L i)) (cauchySize_nonneg _) (le_refl _)
    have h2 := pred_gn (L i) (gn i) hgn
    have h3 := sq_nonneg' ((L i).A *ᵥ (gn i - deltaC (L i)))
    have h4 : 0 ≤ (1 - tau (L i) (tr i) (gn i)) * predReduction (L i) (deltaC (L i)) :=
      mul_nonneg (by linarith) h1
    have h5 := mul_nonneg t0 h2
    have h6 : 0 ≤ tau (L i) (tr i) (gn i) * (1 - tau (L i) (tr i) (gn i)) / 2 * sq ((L i).A *ᵥ (gn i - deltaC (L i))) :=
      mul_nonneg (div_nonneg (mul_nonneg t0 (by linarith)) (by norm_num)) h3
    linarith
  · rw [e, deltaC, smul_smul]
    have hpos : 0 < deltaC2 (L i) + EPS := by nlinarith [EPS_pos, sq_nonneg (tr i)]
    have hle : tr i / Real.sqrt (deltaC2 (L i) + EPS) ≤ 1 := by
      rw [div_le_one (Real.sqrt_pos.2 hpos)]
      apply Real.le_sqrt_of_sq_le
      linarith [EPS_pos]
    apply pred_smul_Atb
    · exact mul_nonneg (div_nonneg htr (Real.sqrt_nonneg _)) (cauchySize_nonneg _)
    · exact mul_le_of_le_one_left (cauchySize_nonneg _) hle

/-- C56: so an accepted Dogleg step (with `accept_threshold ≥ 0` and step size in `[0, 1]`) never increases
the error of an element (errors may be infinite but not `-∞`; a `nan` error is not excluded, see
`tr_accepts_nan`). -/
theorem dogleg_accept_decreases (o : TROpts ℝ) (hacc : 0 ≤ o.accept) (L : Fin n → Lin ℝ p d) (tr : Fin n → ℝ)
    (gn : Fin n → Fin d → ℝ) (i : Fin n) (htr : 0 ≤ tr i) (hgn : (L i).AtA *ᵥ gn i = (L i).Atb) (s : ℝ)
    (hs0 : 0 ≤ s) (hs1 : s ≤ 1) (err prev : Fl ℝ) (hprev : prev ≠ .inf true) (r' : ℝ)
    (h : trCheck o (L i) (tr i) (s • dogleg L tr gn i) err prev = some (r', false)) : prev.lt err = false :=
  tr_accept_decreases o hacc (L i) (tr i) _ (dogleg_predicted_reduction L tr gn i htr hgn s hs0 hs1) err prev hprev r' h

/-- A step that leads to a `nan` error is accepted by trust region methods, and the radius is kept. -/
theorem tr_accepts_nan (o : TROpts ℝ) (ho : o.good = true) (L : Lin ℝ p d) (r : ℝ) (delta : Fin d → ℝ) (prev : Fl ℝ) :
    trCheck o L r delta .nan prev = some (clamp o.minTR o.maxTR r, false) := by
  have : prev.sub .nan = .nan := by cases prev <;> rfl
  simp [trCheck, ho, trRho, this, Fl.div, Fl.lt]

/-! ### Witnesses -/

/-- A one-dimensional problem with a small gradient. -/
noncomputable def tinyL : Lin ℝ 1 1 := ⟨!![1/16], ![3/4000]⟩

theorem tiny_Atb : tinyL.Atb = ![3/64000] := by
  ext i; fin_cases i
  simp [Lin.Atb, tinyL, mulVec, dotProduct]
  norm_num

theorem tiny_cauchy : cauchySize tinyL = (9/4096000000) / (9/1048576000000 + 1/10000000) := by
  unfold cauchySize
  rw [tiny_Atb]
  simp [sq, dotProduct, mulVec, tinyL, EPS]
  norm_num

/-- C36 fails for small radii: with radius `1e-5` (the default minimum) the step of this problem is the
Gauss–Newton step, of length 0.012, that is 1200 times the radius. -/
theorem dogleg_leaves_region :
    dogleg (fun _ : Fin 1 => tinyL) (fun _ => 1/100000) (fun _ => ![12/1000]) 0 = ![12/1000] ∧
    tinyL.AtA *ᵥ ![12/1000] = tinyL.Atb ∧ (1/100000 : ℝ) ^ 2 < sq (![12/1000] : Fin 1 → ℝ) := by
  refine ⟨?_, ?_, ?_⟩
  · rcases dogleg_row (fun _ : Fin 1 => tinyL) (fun _ => 1/100000) (fun _ => ![12/1000]) 0 with ⟨e, _⟩ | ⟨_, hw, e⟩ | ⟨_, hout, _⟩
    · exact e
    · rw [e]
      have ht : tau tinyL (1/100000) (![12/1000] : Fin 1 → ℝ) = 1 := by
        unfold tau
        apply min_eq_right
        have hs : (3162/10000000 : ℝ) ≤ Real.sqrt EPS := by
          apply Real.le_sqrt_of_sq_le; unfold EPS; norm_num
        have hm : Real.sqrt EPS ≤ Real.sqrt (max ((∑ j, 2 * deltaC tinyL j * ((![12/1000] : Fin 1 → ℝ) - deltaC tinyL) j) ^ 2 -
            4 * sq ((![12/1000] : Fin 1 → ℝ) - deltaC tinyL) * (deltaC2 tinyL - (1/100000) ^ 2)) EPS) :=
          Real.sqrt_le_sqrt (le_max_right _ _)
        rw [le_div_iff₀ (by linarith [EPS_pos, sq_nonneg' ((![12/1000] : Fin 1 → ℝ) - deltaC tinyL)])]
        have hb : (∑ j, 2 * deltaC tinyL j * ((![12/1000] : Fin 1 → ℝ) - deltaC tinyL) j) ≤ 3/10000000 := by
          simp [deltaC, tiny_cauchy, tiny_Atb]; norm_num
        have ha : sq ((![12/1000] : Fin 1 → ℝ) - deltaC tinyL) ≤ 145/1000000 := by
          simp [sq, dotProduct, deltaC, tiny_cauchy, tiny_Atb]; norm_num
        have : EPS = 1/10000000 := rfl
        linarith
      rw [ht]
      rw [one_smul]; exact add_sub_cancel _ _
    · exfalso
      revert hout
      simp only [deltaC2, tiny_cauchy, tiny_Atb, sq, dotProduct]
      simp
      norm_num
  · rw [tiny_Atb]
    ext i; fin_cases i
    simp [Lin.AtA, tinyL, mulVec, dotProduct, Matrix.mul_apply]
    norm_num
  · simp [sq, dotProduct]
    norm_num

/-- A one-dimensional problem with Gauss–Newton step `k`. -/
noncomputable def mixL (k : ℝ) : Lin ℝ 1 1 := ⟨!![1/100], ![k/100]⟩

theorem mix_Atb (k : ℝ) : (mixL k).Atb = ![k/10000] := by
  ext i; fin_cases i
  simp [Lin.Atb, mixL, mulVec, dotProduct]
  ring

theorem mix_cauchy : cauchySize (mixL 1) = (1/100000000) / (1/1000000000000 + 1/10000000) := by
  unfold cauchySize
  rw [mix_Atb]
  simp [sq, dotProduct, mulVec, mixL, EPS]
  norm_num

/-- C36 fails in mixed batches: the step of element 0 is not its Gauss–Newton step, although that step is
inside its region, because the step of element 1 does not fit; alone, element 0 takes it (`dogleg_takes_gn`). -/
theorem dogleg_mixed_batch :
    let L : Fin 2 → Lin ℝ 1 1 := ![mixL 1, mixL 2]
    let gn : Fin 2 → Fin 1 → ℝ := ![![1], ![2]]
    let tr : Fin 2 → ℝ := fun _ => 1 + 1/100000000
    (∀ i, (L i).AtA *ᵥ gn i = (L i).Atb) ∧ sq (gn 0) < tr 0 ^ 2 ∧ dogleg L tr gn 0 ≠ gn 0 ∧
    dogleg (fun _ : Fin 1 => L 0) (fun _ => tr 0) (fun _ => gn 0) 0 = gn 0 := by
  have hdc : deltaC (mixL 1) = ![((1/100000000) / (1/1000000000000 + 1/10000000)) * (1/10000) ] := by
    ext j; fin_cases j; simp [deltaC, mix_cauchy, mix_Atb]
  have hfit : sq (![1] : Fin 1 → ℝ) < (1 + 1/100000000) ^ 2 := by simp [sq, dotProduct]; norm_num
  refine ⟨?_, hfit, ?_, ?_⟩
  · intro i
    fin_cases i
    · show (mixL 1).AtA *ᵥ ![1] = (mixL 1).Atb
      rw [mix_Atb]
      ext i; fin_cases i
      simp [Lin.AtA, mixL, mulVec, dotProduct, Matrix.mul_apply]
      norm_num
    · show (mixL 2).AtA *ᵥ ![2] = (mixL 2).Atb
      rw [mix_Atb]
      ext i; fin_cases i
      simp [Lin.AtA, mixL, mulVec, dotProduct, Matrix.mul_apply]
      norm_num
  · rcases dogleg_row (![mixL 1, mixL 2] : Fin 2 → Lin ℝ 1 1) (fun _ => 1 + 1/100000000) ![![1], ![2]] 0 with
      ⟨_, h⟩ | ⟨_, hw, e⟩ | ⟨_, hout, _⟩
    · exfalso
      have := h 1
      simp [sq, dotProduct] at this
      norm_num at this
    · rw [e]
      show deltaC (mixL 1) + tau (mixL 1) (1 + 1/100000000) ![1] • ((![1] : Fin 1 → ℝ) - deltaC (mixL 1)) ≠ ![1]
      have ht : tau (mixL 1) (1 + 1/100000000) (![1] : Fin 1 → ℝ) < 1 := by
        unfold tau
        apply lt_of_le_of_lt (min_le_left _ _)
        have hpos := sq_nonneg' ((![1] : Fin 1 → ℝ) - deltaC (mixL 1))
        rw [div_lt_one (by linarith [EPS_pos])]
        rw [neg_add_lt_iff_lt_add]
        rw [Real.sqrt_lt' ?_]
        · rw [deltaC2_eq, hdc]
          apply max_lt
          · simp [sq, dotProduct, EPS]; norm_num
          · simp [sq, dotProduct, EPS]; norm_num
        · rw [hdc]
          simp [sq, dotProduct, EPS]; norm_num
      intro hc
      have h0 := congrFun hc 0
      rw [hdc] at h0
      simp at h0
      have : (tau (mixL 1) (1 + 1/100000000) (![1] : Fin 1 → ℝ) - 1) *
          (1 - 1/100000000 / (1/1000000000000 + 1/10000000) * (1/10000)) = 0 := by
        norm_num at h0 ⊢
        linarith
      rcases mul_eq_zero.1 this with h | h
      · linarith
      · norm_num at h
    · exfalso
      revert hout
      show ¬ (_ < deltaC2 (mixL 1))
      rw [deltaC2_eq, hdc]
      simp [sq, dotProduct]
      norm_num
  · exact congrFun (dogleg_takes_gn (fun _ : Fin 1 => mixL 1) (fun _ => 1 + 1/100000000) (fun _ => ![1])
      (fun _ => hfit)) 0

/-- Non-vacuity of `dogleg_in_region_partial`: in the batch above element 0 has a large discriminant. -/
example : EPS ≤ discriminant (mixL 1) (1 + 1/100000000) (![1] : Fin 1 → ℝ) := by
  have hdc : deltaC (mixL 1) = ![((1/100000000) / (1/1000000000000 + 1/10000000)) * (1/10000) ] := by
    ext j; fin_cases j; simp [deltaC, mix_cauchy, mix_Atb]
  unfold discriminant
  rw [hdc]
  simp [sq, dotProduct, EPS]; norm_num

/-- Non-vacuity of `dogleg_truncates`: a Cauchy point outside a region of radius 1e-6. -/
example : ((1/1000000 : ℝ)) ^ 2 < deltaC2 (mixL 1) ∧ (1/1000000 : ℝ) ^ 2 ≤ sq (![1] : Fin 1 → ℝ) := by
  have hdc : deltaC (mixL 1) = ![((1/100000000) / (1/1000000000000 + 1/10000000)) * (1/10000) ] := by
    ext j; fin_cases j; simp [deltaC, mix_cauchy, mix_Atb]
  rw [deltaC2_eq, hdc]
  constructor <;> · simp [sq, dotProduct]; norm_num

/-- Non-vacuity of `dogleg_accept_decreases`: an accepted step of the default options, with error 1 → 1/2. -/
example : ∃ r', trCheck (TROpts.default : TROpts ℚ) (⟨!![1], ![1]⟩ : Lin ℚ 1 1) 10 ![1] (.fin (1/2)) (.fin 1) =
    some (r', false) := ⟨20, by decide +kernel⟩

end Verif.Steps
