import Verif.Embodied.CholeskyLemmas
import Verif.Embodied.GpSpec
import Mathlib.Tactic

/-!
# Properties of `GPCostWeight` (C70)
-/

namespace Verif.Embodied
open Matrix
variable {n : ℕ}

theorem gpInfo_eq {dt : ℝ} (hdt : 0 < dt) (Q : Matrix (Fin n) (Fin n) ℝ) :
    gpInfo dt Q = (Matrix.fromBlocks ((12 / dt ^ 3) • Q) ((-6 / dt ^ 2) • Q)
      ((-6 / dt ^ 2) • Q) ((4 / dt) • Q)).submatrix finSumFinEquiv.symm finSumFinEquiv.symm := by
  have h3 : dt ^ (-3 : ℝ) = (dt ^ 3)⁻¹ := by
    rw [Real.rpow_neg hdt.le]; norm_cast
  have h2 : dt ^ (-2 : ℝ) = (dt ^ 2)⁻¹ := by
    rw [Real.rpow_neg hdt.le]; norm_cast
  ext i j
  refine Fin.addCases (fun i => ?_) (fun i => ?_) i <;>
    refine Fin.addCases (fun j => ?_) (fun j => ?_) j <;>
    simp [gpInfo, fill, h2, h3, -Fin.natAdd_eq_addNat, div_eq_mul_inv]

/-- The matrix that is factorized is the inverse of the covariance of the deviation from motion at
constant velocity, when `Qc_inv` is the inverse of the power spectral density `Qc`. -/
theorem gp_info_inverse {dt : ℝ} (hdt : 0 < dt) {Q Qc : Matrix (Fin n) (Fin n) ℝ}
    (h : Q * Qc = 1) : gpInfo dt Q * gpCovariance dt Qc = 1 := by
  have i2 : (∫ s in (0 : ℝ)..dt, (dt - s) ^ 2) = dt ^ 3 / 3 := by
    rw [intervalIntegral.integral_comp_sub_left (fun u => u ^ 2) dt]
    simp [integral_pow]; norm_num
  have i1 : (∫ s in (0 : ℝ)..dt, (dt - s)) = dt ^ 2 / 2 := by
    rw [intervalIntegral.integral_comp_sub_left (fun u => u) dt]
    simp
  have i0 : (∫ _s in (0 : ℝ)..dt, (1 : ℝ)) = dt := by simp
  rw [gpInfo_eq hdt, gpCovariance, i2, i1, i0, Matrix.submatrix_mul_equiv, Matrix.fromBlocks_multiply]
  have e : ∀ (a b : ℝ), (a • Q) * (b • Qc) = (a * b) • (1 : Matrix (Fin n) (Fin n) ℝ) := by
    intro a b
    rw [Matrix.smul_mul, Matrix.mul_smul, h, smul_smul]
  simp only [e, ← add_smul]
  have h11 : 12 / dt ^ 3 * (dt ^ 3 / 3) + -6 / dt ^ 2 * (dt ^ 2 / 2) = 1 := by
    field_simp; norm_num
  have h12 : 12 / dt ^ 3 * (dt ^ 2 / 2) + -6 / dt ^ 2 * dt = 0 := by
    field_simp; norm_num
  have h21 : -6 / dt ^ 2 * (dt ^ 3 / 3) + 4 / dt * (dt ^ 2 / 2) = 0 := by
    field_simp; norm_num
  have h22 : -6 / dt ^ 2 * (dt ^ 2 / 2) + 4 / dt * dt = 1 := by
    field_simp; norm_num
  rw [h11, h12, h21, h22]
  simp

theorem gpInfo_posDef {dt : ℝ} (hdt : 0 < dt) {Q : Matrix (Fin n) (Fin n) ℝ} (hQ : Q.PosDef) :
    (gpInfo dt Q).PosDef := by
  have hs : Qᵀ = Q := by
    have := hQ.1.eq
    rwa [Matrix.conjTranspose_eq_transpose_of_trivial] at this
  rw [gpInfo_eq hdt]
  refine PosDef.submatrix ?_ finSumFinEquiv.symm.injective
  refine PosDef.of_dotProduct_mulVec_pos ?_ ?_
  · rw [Matrix.IsHermitian, Matrix.conjTranspose_eq_transpose_of_trivial,
      Matrix.fromBlocks_transpose]
    simp [hs]
  · intro x hx
    set a : Fin n → ℝ := x ∘ Sum.inl with ha
    set b : Fin n → ℝ := x ∘ Sum.inr with hb
    have hxe : x = Sum.elim a b := by
      ext i; cases i <;> rfl
    have hsym : b ⬝ᵥ (Q *ᵥ a) = a ⬝ᵥ (Q *ᵥ b) := by
      rw [dotProduct_comm, ← Matrix.vecMul_transpose, hs, ← Matrix.dotProduct_mulVec]
    set c : Fin n → ℝ := b - (3 / (2 * dt)) • a with hc
    have key : star x ⬝ᵥ (Matrix.fromBlocks ((12 / dt ^ 3) • Q) ((-6 / dt ^ 2) • Q)
        ((-6 / dt ^ 2) • Q) ((4 / dt) • Q) *ᵥ x)
        = (4 / dt) * (c ⬝ᵥ (Q *ᵥ c)) + (3 / dt ^ 3) * (a ⬝ᵥ (Q *ᵥ a)) := by
      rw [star_trivial, hxe, Matrix.fromBlocks_mulVec]
      simp only [Sum.elim_comp_inl, Sum.elim_comp_inr, sumElim_dotProduct_sumElim]
      simp only [hc, Matrix.smul_mulVec, Matrix.mulVec_sub, Matrix.mulVec_smul, dotProduct_add,
        dotProduct_sub, sub_dotProduct, dotProduct_smul, smul_dotProduct, smul_eq_mul, hsym]
      field_simp
      ring
    rw [key]
    have pos : ∀ v : Fin n → ℝ, 0 ≤ v ⬝ᵥ (Q *ᵥ v) := by
      intro v
      by_cases hv : v = 0
      · simp [hv]
      · simpa using (hQ.dotProduct_mulVec_pos hv).le
    by_cases h0 : a = 0
    · have hb0 : c ≠ 0 := by
        intro hcz
        apply hx
        have hb1 : b = 0 := by simpa [hc, h0] using hcz
        rw [hxe, h0, hb1]
        ext i; cases i <;> rfl
      have := hQ.dotProduct_mulVec_pos hb0
      rw [star_trivial] at this
      have := pos a
      positivity
    · have h1 := hQ.dotProduct_mulVec_pos h0
      rw [star_trivial] at h1
      have := pos c
      positivity

/-- For every `dt > 0` and every symmetric positive definite `Qc_inv` the weight is computed, it is
upper triangular, and its square is the inverse of the covariance. -/
theorem gp_weight_total {dt : ℝ} (hdt : 0 < dt) {Q : Matrix (Fin n) (Fin n) ℝ} (hQ : Q.PosDef) :
    ∃ W, gpWeight dt Q = some W ∧ (∀ i j, j < i → W i j = 0) ∧ (∀ i, 0 < W i i) ∧
      Wᵀ * W = (gpCovariance dt Q⁻¹)⁻¹ := by
  have hp := gpInfo_posDef hdt hQ
  have hs : (gpInfo dt Q)ᵀ = gpInfo dt Q := by
    have := hp.1.eq
    rwa [Matrix.conjTranspose_eq_transpose_of_trivial] at this
  have hl := lowerSymm_of_symm (congrArg Matrix.transpose hs)
  have h1 : (cholesky (gpInfo dt Q)ᵀ).isSome := by
    rw [cholesky_isSome_iff, hl, hs]; exact hp
  obtain ⟨C, hC⟩ := Option.isSome_iff_exists.mp h1
  have hsp := cholesky_spec hC
  rw [hl, hs] at hsp
  refine ⟨Cᵀ, by simp [gpWeight, hC], fun i j h => hsp.lower j i h, hsp.pos, ?_⟩
  rw [Matrix.transpose_transpose, hsp.eq]
  have hu : Q * Q⁻¹ = 1 := Matrix.mul_nonsing_inv _ (isUnit_iff_ne_zero.mpr hQ.det_pos.ne')
  have := gp_info_inverse hdt hu
  exact (Matrix.inv_eq_left_inv this).symm

/-- The weighted cost is the squared Mahalanobis distance: `‖W e‖² = eᵀ Σ⁻¹ e`, with `Σ` the
covariance of the deviation from constant velocity over `dt`. -/
theorem gp_weighted_cost {dt : ℝ} (hdt : 0 < dt) {Q : Matrix (Fin n) (Fin n) ℝ} (hQ : Q.PosDef) :
    ∃ W, gpWeight dt Q = some W ∧
      (∀ e, gpWeightError W e ⬝ᵥ gpWeightError W e = e ⬝ᵥ ((gpCovariance dt Q⁻¹)⁻¹ *ᵥ e)) ∧
      ∀ (k : ℕ) (J : Matrix (Fin (n + n)) (Fin k) ℝ) (e : Fin (n + n) → ℝ),
        (gpWeightJac W J)ᵀ *ᵥ gpWeightError W e = (Jᵀ * (gpCovariance dt Q⁻¹)⁻¹) *ᵥ e ∧
        (gpWeightJac W J)ᵀ * gpWeightJac W J = Jᵀ * (gpCovariance dt Q⁻¹)⁻¹ * J := by
  obtain ⟨W, h1, _, _, h2⟩ := gp_weight_total hdt hQ
  refine ⟨W, h1, fun e => ?_, fun k J e => ⟨?_, ?_⟩⟩
  · rw [← h2]
    simp only [gpWeightError]
    rw [← Matrix.mulVec_mulVec, Matrix.dotProduct_mulVec e, Matrix.vecMul_transpose]
  · rw [← h2]
    simp only [gpWeightError, gpWeightJac, Matrix.transpose_mul, Matrix.mulVec_mulVec,
      Matrix.mul_assoc]
  · rw [← h2]
    simp only [gpWeightJac, Matrix.transpose_mul, Matrix.mul_assoc]

theorem lowerSymm_diag (M : Matrix (Fin n) (Fin n) ℝ) (i : Fin n) : lowerSymm M i i = M i i := by
  simp [lowerSymm]

/-- The constructor accepts exactly positive `dt` and matrices whose lower triangle is that of a
positive definite matrix. -/
theorem gp_accepts_iff (dt : List ℝ) (Q : List (Matrix (Fin n) (Fin n) ℝ)) :
    gpAccepts dt Q = true ↔ (∀ t ∈ dt, 0 < t) ∧ ∀ q ∈ Q, (lowerSymm q).PosDef := by
  simp [gpAccepts, cholesky_isSome_iff]

theorem mapM_isSome {α β : Type} (f : α → Option β) (l : List α) :
    (l.mapM f).isSome ↔ ∀ a ∈ l, (f a).isSome := by
  induction l with
  | nil => simp
  | cons a l ih =>
    cases ha : f a <;> cases hl : l.mapM f <;> simp_all [List.mapM_cons]

/-- With symmetric `Qc_inv` that the constructor accepts, the weight is computed exactly when `dt`
has one element or as many as `Qc_inv`. -/
theorem gp_weights_batch {dt : List ℝ} {Q : List (Matrix (Fin n) (Fin n) ℝ)}
    (hacc : gpAccepts dt Q = true) (hsym : ∀ q ∈ Q, qᵀ = q) (hdt : dt ≠ []) (hQ : Q ≠ []) :
    (gpWeights dt Q).isSome ↔ dt.length = 1 ∨ dt.length = Q.length := by
  rw [gp_accepts_iff] at hacc
  obtain ⟨hpos, hpd⟩ := hacc
  have ok : ∀ t ∈ dt, ∀ q ∈ Q, ((cholesky (gpInfo t q)ᵀ).map Matrix.transpose).isSome := by
    intro t ht q hq
    have h1 := hpd q hq
    rw [lowerSymm_of_symm (hsym q hq)] at h1
    obtain ⟨W, hW, _⟩ := gp_weight_total (hpos t ht) h1
    rw [gpWeight] at hW
    rw [hW]; rfl
  unfold gpWeights
  match dt, Q, hdt, hQ with
  | [t], Q, _, _ =>
    simp only [bmul, List.length_map, List.length_singleton, true_or, iff_true, if_true,
      mapM_isSome, List.mem_map]
    rintro _ ⟨q, hq, rfl⟩
    exact ok t (by simp) q hq
  | t1 :: t2 :: ts, [q], _, _ =>
    simp [bmul]
  | t1 :: t2 :: ts, q1 :: q2 :: qs, _, _ =>
    simp only [bmul]
    by_cases h : (t1 :: t2 :: ts).length = (q1 :: q2 :: qs).length
    · have h' : ts.length = qs.length := by simpa using h
      have hl : (List.zipWith gpInfo (t1 :: t2 :: ts) (q1 :: q2 :: qs)).length
          = (q1 :: q2 :: qs).length := by simp [h']
      rw [if_pos h]
      simp only [if_pos hl, mapM_isSome]
      refine ⟨fun _ => Or.inr h, fun _ M hM => ?_⟩
      obtain ⟨i, hi, rfl⟩ := List.mem_iff_getElem.mp hM
      rw [List.getElem_zipWith]
      exact ok _ (List.getElem_mem _) _ (List.getElem_mem _)
    · have h' : ¬ ts.length = qs.length := by simpa using h
      simp [h']

/-- **A defect.**  A single `Qc_inv` with a batch of at least two time steps is accepted by the
constructor, but the weight cannot be computed: the result is allocated with the batch size of
`Qc_inv`. -/
theorem gp_batched_dt_raises (t1 t2 : ℝ) (ts : List ℝ) (Q : Matrix (Fin n) (Fin n) ℝ) :
    gpWeights (t1 :: t2 :: ts) [Q] = none := by
  simp [gpWeights, bmul]

/-- **A defect.**  `Qc_inv = [[1, k], [0, 1]]` with `k ≥ 1` is accepted by the constructor as
positive definite, because only the lower triangle is read; but its symmetric part is not, and the
weight cannot be computed for any time step. -/
theorem gp_asymmetric_accepted (k : ℝ) (hk : 1 ≤ k) (dt : ℝ) (hdt : 0 < dt) :
    gpAccepts [dt] [!![1, k; 0, 1]] = true ∧ gpWeights [dt] [!![1, k; 0, 1]] = none := by
  constructor
  · rw [gp_accepts_iff]
    refine ⟨by simpa using hdt, ?_⟩
    have : lowerSymm !![1, k; 0, 1] = (1 : Matrix (Fin 2) (Fin 2) ℝ) := by
      ext i j; fin_cases i <;> fin_cases j <;> simp [lowerSymm]
    simp [this, PosDef.one]
  · have hno : ¬ (cholesky (gpInfo dt !![1, k; 0, 1])ᵀ).isSome := by
      rw [cholesky_isSome_iff]
      intro h
      have hx : (![1, -1, 0, 0] : Fin (2 + 2) → ℝ) ≠ 0 := by
        intro h0
        simpa using congrFun h0 0
      have := h.dotProduct_mulVec_pos hx
      rw [star_trivial] at this
      have h3 : (0 : ℝ) < dt ^ (-3 : ℝ) := Real.rpow_pos_of_pos hdt _
      have e00 : lowerSymm (gpInfo dt !![1, k; 0, 1])ᵀ 0 0 = 12 * dt ^ (-3 : ℝ) := by
        simp [lowerSymm, gpInfo, fill, Fin.addCases, Fin.castLT]
      have e01 : lowerSymm (gpInfo dt !![1, k; 0, 1])ᵀ 0 1 = 12 * dt ^ (-3 : ℝ) * k := by
        simp [lowerSymm, gpInfo, fill, Fin.addCases, Fin.castLT]
      have e10 : lowerSymm (gpInfo dt !![1, k; 0, 1])ᵀ 1 0 = 12 * dt ^ (-3 : ℝ) * k := by
        simp [lowerSymm, gpInfo, fill, Fin.addCases, Fin.castLT]
      have e11 : lowerSymm (gpInfo dt !![1, k; 0, 1])ᵀ 1 1 = 12 * dt ^ (-3 : ℝ) := by
        simp [lowerSymm, gpInfo, fill, Fin.addCases, Fin.castLT]
      simp only [dotProduct, Matrix.mulVec, Fin.sum_univ_four, Nat.reduceAdd, e00, e01, e10, e11,
        Matrix.cons_val_zero, Matrix.cons_val_one, Matrix.cons_val] at this
      nlinarith
    rw [Option.not_isSome_iff_eq_none] at hno
    simp [gpWeights, bmul, hno]

/-- Non-vacuity: `Qc_inv = 2 I` is symmetric positive definite, and is accepted together with three
time steps when there are three of it. -/
example : ((2 : ℝ) • (1 : Matrix (Fin 2) (Fin 2) ℝ)).PosDef := PosDef.one.smul (by norm_num)

example : ((gpWeights [1, 2, 3] (List.replicate 3 ((2 : ℝ) • (1 : Matrix (Fin 2) (Fin 2) ℝ)))).isSome
    ∧ (gpWeights [1/2] (List.replicate 3 ((2 : ℝ) • (1 : Matrix (Fin 2) (Fin 2) ℝ)))).isSome) := by
  have hs : ((2 : ℝ) • (1 : Matrix (Fin 2) (Fin 2) ℝ))ᵀ = (2 : ℝ) • 1 := by simp
  have hp : ((2 : ℝ) • (1 : Matrix (Fin 2) (Fin 2) ℝ)).PosDef := PosDef.one.smul (by norm_num)
  have hq : ∀ q ∈ List.replicate 3 ((2 : ℝ) • (1 : Matrix (Fin 2) (Fin 2) ℝ)),
      qᵀ = q ∧ (lowerSymm q).PosDef := by
    intro q h
    rw [List.eq_of_mem_replicate h, lowerSymm_of_symm hs]
    exact ⟨hs, hp⟩
  constructor <;>
    refine (gp_weights_batch ((gp_accepts_iff _ _).mpr ⟨?_, fun q h => (hq q h).2⟩)
      (fun q h => (hq q h).1) (by simp) (by simp)).mpr (by simp) <;> simp

end Verif.Embodied
