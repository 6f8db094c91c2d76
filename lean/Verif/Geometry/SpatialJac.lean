import Verif.Geometry.SpatialProps

/-!
# Jacobians of `SO3` and `SE3` (C60)

Every theorem says that the matrix the code returns is the derivative, in the sense of `Spec`,
along all curves through the argument.
-/

namespace Verif.Geometry
open Matrix

/-- `J` is the Jacobian at `p` of a function of a 3-vector. -/
def HasVecJac {k : ℕ} (f : V3 → Fin k → ℝ) (p : V3) (J : Matrix (Fin k) (Fin 3) ℝ) : Prop :=
  ∀ (x : ℝ → V3) (δ : V3), x 0 = p → VecDeriv x δ → VecDeriv (fun t => f (x t)) (J *ᵥ δ)

theorem MatDeriv.mulVec {m k : ℕ} {F : ℝ → Matrix (Fin m) (Fin k) ℝ}
    {F' : Matrix (Fin m) (Fin k) ℝ} {x : ℝ → Fin k → ℝ} {x' : Fin k → ℝ} (hF : MatDeriv F F')
    (hx : VecDeriv x x') :
    VecDeriv (fun t => F t *ᵥ x t) (F' *ᵥ x 0 + F 0 *ᵥ x') := by
  intro i
  have : HasDerivAt (fun t => ∑ j, F t i j * x t j) (∑ j, (F' i j * x 0 j + F 0 i j * x' j)) 0 :=
    HasDerivAt.fun_sum fun j _ => (hF i j).fun_mul (hx j)
  rw [Finset.sum_add_distrib] at this
  exact this

theorem VecDeriv.const {m : ℕ} (p : Fin m → ℝ) : VecDeriv (fun _ => p) 0 :=
  fun _ => hasDerivAt_const _ _

theorem MatDeriv.transpose {m k : ℕ} {F : ℝ → Matrix (Fin m) (Fin k) ℝ}
    {F' : Matrix (Fin m) (Fin k) ℝ} (h : MatDeriv F F') : MatDeriv (fun t => (F t)ᵀ) F'ᵀ :=
  fun i j => h j i

/-! ## Logarithm and exponential -/

/-- `SO3.log_map`: the Jacobian returned is the derivative at the identity, and from the
thresholds up to π, except where the near-π branch divides by zero (rotations about `(0, ±1, ±1)`). -/
theorem so3_log_jac_partial {eps deps epi : ℝ} (he : 0 < eps) (hd : 0 < deps) (hpi0 : 0 ≤ epi)
    (hpi : epi < 2) {R : M3} (hR : Rᵀ * R = 1 ∧ R.det = 1)
    (h : (eps < SO3.theta R ∧ deps ≤ SO3.theta R ∧ SO3.BranchOk epi R) ∨ R = 1) :
    SO3.emb.HasJac (SO3.log eps epi) R (SO3.jlog eps deps epi R) := by
  rcases h with ⟨h1, h2, h3⟩ | rfl
  · exact SO3.log_jac_branch he hpi0 hR h1 h2 h3
  · exact SO3.log_jac_one he hd hpi

/-- `SE3.log_map`: likewise. -/
theorem se3_log_jac_partial {eps deps epi : ℝ} (he : 0 < eps) (hd : 0 < deps) (hpi0 : 0 ≤ epi)
    (hpi : epi < 2) {g : SE3} (hg : g.Rᵀ * g.R = 1 ∧ g.R.det = 1)
    (h : (eps < SO3.theta g.R ∧ deps ≤ SO3.theta g.R ∧ SO3.BranchOk epi g.R) ∨ g.R = 1) :
    SE3.emb.HasJac (SE3.log eps epi) g (SE3.jlog eps deps epi g) := by
  rcases h with ⟨h1, h2, h3⟩ | h
  · exact SE3.log_jac_branch he hpi0 hg h1 h2 h3
  · have : g = ⟨1, g.t⟩ := by ext1 <;> simp [h]
    rw [this]
    exact SE3.log_jac_trans he hd hpi g.t

/-- `SO3.exp_map`: the Jacobian returned is the derivative everywhere except on the threshold
itself — also inside the small-angle branch, whose rational approximation is differentiated
exactly. -/
theorem so3_exp_jac {eps : ℝ} (he : 0 < eps) {v : V3} (h : norm3 v ≠ eps) :
    SO3.emb.HasTangentJac (SO3.exp eps) v (SO3.jexp eps v) := by
  intro δ
  refine ⟨fun t => SO3.exp_valid he _, ?_⟩
  have := SO3.exp_curve he (SO3.line_deriv v δ) (by simpa using h)
  simpa [SO3.emb] using this

/-- `SE3.exp_map`: the Jacobian returned is the derivative beyond the threshold and at zero
rotation. -/
theorem se3_exp_jac_partial {eps : ℝ} (he : 0 < eps) {v : Fin 6 → ℝ}
    (h : eps < norm3 ![v 3, v 4, v 5] ∨ (v 3 = 0 ∧ v 4 = 0 ∧ v 5 = 0)) :
    SE3.emb.HasTangentJac (SE3.exp eps) v (SE3.jexp eps v) := by
  intro δ
  have := SE3.exp_curve he (SE3.line6_deriv v δ) (by
    rcases h with h | ⟨h1, h2, h3⟩
    · left; simpa [SE3.ang] using h
    · right; ext i; fin_cases i <;> simp [SE3.ang, h1, h2, h3])
  simpa using this

/-! ## Compose, inverse, between, local and the cost functions -/

/-- `compose`, `inverse`, `between` on `SO3` and `SE3`. -/
theorem spatial_group_jac {eps : ℝ} (he : 0 < eps) (deps epi : ℝ) :
    (∀ A B : M3, (Aᵀ * A = 1 ∧ A.det = 1) → (Bᵀ * B = 1 ∧ B.det = 1) →
      SO3.emb.HasGroupJac (fun g => g * B) A (SO3.jcompose A B).1 ∧
      SO3.emb.HasGroupJac (fun g => A * g) B (SO3.jcompose A B).2 ∧
      SO3.emb.HasGroupJac (fun g => gᵀ) A ((SO3.ops eps deps epi).inverseJac A) ∧
      SO3.emb.HasGroupJac (fun g => gᵀ * B) A ((SO3.ops eps deps epi).betweenJac A B).1 ∧
      SO3.emb.HasGroupJac (fun g => Aᵀ * g) B ((SO3.ops eps deps epi).betweenJac A B).2) ∧
    (∀ a b : SE3, (a.Rᵀ * a.R = 1 ∧ a.R.det = 1) → (b.Rᵀ * b.R = 1 ∧ b.R.det = 1) →
      SE3.emb.HasGroupJac (fun g => g.compose b) a (SE3.jcompose a b).1 ∧
      SE3.emb.HasGroupJac (fun g => a.compose g) b (SE3.jcompose a b).2 ∧
      SE3.emb.HasGroupJac (fun g => g.inverse) a ((SE3.ops eps deps epi).inverseJac a) ∧
      SE3.emb.HasGroupJac (fun g => g.inverse.compose b) a
        ((SE3.ops eps deps epi).betweenJac a b).1 ∧
      SE3.emb.HasGroupJac (fun g => a.inverse.compose g) b
        ((SE3.ops eps deps epi).betweenJac a b).2) := by
  have L3 := SO3.lawful (eps := eps) he deps epi
  have LE := SE3.lawful (eps := eps) he deps epi
  refine ⟨fun A B hA hB => ⟨L3.compose_jac_left (a := A) hB, L3.compose_jac_right (b := B) hA,
    L3.inverse_jac hA, L3.between_jac_left hA hB, L3.between_jac_right hA⟩,
    fun a b ha hb => ⟨LE.compose_jac_left (a := a) hb, LE.compose_jac_right (b := b) ha,
    LE.inverse_jac ha, LE.between_jac_left ha hb, LE.between_jac_right ha⟩⟩

/-- `local`, `Between` and `Local` (without the fast approximation) on `SO3`. -/
theorem so3_costs_jac_partial {eps deps epi : ℝ} (he : 0 < eps) (hd : 0 < deps) (hpi0 : 0 ≤ epi)
    (hpi : epi < 2) :
    (∀ A B : M3, (Aᵀ * A = 1 ∧ A.det = 1) → (Bᵀ * B = 1 ∧ B.det = 1) →
      ((eps < SO3.theta (Aᵀ * B) ∧ deps ≤ SO3.theta (Aᵀ * B) ∧
        SO3.BranchOk epi (Aᵀ * B)) ∨ A = B) →
      SO3.emb.HasJac (fun g => (SO3.ops eps deps epi).local g B) A
        ((SO3.ops eps deps epi).localJac A B).1 ∧
      SO3.emb.HasJac (fun g => (SO3.ops eps deps epi).local A g) B
        ((SO3.ops eps deps epi).localJac A B).2 ∧
      SO3.emb.HasJac (fun g => (SO3.ops eps deps epi).localCostError g A) B
        ((SO3.ops eps deps epi).localCostJac false B A)) ∧
    (∀ A B M : M3, (Aᵀ * A = 1 ∧ A.det = 1) → (Bᵀ * B = 1 ∧ B.det = 1) →
      (Mᵀ * M = 1 ∧ M.det = 1) →
      ((eps < SO3.theta (Mᵀ * (Aᵀ * B)) ∧ deps ≤ SO3.theta (Mᵀ * (Aᵀ * B)) ∧
        SO3.BranchOk epi (Mᵀ * (Aᵀ * B))) ∨ Aᵀ * B = M) →
      SO3.emb.HasJac (fun g => (SO3.ops eps deps epi).betweenError g B M) A
        ((SO3.ops eps deps epi).betweenCostJac A B M).1 ∧
      SO3.emb.HasJac (fun g => (SO3.ops eps deps epi).betweenError A g M) B
        ((SO3.ops eps deps epi).betweenCostJac A B M).2) := by
  have L := SO3.lawful (eps := eps) he deps epi
  constructor
  · intro A B hA hB h
    have hv : SO3.Valid (Aᵀ * B) := SO3.Valid.mul (SO3.Valid.transpose hA) hB
    have h' : (eps < SO3.theta (Aᵀ * B) ∧ deps ≤ SO3.theta (Aᵀ * B) ∧
        SO3.BranchOk epi (Aᵀ * B)) ∨ Aᵀ * B = 1 := by
      rcases h with h | rfl
      · exact Or.inl h
      · exact Or.inr hA.1
    have hl : SO3.emb.HasJac (SO3.ops eps deps epi).log ((SO3.ops eps deps epi).between A B)
        ((SO3.ops eps deps epi).dlog ((SO3.ops eps deps epi).between A B)) :=
      so3_log_jac_partial he hd hpi0 hpi hv h'
    refine ⟨L.local_jac_left hA hB hl ?_, L.local_jac_right hA hl, L.localCost_jac hA hl⟩
    rcases h' with h' | h'
    · exact SO3.adjoint_dlog_comm_branch he hpi0 hv h'.1.le h'.2.2
    · have : (SO3.ops eps deps epi).between A B = 1 := h'
      rw [this]
      refine SO3.adjoint_dlog_comm hpi0 (by exact ⟨by simp, by simp⟩) ?_
      have : SO3.cosine (1 : M3) = 1 := by simp [SO3.cosine]; norm_num
      rw [this]; linarith
  · intro A B M hA hB hM h
    have hv : SO3.Valid (Mᵀ * (Aᵀ * B)) := SO3.Valid.mul (SO3.Valid.transpose hM)
      (SO3.Valid.mul (SO3.Valid.transpose hA) hB)
    refine L.betweenCost_jac hA hB hM (so3_log_jac_partial he hd hpi0 hpi hv ?_)
    rcases h with h | h
    · exact Or.inl h
    · right
      change Mᵀ * (Aᵀ * B) = 1
      rw [h]; exact hM.1

/-- `local`, `Between` and `Local` (without the fast approximation) on `SE3`. -/
theorem se3_costs_jac_partial {eps deps epi : ℝ} (he : 0 < eps) (hd : 0 < deps) (hpi0 : 0 ≤ epi)
    (hpi : epi < 2) :
    (∀ a b : SE3, (a.Rᵀ * a.R = 1 ∧ a.R.det = 1) → (b.Rᵀ * b.R = 1 ∧ b.R.det = 1) →
      ((eps < SO3.theta (a.Rᵀ * b.R) ∧ deps ≤ SO3.theta (a.Rᵀ * b.R) ∧
        SO3.BranchOk epi (a.Rᵀ * b.R)) ∨ a.R = b.R) →
      SE3.emb.HasJac (fun g => (SE3.ops eps deps epi).local g b) a
        ((SE3.ops eps deps epi).localJac a b).1 ∧
      SE3.emb.HasJac (fun g => (SE3.ops eps deps epi).local a g) b
        ((SE3.ops eps deps epi).localJac a b).2 ∧
      SE3.emb.HasJac (fun g => (SE3.ops eps deps epi).localCostError g a) b
        ((SE3.ops eps deps epi).localCostJac false b a)) ∧
    (∀ a b m : SE3, (a.Rᵀ * a.R = 1 ∧ a.R.det = 1) → (b.Rᵀ * b.R = 1 ∧ b.R.det = 1) →
      (m.Rᵀ * m.R = 1 ∧ m.R.det = 1) →
      ((eps < SO3.theta (m.Rᵀ * (a.Rᵀ * b.R)) ∧ deps ≤ SO3.theta (m.Rᵀ * (a.Rᵀ * b.R)) ∧
        SO3.BranchOk epi (m.Rᵀ * (a.Rᵀ * b.R))) ∨ a.Rᵀ * b.R = m.R) →
      SE3.emb.HasJac (fun g => (SE3.ops eps deps epi).betweenError g b m) a
        ((SE3.ops eps deps epi).betweenCostJac a b m).1 ∧
      SE3.emb.HasJac (fun g => (SE3.ops eps deps epi).betweenError a g m) b
        ((SE3.ops eps deps epi).betweenCostJac a b m).2) := by
  have L := SE3.lawful (eps := eps) he deps epi
  constructor
  · intro a b ha hb h
    have hv : SE3.Valid (a.inverse.compose b) := SO3.Valid.mul (SO3.Valid.transpose ha) hb
    have h' : (eps < SO3.theta (a.Rᵀ * b.R) ∧ deps ≤ SO3.theta (a.Rᵀ * b.R) ∧
        SO3.BranchOk epi (a.Rᵀ * b.R)) ∨ a.Rᵀ * b.R = 1 := by
      rcases h with h | h
      · exact Or.inl h
      · right; rw [← h]; exact ha.1
    have hl : SE3.emb.HasJac (SE3.ops eps deps epi).log ((SE3.ops eps deps epi).between a b)
        ((SE3.ops eps deps epi).dlog ((SE3.ops eps deps epi).between a b)) :=
      se3_log_jac_partial he hd hpi0 hpi hv h'
    refine ⟨L.local_jac_left ha hb hl ?_, L.local_jac_right ha hl, L.localCost_jac ha hl⟩
    rcases h' with h' | h'
    · exact SE3.adjoint_dlog_comm_branch he hpi0 hv h'.1 h'.2.1 h'.2.2
    · have : (SE3.ops eps deps epi).between a b = ⟨1, (a.inverse.compose b).t⟩ :=
        SE3.ext h' rfl
      rw [this]
      exact SE3.adjoint_dlog_comm_trans he hd hpi _
  · intro a b m ha hb hm h
    have hv : SE3.Valid (m.inverse.compose (a.inverse.compose b)) :=
      SO3.Valid.mul (SO3.Valid.transpose hm) (SO3.Valid.mul (SO3.Valid.transpose ha) hb)
    refine L.betweenCost_jac ha hb hm (se3_log_jac_partial he hd hpi0 hpi hv ?_)
    rcases h with h | h
    · exact Or.inl h
    · right
      change m.Rᵀ * (a.Rᵀ * b.R) = 1
      rw [h]; exact hm.1

/-! ## Action on points -/

/-- `rotate`/`unrotate` of `SO3` (torchlie's `transform`/`untransform`). -/
theorem so3_transform_jac (R : M3) (hR : Rᵀ * R = 1 ∧ R.det = 1) (p : V3) :
    SO3.emb.HasJac (fun g => SO3.transform g p) R (SO3.jtransform R p).1 ∧
    HasVecJac (fun q => SO3.transform R q) p (SO3.jtransform R p).2 ∧
    SO3.emb.HasJac (fun g => SO3.untransform g p) R (SO3.juntransform R p).1 ∧
    HasVecJac (fun q => SO3.untransform R q) p (SO3.juntransform R p).2 := by
  have hv : SO3.Valid R := hR
  refine ⟨?_, ?_, ?_, ?_⟩
  · intro x ξ hx ht i
    refine (MatDeriv.mulVec ht.2 (VecDeriv.const p) i).congr_deriv ?_
    simp only [SO3.emb, hx, SO3.jtransform, Matrix.mulVec_zero, add_zero]
    rw [Matrix.neg_mul, Matrix.neg_mulVec, ← Matrix.mulVec_mulVec, ← Matrix.mulVec_mulVec,
      SO3.hat_mulVec, SO3.hat_mulVec, ← Matrix.mulVec_neg,
      eq_neg_of_add_eq_zero_left (SE3.cross_anti ξ p)]
  · intro x δ hx hd i
    refine (MatDeriv.mulVec (MatDeriv.const R) hd i).congr_deriv ?_
    simp [SO3.jtransform]
  · intro x ξ hx ht i
    have h0 : MatDeriv (fun t => x t) (x 0 * SO3.hat ξ) := ht.2
    refine (MatDeriv.mulVec h0.transpose (VecDeriv.const p) i).congr_deriv ?_
    rw [hx, Matrix.transpose_mul, Matrix.mulVec_zero, add_zero, ← Matrix.mulVec_mulVec]
    have hT : (SO3.hat ξ)ᵀ = -SO3.hat ξ := by
      ext i j; fin_cases i <;> fin_cases j <;> simp [SO3.hat]
    simp only [hT, SO3.juntransform, SO3.untransform, Matrix.neg_mulVec, SO3.hat_mulVec]
    rw [eq_neg_of_add_eq_zero_left (SE3.cross_anti ξ _), neg_neg]
  · intro x δ hx hd i
    refine (MatDeriv.mulVec (MatDeriv.const Rᵀ) hd i).congr_deriv ?_
    simp [SO3.juntransform]

theorem SE3.row_mulVec (A B : M3) (v : Fin 6 → ℝ) :
    SE3.row A B *ᵥ v = A *ᵥ SE3.lin v + B *ᵥ SE3.ang v := by
  ext i
  fin_cases i <;>
    simp [SE3.row, SE3.lin, SE3.ang, Matrix.mulVec, dotProduct, Fin.sum_univ_succ] <;> ring

/-- `transform_from`/`transform_to` of `SE3` (torchlie's `transform`/`untransform`). -/
theorem se3_transform_jac (g : SE3) (hg : g.Rᵀ * g.R = 1 ∧ g.R.det = 1) (p : V3) :
    SE3.emb.HasJac (fun h => h.transform p) g (g.jtransform p).1 ∧
    HasVecJac (fun q => g.transform q) p (g.jtransform p).2 ∧
    SE3.emb.HasJac (fun h => h.untransform p) g (g.juntransform p).1 ∧
    HasVecJac (fun q => g.untransform q) p (g.juntransform p).2 := by
  have hv : SO3.Valid g.R := hg
  refine ⟨?_, ?_, ?_, ?_⟩
  · intro x ξ hx ht i
    obtain ⟨_, hR, hT⟩ := SE3.tangent_iff.mp ht
    refine ((hT i).add (MatDeriv.mulVec hR (VecDeriv.const p) i)).congr_deriv ?_
    simp only [hx, SE3.jtransform, SE3.row_mulVec, Matrix.mulVec_zero, Pi.add_apply, Pi.zero_apply]
    rw [add_zero]
    rw [Matrix.neg_mul, Matrix.neg_mulVec, ← Matrix.mulVec_mulVec, ← Matrix.mulVec_mulVec,
      SO3.hat_mulVec, SO3.hat_mulVec, ← Matrix.mulVec_neg,
      eq_neg_of_add_eq_zero_left (SE3.cross_anti (SE3.ang ξ) p)]
  · intro x δ hx hd i
    refine ((MatDeriv.mulVec (MatDeriv.const g.R) hd i).const_add (g.t i)).congr_deriv ?_
    simp [SE3.jtransform]
  · intro x ξ hx ht i
    obtain ⟨_, hR, hT⟩ := SE3.tangent_iff.mp ht
    have hsub : VecDeriv (fun t => p - (x t).t) (-((x 0).R *ᵥ SE3.lin ξ)) :=
      fun i => (hT i).const_sub (p i)
    refine (MatDeriv.mulVec hR.transpose hsub i).congr_deriv ?_
    rw [hx, Matrix.transpose_mul, ← Matrix.mulVec_mulVec, Matrix.mulVec_neg,
      Matrix.mulVec_mulVec (M := g.Rᵀ) (N := g.R), hg.1, Matrix.one_mulVec]
    have hT : (SO3.hat (SE3.ang ξ))ᵀ = -SO3.hat (SE3.ang ξ) := by
      ext i j; fin_cases i <;> fin_cases j <;> simp [SO3.hat]
    simp only [hT, SE3.juntransform, SE3.row_mulVec, SE3.untransform, Matrix.neg_mulVec,
      SO3.hat_mulVec, Matrix.one_mulVec]
    rw [eq_neg_of_add_eq_zero_left (SE3.cross_anti (SE3.ang ξ) _), neg_neg, add_comm]
  · intro x δ hx hd i
    have hsub : VecDeriv (fun t => x t - g.t) δ := fun i => (hd i).sub_const (g.t i)
    refine (MatDeriv.mulVec (MatDeriv.const g.Rᵀ) hsub i).congr_deriv ?_
    simp [SE3.juntransform]

/-! ## Quaternions -/

/-- The Jacobian returned with `quaternion_to_rotation` is the derivative, for every non-zero
quaternion (unit or not). -/
theorem so3_quaternion_jac {x : ℝ → Fin 4 → ℝ} {x' : Fin 4 → ℝ} (hx : VecDeriv x x')
    (h0 : x 0 ≠ 0) :
    MatDeriv (fun t => SO3.ofQuaternion (x t))
      (SO3.ofQuaternion (x 0) * SO3.hat (SO3.jquaternion (x 0) *ᵥ x')) := by
  set n := SO3.quatNorm (x 0) with hn
  have hn0 : n ≠ 0 := SO3.quatNorm_ne_zero h0
  have hsq : n ^ 2 = x 0 0 ^ 2 + x 0 1 ^ 2 + x 0 2 ^ 2 + x 0 3 ^ 2 := by
    rw [hn, SO3.quatNorm, Real.sq_sqrt (by positivity)]
  set r := (x 0 0 * x' 0 + x 0 1 * x' 1 + x 0 2 * x' 2 + x 0 3 * x' 3) / n with hr
  have hnd : HasDerivAt (fun t => SO3.quatNorm (x t)) r 0 := by
    have h1 := (((((hx 0).fun_pow 2).fun_add ((hx 1).fun_pow 2)).fun_add
      ((hx 2).fun_pow 2)).fun_add ((hx 3).fun_pow 2)).sqrt (by rw [← hsq]; positivity)
    refine h1.congr_deriv ?_
    rw [← hsq, Real.sqrt_sq (by rw [hn]; exact Real.sqrt_nonneg _), hr]
    field_simp
    push_cast
    ring
  have hd : ∀ i, HasDerivAt (fun t => x t i / SO3.quatNorm (x t))
      ((x' i * n - x 0 i * r) / n ^ 2) 0 := fun i => (hx i).fun_div hnd hn0
  -- the normalised components and their derivatives
  obtain ⟨u, hu⟩ : ∃ u : Fin 4 → ℝ, ∀ i, u i = x 0 i / n := ⟨_, fun _ => rfl⟩
  obtain ⟨d, hdd⟩ : ∃ d : Fin 4 → ℝ, ∀ i, d i = (x' i * n - x 0 i * r) / n ^ 2 := ⟨_, fun _ => rfl⟩
  have hunit : u 0 * u 0 + u 1 * u 1 + u 2 * u 2 + u 3 * u 3 = 1 := by
    simp only [hu]; field_simp; linarith
  have horth : u 0 * d 0 + u 1 * d 1 + u 2 * d 2 + u 3 * d 3 = 0 := by
    simp only [hu, hdd, hr]
    field_simp
    linear_combination (x 0 0 * x' 0 + x 0 1 * x' 1 + x 0 2 * x' 2 + x 0 3 * x' 3) * hsq
  have hj : SO3.jquaternion (x 0) *ᵥ x' = ![2 * (-u 1 * d 0 + u 0 * d 1 + u 3 * d 2 - u 2 * d 3),
      2 * (-u 2 * d 0 - u 3 * d 1 + u 0 * d 2 + u 1 * d 3),
      2 * (-u 3 * d 0 + u 2 * d 1 - u 1 * d 2 + u 0 * d 3)] := by
    ext i
    fin_cases i
    all_goals
      simp [SO3.jquaternion, Matrix.mulVec, dotProduct, Fin.sum_univ_four, hu, hdd, ← hn]
      field_simp
      ring
  rw [hj]
  have hq : SO3.ofQuaternion (x 0) = SO3.quatMatrix (u 0) (u 1) (u 2) (u 3) := by
    simp only [SO3.ofQuaternion, hu, ← hn]
  rw [hq]
  have hd' : ∀ i, HasDerivAt (fun t => x t i / SO3.quatNorm (x t)) (d i) 0 := fun i =>
    (hd i).congr_deriv (hdd i).symm
  have hm : ∀ i j, HasDerivAt (fun t => x t i / SO3.quatNorm (x t) * (x t j / SO3.quatNorm (x t)))
      (d i * u j + u i * d j) 0 := fun i j =>
    ((hd' i).fun_mul (hd' j)).congr_deriv (by rw [hu, hu])
  intro i j
  fin_cases i <;> fin_cases j
  · refine ((((hm 0 0).fun_add (hm 1 1)).fun_sub (hm 2 2)).fun_sub (hm 3 3)).congr_deriv ?_
    simp [SO3.quatMatrix, SO3.hat, Matrix.mul_apply, Fin.sum_univ_three]
    linear_combination (-(((d 0 * u 0 + u 0 * d 0) + (d 1 * u 1 + u 1 * d 1) - (d 2 * u 2 + u 2 * d 2) - (d 3 * u 3 + u 3 * d 3)))) * hunit
      + 2 * ((u 0 * u 0 + u 1 * u 1 - u 2 * u 2 - u 3 * u 3)) * horth
  · refine (((hm 1 2).fun_sub (hm 0 3)).const_mul 2).congr_deriv ?_
    simp [SO3.quatMatrix, SO3.hat, Matrix.mul_apply, Fin.sum_univ_three]
    linear_combination (-(2 * ((d 1 * u 2 + u 1 * d 2) - (d 0 * u 3 + u 0 * d 3)))) * hunit
      + 2 * (2 * (u 1 * u 2 - u 0 * u 3)) * horth
  · refine (((hm 1 3).fun_add (hm 0 2)).const_mul 2).congr_deriv ?_
    simp [SO3.quatMatrix, SO3.hat, Matrix.mul_apply, Fin.sum_univ_three]
    linear_combination (-(2 * ((d 1 * u 3 + u 1 * d 3) + (d 0 * u 2 + u 0 * d 2)))) * hunit
      + 2 * (2 * (u 1 * u 3 + u 0 * u 2)) * horth
  · refine (((hm 1 2).fun_add (hm 0 3)).const_mul 2).congr_deriv ?_
    simp [SO3.quatMatrix, SO3.hat, Matrix.mul_apply, Fin.sum_univ_three]
    linear_combination (-(2 * ((d 1 * u 2 + u 1 * d 2) + (d 0 * u 3 + u 0 * d 3)))) * hunit
      + 2 * (2 * (u 1 * u 2 + u 0 * u 3)) * horth
  · refine ((((hm 0 0).fun_sub (hm 1 1)).fun_add (hm 2 2)).fun_sub (hm 3 3)).congr_deriv ?_
    simp [SO3.quatMatrix, SO3.hat, Matrix.mul_apply, Fin.sum_univ_three]
    linear_combination (-(((d 0 * u 0 + u 0 * d 0) - (d 1 * u 1 + u 1 * d 1) + (d 2 * u 2 + u 2 * d 2) - (d 3 * u 3 + u 3 * d 3)))) * hunit
      + 2 * ((u 0 * u 0 - u 1 * u 1 + u 2 * u 2 - u 3 * u 3)) * horth
  · refine (((hm 2 3).fun_sub (hm 0 1)).const_mul 2).congr_deriv ?_
    simp [SO3.quatMatrix, SO3.hat, Matrix.mul_apply, Fin.sum_univ_three]
    linear_combination (-(2 * ((d 2 * u 3 + u 2 * d 3) - (d 0 * u 1 + u 0 * d 1)))) * hunit
      + 2 * (2 * (u 2 * u 3 - u 0 * u 1)) * horth
  · refine (((hm 1 3).fun_sub (hm 0 2)).const_mul 2).congr_deriv ?_
    simp [SO3.quatMatrix, SO3.hat, Matrix.mul_apply, Fin.sum_univ_three]
    linear_combination (-(2 * ((d 1 * u 3 + u 1 * d 3) - (d 0 * u 2 + u 0 * d 2)))) * hunit
      + 2 * (2 * (u 1 * u 3 - u 0 * u 2)) * horth
  · refine (((hm 2 3).fun_add (hm 0 1)).const_mul 2).congr_deriv ?_
    simp [SO3.quatMatrix, SO3.hat, Matrix.mul_apply, Fin.sum_univ_three]
    linear_combination (-(2 * ((d 2 * u 3 + u 2 * d 3) + (d 0 * u 1 + u 0 * d 1)))) * hunit
      + 2 * (2 * (u 2 * u 3 + u 0 * u 1)) * horth
  · refine ((((hm 0 0).fun_sub (hm 1 1)).fun_sub (hm 2 2)).fun_add (hm 3 3)).congr_deriv ?_
    simp [SO3.quatMatrix, SO3.hat, Matrix.mul_apply, Fin.sum_univ_three]
    linear_combination (-(((d 0 * u 0 + u 0 * d 0) - (d 1 * u 1 + u 1 * d 1) - (d 2 * u 2 + u 2 * d 2) + (d 3 * u 3 + u 3 * d 3)))) * hunit
      + 2 * ((u 0 * u 0 - u 1 * u 1 - u 2 * u 2 + u 3 * u 3)) * horth

/-! ## Non-vacuity -/

/-- The quarter turn meets the hypotheses of the theorems on the logarithm and on the cost
functions, with the float64 thresholds. -/
example :
    SO3.emb.HasJac (SO3.log (5 / 1000) (1 / 10 ^ 7)) SO3.quarter
      (SO3.jlog (5 / 1000) (1 / 100) (1 / 10 ^ 7) SO3.quarter) ∧
    SE3.emb.HasJac (SE3.log (5 / 1000) (1 / 10 ^ 7)) ⟨SO3.quarter, ![1, 2, 3]⟩
      (SE3.jlog (5 / 1000) (1 / 100) (1 / 10 ^ 7) ⟨SO3.quarter, ![1, 2, 3]⟩) ∧
    SE3.emb.HasJac (fun g => (SE3.ops (5 / 1000) (1 / 100) (1 / 10 ^ 7)).betweenError g
        ⟨SO3.quarter, ![1, 2, 3]⟩ SE3.one) SE3.one
      ((SE3.ops (5 / 1000) (1 / 100) (1 / 10 ^ 7)).betweenCostJac SE3.one
        ⟨SO3.quarter, ![1, 2, 3]⟩ SE3.one).1 ∧
    SE3.emb.HasTangentJac (SE3.exp (5 / 1000)) ![1, 2, 3, 0, 0, Real.pi / 2]
      (SE3.jexp (5 / 1000) ![1, 2, 3, 0, 0, Real.pi / 2]) := by
  have h1 : (5 / 1000 : ℝ) < SO3.theta SO3.quarter := by
    rw [SO3.quarter_theta]; linarith [Real.pi_gt_three]
  have h2 : (1 / 100 : ℝ) ≤ SO3.theta SO3.quarter := by
    rw [SO3.quarter_theta]; linarith [Real.pi_gt_three]
  have h3 : (1 / 10 ^ 7 : ℝ) < 1 + SO3.cosine SO3.quarter := by
    rw [SO3.quarter_cosine]; norm_num
  have hone : SE3.one.Rᵀ * SE3.one.R = 1 ∧ SE3.one.R.det = 1 := by simp [SE3.one]
  refine ⟨so3_log_jac_partial (by norm_num) (by norm_num) (by norm_num) (by norm_num)
      SO3.quarter_valid (Or.inl ⟨h1, h2, Or.inl h3⟩),
    se3_log_jac_partial (by norm_num) (by norm_num) (by norm_num) (by norm_num)
      SO3.quarter_valid (Or.inl ⟨h1, h2, Or.inl h3⟩),
    ((se3_costs_jac_partial (by norm_num) (by norm_num) (by norm_num) (by norm_num)).2 SE3.one
      ⟨SO3.quarter, ![1, 2, 3]⟩ SE3.one hone SO3.quarter_valid hone (Or.inl ?_)).1,
    se3_exp_jac_partial (by norm_num) (Or.inl ?_)⟩
  · simp only [SE3.one, Matrix.transpose_one, Matrix.one_mul]
    exact ⟨h1, h2, Or.inl h3⟩
  · simp [SO3.norm3_quarter]; linarith [Real.pi_gt_three]

/-- `so3_log_jac_partial` in the near-π branch: the rotation by 3.1 about x, with the float32 thresholds. -/
example : let R := SO3.exp (1 / 100) ![31 / 10, 0, 0]
    ¬ (1 / 100 < 1 + SO3.cosine R) ∧ SO3.emb.HasJac (SO3.log (1 / 100) (1 / 100)) R
      (SO3.jlog (1 / 100) (1 / 5) (1 / 100) R) := by
  intro R
  have hn : norm3 ![31 / 10, 0, 0] = 31 / 10 := by
    have : dot3 ![31 / 10, 0, 0] ![31 / 10, 0, 0] = (31 / 10 : ℝ) ^ 2 := by simp [dot3]; ring
    rw [norm3, this, Real.sqrt_sq (by positivity)]
  obtain ⟨ht, -, hc⟩ := SO3.theta_exp (eps := 1 / 100) (v := ![31 / 10, 0, 0]) (by norm_num)
    (by rw [hn]; norm_num) (by rw [hn]; linarith [Real.pi_gt_d2])
  rw [hn] at ht hc
  have h3 := Real.one_sub_sq_div_two_le_cos (x := Real.pi - 31 / 10)
  rw [Real.cos_pi_sub] at h3
  have h4 : Real.pi - 31 / 10 ≤ 1 / 10 := by linarith [Real.pi_lt_d2]
  have h5 : 0 < Real.pi - 31 / 10 := by linarith [Real.pi_gt_d2]
  have hv := SO3.exp_valid (eps := 1 / 100) (by norm_num) ![31 / 10, 0, 0]
  refine ⟨?_, so3_log_jac_partial (by norm_num) (by norm_num) (by norm_num) (by norm_num) hv
    (Or.inl ⟨?_, ?_, Or.inr ⟨?_, ?_⟩⟩)⟩
  · change ¬ (1 / 100 < 1 + SO3.cosine (SO3.exp (1 / 100) ![31 / 10, 0, 0]))
    rw [hc, not_lt]; nlinarith
  · rw [ht]; norm_num
  · rw [ht]; norm_num
  · rw [hc]
    intro h
    have := Real.injOn_cos ⟨by norm_num, by linarith⟩ ⟨Real.pi_pos.le, le_refl _⟩ (h.trans Real.cos_pi.symm)
    linarith
  · refine SO3.tie_exp (by norm_num) ?_ (fun h => ?_)
    · rw [hc]; intro h; rw [h] at h3; nlinarith
    · have h0 : (31 / 10 : ℝ) = 0 := h.1
      norm_num at h0

end Verif.Geometry
