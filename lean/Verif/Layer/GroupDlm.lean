import Verif.Layer.GroupProps
import Verif.Autodiff.Props
/-!
# Mode `DLM` for variables in Lie groups: properties (C81)
-/
namespace Verif.Layer
open Matrix Verif.Geometry Verif.Autodiff Filter
open scoped Topology

variable {p a : ℕ} {G : Fin a → Type} {Θ : Type} {cls : Fin a → Cls} {m : Fin a → ℕ}

/-! ### Specification -/

/-- Smoothness near `x0`, while the parameters move along `c`: the Jacobians are the derivatives of the errors with respect
to the variables; `ė x` is the derivative of the errors with respect to the parameters; the Jacobians have the derivative
`Jt` with respect to the parameters, and so the mixed second derivatives agree. -/
structure DlmSmooth (E : ∀ i, Embedding (cls i).dof (m i) (G i)) (F : GroupFamily p (fun i => (cls i).dof) G Θ)
    (x0 : ∀ i, G i) (c : ℝ → Θ) (ė : (∀ i, G i) → Fin p → ℝ) (Jt : Matrix (Fin p) (Cols fun i => (cls i).dof) ℝ) : Prop where
  err : ErrSmooth E F x0 (fun _ => c 0) 0
  par : ∀ x, (∀ i, (E i).valid (x i)) → VecDeriv (fun t => F.e x (c t)) (ė x)
  mix : ∀ x ξ, Moves E x0 x ξ → VecDeriv (fun s => ė (x s)) (Jt *ᵥ ξ)
  jac : ∀ r k, HasDerivAt (fun t => F.J x0 (c t) r k) (Jt r k) 0

/-! ### Lemmas -/

theorem inv_entry_continuousAt' {ι : Type} [Fintype ι] [DecidableEq ι] {M : ℝ → Matrix ι ι ℝ} {t0 : ℝ}
    (hM : ContinuousAt M t0) (hdet : (M t0).det ≠ 0) (i j : ι) : ContinuousAt (fun t => (M t)⁻¹ i j) t0 := by
  have h1 : ContinuousAt Ring.inverse (M t0).det := by
    have : (Ring.inverse : ℝ → ℝ) = Inv.inv := Ring.inverse_eq_inv'
    rw [this]
    exact continuousAt_inv₀ hdet
  have h2 : ContinuousAt (fun t => (M t)⁻¹) t0 := (continuousAt_matrix_inv _ h1).comp hM
  exact (continuous_apply_apply i j).continuousAt.comp h2

/-- `project` is the transpose of the derivative of the tensor. -/
theorem project_matrix {k : ℕ} {H : Type} {cl : Cls} {E : Embedding cl.dof k H} {L : Ops cl.dof H} (hL : E.Lawful L)
    (hx : ExpAtZero E L) {tensor : H → Fin cl.d → ℝ} (hr : Represents cl E tensor) {g : H} (hg : E.valid g) :
    ∃ D : Matrix (Fin cl.d) (Fin cl.dof) ℝ, (∀ u, cl.proj (tensor g) u = u ᵥ* D) ∧
      ∀ (x : ℝ → H) ξ, x 0 = g → E.Tangent x ξ → VecDeriv (fun t => tensor (x t)) (D *ᵥ ξ) := by
  have key : ∀ ξ : Fin cl.dof → ℝ, ∃ v, ∀ u, cl.proj (tensor g) u ⬝ᵥ ξ = u ⬝ᵥ v := by
    intro ξ
    have h0 : ((0 : ℝ) • ξ) = 0 := zero_smul _ _
    have hd : VecDeriv (fun t : ℝ => t • ξ) ξ := fun i => by
      simpa using (hasDerivAt_id (0 : ℝ)).mul_const (ξ i)
    obtain ⟨h1, h2⟩ := tangent_retract_curve hL hx hg (v := fun t : ℝ => t • ξ) h0 hd
    obtain ⟨v, -, hv⟩ := hr _ ξ h1
    rw [h2] at hv
    exact ⟨v, hv⟩
  choose v hv using fun k => key (Pi.single k 1)
  have hp : ∀ u, cl.proj (tensor g) u = u ᵥ* Matrix.of fun q k => v k q := by
    intro u
    funext k
    have := hv k u
    rw [dotProduct_single, mul_one] at this
    rw [this]
    rfl
  refine ⟨Matrix.of fun q k => v k q, hp, fun x ξ h0 ht => ?_⟩
  obtain ⟨w, hw, h1⟩ := hr x ξ ht
  have : w = (Matrix.of fun q k => v k q) *ᵥ ξ := by
    funext q
    have := h1 (Pi.single q 1)
    rw [h0, hp, ← Matrix.dotProduct_mulVec, single_dotProduct, single_dotProduct, one_mul, one_mul] at this
    exact this.symm
  exact this ▸ hw

section
variable {E : ∀ i, Embedding (cls i).dof (m i) (G i)} {L : ∀ i, Ops (cls i).dof (G i)}
  {tensor : ∀ i, G i → Fin (cls i).d → ℝ} {F : GroupFamily p (fun i => (cls i).dof) G Θ} {x0 : ∀ i, G i} {c : ℝ → Θ}

theorem dlmDelta_eq {D : ∀ i, Matrix (Fin (cls i).d) (Fin (cls i).dof) ℝ}
    (hD : ∀ i u, (cls i).proj (tensor i (x0 i)) u = u ᵥ* D i) {θ : Θ} (h0 : F.grad x0 θ = 0) (ε : ℝ)
    (g : ∀ i, Fin (cls i).d → ℝ) :
    F.dlmDelta tensor x0 θ ε g = (F.hess x0 θ + (2 * ε ^ 2) • ((blockDiagonal' D)ᵀ * blockDiagonal' D))⁻¹ *ᵥ
      ((blockDiagonal' D)ᵀ *ᵥ fun q => ε * (g q.1 q.2 - 2 * ε * tensor q.1 (x0 q.1) q.2)) := by
  have hP : perturbJac (fun i => tensor i (x0 i)) ε = (ε * √2) • blockDiagonal' D := by
    rw [← blockDiagonal'_smul]
    unfold perturbJac
    congr 1
    funext i
    ext q k
    simp only [Matrix.of_apply, hD, Pi.smul_apply, Matrix.smul_apply, smul_eq_mul]
    have : (fun q' => ε * (√2 * (1 : Matrix (Fin (cls i).d) (Fin (cls i).d) ℝ) q q')) = Pi.single q (ε * √2) := by
      funext q'
      simp only [Matrix.one_apply, Pi.single_apply, eq_comm (a := q)]
      split <;> simp
    rw [this]
    simp [Matrix.vecMul, single_dotProduct]
  have h2 : √2 * √2 = 2 := Real.mul_self_sqrt (by norm_num)
  unfold GroupFamily.dlmDelta
  simp only [hP, h0, zero_add, Matrix.transpose_smul, Matrix.smul_mul, Matrix.mul_smul, smul_smul, Matrix.smul_mulVec]
  congr 1
  · congr 3
    linear_combination ε ^ 2 * h2
  · rw [← smul_neg, ← Matrix.mulVec_neg, ← Matrix.mulVec_smul]
    congr 1
    funext q
    simp only [Pi.smul_apply, Pi.neg_apply, perturbErr, smul_eq_mul]
    linear_combination (-ε ^ 2 * tensor q.1 (x0 q.1) q.2 + ε * g q.1 q.2 / 2) * h2

theorem dlmDelta_deriv {D : ∀ i, Matrix (Fin (cls i).d) (Fin (cls i).dof) ℝ}
    (hD : ∀ i u, (cls i).proj (tensor i (x0 i)) u = u ᵥ* D i) {θ : Θ} (h0 : F.grad x0 θ = 0)
    (hdet : (F.hess x0 θ).det ≠ 0) (g : ∀ i, Fin (cls i).d → ℝ) :
    F.dlmDelta tensor x0 θ 0 g = 0 ∧ ∀ k, HasDerivAt (fun ε => F.dlmDelta tensor x0 θ ε g k)
      (((F.hess x0 θ)⁻¹ *ᵥ ((blockDiagonal' D)ᵀ *ᵥ fun q => g q.1 q.2)) k) 0 := by
  set T := blockDiagonal' D with hT
  have hz : F.dlmDelta tensor x0 θ 0 g = 0 := by
    rw [dlmDelta_eq hD h0]
    have : (fun q : (i : Fin a) × Fin (cls i).d => (0 : ℝ) * (g q.1 q.2 - 2 * 0 * tensor q.1 (x0 q.1) q.2)) = 0 := by
      funext q; simp
    rw [this, Matrix.mulVec_zero, Matrix.mulVec_zero]
  refine ⟨hz, fun k => ?_⟩
  simp only [dlmDelta_eq hD h0]
  have hM : ContinuousAt (fun ε : ℝ => F.hess x0 θ + (2 * ε ^ 2) • (Tᵀ * T)) 0 := by fun_prop
  have hq : ∀ q : (i : Fin a) × Fin (cls i).d,
      HasDerivAt (fun ε : ℝ => ε * (g q.1 q.2 - 2 * ε * tensor q.1 (x0 q.1) q.2)) (g q.1 q.2) 0 := by
    intro q
    have h1 := (hasDerivAt_id (0 : ℝ)).fun_mul
      ((((hasDerivAt_id (0 : ℝ)).const_mul 2).mul_const (tensor q.1 (x0 q.1) q.2)).const_sub (g q.1 q.2))
    refine (h1.congr_of_eventuallyEq (Filter.Eventually.of_forall fun ε => ?_)).congr_deriv ?_
    · simp
    · simp
  have hv : ∀ j, HasDerivAt (fun ε : ℝ => (Tᵀ *ᵥ fun q => ε * (g q.1 q.2 - 2 * ε * tensor q.1 (x0 q.1) q.2)) j)
      ((Tᵀ *ᵥ fun q => g q.1 q.2) j) 0 := fun j =>
    HasDerivAt.fun_sum (u := Finset.univ) fun q _ => (hq q).const_mul (Tᵀ j q)
  have h1 := HasDerivAt.fun_sum (u := Finset.univ) fun j _ =>
    hasDerivAt_mul_zero (f := fun ε : ℝ => ((F.hess x0 θ + (2 * ε ^ 2) • (Tᵀ * T))⁻¹ : Matrix _ _ ℝ) k j)
      (inv_entry_continuousAt' hM (by simpa using hdet) k j) (hv j) (by simp [Matrix.mulVec, dotProduct])
  refine h1.congr_deriv ?_
  simp [Matrix.mulVec, dotProduct]

/-- The derivative of the metric with respect to the parameters. -/
theorem metric_param_deriv {e' : Fin p → ℝ} {x : ∀ i, G i} (h : VecDeriv (fun t => F.e x (c t)) e') (K : ℝ) :
    HasDerivAt (fun t => (∑ r, F.e x (c t) r ^ 2 + K) / 2) (∑ r, F.e x (c 0) r * e' r) 0 := by
  have h1 := ((HasDerivAt.fun_sum (u := Finset.univ) fun r _ => (h r).fun_pow 2).add_const K).div_const 2
  refine h1.congr_deriv ?_
  rw [Finset.sum_div]
  refine Finset.sum_congr rfl fun r _ => ?_
  push_cast
  ring

/-! ### Mode `TRUNCATED` -/

/-- **At a stationary point, mode `TRUNCATED` with one Gauss–Newton iteration has the gradient of mode `IMPLICIT`, for
variables of any group classes**: both steps give `x0` and move with the same velocity. Continuous Jacobians are enough. -/
theorem group_truncated_one {n : Fin a → ℕ} {E : ∀ i, Embedding (n i) (m i) (G i)} {L : ∀ i, Ops (n i) (G i)}
    (hL : ∀ i, (E i).Lawful (L i)) (hx : ∀ i, ExpAtZero (E i) (L i)) {F : GroupFamily p n G Θ} {x0 : ∀ i, G i} {c : ℝ → Θ}
    (hv : ∀ i, (E i).valid (x0 i)) (hJ : ∀ r k, ContinuousAt (fun t => F.J x0 (c t) r k) 0) {γ : Cols n → ℝ}
    (hγ : ∀ k, HasDerivAt (fun t => F.grad x0 (c t) k) (γ k) 0) (h0 : F.grad x0 (c 0) = 0) (hr : FullRank (F.J x0 (c 0))) :
    ∃ ξ, Moves E x0 (fun t => F.implicitStep L x0 (c 0) (c t)) ξ ∧ Moves E x0 (fun t => F.truncatedStep L x0 (c t)) ξ := by
  refine ⟨_, implicit_velocity hL hx hv h0 hγ, ?_⟩
  refine moves_retract hL hx hv (v := fun t => (F.hess x0 (c t))⁻¹ *ᵥ (-F.grad x0 (c t))) ?_ fun k => ?_
  · rw [h0, neg_zero, Matrix.mulVec_zero]
  · have hM : ContinuousAt (fun t => F.hess x0 (c t)) 0 := by
      refine continuousAt_pi.2 fun i => continuousAt_pi.2 fun j => ?_
      have : (fun t => F.hess x0 (c t) i j) = fun t => ∑ r, F.J x0 (c t) r i * F.J x0 (c t) r j := by
        funext t; simp [GroupFamily.hess, mul_apply]
      rw [this]
      exact tendsto_finsetSum _ fun r _ => (hJ r i).mul (hJ r j)
    have h1 := (HasDerivAt.fun_sum (u := Finset.univ) fun j _ =>
      hasDerivAt_mul_zero (inv_entry_continuousAt' hM (det_of_fullRank hr) k j) (hγ j) (by rw [h0]; rfl)).fun_neg
    refine (h1.congr_of_eventuallyEq (Eventually.of_forall fun t => ?_)).congr_deriv ?_
    · simp [Matrix.mulVec, dotProduct]
    · simp [Matrix.mulVec, dotProduct]

/-! ### Mode `DLM` -/

/-- **As `epsilon` tends to 0, the gradient of mode `DLM` tends to the gradient of mode `IMPLICIT`, for variables of any group
classes**: at a stationary point with a Jacobian of full rank, the tensors of the step with autograd have a derivative `V`
with respect to the parameters, and the backward pass of `DLM` tends to the product of the incoming gradients with `V`. -/
theorem group_dlm_limit (hL : ∀ i, (E i).Lawful (L i)) (hx : ∀ i, ExpAtZero (E i) (L i))
    (hT : ∀ i, Represents (cls i) (E i) (tensor i)) (hv : ∀ i, (E i).valid (x0 i))
    {ė : (∀ i, G i) → Fin p → ℝ} {Jt : Matrix (Fin p) (Cols fun i => (cls i).dof) ℝ} (h : DlmSmooth E F x0 c ė Jt)
    (h0 : F.grad x0 (c 0) = 0) (hr : FullRank (F.J x0 (c 0))) :
    ∃ V : ∀ i, Fin (cls i).d → ℝ,
      (∀ i, VecDeriv (fun t => tensor i (F.implicitStep L x0 (c 0) (c t) i)) (V i)) ∧
      ∀ g : ∀ i, Fin (cls i).d → ℝ, Tendsto (fun ε => F.dlmGrad L tensor x0 c ε g) (𝓝[≠] 0) (𝓝 (∑ i, g i ⬝ᵥ V i)) := by
  choose D hD1 hD2 using fun i => project_matrix (hL i) (hx i) (hT i) (hv i)
  have hdet := det_of_fullRank hr
  set H := F.hess x0 (c 0) with hH
  set γ := (F.J x0 (c 0))ᵀ *ᵥ ė x0 + Jtᵀ *ᵥ F.e x0 (c 0) with hγdef
  have hγ : ∀ k, HasDerivAt (fun t => F.grad x0 (c t) k) (γ k) 0 := by
    intro k
    have h1 := HasDerivAt.fun_sum (u := Finset.univ) fun r _ => (h.jac r k).fun_mul (h.par x0 hv r)
    refine h1.congr_deriv ?_
    simp only [hγdef, Pi.add_apply, Matrix.mulVec, dotProduct, Matrix.transpose_apply]
    rw [← Finset.sum_add_distrib]
    refine Finset.sum_congr rfl fun r _ => ?_
    ring
  have hstep := implicit_velocity hL hx hv h0 hγ
  refine ⟨fun i => D i *ᵥ part (-(H⁻¹ *ᵥ γ)) i, fun i => hD2 i _ _ (congrFun hstep.1 i) (hstep.2 i), fun g => ?_⟩
  obtain ⟨hz, hδ⟩ := dlmDelta_deriv (tensor := tensor) (F := F) hD1 h0 hdet g
  set w := H⁻¹ *ᵥ ((blockDiagonal' D)ᵀ *ᵥ fun q => g q.1 q.2) with hw
  have hy : Moves E x0 (fun ε => F.dlmPoint L tensor x0 (c 0) ε g) w := moves_retract hL hx hv hz hδ
  -- the two gradients
  have hsol : deriv (fun t => F.metric x0 (c t)) 0 = ∑ r, F.e x0 (c 0) r * ė x0 r := by
    have := (metric_param_deriv (h.par x0 hv) 0).deriv
    simpa [GroupFamily.metric] using this
  have hper : ∀ ε, deriv (fun t => F.bwdMetric tensor ε g (F.dlmPoint L tensor x0 (c 0) ε g) (c t)) 0 =
      ∑ r, F.e (F.dlmPoint L tensor x0 (c 0) ε g) (c 0) r * ė (F.dlmPoint L tensor x0 (c 0) ε g) r := fun ε =>
    (metric_param_deriv (h.par _ fun i => (hy.2 i).1 ε) _).deriv
  -- the derivative of the second one with respect to `epsilon`
  have hm : HasDerivAt (fun ε => ∑ r, F.e (F.dlmPoint L tensor x0 (c 0) ε g) (c 0) r * ė (F.dlmPoint L tensor x0 (c 0) ε g) r)
      (w ⬝ᵥ γ) 0 := by
    have h1 := HasDerivAt.fun_sum (u := Finset.univ) fun r _ => (h.err _ _ hy r).fun_mul (h.mix _ _ hy r)
    refine h1.congr_deriv ?_
    have e1 : F.dlmPoint L tensor x0 (c 0) 0 g = x0 := hy.1
    simp only [e1, hγdef, dotProduct_add, Matrix.dotProduct_mulVec, ← Matrix.mulVec_transpose, Matrix.transpose_transpose,
      add_zero]
    rw [Finset.sum_add_distrib]
    congr 1
    simp only [dotProduct]
    exact Finset.sum_congr rfl fun r _ => mul_comm _ _
  rw [hasDerivAt_iff_tendsto_slope_zero] at hm
  have e1 : F.dlmPoint L tensor x0 (c 0) 0 g = x0 := hy.1
  have hlim : ∑ i, g i ⬝ᵥ (D i *ᵥ part (-(H⁻¹ *ᵥ γ)) i) = -(w ⬝ᵥ γ) := by
    have hsym : (H⁻¹)ᵀ = H⁻¹ := by
      rw [Matrix.transpose_nonsing_inv]
      simp [hH, GroupFamily.hess]
    have e2 : ∑ i, g i ⬝ᵥ (D i *ᵥ part (-(H⁻¹ *ᵥ γ)) i) =
        (fun q : (i : Fin a) × Fin (cls i).d => g q.1 q.2) ⬝ᵥ (blockDiagonal' D *ᵥ (-(H⁻¹ *ᵥ γ))) := by
      simp only [dotProduct, Matrix.mulVec]
      rw [Fintype.sum_sigma]
      refine Finset.sum_congr rfl fun i _ => Finset.sum_congr rfl fun q _ => ?_
      congr 1
      rw [Fintype.sum_sigma, Finset.sum_eq_single i]
      · refine Finset.sum_congr rfl fun k _ => ?_
        rw [blockDiagonal'_apply_eq]
        rfl
      · intro j _ hj
        refine Finset.sum_eq_zero fun k _ => ?_
        rw [blockDiagonal'_apply_ne _ _ _ (Ne.symm hj), zero_mul]
      · intro hi; exact absurd (Finset.mem_univ i) hi
    rw [e2, Matrix.mulVec_neg, dotProduct_neg, Matrix.dotProduct_mulVec, ← Matrix.mulVec_transpose, Matrix.dotProduct_mulVec,
      ← Matrix.mulVec_transpose, hsym]
  rw [hlim]
  refine hm.neg.congr fun ε => ?_
  unfold GroupFamily.dlmGrad
  rw [hsol, hper ε, zero_add, e1, smul_eq_mul]
  ring

/-- **As `epsilon` tends to 0, the gradient of mode `DLM` tends to the gradient of the loss through the true solution**, under
the condition of `group_implicit_gradient_partial`: `V` is the derivative of the tensors of the solution. -/
theorem group_dlm_gradient_partial (hL : ∀ i, (E i).Lawful (L i)) (hx : ∀ i, ExpAtZero (E i) (L i))
    (hT : ∀ i, Represents (cls i) (E i) (tensor i))
    {ė : (∀ i, G i) → Fin p → ℝ} {Jt : Matrix (Fin p) (Cols fun i => (cls i).dof) ℝ} (h : DlmSmooth E F x0 c ė Jt)
    {e' : Fin p → ℝ} (he : ErrSmooth E F x0 c e')
    {Jx : (Cols (fun i => (cls i).dof) → ℝ) → Matrix (Fin p) (Cols fun i => (cls i).dof) ℝ}
    {Jt' : Matrix (Fin p) (Cols fun i => (cls i).dof) ℝ} (hJ : JacSmooth E F x0 c Jx Jt')
    (hcurv : ∀ ξ k, ∑ r, Jx ξ r k * F.e x0 (c 0) r = 0) (hr : FullRank (F.J x0 (c 0)))
    {X : ℝ → ∀ i, G i} {ξ : Cols (fun i => (cls i).dof) → ℝ} (hX : SolutionCurve E F x0 c X ξ)
    {V : ∀ i, Fin (cls i).d → ℝ} (hV : ∀ i, VecDeriv (fun t => tensor i (X t i)) (V i)) (g : ∀ i, Fin (cls i).d → ℝ) :
    Tendsto (fun ε => F.dlmGrad L tensor x0 c ε g) (𝓝[≠] 0) (𝓝 (∑ i, g i ⬝ᵥ V i)) := by
  have hv : ∀ i, (E i).valid (x0 i) := fun i => by rw [← hX.1.1]; exact (hX.1.2 i).1 0
  have h0 : F.grad x0 (c 0) = 0 := by have := hX.2.self_of_nhds; rwa [hX.1.1] at this
  obtain ⟨V', h1, h2⟩ := group_dlm_limit hL hx hT hv h h0 hr
  have hs := (group_implicit_gradient_partial hL hx he hJ hcurv hr hX).2
  have : V' = V := by
    funext i
    obtain ⟨D, -, hD⟩ := project_matrix (hL i) (hx i) (hT i) (hv i)
    have a1 := hD _ _ (congrFun hX.1.1 i) (hX.1.2 i)
    have a2 := hD _ _ (congrFun hs.1 i) (hs.2 i)
    funext q
    rw [(h1 i q).unique (a2 q), (hV i q).unique (a1 q)]
  exact this ▸ h2 g

end

/-! ### Non-vacuity -/

/-- A rotation of the plane that is to have the angle `θ`: the residual is the sine of the difference. -/
noncomputable def angleTask : GroupFamily (a := 1) 1 (fun _ => so2Cls.dof) (fun _ => SO2) ℝ where
  e x θ := ![Real.cos θ * (x 0).s - Real.sin θ * (x 0).c]
  J x θ := Matrix.of fun _ _ => Real.cos θ * (x 0).c + Real.sin θ * (x 0).s

/-- The hypotheses of the theorems hold for it. -/
theorem angleTask_hyps :
    SolutionCurve (fun _ => SO2.emb) angleTask (fun _ => SO2.exp 0) (fun t => t) (fun t _ => SO2.exp t) (fun _ => 1) ∧
    ErrSmooth (fun _ => SO2.emb) angleTask (fun _ => SO2.exp 0) (fun t => t) ![-1] ∧
    JacSmooth (fun _ => SO2.emb) angleTask (fun _ => SO2.exp 0) (fun t => t) 0 0 ∧
    DlmSmooth (cls := fun _ => so2Cls) (fun _ => SO2.emb) angleTask (fun _ => SO2.exp 0) (fun t => t)
      (fun x => ![-(x 0).c]) 0 ∧
    FullRank (angleTask.J (fun _ => SO2.exp 0) 0) := by
  have hx : ExpAtZero SO2.emb SO2.ops := (groups_exp one_pos 1 1 0).2.1
  have comp : ∀ (x : ℝ → Fin 1 → SO2) (ξ : Cols (fun _ : Fin 1 => so2Cls.dof) → ℝ),
      Moves (fun _ => SO2.emb) (fun _ => SO2.exp 0) x ξ →
      HasDerivAt (fun t => (x t 0).c) 0 0 ∧ HasDerivAt (fun t => (x t 0).s) (ξ ⟨0, (0 : Fin 1)⟩) 0 := by
    intro x ξ h
    obtain ⟨h1, h2⟩ := SO2.tangent_components (h.2 0)
    have e : x 0 0 = SO2.exp 0 := congrFun h.1 0
    exact ⟨h1.congr_deriv (by simp [e, SO2.exp]), h2.congr_deriv (by simp [e, SO2.exp, part])⟩
  have hsol : SolutionCurve (fun _ => SO2.emb) angleTask (fun _ => SO2.exp 0) (fun t => t) (fun t _ => SO2.exp t)
      (fun _ => 1) := by
    refine ⟨⟨rfl, fun i => ?_⟩, Eventually.of_forall fun t => ?_⟩
    · exact hx (fun t _ => t) (fun _ => 1) rfl fun _ => hasDerivAt_id 0
    · funext k
      simp [GroupFamily.grad, angleTask, Matrix.mulVec, dotProduct, SO2.exp]
      right; ring
  have he : ErrSmooth (fun _ => SO2.emb) angleTask (fun _ => SO2.exp 0) (fun t => t) ![-1] := by
    intro x ξ h r
    obtain ⟨h1, h2⟩ := comp x ξ h
    have e : x 0 0 = SO2.exp 0 := congrFun h.1 0
    have h3 := ((Real.hasDerivAt_cos 0).fun_mul h2).fun_sub ((Real.hasDerivAt_sin 0).fun_mul h1)
    fin_cases r
    refine h3.congr_deriv ?_
    simp [e, SO2.exp, angleTask, Matrix.mulVec, dotProduct, Fintype.sum_sigma, so2Cls]
    ring
  have hJ : JacSmooth (fun _ => SO2.emb) angleTask (fun _ => SO2.exp 0) (fun t => t) 0 0 := by
    intro x ξ h r k
    obtain ⟨h1, h2⟩ := comp x ξ h
    have e : x 0 0 = SO2.exp 0 := congrFun h.1 0
    have h3 := ((Real.hasDerivAt_cos 0).fun_mul h1).fun_add ((Real.hasDerivAt_sin 0).fun_mul h2)
    refine h3.congr_deriv ?_
    simp [e, SO2.exp]
  have hd : DlmSmooth (cls := fun _ => so2Cls) (fun _ => SO2.emb) angleTask (fun _ => SO2.exp 0) (fun t => t)
      (fun x => ![-(x 0).c]) 0 := by
    refine ⟨fun x ξ h r => ?_, fun x _ r => ?_, fun x ξ h r => ?_, fun r k => ?_⟩
    · obtain ⟨h1, h2⟩ := comp x ξ h
      have h3 := (h2.const_mul (Real.cos 0)).fun_sub (h1.const_mul (Real.sin 0))
      fin_cases r
      refine h3.congr_deriv ?_
      simp [SO2.exp, angleTask, Matrix.mulVec, dotProduct, Fintype.sum_sigma, so2Cls]
    · have h3 := ((Real.hasDerivAt_cos 0).mul_const (x 0).s).fun_sub ((Real.hasDerivAt_sin 0).mul_const (x 0).c)
      fin_cases r
      refine h3.congr_deriv ?_
      simp
    · obtain ⟨h1, h2⟩ := comp x ξ h
      fin_cases r
      refine h1.fun_neg.congr_deriv ?_
      simp
    · have h3 := ((Real.hasDerivAt_cos 0).mul_const (SO2.exp 0).c).fun_add
        ((Real.hasDerivAt_sin 0).mul_const (SO2.exp 0).s)
      refine h3.congr_deriv ?_
      simp [SO2.exp]
  have hr : FullRank (angleTask.J (fun _ => SO2.exp 0) 0) := by
    intro w h
    have h1 := congrFun h 0
    simp [angleTask, Matrix.mulVec, dotProduct, Fintype.sum_sigma, so2Cls, SO2.exp] at h1
    funext ⟨i, k⟩
    have : i = 0 := Subsingleton.elim _ _
    subst this
    have : k = (0 : Fin 1) := Subsingleton.elim (α := Fin 1) _ _
    subst this
    exact h1
  exact ⟨hsol, he, hJ, hd, hr⟩

/-- The solution is the rotation by `θ`. The hypotheses of all theorems above hold, and so `DLM` tends to the derivative of
the entries `[cos, sin]` of the solution at 0: `0` and `1`. -/
theorem angleTask_grad (g : Fin 1 → Fin 2 → ℝ) :
    SolutionCurve (fun _ => SO2.emb) angleTask (fun _ => SO2.exp 0) (fun t => t) (fun t _ => SO2.exp t) (fun _ => 1) ∧
    Moves (fun _ => SO2.emb) (fun _ => SO2.exp 0) (fun t => angleTask.implicitStep (fun _ => SO2.ops) (fun _ => SO2.exp 0) 0 t)
      (fun _ => 1) ∧
    Tendsto (fun ε => angleTask.dlmGrad (cls := fun _ => so2Cls) (fun _ => SO2.ops) (fun _ x => ![x.c, x.s])
      (fun _ => SO2.exp 0) (fun t => t) ε g) (𝓝[≠] 0) (𝓝 (g 0 1)) := by
  have hx : ExpAtZero SO2.emb SO2.ops := (groups_exp one_pos 1 1 0).2.1
  obtain ⟨hsol, he, hJ, hd, hr⟩ := angleTask_hyps
  have hcurv : ∀ ξ k, ∑ r, (0 : (Cols (fun _ : Fin 1 => so2Cls.dof) → ℝ) → Matrix (Fin 1) (Cols (fun _ : Fin 1 => so2Cls.dof)) ℝ) ξ r k *
      angleTask.e (fun _ => SO2.exp 0) 0 r = 0 := by
    intro ξ k; simp
  refine ⟨hsol, ?_, ?_⟩
  · exact (group_implicit_gradient_partial (fun _ => SO2.lawful) (fun _ => hx) he hJ hcurv hr hsol).2
  · have := group_dlm_gradient_partial (cls := fun _ => so2Cls) (tensor := fun _ x => ![x.c, x.s]) (fun _ => SO2.lawful)
      (fun _ => hx) (fun _ => so2_represents) hd he hJ hcurv hr hsol (V := fun _ => ![0, 1]) (fun i q => ?_) g
    · simpa [dotProduct, Fin.sum_univ_two] using this
    · fin_cases q
      · exact (Real.hasDerivAt_cos 0).congr_deriv (by simp)
      · exact (Real.hasDerivAt_sin 0).congr_deriv (by simp)

/-- Non-vacuity of `group_implicit_zero_residual`. -/
example : angleTask.implicitStep (fun _ => SO2.ops) (fun _ => SO2.exp 0) 0 0 = fun _ => SO2.exp 0 := by
  obtain ⟨hsol, he, hJ, -, hr⟩ := angleTask_hyps
  exact (group_implicit_zero_residual (fun _ => SO2.lawful) (fun _ => (groups_exp one_pos 1 1 0).2.1) he
    (fun x ξ h r k => (hJ x ξ h r k).continuousAt) (by funext r; fin_cases r; simp [angleTask, SO2.exp]) hr hsol).1

/-- Non-vacuity of `group_truncated_one`. -/
example : ∃ ξ, Moves (fun _ => SO2.emb) (fun _ => SO2.exp 0)
    (fun t => angleTask.truncatedStep (fun _ => SO2.ops) (fun _ => SO2.exp 0) t) ξ := by
  have hx := fun _ : Fin 1 => (groups_exp one_pos 1 1 0).2.1
  have hv := fun _ : Fin 1 => SO2.lawful.exp_valid 0
  obtain ⟨hsol, he, hJ, hd, hr⟩ := angleTask_hyps
  have hm := moves_const (fun _ => SO2.emb) (fun _ => SO2.ops) (fun _ => SO2.lawful) (fun _ => SO2.exp 0) hv
  obtain ⟨ξ, -, h⟩ := group_truncated_one (fun _ => SO2.lawful) hx hv (fun r k => (hd.jac r k).continuousAt)
    (fun k => grad_deriv he hJ hm k) (by have := hsol.2.self_of_nhds; rwa [hsol.1.1] at this) hr
  exact ⟨ξ, h⟩

end Verif.Layer
