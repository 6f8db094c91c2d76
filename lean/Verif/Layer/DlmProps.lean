import Verif.Layer.Dlm
import Mathlib.Analysis.Calculus.Deriv.Slope
/-!
# Properties of mode `DLM` (C81)
-/
namespace Verif.Layer
set_option linter.unusedSectionVars false
open Matrix Verif.Steps
open scoped Classical Topology
variable {p d n : Nat} {Θ : Type} [NormedAddCommGroup Θ] [NormedSpace ℝ Θ]

/-! ### Specification -/

/-- Errors are twice continuously differentiable in the variables and the parameters, and `J` is their
Jacobian in the variables, everywhere. -/
structure SmoothFamily (F : Family p d Θ) : Prop where
  smooth : ∀ r, ContDiff ℝ 2 (fun q : (Fin d → ℝ) × Θ => F.e q.1 q.2 r)
  isJac : ∀ x θ r h, fderiv ℝ (fun q : (Fin d → ℝ) × Θ => F.e q.1 q.2 r) (x, θ) (h, 0) = (F.J x θ *ᵥ h) r

/-! ### Lemmas -/

theorem bwd_AtA (F : Family p d Θ) (x : Fin d → ℝ) (θ : Θ) (ε : ℝ) (g : Fin d → ℝ) :
    (F.bwdLin x θ ε g).AtA = F.hess x θ + (2 * ε ^ 2) • (1 : Matrix (Fin d) (Fin d) ℝ) := by
  ext i j
  simp only [Lin.AtA, Family.bwdLin, mul_apply, transpose_apply, of_apply, Fin.sum_univ_add, Fin.addCases_left,
    Fin.addCases_right, Family.hess, Matrix.add_apply, Matrix.smul_apply, dlmJacobian, smul_eq_mul]
  congr 1
  have h2 : √2 * √2 = 2 := Real.mul_self_sqrt (by norm_num)
  have : ∀ k : Fin d, ε * (√2 * (1 : Matrix (Fin d) (Fin d) ℝ) k i) * (ε * (√2 * (1 : Matrix (Fin d) (Fin d) ℝ) k j)) =
      (2 * ε ^ 2) * ((1 : Matrix (Fin d) (Fin d) ℝ) k i * (1 : Matrix (Fin d) (Fin d) ℝ) k j) := by
    intro k
    linear_combination (ε ^ 2 * (1 : Matrix (Fin d) (Fin d) ℝ) k i * (1 : Matrix (Fin d) (Fin d) ℝ) k j) * h2
  simp only [this, ← Finset.mul_sum]
  congr 1
  simp [one_apply, eq_comm]

theorem bwd_Atb (F : Family p d Θ) (x : Fin d → ℝ) (θ : Θ) (ε : ℝ) (g : Fin d → ℝ) :
    (F.bwdLin x θ ε g).Atb = -F.grad x θ + ε • (g - (2 * ε) • x) := by
  funext j
  simp only [Lin.Atb, Family.bwdLin, mulVec, dotProduct, transpose_apply, of_apply, Fin.sum_univ_add,
    Fin.addCases_left, Fin.addCases_right, Family.grad, Pi.add_apply, Pi.neg_apply, Pi.smul_apply, Pi.sub_apply,
    smul_eq_mul, dlmJacobian, dlmError, Matrix.smul_apply]
  have h2 : √2 * √2 = 2 := Real.mul_self_sqrt (by norm_num)
  have h1 : ∑ r, F.J x θ r j * -F.e x θ r = -∑ r, F.J x θ r j * F.e x θ r := by
    rw [← Finset.sum_neg_distrib]; exact Finset.sum_congr rfl fun r _ => by ring
  rw [h1]
  congr 1
  have : ∀ k : Fin d, ε * (√2 * (1 : Matrix (Fin d) (Fin d) ℝ) k j) * -(√2 * (ε * x k - 1 / 2 * g k)) =
      (1 : Matrix (Fin d) (Fin d) ℝ) k j * (ε * (g k - 2 * ε * x k)) := by
    intro k
    linear_combination (-(ε * (1 : Matrix (Fin d) (Fin d) ℝ) k j * (ε * x k - 1 / 2 * g k))) * h2
  simp only [this]
  simp [one_apply]

/-- The perturbation does not depend on the parameters: it drops out of the derivative. -/
theorem bwdMetric_fderiv (F : Family p d Θ) (ε : ℝ) (g x : Fin d → ℝ) (θ0 : Θ) :
    fderiv ℝ (fun θ => F.bwdMetric ε g x θ) θ0 = fderiv ℝ (fun θ => F.metric x θ) θ0 := by
  have : (fun θ => F.bwdMetric ε g x θ) = fun θ => F.metric x θ + (∑ r, dlmError ε g x r ^ 2) / 2 := by
    funext θ
    simp only [Family.bwdMetric, Family.metric, Fin.sum_univ_add, Fin.addCases_left, Fin.addCases_right]
    ring
  rw [this, fderiv_add_const]

/-- The error metric as a function of variables and parameters. -/
noncomputable def Family.joint (F : Family p d Θ) (q : (Fin d → ℝ) × Θ) : ℝ := F.metric q.1 q.2

theorem joint_contDiff {F : Family p d Θ} (h : SmoothFamily F) : ContDiff ℝ 2 F.joint := by
  unfold Family.joint Family.metric
  exact (ContDiff.sum fun r _ => (h.smooth r).pow 2).div_const 2

theorem joint_fderiv {F : Family p d Θ} (h : SmoothFamily F) (x : Fin d → ℝ) (θ : Θ) (v : Fin d → ℝ) :
    fderiv ℝ F.joint (x, θ) (v, 0) = F.grad x θ ⬝ᵥ v := by
  have hd : ∀ r, HasFDerivAt (fun q : (Fin d → ℝ) × Θ => F.e q.1 q.2 r)
      (fderiv ℝ (fun q : (Fin d → ℝ) × Θ => F.e q.1 q.2 r) (x, θ)) (x, θ) := fun r =>
    ((h.smooth r).differentiable (by norm_num)).differentiableAt.hasFDerivAt
  have h1 : HasFDerivAt (fun q : (Fin d → ℝ) × Θ => ∑ r, F.e q.1 q.2 r * F.e q.1 q.2 r)
      (∑ r, (F.e x θ r • fderiv ℝ (fun q : (Fin d → ℝ) × Θ => F.e q.1 q.2 r) (x, θ) +
        F.e x θ r • fderiv ℝ (fun q : (Fin d → ℝ) × Θ => F.e q.1 q.2 r) (x, θ))) (x, θ) :=
    HasFDerivAt.fun_sum fun r _ => (hd r).mul (hd r)
  have h2 := h1.mul_const (1 / 2 : ℝ)
  have h3 : F.joint = fun q : (Fin d → ℝ) × Θ => (∑ r, F.e q.1 q.2 r * F.e q.1 q.2 r) * (1 / 2) := by
    funext q
    simp only [Family.joint, Family.metric, div_eq_mul_one_div (∑ r, F.e q.1 q.2 r ^ 2)]
    congr 1
    exact Finset.sum_congr rfl fun r _ => by ring
  rw [h3, h2.fderiv]
  simp only [_root_.smul_apply, _root_.sum_apply, _root_.add_apply, h.isJac, smul_eq_mul]
  rw [Family.grad, mulVec_transpose, ← dotProduct_mulVec, dotProduct, Finset.mul_sum]
  exact Finset.sum_congr rfl fun r _ => by ring

theorem metric_fderiv {F : Family p d Θ} (h : SmoothFamily F) (x : Fin d → ℝ) (θ t : Θ) :
    fderiv ℝ (fun θ => F.metric x θ) θ t = fderiv ℝ F.joint (x, θ) (0, t) := by
  have h1 : HasFDerivAt (fun θ : Θ => (x, θ)) (ContinuousLinearMap.inr ℝ (Fin d → ℝ) Θ) θ :=
    hasFDerivAt_prodMk_right x θ
  have h2 := ((joint_contDiff h).differentiable (by norm_num)).differentiableAt (x := (x, θ)) |>.hasFDerivAt
  have h3 := HasFDerivAt.comp (g := F.joint) (f := fun θ : Θ => (x, θ)) θ h2 h1
  have h4 : (fun θ => F.metric x θ) = F.joint ∘ fun θ : Θ => (x, θ) := rfl
  rw [h4, h3.fderiv]
  rfl

/-- The step of the backward pass, at a stationary point. -/
noncomputable def dlmStep (H : Matrix (Fin d) (Fin d) ℝ) (x g : Fin d → ℝ) (ε : ℝ) : Fin d → ℝ :=
  (H + (2 * ε ^ 2) • (1 : Matrix (Fin d) (Fin d) ℝ))⁻¹ *ᵥ (ε • (g - (2 * ε) • x))

theorem dlmPoint_eq {F : Family p d Θ} {x : Fin d → ℝ} {θ : Θ} (h0 : F.grad x θ = 0) (ε : ℝ) (g : Fin d → ℝ) :
    F.dlmPoint x θ ε g = x + dlmStep (F.hess x θ) x g ε := by
  unfold Family.dlmPoint dlmStep
  rw [bwd_AtA, bwd_Atb, h0, neg_zero, zero_add]

theorem dlmStep_deriv {H : Matrix (Fin d) (Fin d) ℝ} (hdet : H.det ≠ 0) (x g : Fin d → ℝ) :
    HasDerivAt (dlmStep H x g) (H⁻¹ *ᵥ g) 0 := by
  rw [hasDerivAt_pi]
  intro i
  have hM : ContinuousAt (fun ε : ℝ => H + (2 * ε ^ 2) • (1 : Matrix (Fin d) (Fin d) ℝ)) 0 := by fun_prop
  have hv : ∀ j, HasDerivAt (fun ε : ℝ => ε * (g j - 2 * ε * x j)) (g j) 0 := by
    intro j
    have h1 := (hasDerivAt_id (0 : ℝ)).fun_mul ((((hasDerivAt_id (0 : ℝ)).const_mul 2).mul_const (x j)).const_sub (g j))
    refine (h1.congr_of_eventuallyEq (Filter.Eventually.of_forall fun ε => ?_)).congr_deriv ?_
    · simp
    · simp
  have h1 := HasFDerivAt.fun_sum (u := Finset.univ) fun j _ =>
    hasFDerivAt_mul_zero (f := fun ε : ℝ => (H + (2 * ε ^ 2) • (1 : Matrix (Fin d) (Fin d) ℝ))⁻¹ i j)
      (inv_entry_continuousAt hM (by simpa using hdet) i j) (hv j).hasFDerivAt (by simp)
  have h2 := h1.hasDerivAt
  refine (h2.congr_of_eventuallyEq (Filter.Eventually.of_forall fun ε => ?_)).congr_deriv ?_
  · simp [dlmStep, mulVec, dotProduct]
  · simp [mulVec, dotProduct]

/-- At a stationary point of the error metric with a Jacobian of full rank, the gradient returned by mode
`DLM` tends, as `epsilon` tends to 0, to the gradient of mode `IMPLICIT`, for every incoming gradient `g`
and every direction `t` in the parameters. -/
theorem dlm_tends_to_implicit {F : Family p d Θ} (h : SmoothFamily F) {x0 : Fin d → ℝ} {θ0 : Θ}
    (h0 : F.grad x0 θ0 = 0) (hdef : ¬ Deficient (F.J x0 θ0)) :
    ∃ D : Θ →L[ℝ] (Fin d → ℝ), HasFDerivAt (F.implicitStep x0 θ0) D θ0 ∧
      ∀ g t, Filter.Tendsto (fun ε => F.dlmGrad x0 θ0 ε g t) (𝓝[≠] 0) (𝓝 (g ⬝ᵥ D t)) := by
  have hdet : (F.hess x0 θ0).det ≠ 0 := fun h0 => hdef ((deficient_iff ⟨F.J x0 θ0, 0⟩).2 h0)
  have hC := joint_contDiff h
  set f'' := fderiv ℝ (fderiv ℝ F.joint) (x0, θ0) with hf''
  have hD2 : HasFDerivAt (fderiv ℝ F.joint) f'' (x0, θ0) := by
    have : ContDiff ℝ 1 (fderiv ℝ F.joint) := hC.fderiv_right (by norm_num)
    exact (this.differentiable (by norm_num)).differentiableAt.hasFDerivAt
  have hsym : ∀ u v, f'' u v = f'' v u := by
    intro u v
    have := (hC.contDiffAt (x := (x0, θ0))).isSymmSndFDerivAt (by simp)
    exact this.eq u v
  -- derivative of the gradient in the parameters
  let G : Θ →L[ℝ] (Fin d → ℝ) := ContinuousLinearMap.pi fun j =>
    ((ContinuousLinearMap.apply ℝ ℝ ((Pi.single j 1, 0) : (Fin d → ℝ) × Θ)).comp f'').comp
      (ContinuousLinearMap.inr ℝ (Fin d → ℝ) Θ)
  have hG : HasFDerivAt (fun θ => F.grad x0 θ) G θ0 := by
    rw [hasFDerivAt_pi']
    intro j
    have e1 : (fun θ => F.grad x0 θ j) =
        fun θ => (ContinuousLinearMap.apply ℝ ℝ ((Pi.single j 1, 0) : (Fin d → ℝ) × Θ)) (fderiv ℝ F.joint (x0, θ)) := by
      funext θ
      rw [ContinuousLinearMap.apply_apply, joint_fderiv h]
      simp
    rw [e1]
    have h1 : HasFDerivAt (fun θ : Θ => (x0, θ)) (ContinuousLinearMap.inr ℝ (Fin d → ℝ) Θ) θ0 :=
      hasFDerivAt_prodMk_right x0 θ0
    have h2 := HasFDerivAt.comp (g := fderiv ℝ F.joint) (f := fun θ : Θ => (x0, θ)) θ0 hD2 h1
    exact ((ContinuousLinearMap.apply ℝ ℝ ((Pi.single j 1, 0) : (Fin d → ℝ) × Θ)).hasFDerivAt).comp θ0 h2
  have hI : HasFDerivAt (F.implicitStep x0 θ0) (-((mulVecL (F.hess x0 θ0)⁻¹).comp G)) θ0 := by
    have h1 := ((mulVecL (F.hess x0 θ0)⁻¹).hasFDerivAt (x := F.grad x0 θ0)).comp θ0 hG
    have h2 := (h1.neg).const_add x0
    refine h2.congr_of_eventuallyEq (Filter.Eventually.of_forall fun θ => ?_)
    simp only [Family.implicitStep, Function.comp, Pi.neg_apply, mulVecL_apply, mulVec_neg]
  refine ⟨_, hI, fun g t => ?_⟩
  set w := (F.hess x0 θ0)⁻¹ *ᵥ g with hw
  -- the derivative in ε
  have hst : HasDerivAt (fun ε => ((x0 + dlmStep (F.hess x0 θ0) x0 g ε, θ0) : (Fin d → ℝ) × Θ)) (w, 0) 0 :=
    ((dlmStep_deriv hdet x0 g).const_add x0).prodMk (hasDerivAt_const _ _)
  have hz : dlmStep (F.hess x0 θ0) x0 g 0 = 0 := by simp [dlmStep]
  have hphi : HasDerivAt (fun ε => fderiv ℝ F.joint (x0 + dlmStep (F.hess x0 θ0) x0 g ε, θ0) (0, t)) (f'' (w, 0) (0, t)) 0 := by
    have h1 : HasFDerivAt (fderiv ℝ F.joint) f'' (x0 + dlmStep (F.hess x0 θ0) x0 g 0, θ0) := by
      rw [hz, add_zero]; exact hD2
    have h2 := HasFDerivAt.comp_hasDerivAt (0 : ℝ) h1 hst
    have h3 := ((ContinuousLinearMap.apply ℝ ℝ ((0, t) : (Fin d → ℝ) × Θ)).hasFDerivAt).comp_hasDerivAt (0 : ℝ) h2
    exact h3
  have hlim : g ⬝ᵥ (-((mulVecL (F.hess x0 θ0)⁻¹).comp G)) t = -(f'' (w, 0) (0, t)) := by
    have hHs : (F.hess x0 θ0)⁻¹ᵀ = (F.hess x0 θ0)⁻¹ := by
      rw [transpose_nonsing_inv, Family.hess, transpose_mul, transpose_transpose]
    have h1 : (-((mulVecL (F.hess x0 θ0)⁻¹).comp G)) t = -((F.hess x0 θ0)⁻¹ *ᵥ G t) := rfl
    rw [h1, dotProduct_neg, dotProduct_mulVec, ← mulVec_transpose, hHs, ← hw, hsym]
    congr 1
    have h2 : ((w, 0) : (Fin d → ℝ) × Θ) = ∑ j, w j • ((Pi.single j 1, 0) : (Fin d → ℝ) × Θ) := by
      refine Prod.ext ?_ ?_
      · simp only [Prod.fst_sum, Prod.smul_fst]
        funext i
        simp [Finset.sum_apply, Pi.single_apply]
      · simp [Prod.snd_sum]
    rw [h2, map_sum, dotProduct]
    refine Finset.sum_congr rfl fun j _ => ?_
    rw [map_smul, smul_eq_mul]
    rfl
  rw [hlim]
  have hslope := hphi.tendsto_slope_zero.neg
  refine hslope.congr fun ε => ?_
  simp only [Family.dlmGrad, bwdMetric_fderiv, dlmPoint_eq h0, zero_add, hz, add_zero, _root_.smul_apply,
    _root_.sub_apply, metric_fderiv h, smul_eq_mul]
  ring

/-- Hence mode `DLM` converges to the true derivative of the solution under the same conditions as mode
`IMPLICIT`; here for a zero residual or affine cost functions (`J` does not change with `x`). -/
theorem dlm_tends_to_gradient_partial {F : Family p d Θ} (h : SmoothFamily F) {x0 : Fin d → ℝ} {θ0 : Θ}
    {J' : Fin p → Fin d → ((Fin d → ℝ) × Θ) →L[ℝ] ℝ}
    (hJ : ∀ r j, HasFDerivAt (fun q : (Fin d → ℝ) × Θ => F.J q.1 q.2 r j) (J' r j) (x0, θ0))
    (hc : F.e x0 θ0 = 0 ∨ ∀ x x' θ, F.J x θ = F.J x' θ)
    (hdef : ¬ Deficient (F.J x0 θ0)) {X : Θ → Fin d → ℝ} {X' : Θ →L[ℝ] (Fin d → ℝ)} (hX : SolutionPath F x0 θ0 X X')
    (g : Fin d → ℝ) (t : Θ) :
    Filter.Tendsto (fun ε => F.dlmGrad x0 θ0 ε g t) (𝓝[≠] 0) (𝓝 (g ⬝ᵥ X' t)) := by
  have h0 : F.grad x0 θ0 = 0 := by
    have := hX.stationary.self_of_nhds
    rwa [hX.start] at this
  obtain ⟨D, hD, hlim⟩ := dlm_tends_to_implicit h h0 hdef
  have hS : Smooth F x0 θ0 (fun r => fderiv ℝ (fun q : (Fin d → ℝ) × Θ => F.e q.1 q.2 r) (x0, θ0)) J' :=
    ⟨fun r => ((h.smooth r).differentiable (by norm_num)).differentiableAt.hasFDerivAt, hJ, h.isJac x0 θ0⟩
  have hnc : NoCurvature F x0 θ0 J' := by
    intro j v
    rcases hc with hc | hc
    · simp [hc]
    · refine Finset.sum_eq_zero fun r _ => ?_
      have h1 : HasFDerivAt (fun x : Fin d → ℝ => (x, θ0)) (ContinuousLinearMap.inl ℝ (Fin d → ℝ) Θ) x0 :=
        hasFDerivAt_prodMk_left x0 θ0
      have h2 := HasFDerivAt.comp (g := fun q : (Fin d → ℝ) × Θ => F.J q.1 q.2 r j) (f := fun x : Fin d → ℝ => (x, θ0)) x0 (hJ r j) h1
      have h3 : HasFDerivAt (fun _ : Fin d → ℝ => F.J x0 θ0 r j) (0 : (Fin d → ℝ) →L[ℝ] ℝ) x0 := hasFDerivAt_const _ _
      have h4 : ((fun q : (Fin d → ℝ) × Θ => F.J q.1 q.2 r j) ∘ fun x : Fin d → ℝ => (x, θ0)) = fun _ => F.J x0 θ0 r j := by
        funext x; simp only [Function.comp]; rw [hc x x0 θ0]
      rw [h4] at h2
      have h5 := congrArg (fun l => l v) (h2.unique h3)
      have h6 : J' r j (v, 0) = 0 := h5
      rw [h6, zero_mul]
  have hu := (implicit_gradient_partial hS hnc hdef hX).2.unique hD
  rw [hu]
  exact hlim g t

/-! ### The bias for a fixed `epsilon` -/

/-- The simplest problem: `x` is fitted to the parameter, the solution is `X θ = θ`. -/
def copyTask : Family 1 1 ℝ where
  e := fun x θ => ![x 0 - θ]
  J := fun _ _ => !![1]

/-- For this problem the derivative of the solution is 1, so an incoming gradient `g` should be returned
unchanged; mode `DLM` returns `(g - 2 ε θ) / (1 + 2 ε²)`, which depends on the value of the solution. -/
theorem dlm_bias (ε g θ : ℝ) (hε : ε ≠ 0) :
    copyTask.dlmGrad (fun _ => θ) θ ε (fun _ => g) 1 = (g - 2 * ε * θ) / (1 + 2 * ε ^ 2) := by
  have h0 : copyTask.grad (fun _ => θ) θ = 0 := by
    funext j; fin_cases j
    simp [Family.grad, copyTask, mulVec, dotProduct]
  have hh : copyTask.hess (fun _ => θ) θ = 1 := by
    ext i j; fin_cases i; fin_cases j
    simp [Family.hess, copyTask, mul_apply]
  have hinv : ((1 : Matrix (Fin 1) (Fin 1) ℝ) + (2 * ε ^ 2) • (1 : Matrix (Fin 1) (Fin 1) ℝ))⁻¹ = (1 / (1 + 2 * ε ^ 2)) • 1 := by
    refine Matrix.inv_eq_right_inv ?_
    have : (1 : ℝ) + 2 * ε ^ 2 ≠ 0 := by positivity
    ext i j; fin_cases i; fin_cases j
    simp [mul_apply]
    field_simp
  have hpt : copyTask.dlmPoint (fun _ => θ) θ ε (fun _ => g) = fun _ => θ + ε * (g - 2 * ε * θ) / (1 + 2 * ε ^ 2) := by
    rw [dlmPoint_eq h0, dlmStep, hh, hinv]
    funext j; fin_cases j
    simp [mulVec, dotProduct]
    ring
  have hm : ∀ x : ℝ, HasDerivAt (fun θ' => copyTask.metric (fun _ => x) θ') (-(x - θ)) θ := by
    intro x
    have e : (fun θ' => copyTask.metric (fun _ => x) θ') = fun θ' => (x - θ') ^ 2 / 2 := by
      funext θ'; simp [Family.metric, copyTask]
    rw [e]
    have h1 := ((((hasDerivAt_id θ).const_sub x).pow 2).div_const 2)
    refine h1.congr_deriv ?_
    simp
    ring
  have hd : ∀ x : ℝ, fderiv ℝ (fun θ' => copyTask.metric (fun _ => x) θ') θ 1 = -(x - θ) := fun x => by
    rw [(hm x).hasFDerivAt.fderiv]; simp
  rw [Family.dlmGrad, bwdMetric_fderiv, hpt, _root_.smul_apply, _root_.sub_apply, hd, hd, smul_eq_mul]
  field_simp
  ring

/-- With the default `dlm_epsilon = 1e-2` and a solution of 50, an incoming gradient of 1 is turned into a
gradient of exactly 0. -/
theorem dlm_default_epsilon_bias :
    HasDerivAt (fun θ : ℝ => copyTask.implicitStep (fun _ => 50) 50 θ 0) 1 50 ∧
    copyTask.dlmGrad (fun _ => 50) 50 (1 / 100) (fun _ => 1) 1 = 0 := by
  constructor
  · have hh : (copyTask.hess (fun _ => 50) 50)⁻¹ = 1 := by
      have : copyTask.hess (fun _ => 50) 50 = 1 := by
        ext i j; fin_cases i; fin_cases j
        simp [Family.hess, copyTask, mul_apply]
      rw [this, inv_one]
    have e : (fun θ : ℝ => copyTask.implicitStep (fun _ => 50) 50 θ 0) = fun θ => θ := by
      funext θ
      rw [Family.implicitStep, hh, one_mulVec]
      simp [Family.grad, copyTask, mulVec, dotProduct]
    rw [e]
    exact hasDerivAt_id _
  · rw [dlm_bias _ _ _ (by norm_num)]; norm_num

/-- Non-vacuity: `copyTask` meets the hypotheses of the theorems above. -/
theorem copyTask_smooth : SmoothFamily copyTask := by
  refine ⟨fun r => ?_, fun x θ r v => ?_⟩
  · fin_cases r
    have : (fun q : (Fin 1 → ℝ) × ℝ => copyTask.e q.1 q.2 0) = fun q => q.1 0 - q.2 := by
      funext q; simp [copyTask]
    simp only [Fin.zero_eta]
    rw [this]
    fun_prop
  · fin_cases r
    have e : (fun q : (Fin 1 → ℝ) × ℝ => copyTask.e q.1 q.2 0) = fun q => q.1 0 - q.2 := by
      funext q; simp [copyTask]
    have h1 : HasFDerivAt (fun q : (Fin 1 → ℝ) × ℝ => q.1 0 - q.2)
        ((ContinuousLinearMap.proj (R := ℝ) (φ := fun _ : Fin 1 => ℝ) 0).comp (ContinuousLinearMap.fst ℝ (Fin 1 → ℝ) ℝ) -
          ContinuousLinearMap.snd ℝ (Fin 1 → ℝ) ℝ) (x, θ) :=
      (HasFDerivAt.comp (g := fun x : Fin 1 → ℝ => x 0) (x, θ) (hasFDerivAt_apply 0 x) hasFDerivAt_fst).sub hasFDerivAt_snd
    simp only [Fin.zero_eta]
    rw [e, h1.fderiv]
    simp [copyTask, mulVec, dotProduct]

example (g : Fin 1 → ℝ) (t : ℝ) : Filter.Tendsto (fun ε => copyTask.dlmGrad (fun _ => 2) 2 ε g t) (𝓝[≠] 0)
    (𝓝 (g ⬝ᵥ (ContinuousLinearMap.pi (R := ℝ) (φ := fun _ : Fin 1 => ℝ) fun _ => ContinuousLinearMap.id ℝ ℝ) t)) := by
  refine dlm_tends_to_gradient_partial copyTask_smooth (J' := fun _ _ => 0) (fun r j => hasFDerivAt_const _ _)
    (Or.inr fun _ _ _ => rfl) ?_ (X := fun θ _ => θ) ⟨rfl, Filter.Eventually.of_forall fun θ => ?_, ?_⟩ g t
  · rintro ⟨w, hw, h⟩
    refine hw ?_
    have := congrFun h 0
    simp [copyTask, mulVec, dotProduct] at this
    funext j; fin_cases j; exact this
  · funext j; fin_cases j
    simp [Family.grad, copyTask, mulVec, dotProduct]
  · rw [hasFDerivAt_pi']
    intro _
    exact hasFDerivAt_id _

end Verif.Layer
