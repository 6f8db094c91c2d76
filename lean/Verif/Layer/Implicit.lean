import Verif.Layer.LinOptProps
import Verif.Nlopt.Model
import Mathlib.Analysis.Calculus.FDeriv.Add
import Mathlib.Analysis.Calculus.FDeriv.Mul
import Mathlib.Analysis.Calculus.FDeriv.Prod
import Mathlib.Analysis.Calculus.FDeriv.Comp
import Mathlib.Analysis.Calculus.Deriv.Basic
import Mathlib.Analysis.Calculus.Deriv.Mul
import Mathlib.Analysis.Calculus.Deriv.Pow
/-!
# The gradient computed in mode `IMPLICIT` (C80)

Sources: `/repo/theseus/optimizer/nonlinear/nonlinear_least_squares.py:114-178` (the last step) and
`/repo/theseus/optimizer/dense_linearization.py:58-62` (`_detach_hessian`).

In mode `IMPLICIT` the optimization runs without autograd; then one more Gauss–Newton step with step size 1
is done with autograd, and its result is returned. Autograd differentiates the result with respect to the
parameters `θ` of the cost functions; the point `x0` where the step starts carries no gradient, and the
matrix `AᵀA` is detached.

One batch element is modelled, with vector variables; `e x θ` is the stacked weighted error and `J x θ` its
Jacobian in `x`, as returned by the cost functions.
-/
namespace Verif.Layer
open Matrix Verif.Steps
open scoped Classical Topology
variable {p d n : Nat} {Θ : Type} [NormedAddCommGroup Θ] [NormedSpace ℝ Θ]

/-- An error function with its Jacobian. -/
structure Family (p d : Nat) (Θ : Type) where
  e : (Fin d → ℝ) → Θ → Fin p → ℝ
  J : (Fin d → ℝ) → Θ → Matrix (Fin p) (Fin d) ℝ

/-- The gradient of the error metric in `x`, as the optimizer computes it: minus `Atb`
(`dense_linearization.py:55, 62`). -/
def Family.grad (F : Family p d Θ) (x : Fin d → ℝ) (θ : Θ) : Fin d → ℝ := (F.J x θ)ᵀ *ᵥ F.e x θ

/-- `AtA` (`dense_linearization.py:61`). -/
def Family.hess (F : Family p d Θ) (x : Fin d → ℝ) (θ : Θ) : Matrix (Fin d) (Fin d) ℝ := (F.J x θ)ᵀ * F.J x θ

/-- The autograd-enabled step of mode `IMPLICIT` (`nonlinear_least_squares.py:117-119, 131, 162`) as a
function of the parameters: `θ0` are the values with which the forward pass is computed and at which the
detached matrix is fixed. -/
noncomputable def Family.implicitStep (F : Family p d Θ) (x0 : Fin d → ℝ) (θ0 θ : Θ) : Fin d → ℝ :=
  x0 + (F.hess x0 θ0)⁻¹ *ᵥ (-F.grad x0 θ)

/-- The same step with the matrix not detached: the only iteration with autograd in mode `TRUNCATED` with
`backward_num_iterations=1`, Gauss–Newton and step size 1 (`nonlinear_least_squares.py:117-119, 137`). -/
noncomputable def Family.truncatedStep (F : Family p d Θ) (x0 : Fin d → ℝ) (θ : Θ) : Fin d → ℝ :=
  x0 + (F.hess x0 θ)⁻¹ *ᵥ (-F.grad x0 θ)

/-! ### Specification -/

/-- `X` is a differentiable path of stationary points of the error metric through `x0`, with derivative
`X'`: what one differentiates when one speaks of the derivative of the solution. -/
structure SolutionPath (F : Family p d Θ) (x0 : Fin d → ℝ) (θ0 : Θ) (X : Θ → Fin d → ℝ)
    (X' : Θ →L[ℝ] (Fin d → ℝ)) : Prop where
  start : X θ0 = x0
  stationary : ∀ᶠ θ in 𝓝 θ0, F.grad (X θ) θ = 0
  deriv : HasFDerivAt X X' θ0

/-- Errors and Jacobians are differentiable at `(x0, θ0)`, with derivatives `e'` and `J'`, and the
Jacobians are the derivatives of the errors in `x`. -/
structure Smooth (F : Family p d Θ) (x0 : Fin d → ℝ) (θ0 : Θ)
    (e' : Fin p → ((Fin d → ℝ) × Θ) →L[ℝ] ℝ) (J' : Fin p → Fin d → ((Fin d → ℝ) × Θ) →L[ℝ] ℝ) : Prop where
  err : ∀ r, HasFDerivAt (fun q : (Fin d → ℝ) × Θ => F.e q.1 q.2 r) (e' r) (x0, θ0)
  jac : ∀ r j, HasFDerivAt (fun q : (Fin d → ℝ) × Θ => F.J q.1 q.2 r j) (J' r j) (x0, θ0)
  isJac : ∀ r h, e' r (h, 0) = (F.J x0 θ0 *ᵥ h) r

/-- The term of the second derivative of the error metric that Gauss–Newton leaves out vanishes. -/
def NoCurvature (F : Family p d Θ) (x0 : Fin d → ℝ) (θ0 : Θ) (J' : Fin p → Fin d → ((Fin d → ℝ) × Θ) →L[ℝ] ℝ) : Prop :=
  ∀ j h, ∑ r, J' r j (h, 0) * F.e x0 θ0 r = 0

/-! ### Derivatives -/

/-- The derivative of the gradient. -/
noncomputable def gradDeriv (F : Family p d Θ) (x0 : Fin d → ℝ) (θ0 : Θ) (e' : Fin p → ((Fin d → ℝ) × Θ) →L[ℝ] ℝ)
    (J' : Fin p → Fin d → ((Fin d → ℝ) × Θ) →L[ℝ] ℝ) : ((Fin d → ℝ) × Θ) →L[ℝ] (Fin d → ℝ) :=
  ContinuousLinearMap.pi fun j => ∑ r, (F.J x0 θ0 r j • e' r + F.e x0 θ0 r • J' r j)

theorem grad_hasFDerivAt {F : Family p d Θ} {x0 : Fin d → ℝ} {θ0 : Θ} {e' : Fin p → ((Fin d → ℝ) × Θ) →L[ℝ] ℝ}
    {J' : Fin p → Fin d → ((Fin d → ℝ) × Θ) →L[ℝ] ℝ} (h : Smooth F x0 θ0 e' J') :
    HasFDerivAt (fun q : (Fin d → ℝ) × Θ => F.grad q.1 q.2) (gradDeriv F x0 θ0 e' J') (x0, θ0) := by
  rw [hasFDerivAt_pi']
  intro j
  have : HasFDerivAt (fun q : (Fin d → ℝ) × Θ => ∑ r, F.J q.1 q.2 r j * F.e q.1 q.2 r)
      (∑ r, (F.J x0 θ0 r j • e' r + F.e x0 θ0 r • J' r j)) (x0, θ0) :=
    HasFDerivAt.fun_sum fun r _ => (h.jac r j).mul (h.err r)
  exact this

theorem gradDeriv_inl {F : Family p d Θ} {x0 : Fin d → ℝ} {θ0 : Θ} {e' : Fin p → ((Fin d → ℝ) × Θ) →L[ℝ] ℝ}
    {J' : Fin p → Fin d → ((Fin d → ℝ) × Θ) →L[ℝ] ℝ} (h : Smooth F x0 θ0 e' J') (hc : NoCurvature F x0 θ0 J')
    (v : Fin d → ℝ) : gradDeriv F x0 θ0 e' J' (v, 0) = F.hess x0 θ0 *ᵥ v := by
  funext j
  have h1 : gradDeriv F x0 θ0 e' J' (v, 0) j =
      ∑ r, (F.J x0 θ0 r j * e' r (v, 0) + F.e x0 θ0 r * J' r j (v, 0)) := by
    simp [gradDeriv]
  rw [h1, Finset.sum_add_distrib]
  have h2 : ∑ r, F.e x0 θ0 r * J' r j (v, 0) = 0 := by
    rw [← hc j v]
    exact Finset.sum_congr rfl fun r _ => mul_comm _ _
  rw [h2, add_zero, Family.hess, ← mulVec_mulVec]
  exact Finset.sum_congr rfl fun r _ => by rw [h.isJac]; rfl

/-- Multiplication by a constant matrix, as a continuous linear map. -/
noncomputable def mulVecL (M : Matrix (Fin d) (Fin d) ℝ) : (Fin d → ℝ) →L[ℝ] (Fin d → ℝ) :=
  LinearMap.toContinuousLinearMap (Matrix.mulVecLin M)

theorem mulVecL_apply (M : Matrix (Fin d) (Fin d) ℝ) (v : Fin d → ℝ) : mulVecL M v = M *ᵥ v := rfl

theorem partial_theta {F : Family p d Θ} {x0 : Fin d → ℝ} {θ0 : Θ} {e' : Fin p → ((Fin d → ℝ) × Θ) →L[ℝ] ℝ}
    {J' : Fin p → Fin d → ((Fin d → ℝ) × Θ) →L[ℝ] ℝ} (h : Smooth F x0 θ0 e' J') :
    HasFDerivAt (fun θ => F.grad x0 θ) ((gradDeriv F x0 θ0 e' J').comp (ContinuousLinearMap.inr ℝ (Fin d → ℝ) Θ)) θ0 := by
  have h1 : HasFDerivAt (fun θ : Θ => (x0, θ)) (ContinuousLinearMap.inr ℝ (Fin d → ℝ) Θ) θ0 :=
    hasFDerivAt_prodMk_right x0 θ0
  exact (grad_hasFDerivAt h).comp θ0 h1

/-- What autograd computes in mode `IMPLICIT`, at any point `x0`: minus the inverse of `AᵀA` times the
derivative of the gradient of the error metric in the parameters. -/
theorem implicit_step_deriv {F : Family p d Θ} {x0 : Fin d → ℝ} {θ0 : Θ} {e' : Fin p → ((Fin d → ℝ) × Θ) →L[ℝ] ℝ}
    {J' : Fin p → Fin d → ((Fin d → ℝ) × Θ) →L[ℝ] ℝ} (h : Smooth F x0 θ0 e' J') :
    HasFDerivAt (F.implicitStep x0 θ0)
      (-((mulVecL (F.hess x0 θ0)⁻¹).comp ((gradDeriv F x0 θ0 e' J').comp (ContinuousLinearMap.inr ℝ (Fin d → ℝ) Θ)))) θ0 := by
  have h1 := ((mulVecL (F.hess x0 θ0)⁻¹).hasFDerivAt (x := F.grad x0 θ0)).comp θ0 (partial_theta h)
  have h2 := (h1.neg).const_add x0
  refine h2.congr_of_eventuallyEq (Filter.Eventually.of_forall fun θ => ?_)
  simp only [Family.implicitStep, Function.comp, Pi.neg_apply, mulVecL_apply, mulVec_neg]

/-- The derivative of the solution (the implicit function theorem). -/
theorem solution_deriv {F : Family p d Θ} {x0 : Fin d → ℝ} {θ0 : Θ} {e' : Fin p → ((Fin d → ℝ) × Θ) →L[ℝ] ℝ}
    {J' : Fin p → Fin d → ((Fin d → ℝ) × Θ) →L[ℝ] ℝ} (h : Smooth F x0 θ0 e' J') (hc : NoCurvature F x0 θ0 J')
    {X : Θ → Fin d → ℝ} {X' : Θ →L[ℝ] (Fin d → ℝ)} (hX : SolutionPath F x0 θ0 X X') (t : Θ) :
    F.hess x0 θ0 *ᵥ X' t = -(gradDeriv F x0 θ0 e' J' (0, t)) := by
  have h1 : HasFDerivAt (fun θ => (X θ, θ)) (X'.prod (ContinuousLinearMap.id ℝ Θ)) θ0 :=
    hX.deriv.prodMk (hasFDerivAt_id θ0)
  have h2 : HasFDerivAt (fun q : (Fin d → ℝ) × Θ => F.grad q.1 q.2) (gradDeriv F x0 θ0 e' J') (X θ0, θ0) := by
    rw [hX.start]; exact grad_hasFDerivAt h
  have h3 := HasFDerivAt.comp (g := fun q : (Fin d → ℝ) × Θ => F.grad q.1 q.2) (f := fun θ => (X θ, θ)) θ0 h2 h1
  have h4 : HasFDerivAt (fun _ : Θ => (0 : Fin d → ℝ)) (0 : Θ →L[ℝ] (Fin d → ℝ)) θ0 := hasFDerivAt_const _ _
  have h5 := h4.congr_of_eventuallyEq (f₁ := (fun q : (Fin d → ℝ) × Θ => F.grad q.1 q.2) ∘ fun θ => (X θ, θ)) hX.stationary
  have h6 := congrArg (fun l => l t) (h3.unique h5)
  have h7 : gradDeriv F x0 θ0 e' J' (X' t, t) = 0 := h6
  have h8 : ((X' t, t) : (Fin d → ℝ) × Θ) = (X' t, 0) + (0, t) := by simp
  rw [h8, map_add, gradDeriv_inl h hc] at h7
  exact eq_neg_of_add_eq_zero_left h7

/-- Mode `IMPLICIT` returns the true derivative of the solution, if the residual-curvature term of the
Hessian vanishes at the solution (what is missing: in general it does not, see `implicit_gradient_false`).
-/
theorem implicit_gradient_partial {F : Family p d Θ} {x0 : Fin d → ℝ} {θ0 : Θ} {e' : Fin p → ((Fin d → ℝ) × Θ) →L[ℝ] ℝ}
    {J' : Fin p → Fin d → ((Fin d → ℝ) × Θ) →L[ℝ] ℝ} (h : Smooth F x0 θ0 e' J') (hc : NoCurvature F x0 θ0 J')
    (hdef : ¬ Deficient (F.J x0 θ0)) {X : Θ → Fin d → ℝ} {X' : Θ →L[ℝ] (Fin d → ℝ)} (hX : SolutionPath F x0 θ0 X X') :
    F.implicitStep x0 θ0 θ0 = x0 ∧ HasFDerivAt (F.implicitStep x0 θ0) X' θ0 := by
  have hdet : (F.hess x0 θ0).det ≠ 0 := fun h0 => hdef ((deficient_iff ⟨F.J x0 θ0, 0⟩).2 h0)
  constructor
  · have := hX.stationary.self_of_nhds
    rw [hX.start] at this
    simp [Family.implicitStep, this]
  · have h1 := implicit_step_deriv h
    have : X' = -((mulVecL (F.hess x0 θ0)⁻¹).comp ((gradDeriv F x0 θ0 e' J').comp (ContinuousLinearMap.inr ℝ (Fin d → ℝ) Θ))) := by
      ext1 t
      have h2 := solution_deriv h hc hX t
      have h3 := (solve_unique hdet _ _).2 h2
      rw [h3]
      simp [mulVecL_apply, mulVec_neg]
    rw [this]
    exact h1

/-- Zero residual at the solution. -/
theorem implicit_gradient_zero_residual {F : Family p d Θ} {x0 : Fin d → ℝ} {θ0 : Θ}
    {e' : Fin p → ((Fin d → ℝ) × Θ) →L[ℝ] ℝ} {J' : Fin p → Fin d → ((Fin d → ℝ) × Θ) →L[ℝ] ℝ}
    (h : Smooth F x0 θ0 e' J') (h0 : F.e x0 θ0 = 0)
    (hdef : ¬ Deficient (F.J x0 θ0)) {X : Θ → Fin d → ℝ} {X' : Θ →L[ℝ] (Fin d → ℝ)} (hX : SolutionPath F x0 θ0 X X') :
    HasFDerivAt (F.implicitStep x0 θ0) X' θ0 :=
  (implicit_gradient_partial h (fun j v => by simp [h0]) hdef hX).2

/-- Cost functions that are affine in the optimization variables (with any differentiable dependence on
the parameters): the solution is differentiable and mode `IMPLICIT` returns its derivative. -/
theorem implicit_gradient_affine {F : Family p d Θ} {x0 : Fin d → ℝ} {θ0 : Θ}
    {A : Θ → Matrix (Fin p) (Fin d) ℝ} {c : Θ → Fin p → ℝ} {A' : Fin p → Fin d → Θ →L[ℝ] ℝ} {c' : Fin p → Θ →L[ℝ] ℝ}
    (he : ∀ x θ, F.e x θ = A θ *ᵥ x - c θ) (hJ : ∀ x θ, F.J x θ = A θ)
    (hA : ∀ r j, HasFDerivAt (fun θ => A θ r j) (A' r j) θ0) (hc : ∀ r, HasFDerivAt (fun θ => c θ r) (c' r) θ0)
    (hdef : ¬ Deficient (A θ0)) {X : Θ → Fin d → ℝ} {X' : Θ →L[ℝ] (Fin d → ℝ)} (hX : SolutionPath F x0 θ0 X X') :
    HasFDerivAt (F.implicitStep x0 θ0) X' θ0 := by
  have hJd : ∀ r j, HasFDerivAt (fun q : (Fin d → ℝ) × Θ => A q.2 r j)
      ((A' r j).comp (ContinuousLinearMap.snd ℝ (Fin d → ℝ) Θ)) (x0, θ0) := fun r j =>
    HasFDerivAt.comp (g := fun θ => A θ r j) (x0, θ0) (hA r j) hasFDerivAt_snd
  have hcd : ∀ r, HasFDerivAt (fun q : (Fin d → ℝ) × Θ => c q.2 r)
      ((c' r).comp (ContinuousLinearMap.snd ℝ (Fin d → ℝ) Θ)) (x0, θ0) := fun r =>
    HasFDerivAt.comp (g := fun θ => c θ r) (x0, θ0) (hc r) hasFDerivAt_snd
  have hxd : ∀ j, HasFDerivAt (fun q : (Fin d → ℝ) × Θ => q.1 j)
      ((ContinuousLinearMap.proj j).comp (ContinuousLinearMap.fst ℝ (Fin d → ℝ) Θ)) (x0, θ0) := fun j =>
    HasFDerivAt.comp (g := fun x : Fin d → ℝ => x j) (x0, θ0) (hasFDerivAt_apply j x0) hasFDerivAt_fst
  have hS : Smooth F x0 θ0
      (fun r => (∑ j, (A θ0 r j • (ContinuousLinearMap.proj (R := ℝ) (φ := fun _ : Fin d => ℝ) j).comp (ContinuousLinearMap.fst ℝ (Fin d → ℝ) Θ)
        + x0 j • (A' r j).comp (ContinuousLinearMap.snd ℝ (Fin d → ℝ) Θ)))
        - (c' r).comp (ContinuousLinearMap.snd ℝ (Fin d → ℝ) Θ))
      (fun r j => (A' r j).comp (ContinuousLinearMap.snd ℝ (Fin d → ℝ) Θ)) := by
    refine ⟨fun r => ?_, fun r j => ?_, fun r v => ?_⟩
    · have h1 := (HasFDerivAt.fun_sum (u := Finset.univ) fun j _ => (hJd r j).mul (hxd j)).sub (hcd r)
      refine h1.congr_of_eventuallyEq (Filter.Eventually.of_forall fun q => ?_)
      simp [he, mulVec, dotProduct]
    · refine (hJd r j).congr_of_eventuallyEq (Filter.Eventually.of_forall fun q => ?_)
      simp [hJ]
    · simp [hJ, mulVec, dotProduct]
  refine (implicit_gradient_partial hS (fun j v => ?_) (by rw [hJ]; exact hdef) hX).2
  simp

end Verif.Layer
