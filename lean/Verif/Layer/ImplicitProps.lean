import Verif.Layer.Implicit
import Mathlib.Topology.Instances.Matrix
import Mathlib.Analysis.Calculus.Deriv.Prod
import Mathlib.Analysis.Calculus.Deriv.Add
import Mathlib.Analysis.Normed.Field.Basic
import Mathlib.Analysis.Normed.Ring.Units
/-!
# More about the gradient of mode `IMPLICIT` (C80): affine problems, mode `TRUNCATED`, counterexample
-/
namespace Verif.Layer
set_option linter.unusedSectionVars false
open Matrix Verif.Steps
open scoped Classical Topology
variable {p d n : Nat} {Θ : Type} [NormedAddCommGroup Θ] [NormedSpace ℝ Θ]

/-- A product whose second factor vanishes at the point: the first one need only be continuous. -/
theorem hasFDerivAt_mul_zero {f g : Θ → ℝ} {g' : Θ →L[ℝ] ℝ} {a : Θ} (hf : ContinuousAt f a)
    (hg : HasFDerivAt g g' a) (h0 : g a = 0) : HasFDerivAt (fun θ => f θ * g θ) (f a • g') a := by
  rw [hasFDerivAt_iff_isLittleO] at hg ⊢
  have e : (fun θ => f θ * g θ - f a * g a - (f a • g') (θ - a)) =
      fun θ => f θ * (g θ - g a - g' (θ - a)) + (f θ - f a) * g' (θ - a) := by
    funext θ
    simp only [h0, _root_.smul_apply, smul_eq_mul]
    ring
  rw [e]
  refine Asymptotics.IsLittleO.add ?_ ?_
  · have h1 : f =O[𝓝 a] (fun _ => (1 : ℝ)) := hf.norm.isBoundedUnder_le.isBigO_one ℝ
    have := h1.mul_isLittleO hg.norm_right
    simpa using this.norm_right
  · have h1 : (fun θ => f θ - f a) =o[𝓝 a] (fun _ => (1 : ℝ)) := by
      rw [Asymptotics.isLittleO_one_iff]
      have : Filter.Tendsto (fun θ => f θ - f a) (𝓝 a) (𝓝 (f a - f a)) := hf.sub (continuousAt_const (y := f a))
      rwa [sub_self] at this
    have h2 : (fun θ => g' (θ - a)) =O[𝓝 a] fun θ => θ - a := g'.isBigO_sub (𝓝 a) a
    have := h1.mul_isBigO h2.norm_right
    simpa using this.norm_right

theorem inv_entry_continuousAt {M : Θ → Matrix (Fin d) (Fin d) ℝ} {θ0 : Θ} (hM : ContinuousAt M θ0)
    (hdet : (M θ0).det ≠ 0) (i j : Fin d) : ContinuousAt (fun θ => (M θ)⁻¹ i j) θ0 := by
  have h1 : ContinuousAt Ring.inverse (M θ0).det := by
    have : (Ring.inverse : ℝ → ℝ) = Inv.inv := Ring.inverse_eq_inv'
    rw [this]
    exact continuousAt_inv₀ hdet
  have h2 : ContinuousAt (fun θ => (M θ)⁻¹) θ0 := (continuousAt_matrix_inv _ h1).comp hM
  exact (continuous_apply_apply i j).continuousAt.comp h2

theorem hess_continuousAt {F : Family p d Θ} {x0 : Fin d → ℝ} {θ0 : Θ} {e' : Fin p → ((Fin d → ℝ) × Θ) →L[ℝ] ℝ}
    {J' : Fin p → Fin d → ((Fin d → ℝ) × Θ) →L[ℝ] ℝ} (h : Smooth F x0 θ0 e' J') :
    ContinuousAt (fun θ => F.hess x0 θ) θ0 := by
  have hJ : ∀ r j, ContinuousAt (fun θ => F.J x0 θ r j) θ0 := by
    intro r j
    have h1 := (h.jac r j).continuousAt
    have h2 : ContinuousAt (fun θ : Θ => (x0, θ)) θ0 := by fun_prop
    exact ContinuousAt.comp (g := fun q : (Fin d → ℝ) × Θ => F.J q.1 q.2 r j) h1 h2
  refine continuousAt_pi.2 fun i => continuousAt_pi.2 fun j => ?_
  have : (fun θ => F.hess x0 θ i j) = fun θ => ∑ r, F.J x0 θ r i * F.J x0 θ r j := by
    funext θ; simp [Family.hess, mul_apply]
  rw [this]
  exact tendsto_finsetSum _ fun r _ => (hJ r i).mul (hJ r j)

/-- At a stationary point, differentiating through the matrix as well changes nothing: mode `TRUNCATED`
with one Gauss–Newton iteration gives the gradient of mode `IMPLICIT`. -/
theorem truncated_one_eq_implicit {F : Family p d Θ} {x0 : Fin d → ℝ} {θ0 : Θ} {e' : Fin p → ((Fin d → ℝ) × Θ) →L[ℝ] ℝ}
    {J' : Fin p → Fin d → ((Fin d → ℝ) × Θ) →L[ℝ] ℝ} (h : Smooth F x0 θ0 e' J') (hdef : ¬ Deficient (F.J x0 θ0))
    (h0 : F.grad x0 θ0 = 0) (D : Θ →L[ℝ] (Fin d → ℝ)) :
    HasFDerivAt (F.truncatedStep x0) D θ0 ↔ HasFDerivAt (F.implicitStep x0 θ0) D θ0 := by
  have hdet : (F.hess x0 θ0).det ≠ 0 := fun h0 => hdef ((deficient_iff ⟨F.J x0 θ0, 0⟩).2 h0)
  have hI := implicit_step_deriv h
  have hT : HasFDerivAt (F.truncatedStep x0)
      (-((mulVecL (F.hess x0 θ0)⁻¹).comp ((gradDeriv F x0 θ0 e' J').comp (ContinuousLinearMap.inr ℝ (Fin d → ℝ) Θ)))) θ0 := by
    rw [hasFDerivAt_pi']
    intro i
    have hg := partial_theta h
    rw [hasFDerivAt_pi'] at hg
    have h1 := HasFDerivAt.fun_sum (u := Finset.univ) fun j _ =>
      hasFDerivAt_mul_zero (inv_entry_continuousAt (hess_continuousAt h) hdet i j) (hg j) (by simp [h0])
    have h2 := h1.neg.const_add (x0 i)
    refine (h2.congr_of_eventuallyEq (Filter.Eventually.of_forall fun θ => ?_)).congr_fderiv ?_
    · simp [Family.truncatedStep, mulVec, dotProduct]
    · ext1 t
      simp [mulVecL_apply, mulVec, dotProduct]
  constructor
  · intro hD
    rw [hD.unique hT]; exact hI
  · intro hD
    rw [hD.unique hI]; exact hT

/-- Affine cost functions: near the parameters the problem has a unique solution, which is differentiable,
and mode `IMPLICIT` returns its derivative. -/
theorem implicit_gradient_affine_exact {F : Family p d Θ} {x0 : Fin d → ℝ} {θ0 : Θ}
    {A : Θ → Matrix (Fin p) (Fin d) ℝ} {c : Θ → Fin p → ℝ} {A' : Fin p → Fin d → Θ →L[ℝ] ℝ} {c' : Fin p → Θ →L[ℝ] ℝ}
    (he : ∀ x θ, F.e x θ = A θ *ᵥ x - c θ) (hJ : ∀ x θ, F.J x θ = A θ)
    (hA : ∀ r j, HasFDerivAt (fun θ => A θ r j) (A' r j) θ0) (hc : ∀ r, HasFDerivAt (fun θ => c θ r) (c' r) θ0)
    (hdef : ¬ Deficient (A θ0)) (h0 : StrictMin (fun x => ∑ r, F.e x θ0 r ^ 2) x0) :
    ∃ X : Θ → Fin d → ℝ, ∃ X' : Θ →L[ℝ] (Fin d → ℝ), (∀ᶠ θ in 𝓝 θ0, StrictMin (fun x => ∑ r, F.e x θ r ^ 2) (X θ)) ∧ X θ0 = x0 ∧
      HasFDerivAt X X' θ0 ∧ HasFDerivAt (F.implicitStep x0 θ0) X' θ0 := by
  have hJd : ∀ r j, HasFDerivAt (fun q : (Fin d → ℝ) × Θ => A q.2 r j)
      ((A' r j).comp (ContinuousLinearMap.snd ℝ (Fin d → ℝ) Θ)) (x0, θ0) := fun r j =>
    HasFDerivAt.comp (g := fun θ => A θ r j) (x0, θ0) (hA r j) hasFDerivAt_snd
  have hcd : ∀ r, HasFDerivAt (fun q : (Fin d → ℝ) × Θ => c q.2 r)
      ((c' r).comp (ContinuousLinearMap.snd ℝ (Fin d → ℝ) Θ)) (x0, θ0) := fun r =>
    HasFDerivAt.comp (g := fun θ => c θ r) (x0, θ0) (hc r) hasFDerivAt_snd
  have hxd : ∀ j, HasFDerivAt (fun q : (Fin d → ℝ) × Θ => q.1 j)
      ((ContinuousLinearMap.proj j).comp (ContinuousLinearMap.fst ℝ (Fin d → ℝ) Θ)) (x0, θ0) := fun j =>
    HasFDerivAt.comp (g := fun x : Fin d → ℝ => x j) (x0, θ0) (hasFDerivAt_apply j x0) hasFDerivAt_fst
  have hS : Smooth F x0 θ0
      (fun r => (∑ j, (A θ0 r j • (ContinuousLinearMap.proj (R := ℝ) (φ := fun _ : Fin d => ℝ) j).comp (ContinuousLinearMap.fst ℝ (Fin d → ℝ) Θ)
        + x0 j • (A' r j).comp (ContinuousLinearMap.snd ℝ (Fin d → ℝ) Θ)))
        - (c' r).comp (ContinuousLinearMap.snd ℝ (Fin d → ℝ) Θ))
      (fun r j => (A' r j).comp (ContinuousLinearMap.snd ℝ (Fin d → ℝ) Θ)) := by
    refine ⟨fun r => ?_, fun r j => ?_, fun r v => ?_⟩
    · have h1 := (HasFDerivAt.fun_sum (u := Finset.univ) fun j _ => (hJd r j).mul (hxd j)).sub (hcd r)
      refine h1.congr_of_eventuallyEq (Filter.Eventually.of_forall fun q => ?_)
      simp [he, mulVec, dotProduct]
    · refine (hJd r j).congr_of_eventuallyEq (Filter.Eventually.of_forall fun q => ?_)
      simp [hJ]
    · simp [hJ, mulVec, dotProduct]
  -- a Gauss–Newton step from `x0` leads to the solution
  have hmin : ∀ θ, ¬ Deficient (A θ) → StrictMin (fun x => ∑ r, F.e x θ r ^ 2) (F.truncatedStep x0 θ) := by
    intro θ hd
    set L : Lin ℝ p d := ⟨A θ, -F.e x0 θ⟩ with hL
    have hdet : L.AtA.det ≠ 0 := fun h => hd ((deficient_iff L).2 h)
    have hstep : F.truncatedStep x0 θ = x0 + L.AtA⁻¹ *ᵥ L.Atb := by
      simp only [Family.truncatedStep, Family.hess, Family.grad, hJ, hL, Lin.AtA, Lin.Atb, mulVec_neg]
    have hm := strictMin_of_normal L hd ((solve_unique hdet L.Atb _).1 rfl)
    intro z hz
    have e1 : ∀ w, ∑ r, F.e (x0 + w) θ r ^ 2 = resid L w := by
      intro w
      unfold resid
      refine Finset.sum_congr rfl fun r _ => ?_
      simp only [hL, he, mulVec_add, Pi.add_apply, Pi.sub_apply, Pi.neg_apply]
      ring
    have hz' : z = x0 + (z - x0) := by abel
    rw [hz'] at hz ⊢
    rw [hstep] at hz ⊢
    simp only [e1]
    exact hm _ fun hc => hz (by rw [← hc])
  have hS0 : F.grad x0 θ0 = 0 := by
    have h1 := hmin θ0 hdef
    have h2 := strictMin_unique h1 h0
    have hdet : (F.hess x0 θ0).det ≠ 0 := by
      intro h; exact hdef ((deficient_iff ⟨A θ0, 0⟩).2 (by rw [← hJ x0 θ0]; exact h))
    have h3 : (F.hess x0 θ0)⁻¹ *ᵥ (-F.grad x0 θ0) = 0 := by
      have : x0 + (F.hess x0 θ0)⁻¹ *ᵥ (-F.grad x0 θ0) = x0 := h2
      simpa using this
    have h4 := (solve_unique hdet (-F.grad x0 θ0) 0).1 h3.symm
    rw [mulVec_zero] at h4
    exact neg_eq_zero.1 h4.symm
  have hI := implicit_step_deriv hS
  refine ⟨F.truncatedStep x0, _, ?_, strictMin_unique (hmin θ0 hdef) h0,
    (truncated_one_eq_implicit hS (by rw [hJ]; exact hdef) hS0 _).2 hI, hI⟩
  have hcont := hess_continuousAt hS
  have hdetc : ContinuousAt (fun θ => (F.hess x0 θ).det) θ0 :=
    (continuous_id.matrix_det.continuousAt).comp hcont
  have hdet : (F.hess x0 θ0).det ≠ 0 := by
    intro h; exact hdef ((deficient_iff ⟨A θ0, 0⟩).2 (by rw [← hJ x0 θ0]; exact h))
  filter_upwards [hdetc.eventually_ne hdet] with θ hθ
  refine hmin θ fun hd => hθ ?_
  have := (deficient_iff ⟨A θ, 0⟩).1 hd
  rw [← hJ x0 θ] at this
  exact this

/-! ### Counterexample -/

/-- One variable, two cost functions `x² - θ² - 1/2` and `x`: the error metric is minimal at `x = θ`. -/
noncomputable def curved : Family 2 1 ℝ where
  e := fun x θ => ![x 0 ^ 2 - θ ^ 2 - 1 / 2, x 0]
  J := fun x _ => !![2 * x 0; 1]

/-- Without that condition the gradient of mode `IMPLICIT` is not the derivative of the solution: for
`curved` the solution is `X θ = θ` (a global minimizer for every `θ`), with derivative 1, but autograd
returns `4/5`. -/
theorem implicit_gradient_false :
    (∀ θ x, ∑ r, curved.e (fun _ => θ) θ r ^ 2 ≤ ∑ r, curved.e x θ r ^ 2) ∧
    (∀ θ, curved.grad (fun _ => θ) θ = 0) ∧ ¬ Deficient (curved.J (fun _ => 1) 1) ∧
    HasDerivAt (fun θ : ℝ => (fun _ : Fin 1 => θ)) (fun _ => 1) 1 ∧
    HasDerivAt (fun θ => curved.implicitStep (fun _ => 1) 1 θ) (fun _ => 4 / 5) 1 := by
  refine ⟨fun θ x => ?_, fun θ => ?_, ?_, ?_, ?_⟩
  · simp only [curved, Fin.sum_univ_two, cons_val_zero, cons_val_one]
    nlinarith [sq_nonneg (x 0 ^ 2 - θ ^ 2)]
  · funext j
    fin_cases j
    simp [Family.grad, curved, mulVec, dotProduct, Fin.sum_univ_two]
    ring
  · rintro ⟨w, hw, h⟩
    refine hw ?_
    have := congrFun h 1
    simp [curved, mulVec, dotProduct] at this
    funext j; fin_cases j; exact this
  · rw [hasDerivAt_pi]
    intro _; exact hasDerivAt_id 1
  · have hh : curved.hess (fun _ => 1) 1 = !![5] := by
      ext i j; fin_cases i; fin_cases j
      simp [Family.hess, curved, mul_apply, Fin.sum_univ_two]; norm_num
    have hinv : (!![5] : Matrix (Fin 1) (Fin 1) ℝ)⁻¹ = !![1 / 5] := by
      refine Matrix.inv_eq_right_inv ?_
      ext i j; fin_cases i; fin_cases j; simp [mul_apply]
    have hs : ∀ θ, curved.implicitStep (fun _ => 1) 1 θ = fun _ => 1 - (1 / 5) * (2 * (1 / 2 - θ ^ 2) + 1) := by
      intro θ
      funext j; fin_cases j
      have hg : curved.grad (fun _ => 1) θ = fun _ => 2 * (1 / 2 - θ ^ 2) + 1 := by
        funext j; fin_cases j
        simp [Family.grad, curved, mulVec, dotProduct, Fin.sum_univ_two]
        ring
      unfold Family.implicitStep
      rw [hh, hinv, hg]
      simp [dotProduct]
      ring
    simp only [hs]
    rw [hasDerivAt_pi]
    intro _
    have h1 := (((((hasDerivAt_pow 2 (1 : ℝ)).const_sub (1 / 2)).const_mul 2).add_const (1 : ℝ)).const_mul
      (1 / 5)).const_sub 1
    refine h1.congr_deriv ?_
    norm_num

/-! ### The loop -/

section
open Verif.Nlopt
variable {K X D M : Type} [Field K] [LinearOrder K]

theorem loop_done (P : Params K) (A : Method K n X D M) (o : Opts) (num f : Nat) (s : LS K n X M)
    (h : num ≤ s.it) : loop P A o num f s = .finished (markMax s) := by
  unfold loop; rw [if_pos h]

/-- The autograd-enabled run of mode `IMPLICIT` is exactly one step: every element, converged or not, is
retracted by the undamped Gauss–Newton step with step size 1 (whatever the optimizer and its
`step_size`). -/
theorem implicit_last_step (P : Params K) (A : Method K n X D M) (grad : Bool) (x : B n X) (mem : M)
    (info : Info K n X) (δ : B n D) (h : A.gn x = some δ) :
    ∃ t, optimizeLoop P A { implicit := true, grad := grad } 1 x mem info = .finished t ∧
      ∀ i, t.x i = A.retract (x i) (A.scale 1 (δ i)) := by
  have hp : pass P A { implicit := true, grad := grad } (startLS x mem info) =
      finish P (startLS x mem info) (fun i => A.retract (x i) (A.scale 1 (δ i))) mem
        (fun i => A.metric (A.retract (x i) (A.scale 1 (δ i)))) := by
    have hr : retracted A true x (fun i => A.scale 1 (δ i)) (fun _ => false) =
        fun i => A.retract (x i) (A.scale 1 (δ i)) := by funext i; simp [retracted]
    simp [pass, computeDelta, startLS, h, step, hr, stepOf]
  unfold optimizeLoop loop
  rw [if_neg (by simp [startLS])]
  simp only [Int.toNat_one, hp]
  unfold finish
  simp only
  split
  · next hc => 
    split at hc
    · cases hc
    · injection hc with hc
      subst hc
      exact ⟨_, loop_done P A _ 1 _ _ (by simp [startLS]), fun i => by simp [markMax]⟩
  · next hc =>
    split at hc
    · injection hc with hc
      subst hc
      exact ⟨_, rfl, fun i => by simp [markMax]⟩
    · cases hc
  · next hc => split at hc <;> cases hc
  · next hc => split at hc <;> cases hc
end

/-- Non-vacuity of the hypotheses: fitting `x` to the parameter `θ` and `2x` to 1. -/
def fit : Family 2 1 ℝ where
  e := fun x θ => !![1; 2] *ᵥ x - ![θ, 1]
  J := fun _ _ => !![1; 2]

example : ∃ X : ℝ → Fin 1 → ℝ, ∃ X' : ℝ →L[ℝ] (Fin 1 → ℝ),
    (∀ᶠ θ in 𝓝 (3 : ℝ), StrictMin (fun x => ∑ r, fit.e x θ r ^ 2) (X θ)) ∧ X 3 = (fun _ => 1) ∧
    HasFDerivAt X X' 3 ∧ HasFDerivAt (fit.implicitStep (fun _ => 1) 3) X' 3 := by
  refine implicit_gradient_affine_exact (A := fun _ => !![1; 2]) (c := fun θ => ![θ, 1])
    (A' := fun _ _ => 0) (c' := ![ContinuousLinearMap.id ℝ ℝ, 0]) (fun _ _ => rfl) (fun _ _ => rfl)
    (fun _ _ => hasFDerivAt_const _ _) (fun r => ?_) ?_ ?_
  · fin_cases r
    · exact hasFDerivAt_id _
    · exact hasFDerivAt_const _ _
  · rintro ⟨w, hw, h⟩
    refine hw ?_
    have := congrFun h 0
    simp [mulVec, dotProduct] at this
    funext j; fin_cases j; exact this
  · intro z hz
    have hz0 : z 0 - 1 ≠ 0 := fun h => hz (by funext j; fin_cases j; exact sub_eq_zero.1 h)
    simp [fit, Fin.sum_univ_two, dotProduct]
    have : 0 < (z 0 - 1) ^ 2 := by positivity
    nlinarith

end Verif.Layer
