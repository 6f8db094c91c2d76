import Verif.Layer.Group
import Verif.Autodiff.Props
import Verif.Util.NumericProps
import Mathlib.Topology.Instances.Matrix
import Mathlib.Analysis.Normed.Field.Basic
import Mathlib.Analysis.Normed.Ring.Units
import Mathlib.Analysis.Calculus.Deriv.Slope
import Mathlib.LinearAlgebra.Matrix.DotProduct
/-!
# Gradients of modes `IMPLICIT` and `DLM` for variables in Lie groups: properties (C80, C81)
-/
namespace Verif.Layer
open Matrix Verif.Geometry Verif.Autodiff Filter
open scoped Topology

variable {p a : ℕ} {n m : Fin a → ℕ} {G : Fin a → Type} {Θ : Type}

/-! ### Specification -/

/-- The variables move along the curve `x` with the tangent vectors in `ξ`, from `x0`. -/
def Moves (E : ∀ i, Embedding (n i) (m i) (G i)) (x0 : ∀ i, G i) (x : ℝ → ∀ i, G i) (ξ : Cols n → ℝ) : Prop :=
  x 0 = x0 ∧ ∀ i, (E i).Tangent (fun t => x t i) (part ξ i)

/-- `exp` leaves the identity with the velocity of its argument, along every curve. -/
def ExpAtZero {k l : ℕ} {H : Type} (E : Embedding k l H) (L : Ops k H) : Prop :=
  ∀ (v : ℝ → Fin k → ℝ) (v' : Fin k → ℝ), v 0 = 0 → VecDeriv v v' → E.Tangent (fun t => L.exp (v t)) v'

/-- While the parameters move along `c` and the variables along any curve from `x0`, the errors have the derivative that
is given by the Jacobian of the cost functions and `e'`, their derivative with respect to the parameters. -/
def ErrSmooth (E : ∀ i, Embedding (n i) (m i) (G i)) (F : GroupFamily p n G Θ) (x0 : ∀ i, G i) (c : ℝ → Θ)
    (e' : Fin p → ℝ) : Prop :=
  ∀ x ξ, Moves E x0 x ξ → VecDeriv (fun t => F.e (x t) (c t)) (F.J x0 (c 0) *ᵥ ξ + e')

/-- The Jacobians are continuous along curves. -/
def JacCont (E : ∀ i, Embedding (n i) (m i) (G i)) (F : GroupFamily p n G Θ) (x0 : ∀ i, G i) (c : ℝ → Θ) : Prop :=
  ∀ x ξ, Moves E x0 x ξ → ∀ r k, ContinuousAt (fun t => F.J (x t) (c t) r k) 0

/-- The Jacobians are differentiable along curves, with the derivative `Jx ξ + Jt`: the first part from the motion of the
variables, the second from that of the parameters. -/
def JacSmooth (E : ∀ i, Embedding (n i) (m i) (G i)) (F : GroupFamily p n G Θ) (x0 : ∀ i, G i) (c : ℝ → Θ)
    (Jx : (Cols n → ℝ) → Matrix (Fin p) (Cols n) ℝ) (Jt : Matrix (Fin p) (Cols n) ℝ) : Prop :=
  ∀ x ξ, Moves E x0 x ξ → ∀ r k, HasDerivAt (fun t => F.J (x t) (c t) r k) (Jx ξ r k + Jt r k) 0

/-- `X` is a curve of stationary points for the parameters `c`, with velocity `ξ`. -/
def SolutionCurve (E : ∀ i, Embedding (n i) (m i) (G i)) (F : GroupFamily p n G Θ) (x0 : ∀ i, G i) (c : ℝ → Θ)
    (X : ℝ → ∀ i, G i) (ξ : Cols n → ℝ) : Prop :=
  Moves E x0 X ξ ∧ ∀ᶠ t in 𝓝 0, F.grad (X t) (c t) = 0

/-- The columns of the Jacobian are independent. -/
def FullRank (J : Matrix (Fin p) (Cols n) ℝ) : Prop := ∀ w, J *ᵥ w = 0 → w = 0

/-! ### Lemmas -/

theorem det_of_fullRank {J : Matrix (Fin p) (Cols n) ℝ} (h : FullRank J) : (Jᵀ * J).det ≠ 0 := by
  intro h0
  obtain ⟨w, hw, h1⟩ := Matrix.exists_mulVec_eq_zero_iff.2 h0
  refine hw (h w ?_)
  have h2 : (J *ᵥ w) ⬝ᵥ (J *ᵥ w) = 0 := by
    rw [Matrix.dotProduct_mulVec, ← Matrix.mulVec_transpose, Matrix.mulVec_mulVec, h1, zero_dotProduct]
  exact dotProduct_self_eq_zero.1 h2

/-- A product whose second factor vanishes: the first one need only be continuous. -/
theorem hasDerivAt_mul_zero {f g : ℝ → ℝ} {g' : ℝ} (hf : ContinuousAt f 0) (hg : HasDerivAt g g' 0) (h0 : g 0 = 0) :
    HasDerivAt (fun t => f t * g t) (f 0 * g') 0 := by
  rw [hasDerivAt_iff_tendsto_slope_zero] at hg ⊢
  have hf' : Tendsto f (𝓝[≠] 0) (𝓝 (f 0)) := hf.tendsto.mono_left nhdsWithin_le_nhds
  refine (hf'.mul hg).congr fun t => ?_
  simp only [zero_add, h0, sub_zero, mul_zero, smul_eq_mul]
  ring

theorem tangent_retract_curve {k l : ℕ} {H : Type} {E : Embedding k l H} {L : Ops k H} (hL : E.Lawful L)
    (hx : ExpAtZero E L) {g : H} (hg : E.valid g) {v : ℝ → Fin k → ℝ} {v' : Fin k → ℝ} (h0 : v 0 = 0)
    (hv : VecDeriv v v') : E.Tangent (fun t => L.retract g (v t)) v' ∧ L.retract g (v 0) = g := by
  have h1 := hx v v' h0 hv
  have hz : L.retract g (v 0) = g := by
    rw [h0]
    exact hL.compose_one g
  refine ⟨⟨fun t => hL.compose_valid _ _ hg (hL.exp_valid _), ?_⟩, hz⟩
  simp only [Ops.retract, hL.toMatrix_compose]
  refine (MatDeriv.const_mul (E.toMatrix g) h1.2).congr ?_
  dsimp only
  rw [h0, hL.exp_zero, Matrix.one_mul, Matrix.mul_one]

/-- All group classes of theseus are covered. -/
theorem groups_exp {eps : ℝ} (he : 0 < eps) (deps epi : ℝ) (k : ℕ) :
    ExpAtZero (Vec.emb k) (Vec.ops k) ∧ ExpAtZero SO2.emb SO2.ops ∧ ExpAtZero SE2.emb (SE2.ops eps deps) ∧
    ExpAtZero SO3.emb (SO3.ops eps deps epi) ∧ ExpAtZero SE3.emb (SE3.ops eps deps epi) := by
  refine ⟨fun v v' h0 hv => ?_, fun v v' h0 hv => ?_, fun v v' h0 hv => ?_, fun v v' h0 hv => ?_, fun v v' h0 hv => ?_⟩
  · refine ⟨fun t => trivial, fun i j => ?_⟩
    have hz : Vec.hat (0 : Fin k → ℝ) = 0 := by simpa using Vec.hat_smul 0 (0 : Fin k → ℝ)
    simp only [Vec.emb, Vec.ops, h0, hz, add_zero, Matrix.one_mul]
    simp only [Matrix.add_apply]
    refine HasDerivAt.const_add _ ?_
    simp only [Vec.hat, Matrix.of_apply]
    split
    · induction i using Fin.lastCases with
      | last => simpa using hasDerivAt_const (0 : ℝ) (0 : ℝ)
      | cast i => simpa using hv i
    · exact hasDerivAt_const _ _
  · refine ⟨fun t => SO2.lawful.exp_valid _, ?_⟩
    have z : v 0 0 = 0 := by rw [h0]; rfl
    have hc : HasDerivAt (fun t : ℝ => Real.cos (v t 0)) 0 0 := (hv 0).cos.congr_deriv (by simp [z])
    have hs : HasDerivAt (fun t : ℝ => Real.sin (v t 0)) (v' 0) 0 := (hv 0).sin.congr_deriv (by simp [z])
    intro i j
    fin_cases i <;> fin_cases j
    · exact hc.congr_deriv (by simp [SO2.emb, SO2.toMatrix, SO2.ops, SO2.hat, SO2.exp, z])
    · exact hs.fun_neg.congr_deriv (by simp [SO2.emb, SO2.toMatrix, SO2.ops, SO2.hat, SO2.exp, z])
    · exact hs.congr_deriv (by simp [SO2.emb, SO2.toMatrix, SO2.ops, SO2.hat, SO2.exp, z])
    · exact hc.congr_deriv (by simp [SO2.emb, SO2.toMatrix, SO2.ops, SO2.hat, SO2.exp, z])
  · refine ⟨fun t => (SE2.lawful he).exp_valid _, ?_⟩
    have z : ∀ i, v 0 i = 0 := fun i => by rw [h0]; rfl
    have hc : HasDerivAt (fun t : ℝ => Real.cos (v t 2)) 0 0 := (hv 2).cos.congr_deriv (by simp [z])
    have hs : HasDerivAt (fun t : ℝ => Real.sin (v t 2)) (v' 2) 0 := (hv 2).sin.congr_deriv (by simp [z])
    have ca : ContinuousAt (fun t => SE2.expA eps (v t 2)) 0 := by
      have h1 : ContinuousAt (SE2.expA eps) (v 0 2) := by
        rw [z]; simpa using (SE2.expA_deriv he 1).continuousAt
      exact ContinuousAt.comp (g := SE2.expA eps) (f := fun t => v t 2) h1 (hv 2).continuousAt
    have cb : ContinuousAt (fun t => SE2.expB eps (v t 2)) 0 := by
      have h1 : ContinuousAt (SE2.expB eps) (v 0 2) := by
        rw [z]; simpa using (SE2.expB_deriv he 1).continuousAt
      exact ContinuousAt.comp (g := SE2.expB eps) (f := fun t => v t 2) h1 (hv 2).continuousAt
    have hx : HasDerivAt (fun t : ℝ => SE2.expA eps (v t 2) * v t 0 + SE2.expB eps (v t 2) * v t 1) (v' 0) 0 :=
      ((hasDerivAt_mul_zero ca (hv 0) (z 0)).add (hasDerivAt_mul_zero cb (hv 1) (z 1))).congr_deriv
        (by simp [z, SE2.expA_zero he, SE2.expB_zero he])
    have hy : HasDerivAt (fun t : ℝ => SE2.expA eps (v t 2) * v t 1 - SE2.expB eps (v t 2) * v t 0) (v' 1) 0 :=
      ((hasDerivAt_mul_zero ca (hv 1) (z 1)).sub (hasDerivAt_mul_zero cb (hv 0) (z 0))).congr_deriv
        (by simp [z, SE2.expA_zero he, SE2.expB_zero he])
    have hone : SE2.emb.toMatrix ((SE2.ops eps deps).exp (v 0)) = 1 := by rw [h0]; exact (SE2.lawful he).exp_zero
    simp only [hone, Matrix.one_mul]
    intro i j
    fin_cases i <;> fin_cases j
    · simpa [SE2.emb, SE2.toMatrix, SE2.ops, SE2.hat, SE2.exp, SE2.mk', SO2.exp] using hc
    · simpa [SE2.emb, SE2.toMatrix, SE2.ops, SE2.hat, SE2.exp, SE2.mk', SO2.exp] using hs.fun_neg
    · simpa [SE2.emb, SE2.toMatrix, SE2.ops, SE2.hat, SE2.exp, SE2.mk', SO2.exp] using hx
    · simpa [SE2.emb, SE2.toMatrix, SE2.ops, SE2.hat, SE2.exp, SE2.mk', SO2.exp] using hs
    · simpa [SE2.emb, SE2.toMatrix, SE2.ops, SE2.hat, SE2.exp, SE2.mk', SO2.exp] using hc
    · simpa [SE2.emb, SE2.toMatrix, SE2.ops, SE2.hat, SE2.exp, SE2.mk', SO2.exp] using hy
    · simpa [SE2.emb, SE2.toMatrix, SE2.ops, SE2.hat, SE2.exp, SE2.mk', SO2.exp] using hasDerivAt_const (0 : ℝ) (0 : ℝ)
    · simpa [SE2.emb, SE2.toMatrix, SE2.ops, SE2.hat, SE2.exp, SE2.mk', SO2.exp] using hasDerivAt_const (0 : ℝ) (0 : ℝ)
    · simpa [SE2.emb, SE2.toMatrix, SE2.ops, SE2.hat, SE2.exp, SE2.mk', SO2.exp] using hasDerivAt_const (0 : ℝ) (1 : ℝ)
  · have hz : norm3 (v 0) ≠ eps := by rw [h0, SO3.norm3_eq_zero.mpr rfl]; exact he.ne
    refine ⟨fun t => SO3.exp_valid he _, ?_⟩
    have := SO3.exp_curve he hv hz
    have e : SO3.jexp eps (v 0) *ᵥ v' = v' := by rw [h0, SO3.jexp_zero he, Matrix.one_mulVec]
    rw [e] at this
    exact this
  · have h1 : SE3.ang (0 : Fin 6 → ℝ) = 0 := by ext i; fin_cases i <;> simp [SE3.ang]
    have := SE3.exp_curve he hv (Or.inr (by rw [h0, h1]))
    rwa [h0, SE3.jexp_zero_mulVec he] at this

/-- Standing still. -/
theorem moves_const (E : ∀ i, Embedding (n i) (m i) (G i)) (L : ∀ i, Ops (n i) (G i)) (hL : ∀ i, (E i).Lawful (L i))
    (x0 : ∀ i, G i) (hv : ∀ i, (E i).valid (x0 i)) : Moves E x0 (fun _ => x0) 0 := by
  refine ⟨rfl, fun i => ⟨fun _ => hv i, ?_⟩⟩
  have : (E i).hat (part 0 i) = 0 := by
    have := (hL i).hat_smul 0 (part 0 i)
    rwa [zero_smul, zero_smul] at this
  simp only [this, Matrix.mul_zero]
  exact MatDeriv.const _

/-- Retracting by a curve of steps that starts at zero. -/
theorem moves_retract {E : ∀ i, Embedding (n i) (m i) (G i)} {L : ∀ i, Ops (n i) (G i)} (hL : ∀ i, (E i).Lawful (L i))
    (hx : ∀ i, ExpAtZero (E i) (L i)) {x0 : ∀ i, G i} (hv : ∀ i, (E i).valid (x0 i)) {v : ℝ → Cols n → ℝ} {v' : Cols n → ℝ}
    (h0 : v 0 = 0) (hd : ∀ k, HasDerivAt (fun t => v t k) (v' k) 0) :
    Moves E x0 (fun t => retractAll L x0 (v t)) v' := by
  have key : ∀ i, (E i).Tangent (fun t => (L i).retract (x0 i) (part (v t) i)) (part v' i) ∧
      (L i).retract (x0 i) (part (v 0) i) = x0 i := fun i =>
    tangent_retract_curve (hL i) (hx i) (hv i) (v := fun t => part (v t) i) (by rw [h0]; rfl) fun k => hd ⟨i, k⟩
  exact ⟨funext fun i => (key i).2, fun i => (key i).1⟩

/-- The derivative of `grad` along curves if the Jacobians are differentiable. -/
theorem grad_deriv {E : ∀ i, Embedding (n i) (m i) (G i)} {F : GroupFamily p n G Θ} {x0 : ∀ i, G i} {c : ℝ → Θ}
    {e' : Fin p → ℝ} (he : ErrSmooth E F x0 c e') {Jx : (Cols n → ℝ) → Matrix (Fin p) (Cols n) ℝ}
    {Jt : Matrix (Fin p) (Cols n) ℝ} (hJ : JacSmooth E F x0 c Jx Jt) {x : ℝ → ∀ i, G i} {ξ : Cols n → ℝ}
    (hm : Moves E x0 x ξ) (k : Cols n) :
    HasDerivAt (fun t => F.grad (x t) (c t) k) ((F.hess x0 (c 0) *ᵥ ξ) k + (∑ r, Jx ξ r k * F.e x0 (c 0) r) +
      ((F.J x0 (c 0))ᵀ *ᵥ e' + Jtᵀ *ᵥ F.e x0 (c 0)) k) 0 := by
  have h1 := HasDerivAt.fun_sum (u := Finset.univ) fun r _ => (hJ x ξ hm r k).mul (he x ξ hm r)
  refine h1.congr_deriv ?_
  dsimp only
  rw [hm.1]
  simp only [GroupFamily.hess, ← Matrix.mulVec_mulVec, Pi.add_apply]
  simp only [Matrix.mulVec, dotProduct, Matrix.transpose_apply]
  rw [← Finset.sum_add_distrib, ← Finset.sum_add_distrib, ← Finset.sum_add_distrib]
  refine Finset.sum_congr rfl fun r _ => ?_
  ring

/-- The derivative of `grad` along curves from a point without residual. -/
theorem grad_deriv_zero {E : ∀ i, Embedding (n i) (m i) (G i)} {F : GroupFamily p n G Θ} {x0 : ∀ i, G i} {c : ℝ → Θ}
    {e' : Fin p → ℝ} (he : ErrSmooth E F x0 c e') (hJ : JacCont E F x0 c) (h0 : F.e x0 (c 0) = 0) {x : ℝ → ∀ i, G i}
    {ξ : Cols n → ℝ} (hm : Moves E x0 x ξ) (k : Cols n) :
    HasDerivAt (fun t => F.grad (x t) (c t) k) ((F.hess x0 (c 0) *ᵥ ξ) k + ((F.J x0 (c 0))ᵀ *ᵥ e') k) 0 := by
  have h1 := HasDerivAt.fun_sum (u := Finset.univ) fun r _ =>
    hasDerivAt_mul_zero (hJ x ξ hm r k) (he x ξ hm r) (by show F.e (x 0) (c 0) r = 0; rw [hm.1, h0]; rfl)
  refine h1.congr_deriv ?_
  rw [hm.1]
  simp only [GroupFamily.hess, ← Matrix.mulVec_mulVec]
  simp only [Matrix.mulVec, dotProduct, Matrix.transpose_apply, Pi.add_apply]
  rw [← Finset.sum_add_distrib]
  refine Finset.sum_congr rfl fun r _ => ?_
  ring

/-- The velocity of the step of mode `IMPLICIT`. -/
theorem implicit_velocity {E : ∀ i, Embedding (n i) (m i) (G i)} {L : ∀ i, Ops (n i) (G i)}
    (hL : ∀ i, (E i).Lawful (L i)) (hx : ∀ i, ExpAtZero (E i) (L i)) {F : GroupFamily p n G Θ} {x0 : ∀ i, G i}
    (hv : ∀ i, (E i).valid (x0 i)) {c : ℝ → Θ} {γ : Cols n → ℝ} (h0 : F.grad x0 (c 0) = 0)
    (hγ : ∀ k, HasDerivAt (fun t => F.grad x0 (c t) k) (γ k) 0) :
    Moves E x0 (fun t => F.implicitStep L x0 (c 0) (c t)) (-((F.hess x0 (c 0))⁻¹ *ᵥ γ)) := by
  refine moves_retract hL hx hv (v := fun t => (F.hess x0 (c 0))⁻¹ *ᵥ (-F.grad x0 (c t))) ?_ fun k => ?_
  · rw [h0, neg_zero, Matrix.mulVec_zero]
  · have h1 := (HasDerivAt.fun_sum (u := Finset.univ) fun j _ => (hγ j).const_mul ((F.hess x0 (c 0))⁻¹ k j)).neg
    refine (h1.congr_of_eventuallyEq (Eventually.of_forall fun t => ?_)).congr_deriv ?_
    · simp [Matrix.mulVec, dotProduct]
    · simp [Matrix.mulVec, dotProduct]

/-! ### Mode `IMPLICIT` -/

/-- **Mode `IMPLICIT` returns the derivative of the solution, for variables of any group classes**, if the term of the second
derivative that Gauss–Newton leaves out vanishes (`implicit_gradient_false` shows that it does not otherwise): the
result of the step with autograd is the solution itself, and it moves with the velocity of the solution when the parameters
move along any curve. -/
theorem group_implicit_gradient_partial {E : ∀ i, Embedding (n i) (m i) (G i)} {L : ∀ i, Ops (n i) (G i)}
    (hL : ∀ i, (E i).Lawful (L i)) (hx : ∀ i, ExpAtZero (E i) (L i)) {F : GroupFamily p n G Θ} {x0 : ∀ i, G i} {c : ℝ → Θ}
    {e' : Fin p → ℝ} (he : ErrSmooth E F x0 c e') {Jx : (Cols n → ℝ) → Matrix (Fin p) (Cols n) ℝ}
    {Jt : Matrix (Fin p) (Cols n) ℝ} (hJ : JacSmooth E F x0 c Jx Jt)
    (hcurv : ∀ ξ k, ∑ r, Jx ξ r k * F.e x0 (c 0) r = 0) (hr : FullRank (F.J x0 (c 0))) {X : ℝ → ∀ i, G i} {ξ : Cols n → ℝ}
    (hX : SolutionCurve E F x0 c X ξ) :
    F.implicitStep L x0 (c 0) (c 0) = x0 ∧ Moves E x0 (fun t => F.implicitStep L x0 (c 0) (c t)) ξ := by
  have hv : ∀ i, (E i).valid (x0 i) := fun i => by rw [← hX.1.1]; exact (hX.1.2 i).1 0
  have h0 : F.grad x0 (c 0) = 0 := by have := hX.2.self_of_nhds; rwa [hX.1.1] at this
  have hconst := moves_const E L hL x0 hv
  have hγ := fun k => grad_deriv he hJ hconst k
  have hsol := fun k => grad_deriv he hJ hX.1 k
  have hzero : ∀ k, HasDerivAt (fun t => F.grad (X t) (c t) k) 0 0 := fun k =>
    (hasDerivAt_const (0 : ℝ) (0 : ℝ)).congr_of_eventuallyEq (hX.2.mono fun t ht => by
      show F.grad (X t) (c t) k = 0
      rw [ht]
      rfl)
  have hH : F.hess x0 (c 0) *ᵥ ξ = -((F.J x0 (c 0))ᵀ *ᵥ e' + Jtᵀ *ᵥ F.e x0 (c 0)) := by
    funext k
    have := (hsol k).unique (hzero k)
    rw [hcurv, add_zero] at this
    exact eq_neg_of_add_eq_zero_left this
  have hdet : IsUnit (F.hess x0 (c 0)).det := (det_of_fullRank hr).isUnit
  have hstep := implicit_velocity hL hx hv h0 (γ := (F.J x0 (c 0))ᵀ *ᵥ e' + Jtᵀ *ᵥ F.e x0 (c 0)) fun k => by
    refine (hγ k).congr_deriv ?_
    rw [hcurv, Matrix.mulVec_zero, Pi.zero_apply, zero_add, zero_add]
  have e : -((F.hess x0 (c 0))⁻¹ *ᵥ ((F.J x0 (c 0))ᵀ *ᵥ e' + Jtᵀ *ᵥ F.e x0 (c 0))) = ξ := by
    rw [← Matrix.mulVec_neg, ← hH, Matrix.mulVec_mulVec, Matrix.nonsing_inv_mul _ hdet, Matrix.one_mulVec]
  rw [e] at hstep
  exact ⟨hstep.1, hstep⟩

/-- Solutions without residual: continuous Jacobians are enough. -/
theorem group_implicit_zero_residual {E : ∀ i, Embedding (n i) (m i) (G i)} {L : ∀ i, Ops (n i) (G i)}
    (hL : ∀ i, (E i).Lawful (L i)) (hx : ∀ i, ExpAtZero (E i) (L i)) {F : GroupFamily p n G Θ} {x0 : ∀ i, G i} {c : ℝ → Θ}
    {e' : Fin p → ℝ} (he : ErrSmooth E F x0 c e') (hJ : JacCont E F x0 c) (h0 : F.e x0 (c 0) = 0)
    (hr : FullRank (F.J x0 (c 0))) {X : ℝ → ∀ i, G i} {ξ : Cols n → ℝ} (hX : SolutionCurve E F x0 c X ξ) :
    F.implicitStep L x0 (c 0) (c 0) = x0 ∧ Moves E x0 (fun t => F.implicitStep L x0 (c 0) (c t)) ξ := by
  have hv : ∀ i, (E i).valid (x0 i) := fun i => by rw [← hX.1.1]; exact (hX.1.2 i).1 0
  have hg0 : F.grad x0 (c 0) = 0 := by have := hX.2.self_of_nhds; rwa [hX.1.1] at this
  have hγ := fun k => grad_deriv_zero he hJ h0 (moves_const E L hL x0 hv) k
  have hsol := fun k => grad_deriv_zero he hJ h0 hX.1 k
  have hzero : ∀ k, HasDerivAt (fun t => F.grad (X t) (c t) k) 0 0 := fun k =>
    (hasDerivAt_const (0 : ℝ) (0 : ℝ)).congr_of_eventuallyEq (hX.2.mono fun t ht => by
      show F.grad (X t) (c t) k = 0
      rw [ht]
      rfl)
  have hH : F.hess x0 (c 0) *ᵥ ξ = -((F.J x0 (c 0))ᵀ *ᵥ e') := by
    funext k
    exact eq_neg_of_add_eq_zero_left ((hsol k).unique (hzero k))
  have hdet : IsUnit (F.hess x0 (c 0)).det := (det_of_fullRank hr).isUnit
  have hstep := implicit_velocity hL hx hv hg0 (γ := (F.J x0 (c 0))ᵀ *ᵥ e') fun k => by
    refine (hγ k).congr_deriv ?_
    rw [Matrix.mulVec_zero, Pi.zero_apply, zero_add]
  have e : -((F.hess x0 (c 0))⁻¹ *ᵥ ((F.J x0 (c 0))ᵀ *ᵥ e')) = ξ := by
    rw [← Matrix.mulVec_neg, ← hH, Matrix.mulVec_mulVec, Matrix.nonsing_inv_mul _ hdet, Matrix.one_mulVec]
  rw [e] at hstep
  exact ⟨hstep.1, hstep⟩

end Verif.Layer
