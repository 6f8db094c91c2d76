import Verif.Geometry.Lemmas

/-!
# Consequences of the generic Lie group code, for every matrix group

Everything here is about the methods that `LieGroup` derives from the abstract ones, for any
lawful implementation of the latter; `PlanarProps` and `SpatialProps` show that the concrete
classes are lawful.
-/

namespace Verif.Geometry
open Matrix
namespace Embedding
variable {n m k : ℕ} {G : Type} {E : Embedding n m G} {L : Ops n G}

/-- Group laws. -/
theorem Lawful.assoc (h : E.Lawful L) (a b c : G) :
    L.compose (L.compose a b) c = L.compose a (L.compose b c) := by
  apply h.toMatrix_inj
  simp only [h.toMatrix_compose, Matrix.mul_assoc]

theorem Lawful.one_compose (h : E.Lawful L) (a : G) : L.compose (L.exp 0) a = a := by
  apply h.toMatrix_inj
  simp [h.toMatrix_compose, h.exp_zero]

theorem Lawful.compose_one (h : E.Lawful L) (a : G) : L.compose a (L.exp 0) = a := by
  apply h.toMatrix_inj
  simp [h.toMatrix_compose, h.exp_zero]

theorem Lawful.inverse_compose (h : E.Lawful L) {a : G} (ha : E.valid a) :
    L.compose (L.inverse a) a = L.exp 0 := by
  apply h.toMatrix_inj
  simp [h.toMatrix_compose, h.exp_zero, h.toMatrix_inverse a ha]

theorem Lawful.compose_inverse (h : E.Lawful L) {a : G} (ha : E.valid a) :
    L.compose a (L.inverse a) = L.exp 0 := by
  apply h.toMatrix_inj
  simp [h.toMatrix_compose, h.exp_zero, h.mul_inverse ha]

/-- `a.compose(a.between(b)) = b`. -/
theorem Lawful.compose_between (h : E.Lawful L) {a : G} (ha : E.valid a) (b : G) :
    L.compose a (L.between a b) = b := by
  rw [Ops.between, ← h.assoc, h.compose_inverse ha, h.one_compose]

/-- `a.between(a.compose(b)) = b`. -/
theorem Lawful.between_compose (h : E.Lawful L) {a : G} (ha : E.valid a) (b : G) :
    L.between a (L.compose a b) = b := by
  rw [Ops.between, ← h.assoc, h.inverse_compose ha, h.one_compose]

/-- `inverse` is an anti-homomorphism. -/
theorem Lawful.inverse_compose_rev (h : E.Lawful L) {a b : G} (ha : E.valid a) (hb : E.valid b) :
    L.inverse (L.compose a b) = L.compose (L.inverse b) (L.inverse a) := by
  apply h.toMatrix_inj
  have h1 := h.toMatrix_inverse _ (h.compose_valid _ _ ha hb)
  have h2 : E.toMatrix (L.compose a b) *
      (E.toMatrix (L.inverse b) * E.toMatrix (L.inverse a)) = 1 := by
    rw [h.toMatrix_compose, Matrix.mul_assoc, ← Matrix.mul_assoc (E.toMatrix b),
      h.mul_inverse hb, Matrix.one_mul, h.mul_inverse ha]
  rw [h.toMatrix_compose]
  exact left_inv_eq_right_inv h1 h2

/-- First Jacobian of `compose`. -/
theorem Lawful.compose_jac_left (h : E.Lawful L) {a b : G} (hb : E.valid b) :
    E.HasGroupJac (fun g => L.compose g b) a (L.composeJac a b).1 := by
  rintro x ξ hx ⟨hv, hd⟩
  refine ⟨fun t => h.compose_valid _ _ (hv t) hb, ?_⟩
  simp only [h.toMatrix_compose]
  refine (hd.mul_const (E.toMatrix b)).congr ?_
  rw [Matrix.mul_assoc, Matrix.mul_assoc, h.adjoint_inverse_hat hb]
  rfl

/-- Second Jacobian of `compose`. -/
theorem Lawful.compose_jac_right (h : E.Lawful L) {a b : G} (ha : E.valid a) :
    E.HasGroupJac (fun g => L.compose a g) b (L.composeJac a b).2 := by
  rintro x ξ hx ⟨hv, hd⟩
  refine ⟨fun t => h.compose_valid _ _ ha (hv t), ?_⟩
  simp only [h.toMatrix_compose]
  refine (MatDeriv.const_mul (E.toMatrix a) hd).congr ?_
  simp [Ops.composeJac, Matrix.mul_assoc]

/-- Jacobian of `inverse`. -/
theorem Lawful.inverse_jac (h : E.Lawful L) {a : G} (ha : E.valid a) :
    E.HasGroupJac L.inverse a (L.inverseJac a) := by
  rintro x ξ hx ⟨hv, hd⟩
  refine ⟨fun t => h.inverse_valid _ (hv t), ?_⟩
  refine (hd.inv fun t => h.toMatrix_inverse _ (hv t)).congr ?_
  simp only [hx, Ops.inverseJac]
  rw [← Matrix.mul_assoc, h.toMatrix_inverse a ha, Matrix.one_mul, Matrix.neg_mulVec, h.hat_neg,
    Matrix.mul_neg]
  congr 1
  have h1 := h.adjoint_hat a ξ ha
  have h2 := congrArg (fun X => E.toMatrix (L.inverse a) * X * E.toMatrix (L.inverse a)) h1
  simp only [← Matrix.mul_assoc, h.toMatrix_inverse a ha, Matrix.one_mul] at h2
  rw [h2, Matrix.mul_assoc, h.mul_inverse ha, Matrix.mul_one]

theorem HasGroupJac.comp {f : G → G} {g : G} {J : Matrix (Fin n) (Fin n) ℝ} {f' : G → G}
    {J' : Matrix (Fin n) (Fin n) ℝ} (h' : E.HasGroupJac f' (f g) J') (h : E.HasGroupJac f g J) :
    E.HasGroupJac (fun x => f' (f x)) g (J' * J) := by
  intro x ξ hx ht
  have := h' _ _ (by simp [hx]) (h x ξ hx ht)
  rwa [Matrix.mulVec_mulVec] at this

theorem HasJac.comp {f : G → G} {g : G} {J : Matrix (Fin n) (Fin n) ℝ} {f' : G → Fin k → ℝ}
    {J' : Matrix (Fin k) (Fin n) ℝ} (h' : E.HasJac f' (f g) J') (h : E.HasGroupJac f g J) :
    E.HasJac (fun x => f' (f x)) g (J' * J) := by
  intro x ξ hx ht
  have := h' _ _ (by simp [hx]) (h x ξ hx ht)
  rwa [Matrix.mulVec_mulVec] at this

/-- First Jacobian of `between`. -/
theorem Lawful.between_jac_left (h : E.Lawful L) {a b : G} (ha : E.valid a) (hb : E.valid b) :
    E.HasGroupJac (fun g => L.between g b) a (L.betweenJac a b).1 :=
  HasGroupJac.comp (f := L.inverse) (f' := fun g => L.compose g b)
    (h.compose_jac_left (a := L.inverse a) hb) (h.inverse_jac ha)

/-- Second Jacobian of `between`. -/
theorem Lawful.between_jac_right (h : E.Lawful L) {a b : G} (ha : E.valid a) :
    E.HasGroupJac (fun g => L.between a g) b (L.betweenJac a b).2 :=
  h.compose_jac_right (h.inverse_valid _ ha)

/-- The Jacobian of `between` in its first argument, in the form used by `local` and by the
`Between` cost: `-Ad(between⁻¹)`. -/
theorem Lawful.between_jac_left' (h : E.Lawful L) {a b : G} (ha : E.valid a) (hb : E.valid b) :
    E.HasGroupJac (fun g => L.between g b) a (-L.adjoint (L.inverse (L.between a b))) := by
  have hbt : E.valid (L.between a b) := h.compose_valid _ _ (h.inverse_valid _ ha) hb
  rintro x ξ hx ⟨hv, hd⟩
  refine ⟨fun t => h.compose_valid _ _ (h.inverse_valid _ (hv t)) hb, ?_⟩
  simp only [Ops.between, h.toMatrix_compose]
  refine ((hd.inv fun t => h.toMatrix_inverse _ (hv t)).mul_const (E.toMatrix b)).congr ?_
  simp only [hx]
  rw [← Matrix.mul_assoc, h.toMatrix_inverse a ha, Matrix.one_mul, Matrix.neg_mulVec, h.hat_neg,
    Matrix.mul_neg, Matrix.neg_mul]
  congr 1
  have := h.adjoint_inverse_hat hbt ξ
  simp only [Ops.between, h.toMatrix_compose] at this
  rw [Matrix.mul_assoc]
  exact this

/-- Second Jacobian of `local`, wherever the Jacobian of the logarithm is right. -/
theorem Lawful.local_jac_right (h : E.Lawful L) {a b : G} (ha : E.valid a)
    (hlog : E.HasJac L.log (L.between a b) (L.dlog (L.between a b))) :
    E.HasJac (fun g => L.local a g) b (L.localJac a b).2 := by
  have := HasJac.comp (f := fun g => L.between a g) (f' := L.log) hlog (h.between_jac_right ha)
  simpa [Ops.betweenJac, Ops.composeJac, Ops.localJac, Ops.local] using this

/-- First Jacobian of `local`.  The code multiplies `Ad(diff⁻¹)` and the Jacobian of the logarithm
in the order opposite to the chain rule, so it is right when they commute. -/
theorem Lawful.local_jac_left (h : E.Lawful L) {a b : G} (ha : E.valid a) (hb : E.valid b)
    (hlog : E.HasJac L.log (L.between a b) (L.dlog (L.between a b)))
    (hcomm : L.adjoint (L.inverse (L.between a b)) * L.dlog (L.between a b)
      = L.dlog (L.between a b) * L.adjoint (L.inverse (L.between a b))) :
    E.HasJac (fun g => L.local g b) a (L.localJac a b).1 := by
  have := HasJac.comp (f := fun g => L.between g b) (f' := L.log) hlog (h.between_jac_left' ha hb)
  simp only [Ops.localJac, Matrix.neg_mul, hcomm]
  rwa [Matrix.mul_neg] at this

/-- The Jacobians returned by the `Between` cost function. -/
theorem Lawful.betweenCost_jac (h : E.Lawful L) {v0 v1 meas : G} (h0 : E.valid v0)
    (h1 : E.valid v1) (hm : E.valid meas)
    (hlog : E.HasJac L.log (L.between meas (L.between v0 v1))
      (L.dlog (L.between meas (L.between v0 v1)))) :
    E.HasJac (fun g => L.betweenError g v1 meas) v0 (L.betweenCostJac v0 v1 meas).1 ∧
    E.HasJac (fun g => L.betweenError v0 g meas) v1 (L.betweenCostJac v0 v1 meas).2 := by
  have hr := h.local_jac_right (b := L.between v0 v1) hm hlog
  constructor
  · have := HasJac.comp (f := fun g => L.between g v1) (f' := fun g => L.local meas g) hr
      (h.between_jac_left' h0 h1)
    simpa [Ops.betweenError, Ops.betweenCostJac, Ops.localJac, Ops.between] using this
  · have := HasJac.comp (f := fun g => L.between v0 g) (f' := fun g => L.local meas g) hr
      (h.between_jac_right h0)
    simpa [Ops.betweenError, Ops.betweenCostJac, Ops.localJac, Ops.betweenJac, Ops.composeJac, Ops.between] using this

/-- The error returned next to the Jacobians is the error. -/
theorem betweenJacError_eq (v0 v1 meas : G) :
    L.betweenJacError v0 v1 meas = L.betweenError v0 v1 meas := rfl

/-- The Jacobian returned by the `Local` cost function (without the fast approximation). -/
theorem Lawful.localCost_jac (h : E.Lawful L) {var target : G} (ht : E.valid target)
    (hlog : E.HasJac L.log (L.between target var) (L.dlog (L.between target var))) :
    E.HasJac (fun g => L.localCostError g target) var (L.localCostJac false var target) := by
  simpa [Ops.localCostJac, Ops.localCostError] using h.local_jac_right ht hlog

/-- What the Jacobians returned by `MovingFrameBetween` are: the Jacobians of the relative pose
compared with the measurement, not of the error. -/
theorem Lawful.movingFrame_jac (h : E.Lawful L) {f1 f2 p1 p2 : G} (hf1 : E.valid f1)
    (hf2 : E.valid f2) (hp1 : E.valid p1) (hp2 : E.valid p2) :
    E.HasGroupJac (fun g => L.between (L.between g p1) (L.between f2 p2)) f1
      (L.movingFrameJac f1 f2 p1 p2).1 ∧
    E.HasGroupJac (fun g => L.between (L.between f1 p1) (L.between g p2)) f2
      (L.movingFrameJac f1 f2 p1 p2).2.1 ∧
    E.HasGroupJac (fun g => L.between (L.between f1 g) (L.between f2 p2)) p1
      (L.movingFrameJac f1 f2 p1 p2).2.2.1 ∧
    E.HasGroupJac (fun g => L.between (L.between f1 p1) (L.between f2 g)) p2
      (L.movingFrameJac f1 f2 p1 p2).2.2.2 := by
  have hb1 : E.valid (L.between f1 p1) := h.compose_valid _ _ (h.inverse_valid _ hf1) hp1
  have hb2 : E.valid (L.between f2 p2) := h.compose_valid _ _ (h.inverse_valid _ hf2) hp2
  refine ⟨?_, ?_, ?_, ?_⟩
  · exact HasGroupJac.comp (f := fun g => L.between g p1) (f' := fun g => L.between g (L.between f2 p2))
      (h.between_jac_left hb1 hb2) (h.between_jac_left hf1 hp1)
  · exact HasGroupJac.comp (f := fun g => L.between g p2) (f' := fun g => L.between (L.between f1 p1) g)
      (h.between_jac_right hb1) (h.between_jac_left hf2 hp2)
  · exact HasGroupJac.comp (f := fun g => L.between f1 g) (f' := fun g => L.between g (L.between f2 p2))
      (h.between_jac_left hb1 hb2) (h.between_jac_right hf1)
  · exact HasGroupJac.comp (f := fun g => L.between f2 g) (f' := fun g => L.between (L.between f1 p1) g)
      (h.between_jac_right hb1) (h.between_jac_right hf2)

/-- A Jacobian in the sense of `HasJac` is in particular the derivative along the perturbations
`t ↦ retract g (t δ)`. -/
theorem HasJac.along_retract (h : E.Lawful L) {f : G → Fin k → ℝ} {g : G} (hg : E.valid g)
    {J : Matrix (Fin k) (Fin n) ℝ} (hJ : E.HasJac f g J) (δ : Fin n → ℝ) :
    VecDeriv (fun t => f (L.retract g (t • δ))) (J *ᵥ δ) :=
  hJ _ _ (h.retract_zero g δ) (h.tangent_retract hg δ)

end Embedding
end Verif.Geometry
