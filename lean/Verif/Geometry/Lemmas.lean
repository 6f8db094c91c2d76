import Verif.Geometry.Spec
import Mathlib.Analysis.Calculus.Deriv.Mul
import Mathlib.Analysis.Calculus.Deriv.Inv
import Mathlib.Analysis.Calculus.Deriv.Add
import Mathlib.LinearAlgebra.Matrix.NonsingularInverse

namespace Verif.Geometry
open Matrix

variable {n m k l : ℕ} {G : Type}

theorem MatDeriv.mul {F : ℝ → Matrix (Fin m) (Fin k) ℝ} {H : ℝ → Matrix (Fin k) (Fin l) ℝ}
    {F' H'} (hF : MatDeriv F F') (hH : MatDeriv H H') :
    MatDeriv (fun t => F t * H t) (F' * H 0 + F 0 * H') := by
  intro i j
  have := HasDerivAt.fun_sum (u := Finset.univ) (fun (q : Fin k) _ => (hF i q).mul (hH q j))
  simp only [Matrix.mul_apply, Matrix.add_apply, ← Finset.sum_add_distrib]
  exact this

theorem MatDeriv.const (A : Matrix (Fin m) (Fin k) ℝ) : MatDeriv (fun _ => A) 0 :=
  fun _ _ => hasDerivAt_const _ _

theorem MatDeriv.congr {F : ℝ → Matrix (Fin m) (Fin k) ℝ} {F' F''} (h : MatDeriv F F')
    (e : F' = F'') : MatDeriv F F'' := e ▸ h

theorem MatDeriv.const_mul {F : ℝ → Matrix (Fin m) (Fin k) ℝ} {F'} (A : Matrix (Fin l) (Fin m) ℝ)
    (h : MatDeriv F F') : MatDeriv (fun t => A * F t) (A * F') :=
  ((MatDeriv.const A).mul h).congr (by simp)

theorem MatDeriv.mul_const {F : ℝ → Matrix (Fin m) (Fin k) ℝ} {F'} (h : MatDeriv F F')
    (A : Matrix (Fin k) (Fin l) ℝ) : MatDeriv (fun t => F t * A) (F' * A) :=
  (h.mul (MatDeriv.const A)).congr (by simp)

theorem det_differentiable {F : ℝ → Matrix (Fin m) (Fin m) ℝ}
    (h : ∀ i j, DifferentiableAt ℝ (fun t => F t i j) 0) :
    DifferentiableAt ℝ (fun t => (F t).det) 0 := by
  simp only [Matrix.det_apply]
  refine DifferentiableAt.fun_sum fun σ _ => ?_
  refine DifferentiableAt.const_smul ?_ _
  exact DifferentiableAt.fun_finsetProd fun i _ => h _ _

/-- Entries of a matrix function that inverts a differentiable matrix function are
differentiable, with derivative `-N F' N`. -/
theorem MatDeriv.inv {F N : ℝ → Matrix (Fin m) (Fin m) ℝ} {F'} (hF : MatDeriv F F')
    (hN : ∀ t, N t * F t = 1) : MatDeriv N (-(N 0 * F' * N 0)) := by
  have hdiff : ∀ i j, DifferentiableAt ℝ (fun t => N t i j) 0 := by
    intro i j
    have e : (fun t => N t i j) = fun t => ((F t).det)⁻¹ * (F t).adjugate i j := by
      funext t
      have h1 : N t = (F t)⁻¹ := (Matrix.inv_eq_left_inv (hN t)).symm
      rw [h1, Matrix.inv_def]
      simp [Ring.inverse_eq_inv']
    rw [e]
    have hd : ∀ i j, DifferentiableAt ℝ (fun t => F t i j) 0 := fun i j => (hF i j).differentiableAt
    refine DifferentiableAt.fun_mul ((det_differentiable hd).inv ?_) ?_
    · have h2 := congrArg Matrix.det (hN 0)
      rw [Matrix.det_mul, Matrix.det_one] at h2
      intro h0
      simp [h0] at h2
    · simp only [Matrix.adjugate_apply]
      refine det_differentiable fun a b => ?_
      simp only [Matrix.updateRow_apply]
      by_cases hb : a = j
      · simp [hb]
      · simpa [hb] using hd a b
  obtain ⟨N', hN'⟩ : ∃ N', MatDeriv N N' :=
    ⟨Matrix.of fun i j => deriv (fun t => N t i j) 0, fun i j => (hdiff i j).hasDerivAt⟩
  have hp := hN'.mul hF
  have hz : N' * F 0 + N 0 * F' = 0 := by
    ext i j
    have h1 := hp i j
    have h2 : HasDerivAt (fun t => (N t * F t) i j) 0 0 := by
      simp only [hN]
      exact hasDerivAt_const _ _
    exact h1.unique h2
  refine hN'.congr ?_
  have hr : F 0 * N 0 = 1 := mul_eq_one_comm.mp (hN 0)
  calc N' = N' * (F 0 * N 0) := by rw [hr, Matrix.mul_one]
    _ = N' * F 0 * N 0 := by rw [Matrix.mul_assoc]
    _ = -(N 0 * F') * N 0 := by rw [eq_neg_of_add_eq_zero_left hz]
    _ = _ := by rw [Matrix.neg_mul]

namespace Embedding
variable {E : Embedding n m G} {L : Ops n G}

theorem Lawful.mul_inverse (h : E.Lawful L) {a : G} (ha : E.valid a) :
    E.toMatrix a * E.toMatrix (L.inverse a) = 1 :=
  mul_eq_one_comm.mp (h.toMatrix_inverse a ha)

theorem Lawful.hat_neg (h : E.Lawful L) (v : Fin n → ℝ) : E.hat (-v) = -E.hat v := by
  have := h.hat_smul (-1) v
  simpa using this

/-- `M⁻¹ hat v M = hat (Ad(g⁻¹) v)`. -/
theorem Lawful.adjoint_inverse_hat (h : E.Lawful L) {a : G} (ha : E.valid a) (v : Fin n → ℝ) :
    E.hat v * E.toMatrix a = E.toMatrix a * E.hat (L.adjoint (L.inverse a) *ᵥ v) := by
  have h1 := h.adjoint_hat (L.inverse a) v (h.inverse_valid a ha)
  have h2 := congrArg (fun X => E.toMatrix a * X * E.toMatrix a) h1
  simp only [Matrix.mul_assoc, h.toMatrix_inverse a ha, Matrix.mul_one] at h2
  rw [← Matrix.mul_assoc, h.mul_inverse ha, Matrix.one_mul] at h2
  exact h2

/-- The perturbation curve used by the optimizer has the perturbation as its tangent. -/
theorem Lawful.tangent_retract (h : E.Lawful L) {g : G} (hg : E.valid g) (δ : Fin n → ℝ) :
    E.Tangent (fun t => L.retract g (t • δ)) δ := by
  refine ⟨fun t => h.compose_valid _ _ hg (h.exp_valid _), ?_⟩
  simp only [Ops.retract, h.toMatrix_compose]
  exact (MatDeriv.const_mul (E.toMatrix g) (h.exp_deriv δ)).congr (by simp [h.exp_zero])

theorem Lawful.retract_zero (h : E.Lawful L) (g : G) (δ : Fin n → ℝ) :
    L.retract g ((0 : ℝ) • δ) = g := by
  apply h.toMatrix_inj
  simp [Ops.retract, h.toMatrix_compose, h.exp_zero]

end Embedding
end Verif.Geometry
