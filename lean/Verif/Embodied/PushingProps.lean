import Verif.Embodied.Pushing
import Verif.Embodied.MotionProps
import Verif.Geometry.PlanarJac
import Mathlib.Tactic

/-!
# Properties of `QuasiStaticPushingPlanar` (C75)
-/

namespace Verif.Embodied
open Verif.Geometry Matrix

/-- The error is zero exactly when the motion is quasi-static: with `p` the contact point, `v` the
displacement of the object, `u` that of the contact point, all in the frame of the object, and `ω`
its rotation, the contact point moves with the object (`u = v + ω × p`) and the wrench at the contact
produces the rotation (`c² ω = p × v`). -/
theorem pushing_zero_iff (csq : ℝ) (o1 o2 e1 e2 : SE2) :
    pushError csq o1 o2 e1 e2 = 0 ↔
      let p := o2.transformTo e2.trans
      let v := o2.rot.unrotate ⟨o2.x - o1.x, o2.y - o1.y⟩
      let u := o2.rot.unrotate ⟨e2.x - e1.x, e2.y - e1.y⟩
      let ω := (o1.inverse.compose o2).rot.log
      u.x = v.x - ω * p.y ∧ u.y = v.y + ω * p.x ∧ csq * ω = p.x * v.y - p.y * v.x := by
  rw [funext_iff, Fin.forall_fin_succ, Fin.forall_fin_two]
  simp only [pushError, pushD, pushV, pushVp, Pi.sub_apply, Pi.zero_apply, Matrix.mulVec, dotProduct,
    Fin.sum_univ_three]
  simp only [Matrix.of_apply, Matrix.cons_val', Matrix.cons_val_zero, Matrix.cons_val_one,
    Matrix.cons_val, Matrix.cons_val_fin_one, Fin.succ_zero_eq_one, Fin.succ_one_eq_two, SE2.ops,
    Ops.between]
  refine and_congr ⟨fun h => ?_, fun h => ?_⟩ (and_congr ⟨fun h => ?_, fun h => ?_⟩
    ⟨fun h => ?_, fun h => ?_⟩) <;> linarith

/-- It does not depend on the frame of reference of the four poses. -/
theorem pushing_invariant (csq : ℝ) (g o1 o2 e1 e2 : SE2) (hg : g.c ^ 2 + g.s ^ 2 = 1) :
    pushError csq (g.compose o1) (g.compose o2) (g.compose e1) (g.compose e2)
      = pushError csq o1 o2 e1 e2 := by
  have hp : (g.compose o2).transformTo (g.compose e2).trans = o2.transformTo e2.trans := by
    ext
    · simp only [SE2.transformTo, SE2.compose, SE2.trans, SE2.mk', SE2.rot, SO2.rotate, SO2.compose,
        SO2.rotateFromCosSin]
      linear_combination (o2.c * (e2.x - o2.x) + o2.s * (e2.y - o2.y)) * hg
    · simp only [SE2.transformTo, SE2.compose, SE2.trans, SE2.mk', SE2.rot, SO2.rotate, SO2.compose,
        SO2.rotateFromCosSin]
      linear_combination (-o2.s * (e2.x - o2.x) + o2.c * (e2.y - o2.y)) * hg
  have hv : ∀ a b : SE2, (g.compose o2).rot.unrotate ⟨(g.compose b).x - (g.compose a).x,
      (g.compose b).y - (g.compose a).y⟩ = o2.rot.unrotate ⟨b.x - a.x, b.y - a.y⟩ := by
    intro a b
    ext
    · simp only [SE2.compose, SE2.trans, SE2.mk', SE2.rot, SO2.rotate, SO2.compose, SO2.unrotate,
        SO2.rotateFromCosSin]
      linear_combination (o2.c * (b.x - a.x) + o2.s * (b.y - a.y)) * hg
    · simp only [SE2.compose, SE2.trans, SE2.mk', SE2.rot, SO2.rotate, SO2.compose, SO2.unrotate,
        SO2.rotateFromCosSin]
      linear_combination (-o2.s * (b.x - a.x) + o2.c * (b.y - a.y)) * hg
  have hb : ((SE2.ops 0 0).between (g.compose o1) (g.compose o2)).rot
      = ((SE2.ops 0 0).between o1 o2).rot := by
    simp only [SE2.ops, Ops.between, SE2.compose, SE2.inverse, SE2.mk', SE2.rot, SO2.compose,
      SO2.inverse]
    congr 1
    · linear_combination (o1.c * o2.c + o1.s * o2.s) * hg
    · linear_combination (o1.c * o2.s - o1.s * o2.c) * hg
  simp only [pushError, pushD, pushV, pushVp, hp, hv, hb]

/-- An object and an effector at rest satisfy the model. -/
theorem pushing_rest (csq : ℝ) (o e : SE2) (ho : o.c ^ 2 + o.s ^ 2 = 1) :
    pushError csq o o e e = 0 := by
  rw [pushing_zero_iff]
  have hb : (o.inverse.compose o).rot = ⟨1, 0⟩ := by
    simp only [SE2.compose, SE2.inverse, SE2.mk', SE2.rot, SO2.compose, SO2.inverse]
    congr 1
    · linear_combination ho
    · ring
  have hl : (⟨1, 0⟩ : SO2).log = 0 := by
    have : (⟨1, 0⟩ : ℂ) = 1 := rfl
    simp [SO2.log, SO2.atan2, this]
  simp only [hb, hl]
  simp [SO2.unrotate, SO2.rotateFromCosSin]

theorem pushJErr_mulVec (D : Matrix (Fin 3) (Fin 3) ℝ) (V : Fin 3 → ℝ)
    (JD : Fin 3 → Matrix (Fin 3) (Fin 3) ℝ) (JV JVp : Fin 3 → Fin 3 → ℝ) (ξ : Fin 3 → ℝ) :
    pushJErr D V JD JV JVp *ᵥ ξ =
      (∑ d, ξ d • JD d) *ᵥ V + D *ᵥ (∑ d, ξ d • JV d) - ∑ d, ξ d • JVp d := by
  ext i
  simp only [pushJErr, Matrix.mulVec, dotProduct, Fin.sum_univ_three, Matrix.of_apply, Pi.add_apply,
    Pi.sub_apply, Pi.smul_apply, Matrix.add_apply, Matrix.smul_apply, smul_eq_mul]
  ring

/-- The derivative of the error from those of its three parts. -/
theorem push_deriv {D : ℝ → Matrix (Fin 3) (Fin 3) ℝ} {V Vp : ℝ → Fin 3 → ℝ} {D' V' Vp'}
    (hD : MatDeriv D D') (hV : VecDeriv V V') (hVp : VecDeriv Vp Vp') :
    VecDeriv (fun t => D t *ᵥ V t - Vp t) (D' *ᵥ V 0 + D 0 *ᵥ V' - Vp') := by
  intro i
  have h := (MatDeriv.mulVec hD hV i).sub (hVp i)
  refine h.congr_deriv ?_
  simp

theorem matDeriv_const {m k : ℕ} (A : Matrix (Fin m) (Fin k) ℝ) : MatDeriv (fun _ => A) 0 :=
  fun i j => by simpa using hasDerivAt_const (0 : ℝ) (A i j)

theorem vecDeriv_const' {m : ℕ} (v : Fin m → ℝ) : VecDeriv (fun _ => v) 0 :=
  fun i => by simpa using hasDerivAt_const (0 : ℝ) (v i)

/-- All four Jacobians are the derivatives of the error, unless the object turned by exactly `π`. -/
theorem pushing_jac (csq : ℝ) (o1 o2 e1 e2 : SE2) (h1 : o1.c ^ 2 + o1.s ^ 2 = 1)
    (h2 : o2.c ^ 2 + o2.s ^ 2 = 1) (hpi : (o1.inverse.compose o2).rot.log ≠ Real.pi) :
    SE2.emb.HasJac (fun g => pushError csq g o2 e1 e2) o1 (pushJac csq o1 o2 e1 e2).1 ∧
    SE2.emb.HasJac (fun g => pushError csq o1 g e1 e2) o2 (pushJac csq o1 o2 e1 e2).2.1 ∧
    SE2.emb.HasJac (fun g => pushError csq o1 o2 g e2) e1 (pushJac csq o1 o2 e1 e2).2.2.1 ∧
    SE2.emb.HasJac (fun g => pushError csq o1 o2 e1 g) e2 (pushJac csq o1 o2 e1 e2).2.2.2 := by
  have L := SE2.lawful (eps := 1) (deps := 0) one_pos
  have v1 : SE2.emb.valid o1 := h1
  have v2 : SE2.emb.valid o2 := h2
  refine ⟨?_, ?_, ?_, ?_⟩
  · intro x ξ hx ht
    obtain ⟨_, _, hX, hY⟩ := SE2.tangent_components ht
    rw [hx] at hX hY
    have hb := L.between_jac_left v1 v2 x ξ hx ht
    have hw := SE2.theta_deriv hb (by rw [hx]; exact hpi)
    simp only [pushJac, pushJErr_mulVec]
    have hV : VecDeriv (fun t => pushV (x t) o2) (∑ d, ξ d • pushJV
        ((o2.rot.unrotateJac ⟨o2.x - o1.x, o2.y - o1.y⟩).2 * (-o1.xyJac))
        (((SE2.ops 0 0).between o1 o2).thetaJac * ((SE2.ops 0 0).betweenJac o1 o2).1) d) := by
      intro i
      fin_cases i
      · refine (((hX.const_sub o2.x).const_mul o2.c).fun_sub
          ((hY.const_sub o2.y).const_mul (-o2.s))).congr_deriv ?_
        simp [pushJV, Fin.sum_univ_three, SO2.unrotateJac, SE2.xyJac, SO2.toMatrix, SE2.rot,
          Matrix.mul_apply, Fin.sum_univ_two]
        ring
      · refine (((hX.const_sub o2.x).const_mul (-o2.s)).fun_add
          ((hY.const_sub o2.y).const_mul o2.c)).congr_deriv ?_
        simp [pushJV, Fin.sum_univ_three, SO2.unrotateJac, SE2.xyJac, SO2.toMatrix, SE2.rot,
          Matrix.mul_apply, Fin.sum_univ_two]
        ring
      · refine hw.congr_deriv ?_
        simp [pushJV, Fin.sum_univ_three, SE2.thetaJac, Ops.betweenJac, Ops.composeJac,
          Ops.inverseJac, SE2.ops, SE2.adjoint, Matrix.mul_apply, Matrix.mulVec, dotProduct]
    have := push_deriv (matDeriv_const (pushD o2 e2 csq)) hV (vecDeriv_const' (pushVp o2 e1 e2))
    simp only [hx] at this
    simpa [pushError] using this
  · intro x ξ hx ht
    obtain ⟨hc, hs, hX, hY⟩ := SE2.tangent_components ht
    rw [hx] at hc hs hX hY
    have hb := L.between_jac_right v1 (b := o2) x ξ hx ht
    have hw := SE2.theta_deriv hb (by rw [hx]; exact hpi)
    simp only [pushJac, pushJErr_mulVec]
    have hT := (se2_transform_jac o2 h2 e2.trans).2.2.1 x ξ hx ht
    have t0 := hT 0
    have t1 := hT 1
    simp only [P2.vec, Matrix.cons_val_zero, Matrix.cons_val_one, Matrix.cons_val_fin_one] at t0 t1
    have hD : MatDeriv (fun t => pushD (x t) e2 csq)
        (∑ d, ξ d • pushJD (o2.transformToJac e2.trans).1 d) := by
      have z := fun r : ℝ => hasDerivAt_const (0 : ℝ) r
      intro i j
      fin_cases i <;> fin_cases j
      · refine (z 1).congr_deriv ?_; simp [pushJD, Fin.sum_univ_three]
      · refine (z 0).congr_deriv ?_; simp [pushJD, Fin.sum_univ_three]
      · refine t1.fun_neg.congr_deriv ?_
        simp [pushJD, Fin.sum_univ_three, Matrix.mulVec, dotProduct]; ring
      · refine (z 0).congr_deriv ?_; simp [pushJD, Fin.sum_univ_three]
      · refine (z 1).congr_deriv ?_; simp [pushJD, Fin.sum_univ_three]
      · refine t0.congr_deriv ?_
        simp [pushJD, Fin.sum_univ_three, Matrix.mulVec, dotProduct]; ring
      · refine t1.fun_neg.congr_deriv ?_
        simp [pushJD, Fin.sum_univ_three, Matrix.mulVec, dotProduct]; ring
      · refine t0.congr_deriv ?_
        simp [pushJD, Fin.sum_univ_three, Matrix.mulVec, dotProduct]; ring
      · refine (z (-csq)).congr_deriv ?_; simp [pushJD, Fin.sum_univ_three]
    have hV : VecDeriv (fun t => pushV o1 (x t)) (∑ d, ξ d • pushJV
        ((o2.rot.unrotateJac ⟨o2.x - o1.x, o2.y - o1.y⟩).1 * o2.thetaJac
          + (o2.rot.unrotateJac ⟨o2.x - o1.x, o2.y - o1.y⟩).2 * o2.xyJac)
        (((SE2.ops 0 0).between o1 o2).thetaJac * ((SE2.ops 0 0).betweenJac o1 o2).2) d) := by
      intro i
      fin_cases i
      · refine ((hc.fun_mul (hX.sub_const o1.x)).fun_sub
          (hs.fun_neg.fun_mul (hY.sub_const o1.y))).congr_deriv ?_
        simp [hx, pushJV, Fin.sum_univ_three, SO2.unrotateJac, SE2.xyJac, SE2.thetaJac, SO2.toMatrix,
          SE2.rot, Matrix.mul_apply, Fin.sum_univ_two, SO2.unrotate, SO2.rotateFromCosSin]
        ring
      · refine ((hs.fun_neg.fun_mul (hX.sub_const o1.x)).fun_add
          (hc.fun_mul (hY.sub_const o1.y))).congr_deriv ?_
        simp [hx, pushJV, Fin.sum_univ_three, SO2.unrotateJac, SE2.xyJac, SE2.thetaJac, SO2.toMatrix,
          SE2.rot, Matrix.mul_apply, Fin.sum_univ_two, SO2.unrotate, SO2.rotateFromCosSin]
        ring
      · refine hw.congr_deriv ?_
        simp [pushJV, Fin.sum_univ_three, SE2.thetaJac, Ops.betweenJac, Ops.composeJac]
    have hVp : VecDeriv (fun t => pushVp (x t) e1 e2) (∑ d, ξ d • pushJVp
        ((o2.rot.unrotateJac ⟨e2.x - e1.x, e2.y - e1.y⟩).1 * o2.thetaJac) d) := by
      intro i
      fin_cases i
      · refine ((hc.mul_const (e2.x - e1.x)).fun_sub
          (hs.fun_neg.mul_const (e2.y - e1.y))).congr_deriv ?_
        simp [pushJVp, Fin.sum_univ_three, SO2.unrotateJac, SE2.thetaJac, SE2.rot, Matrix.mul_apply,
          SO2.unrotate, SO2.rotateFromCosSin]
        ring
      · refine ((hs.fun_neg.mul_const (e2.x - e1.x)).fun_add
          (hc.mul_const (e2.y - e1.y))).congr_deriv ?_
        simp [pushJVp, Fin.sum_univ_three, SO2.unrotateJac, SE2.thetaJac, SE2.rot, Matrix.mul_apply,
          SO2.unrotate, SO2.rotateFromCosSin]
        ring
      · refine (hasDerivAt_const (0 : ℝ) (0 : ℝ)).congr_deriv ?_
        simp [pushJVp]
    have := push_deriv hD hV hVp
    simp only [hx] at this
    exact this
  · intro x ξ hx ht
    obtain ⟨_, _, hX, hY⟩ := SE2.tangent_components ht
    rw [hx] at hX hY
    simp only [pushJac, pushJErr_mulVec]
    have hVp : VecDeriv (fun t => pushVp o2 (x t) e2) (∑ d, ξ d • pushJVp
        ((o2.rot.unrotateJac ⟨e2.x - e1.x, e2.y - e1.y⟩).2 * (-e1.xyJac)) d) := by
      intro i
      fin_cases i
      · refine (((hX.const_sub e2.x).const_mul o2.c).fun_sub
          ((hY.const_sub e2.y).const_mul (-o2.s))).congr_deriv ?_
        simp [pushJVp, Fin.sum_univ_three, SO2.unrotateJac, SE2.xyJac, SO2.toMatrix, SE2.rot,
          Matrix.mul_apply, Fin.sum_univ_two]
        ring
      · refine (((hX.const_sub e2.x).const_mul (-o2.s)).fun_add
          ((hY.const_sub e2.y).const_mul o2.c)).congr_deriv ?_
        simp [pushJVp, Fin.sum_univ_three, SO2.unrotateJac, SE2.xyJac, SO2.toMatrix, SE2.rot,
          Matrix.mul_apply, Fin.sum_univ_two]
        ring
      · refine (hasDerivAt_const (0 : ℝ) (0 : ℝ)).congr_deriv ?_
        simp [pushJVp]
    have := push_deriv (matDeriv_const (pushD o2 e2 csq)) (vecDeriv_const' (pushV o1 o2)) hVp
    simpa [pushError] using this
  · intro x ξ hx ht
    obtain ⟨_, _, hX, hY⟩ := SE2.tangent_components ht
    rw [hx] at hX hY
    simp only [pushJac, pushJErr_mulVec]
    have t0 := ((hX.sub_const o2.x).const_mul o2.c).fun_sub
      ((hY.sub_const o2.y).const_mul (-o2.s))
    have t1 := ((hX.sub_const o2.x).const_mul (-o2.s)).fun_add
      ((hY.sub_const o2.y).const_mul o2.c)
    have hD : MatDeriv (fun t => pushD o2 (x t) csq)
        (∑ d, ξ d • pushJD ((o2.transformToJac e2.trans).2 * e2.xyJac) d) := by
      have z := fun r : ℝ => hasDerivAt_const (0 : ℝ) r
      intro i j
      fin_cases i <;> fin_cases j
      · refine (z 1).congr_deriv ?_; simp [pushJD, Fin.sum_univ_three]
      · refine (z 0).congr_deriv ?_; simp [pushJD, Fin.sum_univ_three]
      · refine t1.fun_neg.congr_deriv ?_
        simp [pushJD, Fin.sum_univ_three, Matrix.mul_apply, Fin.sum_univ_two, SE2.transformToJac,
          SE2.xyJac]; ring
      · refine (z 0).congr_deriv ?_; simp [pushJD, Fin.sum_univ_three]
      · refine (z 1).congr_deriv ?_; simp [pushJD, Fin.sum_univ_three]
      · refine t0.congr_deriv ?_
        simp [pushJD, Fin.sum_univ_three, Matrix.mul_apply, Fin.sum_univ_two, SE2.transformToJac,
          SE2.xyJac]; ring
      · refine t1.fun_neg.congr_deriv ?_
        simp [pushJD, Fin.sum_univ_three, Matrix.mul_apply, Fin.sum_univ_two, SE2.transformToJac,
          SE2.xyJac]; ring
      · refine t0.congr_deriv ?_
        simp [pushJD, Fin.sum_univ_three, Matrix.mul_apply, Fin.sum_univ_two, SE2.transformToJac,
          SE2.xyJac]; ring
      · refine (z (-csq)).congr_deriv ?_; simp [pushJD, Fin.sum_univ_three]
    have hVp : VecDeriv (fun t => pushVp o2 e1 (x t)) (∑ d, ξ d • pushJVp
        ((o2.rot.unrotateJac ⟨e2.x - e1.x, e2.y - e1.y⟩).2 * e2.xyJac) d) := by
      intro i
      fin_cases i
      · refine (((hX.sub_const e1.x).const_mul o2.c).fun_sub
          ((hY.sub_const e1.y).const_mul (-o2.s))).congr_deriv ?_
        simp [pushJVp, Fin.sum_univ_three, SO2.unrotateJac, SE2.xyJac, SO2.toMatrix, SE2.rot,
          Matrix.mul_apply, Fin.sum_univ_two]
        ring
      · refine (((hX.sub_const e1.x).const_mul (-o2.s)).fun_add
          ((hY.sub_const e1.y).const_mul o2.c)).congr_deriv ?_
        simp [pushJVp, Fin.sum_univ_three, SO2.unrotateJac, SE2.xyJac, SO2.toMatrix, SE2.rot,
          Matrix.mul_apply, Fin.sum_univ_two]
        ring
      · refine (hasDerivAt_const (0 : ℝ) (0 : ℝ)).congr_deriv ?_
        simp [pushJVp]
    have := push_deriv hD (vecDeriv_const' (pushV o1 o2)) hVp
    simp only [hx] at this
    simpa [pushError] using this

/-- Non-vacuity: an object that turned by a quarter. -/
example : ((⟨0, 0, 1, 0⟩ : SE2).inverse.compose ⟨1, 2, 0, 1⟩).rot.log ≠ Real.pi := by
  have : ((⟨0, 0, 1, 0⟩ : SE2).inverse.compose ⟨1, 2, 0, 1⟩).rot = ⟨0, 1⟩ := by
    simp [SE2.compose, SE2.inverse, SE2.mk', SE2.rot, SO2.compose, SO2.inverse]
  rw [this]
  have h : (⟨0, 1⟩ : SO2).log = Real.pi / 2 := by
    have : (⟨(0 : ℝ), 1⟩ : ℂ) = Complex.I := rfl
    simp [SO2.log, SO2.atan2, this]
  rw [h]
  linarith [Real.pi_pos]

end Verif.Embodied
