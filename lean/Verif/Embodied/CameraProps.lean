import Verif.Embodied.Camera
import Verif.Embodied.Spec
import Verif.Objective.Props
import Verif.Geometry.SpatialJac
import Mathlib.Tactic

/-!
# Properties of `Reprojection` (C74)
-/

namespace Verif.Embodied
open Verif.Geometry Matrix

/-- The derivative of the projection along a curve of points in the camera frame. -/
theorem cam_deriv {k : ℕ} {pc : ℝ → V3} {J : Matrix (Fin 3) (Fin k) ℝ} {ξ : Fin k → ℝ}
    (hd : VecDeriv pc (J *ᵥ ξ)) (hz : pc 0 2 ≠ 0) (feat : Fin 2 → ℝ) (f k1 k2 : ℝ) :
    VecDeriv (fun t => camError (pc t) feat f k1 k2) (camJac (pc 0) J f k1 k2 *ᵥ ξ) := by
  have h0 := hd 0
  have h1 := hd 1
  have h2 := hd 2
  have hp0 := (h0.fun_neg).fun_div h2 hz
  have hp1 := (h1.fun_neg).fun_div h2 hz
  have hs := (hp0.fun_mul hp0).fun_add (hp1.fun_mul hp1)
  have hF := (((hs.fun_mul ((hs.mul_const k2).const_add k1)).const_add 1).const_mul f)
  -- the columns of the Jacobian, applied
  have lin : ∀ i, (camJac (pc 0) J f k1 k2 *ᵥ ξ) i =
      (camJac (pc 0) (Matrix.of fun i (_ : Fin 1) => (J *ᵥ ξ) i) f k1 k2) i 0 := by
    intro i
    simp only [camJac, Matrix.mulVec, dotProduct, Matrix.of_apply, Matrix.cons_val']
    fin_cases i
    · simp only [Fin.zero_eta, Matrix.cons_val_zero, Matrix.cons_val_one, Matrix.cons_val_fin_one]
      simp only [Finset.mul_sum, Finset.sum_div, Finset.sum_mul, ← Finset.sum_sub_distrib,
        ← Finset.sum_add_distrib]
      refine Finset.sum_congr rfl fun j _ => ?_
      ring
    · simp only [Fin.mk_one, Matrix.cons_val_zero, Matrix.cons_val_one, Matrix.cons_val_fin_one]
      simp only [Finset.mul_sum, Finset.sum_div, Finset.sum_mul, ← Finset.sum_sub_distrib,
        ← Finset.sum_add_distrib]
      refine Finset.sum_congr rfl fun j _ => ?_
      ring
  intro i
  rw [lin]
  generalize J *ᵥ ξ = v at *
  fin_cases i
  · refine ((hp0.fun_mul hF).sub_const (feat 0)).congr_deriv ?_
    simp [camJac, camProj, camSqn, camFactor]
    field_simp
    ring
  · refine ((hp1.fun_mul hF).sub_const (feat 1)).congr_deriv ?_
    simp [camJac, camProj, camSqn, camFactor]
    field_simp
    ring

/-- Both Jacobians of `Reprojection` are the derivatives of the error, for every camera pose, point,
focal length and distortion, unless the point is in the plane of the camera. -/
theorem reprojection_jac (pose : SE3) (hp : pose.Rᵀ * pose.R = 1 ∧ pose.R.det = 1) (w : V3)
    (hz : pose.transform w 2 ≠ 0) (feat : Fin 2 → ℝ) (f k1 k2 : ℝ) :
    SE3.emb.HasJac (fun g => reprojError g w feat f k1 k2) pose (reprojJac pose w f k1 k2).1 ∧
    HasVecJac (fun q => reprojError pose q feat f k1 k2) w (reprojJac pose w f k1 k2).2 := by
  constructor
  · intro x ξ hx ht
    have hd := (se3_transform_jac pose hp w).1 x ξ hx ht
    have := cam_deriv (pc := fun t => (x t).transform w) hd (by simpa [hx] using hz) feat f k1 k2
    simp only [hx] at this
    exact this
  · intro x δ hx hδ
    have hd := (se3_transform_jac pose hp w).2.1 x δ hx hδ
    have := cam_deriv (pc := fun t => pose.transform (x t)) hd (by simpa [hx] using hz) feat f k1 k2
    simp only [hx] at this
    exact this

/-- Without distortion it is the pinhole model of the Bundler convention (the camera looks along
`-z`): zero exactly when the feature is at `-f (x, y) / z`. -/
theorem reprojection_pinhole (pose : SE3) (w : V3) (feat : Fin 2 → ℝ) (f : ℝ) :
    reprojError pose w feat f 0 0 = 0 ↔
      feat 0 = -f * pose.transform w 0 / pose.transform w 2 ∧
      feat 1 = -f * pose.transform w 1 / pose.transform w 2 := by
  rw [funext_iff, Fin.forall_fin_two]
  simp only [reprojError, camError, camProj, camFactor, Matrix.cons_val_zero, Matrix.cons_val_one,
    Matrix.cons_val_fin_one, Pi.zero_apply, sub_eq_zero, mul_zero, add_zero, mul_one]
  refine and_congr ⟨fun h => ?_, fun h => ?_⟩ ⟨fun h => ?_, fun h => ?_⟩
  · rw [← h]; ring
  · rw [h]; ring
  · rw [← h]; ring
  · rw [h]; ring

/-- The error does not depend on the frame of the world: expressing the world in another frame `g`,
that is composing the camera pose with `g` and moving the point by its inverse, changes nothing. -/
theorem reprojection_invariant (pose g : SE3) (hg : g.R * g.Rᵀ = 1) (w : V3)
    (feat : Fin 2 → ℝ) (f k1 k2 : ℝ) :
    reprojError (pose.compose g) (g.untransform w) feat f k1 k2
      = reprojError pose w feat f k1 k2 := by
  have : (pose.compose g).transform (g.untransform w) = pose.transform w := by
    simp only [SE3.transform, SE3.compose, SE3.untransform]
    rw [Matrix.mulVec_mulVec, Matrix.mul_assoc, hg, Matrix.mul_one, Matrix.mulVec_sub]
    abel
  unfold reprojError
  rw [this]

/-- The error depends only on the line through the center of the camera and the point: a point
behind the camera has the same error as its mirror image in front of it (`c = -1`). -/
theorem reprojection_line (pose : SE3) (w w' : V3) {c : ℝ} (hc : c ≠ 0)
    (h : pose.transform w' = c • pose.transform w) (feat : Fin 2 → ℝ) (f k1 k2 : ℝ) :
    reprojError pose w' feat f k1 k2 = reprojError pose w feat f k1 k2 := by
  have : camProj (pose.transform w') = camProj (pose.transform w) := by
    rw [h]
    ext i
    fin_cases i <;>
      simp [camProj, ← mul_neg, mul_div_mul_left _ _ hc]
  unfold reprojError camError
  rw [this]

/-- **A defect.**  Two `Reprojection` costs that are both given no `calib_k1` cannot be in the same
objective: the variables made for them are distinct objects with the same name.  Whatever successful
calls built the objective, after the first was added, adding the second raises. -/
theorem reprojection_default_calib_clash (dt : Nat) (hist : List Objective.Call)
    (hok : Objective.Succeeds (Objective.init dt false) hist)
    (i1 n1 : Nat) (p1 q1 x1 f1 : Objective.Var) (a1 b1 : Nat) (w1 : Objective.Weight)
    (k1 k2 : Option Objective.Var)
    (i2 n2 : Nat) (p2 q2 x2 f2 : Objective.Var) (a2 b2 : Nat) (w2 : Objective.Weight)
    (hfresh : a1 ≠ a2)
    (h1 : (Objective.add (Objective.run (Objective.init dt false) hist)
      (mkReprojection i1 n1 p1 q1 x1 f1 none k1 a1 b1 w1)).2 = none) :
    (Objective.add (Objective.add (Objective.run (Objective.init dt false) hist)
      (mkReprojection i1 n1 p1 q1 x1 f1 none k1 a1 b1 w1)).1
      (mkReprojection i2 n2 p2 q2 x2 f2 none k2 a2 b2 w2)).2 ≠ none := by
  obtain ⟨reg, h, _, _⟩ := Objective.run_inv (Objective.init_inv dt) hok
  obtain ⟨hi, _, _⟩ := Objective.add_inv h h1
  intro h2
  have acc := (Objective.add_ok_iff hi _).1 h2
  have := acc.2.2.2.1 ⟨a2, calibK1Name, p2.dtype⟩
    (by simp [Objective.CostFn.vars, Objective.CostFn.auxs, mkReprojection])
    ⟨a1, calibK1Name, p1.dtype⟩
    (Or.inr ⟨mkReprojection i1 n1 p1 q1 x1 f1 none k1 a1 b1 w1, by simp,
      by simp [Objective.CostFn.vars, Objective.CostFn.auxs, mkReprojection]⟩) rfl
  exact hfresh (congrArg Objective.Var.id this)

/-- One such cost can be added: the two calibration variables made by default have different names.  Whatever
successful calls built the objective, the cost is accepted if its name is free, its variables have the data type
of the objective, and their names are distinct, not those of the two calibrations and used by no cost function
of the objective. -/
theorem reprojection_defaults_accepted (dt : Nat) (hist : List Objective.Call)
    (hok : Objective.Succeeds (Objective.init dt false) hist) (hre : Objective.NoReAdd [] hist)
    (i n : Nat) (p q x f : Objective.Var) (a b wid : Nat)
    (hname : ∀ c ∈ Objective.specRun [] hist, c.name ≠ n)
    (hdt : ∀ v ∈ [p, q, x, f], v.dtype = dt)
    (hnd : [p.name, q.name, x.name, f.name].Nodup)
    (hcal : ∀ v ∈ [p, q, x, f], v.name ≠ calibK1Name ∧ v.name ≠ calibK2Name)
    (hun : ∀ c ∈ Objective.specRun [] hist, ∀ u ∈ c.vars,
      u.name ∉ [p.name, q.name, x.name, f.name, calibK1Name, calibK2Name]) :
    (Objective.add (Objective.run (Objective.init dt false) hist)
      (mkReprojection i n p q x f none none a b { id := wid })).2 = none := by
  rw [Objective.add_accepts_iff dt hist hok hre]
  have h12 : calibK1Name ≠ calibK2Name := by decide
  simp only [List.mem_cons, List.not_mem_nil, or_false, forall_eq_or_imp, forall_eq, List.nodup_cons, not_or,
    List.nodup_nil, not_false_eq_true, and_true] at hdt hnd hcal hun
  refine ⟨?_, rfl, ?_, ?_, ?_, ?_⟩
  · intro c hc e; exact absurd e (hname c hc)
  all_goals
    simp only [mkReprojection, Objective.CostFn.vars, Objective.CostFn.auxs, Objective.CostFn.optims,
      Option.getD_none, List.mem_cons, List.mem_append, List.not_mem_nil, or_false, Objective.Uses,
      Objective.UsesOptim, Objective.UsesAux]
  · rintro v ((rfl | rfl) | rfl | rfl | rfl | rfl) <;> simp_all
  · rintro v hv u (hu | ⟨c, hc, hu⟩) e
    · rcases hv with (rfl | rfl) | rfl | rfl | rfl | rfl <;>
        rcases hu with (rfl | rfl) | rfl | rfl | rfl | rfl <;> simp_all
    · have := hun c hc u (by simpa [Objective.CostFn.vars, Objective.CostFn.auxs, Objective.CostFn.optims] using hu)
      rcases hv with (rfl | rfl) | rfl | rfl | rfl | rfl <;> simp_all
  · rintro v hv
    refine ⟨fun ha => ?_, ?_⟩
    · have e : ∀ a b : Objective.Var, a = b → a.name = b.name := fun a b h => by rw [h]
      rcases hv with rfl | rfl <;> rcases ha with h | h | h | h <;>
        (have := e _ _ h; clear h; simp_all)
    · rintro ⟨c, hc, hu⟩
      have := hun c hc v (by simp [Objective.CostFn.vars, Objective.CostFn.auxs, hu])
      rcases hv with rfl | rfl <;> simp_all
  · rintro v hv ⟨c, hc, hu⟩
    have := hun c hc v (by simp [Objective.CostFn.vars, Objective.CostFn.optims, hu])
    rcases hv with rfl | rfl | rfl | rfl <;> simp_all

/-! Non-vacuity. -/

example : (Objective.add (Objective.run (Objective.init 0 false) []) (mkReprojection 1 1 ⟨1, 1, 0⟩ ⟨2, 2, 0⟩
    ⟨3, 3, 0⟩ ⟨4, 4, 0⟩ none none 5 6 { id := 7 })).2 = none :=
  reprojection_defaults_accepted 0 [] (by simp [Objective.Succeeds]) (by simp [Objective.NoReAdd]) 1 1 _ _ _ _ 5 6 7
    (by simp [Objective.specRun]) (by simp) (by simp) (by simp [calibK1Name, calibK2Name])
    (by simp [Objective.specRun])

example : (⟨1, 0⟩ : SE3).transform ![1, 2, -4] 2 ≠ 0 ∧
    reprojError ⟨1, 0⟩ ![1, 2, -4] ![1 / 2, 1] 2 0 0 = 0 := by
  have ht : (⟨1, 0⟩ : SE3).transform ![1, 2, -4] = ![1, 2, -4] := by simp [SE3.transform]
  have h2 : (![1, 2, -4] : V3) 2 = -4 := rfl
  constructor
  · rw [ht, h2]; norm_num
  · rw [reprojection_pinhole, ht, h2]; norm_num

/-- Two such costs: the first is accepted by an empty objective, the second is not. -/
example :
    let c1 := mkReprojection 1 1 ⟨1, 1, 0⟩ ⟨2, 2, 0⟩ ⟨3, 3, 0⟩ ⟨4, 4, 0⟩ none none 5 6 { id := 7 }
    let c2 := mkReprojection 11 11 ⟨11, 11, 0⟩ ⟨12, 12, 0⟩ ⟨13, 13, 0⟩ ⟨14, 14, 0⟩ none none 15 16
      { id := 17 }
    (Objective.add (Objective.init 0 false) c1).2 = none ∧
    (Objective.add (Objective.add (Objective.init 0 false) c1).1 c2).2 = some .valueError := by
  decide

end Verif.Embodied
