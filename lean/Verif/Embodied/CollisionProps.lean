import Verif.Embodied.Collision
import Verif.Embodied.SdfProps
import Verif.Embodied.Spec
import Verif.Geometry.PlanarJac
import Mathlib.Tactic

/-!
# Properties of the collision and contact costs (C73)
-/

namespace Verif.Embodied
open Verif.Geometry Matrix
variable {ox oy h : ℝ} {R C : ℕ} {data : ℕ → ℕ → ℝ}

/-- The points where the interpolated field is known to be differentiable: strictly inside a cell of
the grid, or strictly outside the grid. -/
def Regular (ox oy h : ℝ) (R C : ℕ) (p : P2) : Prop :=
  (∃ r c : ℕ, r + 1 < R ∧ c + 1 < C ∧ InOpenCell ox oy h r c p) ∨ ¬ InRect ox oy h R C p

theorem signedDistance_dist (s : Sdf) {p : P2} {d j1 j2 : ℝ}
    (e : s.signedDistance p = some (d, j1, j2)) : dist s p = d := by
  simp [dist, e]

/-- `Collision2D`: the error is how much the distance falls short of `cost_eps`. -/
theorem collision_error (hR : 0 < R) (hC : 0 < C) (eps : ℝ) (p : P2) :
    collError (Sdf.make ox oy h R C data 0) eps p
      = some (max (eps - dist (Sdf.make ox oy h R C data 0) p) 0) := by
  obtain ⟨⟨d, j1, j2⟩, e⟩ := Option.isSome_iff_exists.mp
    (sdf_total (ox := ox) (oy := oy) (h := h) (data := data) (bv := 0) hR hC p)
  simp [collError, e, dist]

/-- It is zero exactly when the distance is at least `cost_eps`. -/
theorem collision_zero_iff (hR : 0 < R) (hC : 0 < C) (eps : ℝ) (p : P2) :
    collError (Sdf.make ox oy h R C data 0) eps p = some 0
      ↔ eps ≤ dist (Sdf.make ox oy h R C data 0) p := by
  rw [collision_error hR hC]
  simp

/-- The derivative of the error along any curve of points. -/
theorem collision_deriv (hh : 0 < h) (hR : 0 < R) (hC : 0 < C) {eps : ℝ} {p : P2}
    (hreg : Regular ox oy h R C p) (hne : dist (Sdf.make ox oy h R C data 0) p ≠ eps) :
    ∃ J, collJac (Sdf.make ox oy h R C data 0) eps p = some J ∧
      ∀ (x y : ℝ → ℝ) (dx dy : ℝ), x 0 = p.x → y 0 = p.y → HasDerivAt x dx 0 → HasDerivAt y dy 0 →
        HasDerivAt (fun t => (collError (Sdf.make ox oy h R C data 0) eps ⟨x t, y t⟩).getD 0)
          (J 0 0 * dx + J 0 1 * dy) 0 := by
  obtain ⟨d, j1, j2, e, hder⟩ := sdf_jac (data := data) (bv := 0) hh hR hC hreg
  have hd := signedDistance_dist _ e
  refine ⟨_, by simp only [collJac, e, Option.bind_eq_bind, Option.bind_some, Option.pure_def]; rfl,
    ?_⟩
  intro x y dx dy hx hy hdx hdy
  have hD := hder x y dx dy hx hy hdx hdy
  have h0 : dist (Sdf.make ox oy h R C data 0) ⟨x 0, y 0⟩ = d := by rw [hx, hy]; exact hd
  simp only [collision_error hR hC, Option.getD_some]
  rcases lt_or_gt_of_ne hne with hlt | hgt
  · rw [hd] at hlt
    have ev : ∀ᶠ t in nhds (0 : ℝ), dist (Sdf.make ox oy h R C data 0) ⟨x t, y t⟩ < eps :=
      hD.continuousAt.eventually (Iio_mem_nhds (by simp only [h0]; exact hlt))
    refine ((hD.const_sub eps).congr_of_eventuallyEq ?_).congr_deriv ?_
    · filter_upwards [ev] with t ht
      exact max_eq_left (by linarith)
    · simp [not_lt.mpr hlt.le]; ring
  · rw [hd] at hgt
    have ev : ∀ᶠ t in nhds (0 : ℝ), eps < dist (Sdf.make ox oy h R C data 0) ⟨x t, y t⟩ :=
      hD.continuousAt.eventually (Ioi_mem_nhds (by simp only [h0]; exact hgt))
    refine ((hasDerivAt_const (0 : ℝ) (0 : ℝ)).congr_of_eventuallyEq ?_).congr_deriv ?_
    · filter_upwards [ev] with t ht
      exact max_eq_right (by linarith)
    · simp [hgt]

/-- `Collision2D` on points: the Jacobian is the derivative of the error wherever the field is
smooth and the distance is not exactly `cost_eps`. -/
theorem collision_jac (hh : 0 < h) (hR : 0 < R) (hC : 0 < C) {eps : ℝ} {p : P2}
    (hreg : Regular ox oy h R C p) (hne : dist (Sdf.make ox oy h R C data 0) p ≠ eps) :
    ∃ J, collJac (Sdf.make ox oy h R C data 0) eps p = some J ∧
      HasPointJac (fun q => ![(collError (Sdf.make ox oy h R C data 0) eps q).getD 0]) p J := by
  obtain ⟨J, e, hder⟩ := collision_deriv (data := data) hh hR hC hreg hne
  refine ⟨J, e, fun δ i => ?_⟩
  fin_cases i
  have hd := hder (fun t => p.x + t * δ 0) (fun t => p.y + t * δ 1) (δ 0) (δ 1) (by simp) (by simp)
    (by simpa using ((hasDerivAt_id (0 : ℝ)).mul_const (δ 0)).const_add p.x)
    (by simpa using ((hasDerivAt_id (0 : ℝ)).mul_const (δ 1)).const_add p.y)
  simpa [Matrix.mulVec, dotProduct, Fin.sum_univ_two] using hd

/-- `Collision2D` on poses of the plane: the same. -/
theorem collision_jac_se2 (hh : 0 < h) (hR : 0 < R) (hC : 0 < C) {eps : ℝ} {g : SE2}
    (hreg : Regular ox oy h R C g.trans)
    (hne : dist (Sdf.make ox oy h R C data 0) g.trans ≠ eps) :
    ∃ J, collJacSE2 (Sdf.make ox oy h R C data 0) eps g = some J ∧
      SE2.emb.HasJac (fun q => ![(collErrorSE2 (Sdf.make ox oy h R C data 0) eps q).getD 0]) g J := by
  obtain ⟨J, e, hder⟩ := collision_deriv (data := data) hh hR hC hreg hne
  have hJ : collJacSE2 (Sdf.make ox oy h R C data 0) eps g = some (J * g.xyJac) := by
    obtain ⟨⟨d, j1, j2⟩, e1⟩ := Option.isSome_iff_exists.mp
      (sdf_total (ox := ox) (oy := oy) (h := h) (data := data) (bv := 0) hR hC g.trans)
    simp only [collJac, e1, Option.bind_eq_bind, Option.bind_some, Option.pure_def,
      Option.some.injEq] at e
    simp only [collJacSE2, e1, Option.bind_eq_bind, Option.bind_some, Option.pure_def,
      Option.some.injEq, ← e]
    split_ifs
    · simp
    · rw [Matrix.neg_mul]
  refine ⟨_, hJ, ?_⟩
  intro x ξ hx ht i
  fin_cases i
  obtain ⟨_, _, hX, hY⟩ := SE2.tangent_components ht
  rw [hx] at hX hY
  have hd := hder (fun t => (x t).x) (fun t => (x t).y) _ _ (by simp [hx, SE2.trans])
    (by simp [hx, SE2.trans]) hX hY
  refine hd.congr_deriv ?_
  simp [Matrix.mulVec, dotProduct, Fin.sum_univ_three, Matrix.mul_apply, Fin.sum_univ_two,
    SE2.xyJac]
  ring

/-- **A defect.**  Outside the map the distance counts as zero, so the error is `cost_eps`, and the
Jacobian is zero: an optimizer started there sees a positive cost and no direction to reduce it. -/
theorem collision_outside (hR : 0 < R) (hC : 0 < C) {eps : ℝ} (he : 0 < eps) {p : P2}
    (hp : ¬ InRect ox oy h R C p) :
    collError (Sdf.make ox oy h R C data 0) eps p = some eps ∧
    collJac (Sdf.make ox oy h R C data 0) eps p = some 0 := by
  have e := sdf_outside (data := data) (bv := 0) hR hC hp
  constructor
  · simp [collError, e, he.le]
  · simp only [collJac, e, Option.bind_eq_bind, Option.bind_some, Option.pure_def]
    rw [if_neg (not_lt.mpr he.le)]
    congr 1
    ext i j
    fin_cases i; fin_cases j <;> simp

/-! ## Contact -/

theorem contact_error (hR : 0 < R) (hC : 0 < C) (rad : ℝ) (obj eff : SE2) :
    contactError (Sdf.make ox oy h R C data 0) rad obj eff
      = some |dist (Sdf.make ox oy h R C data 0) (obj.transformTo eff.trans) - rad| := by
  obtain ⟨⟨d, j1, j2⟩, e⟩ := Option.isSome_iff_exists.mp
    (sdf_total (ox := ox) (oy := oy) (h := h) (data := data) (bv := 0) hR hC
      (obj.transformTo eff.trans))
  simp [contactError, e, dist]

/-- `EffectorObjectContactPlanar`: the error is zero exactly when the effector, seen from the object,
is at distance `eff_radius` from its surface. -/
theorem contact_zero_iff (hR : 0 < R) (hC : 0 < C) (rad : ℝ) (obj eff : SE2) :
    contactError (Sdf.make ox oy h R C data 0) rad obj eff = some 0
      ↔ dist (Sdf.make ox oy h R C data 0) (obj.transformTo eff.trans) = rad := by
  rw [contact_error hR hC]
  simp [sub_eq_zero]

/-- It does not depend on the frame of reference in which object and effector are given. -/
theorem contact_invariant (s : Sdf) (rad : ℝ) (g obj eff : SE2) (hg : g.c ^ 2 + g.s ^ 2 = 1) :
    contactError s rad (g.compose obj) (g.compose eff) = contactError s rad obj eff := by
  have : (g.compose obj).transformTo (g.compose eff).trans = obj.transformTo eff.trans := by
    ext
    · simp only [SE2.transformTo, SE2.compose, SE2.trans, SE2.mk', SE2.rot, SO2.rotate, SO2.compose,
        SO2.rotateFromCosSin]
      linear_combination (obj.c * (eff.x - obj.x) + obj.s * (eff.y - obj.y)) * hg
    · simp only [SE2.transformTo, SE2.compose, SE2.trans, SE2.mk', SE2.rot, SO2.rotate, SO2.compose,
        SO2.rotateFromCosSin]
      linear_combination (-obj.s * (eff.x - obj.x) + obj.c * (eff.y - obj.y)) * hg
  unfold contactError
  rw [this]

theorem contact_deriv (hh : 0 < h) (hR : 0 < R) (hC : 0 < C) {rad : ℝ} {p : P2}
    (hreg : Regular ox oy h R C p) (hne : dist (Sdf.make ox oy h R C data 0) p ≠ rad) :
    ∃ d j1 j2, (Sdf.make ox oy h R C data 0).signedDistance p = some (d, j1, j2) ∧ d ≠ rad ∧
      ∀ (x y : ℝ → ℝ) (dx dy : ℝ), x 0 = p.x → y 0 = p.y → HasDerivAt x dx 0 → HasDerivAt y dy 0 →
        HasDerivAt (fun t => |dist (Sdf.make ox oy h R C data 0) ⟨x t, y t⟩ - rad|)
          ((if d < rad then -1 else 1) * (j1 * dx + j2 * dy)) 0 := by
  obtain ⟨d, j1, j2, e, hder⟩ := sdf_jac (data := data) (bv := 0) hh hR hC hreg
  have hd := signedDistance_dist _ e
  rw [hd] at hne
  refine ⟨d, j1, j2, e, hne, ?_⟩
  intro x y dx dy hx hy hdx hdy
  have hD := hder x y dx dy hx hy hdx hdy
  have h0 : dist (Sdf.make ox oy h R C data 0) ⟨x 0, y 0⟩ = d := by rw [hx, hy]; exact hd
  rcases lt_or_gt_of_ne hne with hlt | hgt
  · have ev : ∀ᶠ t in nhds (0 : ℝ), dist (Sdf.make ox oy h R C data 0) ⟨x t, y t⟩ < rad :=
      hD.continuousAt.eventually (Iio_mem_nhds (by simp only [h0]; exact hlt))
    refine ((hD.const_sub rad).congr_of_eventuallyEq ?_).congr_deriv ?_
    · filter_upwards [ev] with t ht
      rw [abs_of_neg (by linarith)]; ring
    · simp [hlt]
  · have ev : ∀ᶠ t in nhds (0 : ℝ), rad < dist (Sdf.make ox oy h R C data 0) ⟨x t, y t⟩ :=
      hD.continuousAt.eventually (Ioi_mem_nhds (by simp only [h0]; exact hgt))
    refine ((hD.sub_const rad).congr_of_eventuallyEq ?_).congr_deriv ?_
    · filter_upwards [ev] with t ht
      rw [abs_of_pos (by linarith)]
    · simp [not_lt.mpr hgt.le]

theorem row_mul_mulVec {k : ℕ} (c j1 j2 : ℝ) (K : Matrix (Fin 2) (Fin k) ℝ) (ξ : Fin k → ℝ) :
    ((c • ((!![j1, j2] : Matrix (Fin 1) (Fin 2) ℝ) * K)) *ᵥ ξ) 0
      = c * (j1 * (K *ᵥ ξ) 0 + j2 * (K *ᵥ ξ) 1) := by
  rw [Matrix.smul_mulVec, ← Matrix.mulVec_mulVec]
  generalize K *ᵥ ξ = w
  simp [Matrix.mulVec, dotProduct, Fin.sum_univ_two]

/-- `EffectorObjectContactPlanar`: both Jacobians are the derivatives of the error wherever the field
is smooth and the distance is not exactly the radius. -/
theorem contact_jac (hh : 0 < h) (hR : 0 < R) (hC : 0 < C) {rad : ℝ} {obj eff : SE2}
    (hobj : obj.c ^ 2 + obj.s ^ 2 = 1)
    (hreg : Regular ox oy h R C (obj.transformTo eff.trans))
    (hne : dist (Sdf.make ox oy h R C data 0) (obj.transformTo eff.trans) ≠ rad) :
    ∃ J, contactJac (Sdf.make ox oy h R C data 0) rad obj eff = some J ∧
      SE2.emb.HasJac (fun g => ![(contactError (Sdf.make ox oy h R C data 0) rad g eff).getD 0]) obj
        J.1 ∧
      SE2.emb.HasJac (fun g => ![(contactError (Sdf.make ox oy h R C data 0) rad obj g).getD 0]) eff
        J.2 := by
  obtain ⟨d, j1, j2, e, hne', hder⟩ := contact_deriv (data := data) hh hR hC hreg hne
  have hJ : contactJac (Sdf.make ox oy h R C data 0) rad obj eff = some
      ((if d < rad then (-1 : ℝ) else 1) • (!![j1, j2] * (obj.transformToJac eff.trans).1),
       (if d < rad then (-1 : ℝ) else 1) •
        (!![j1, j2] * ((obj.transformToJac eff.trans).2 * eff.xyJac))) := by
    simp only [contactJac, e, Option.bind_eq_bind, Option.bind_some, Option.pure_def]
  refine ⟨_, hJ, ?_, ?_⟩
  · intro x ξ hx ht i
    fin_cases i
    have hT := (se2_transform_jac obj hobj eff.trans).2.2.1 x ξ hx ht
    have h0 := hT 0
    have h1 := hT 1
    simp only [P2.vec, Matrix.cons_val_zero, Matrix.cons_val_one, Matrix.cons_val_fin_one] at h0 h1
    have hd := hder _ _ _ _ (by rw [hx]) (by rw [hx]) h0 h1
    simp only [contact_error hR hC, Option.getD_some]
    refine hd.congr_deriv ?_
    exact (row_mul_mulVec _ _ _ _ _).symm
  · intro x ξ hx ht i
    fin_cases i
    obtain ⟨_, _, hX, hY⟩ := SE2.tangent_components ht
    rw [hx] at hX hY
    have hu := ((hX.sub_const obj.x).const_mul obj.c).fun_sub
      ((hY.sub_const obj.y).const_mul (-obj.s))
    have hv := ((hX.sub_const obj.x).const_mul (-obj.s)).fun_add
      ((hY.sub_const obj.y).const_mul obj.c)
    have hd := hder _ _ _ _ (by simp only [hx]; rfl) (by simp only [hx]; rfl) hu hv
    simp only [contact_error hR hC, Option.getD_some]
    refine hd.congr_deriv (Eq.trans ?_ (row_mul_mulVec _ _ _ _ _).symm)
    congr 1
    simp [Matrix.mulVec, dotProduct, Fin.sum_univ_three, SE2.transformToJac, SE2.xyJac]
    ring

/-! Non-vacuity: a point strictly inside a cell, at a distance smaller than `cost_eps`. -/
example : Regular 0 0 1 2 2 ⟨1 / 2, 1 / 4⟩ ∧
    dist (Sdf.make 0 0 1 2 2 (fun _ c => c) 0) ⟨1 / 2, 1 / 4⟩ ≠ 1 := by
  refine ⟨Or.inl ⟨0, 0, by norm_num, by norm_num, by norm_num [InOpenCell]⟩, ?_⟩
  obtain ⟨j1, j2, e⟩ := sdf_in_cell (R := 2) (C := 2) (ox := 0) (oy := 0) (h := 1)
    (data := fun _ c => (c : ℝ)) (bv := 0) one_pos (r := 0) (c := 0) (by norm_num) (by norm_num)
    (p := ⟨1 / 2, 1 / 4⟩) (by norm_num [InCell])
  simp only [dist, e, bilinear]
  norm_num

example : Regular 0 0 1 2 2 ((⟨1, 0, 0, 1⟩ : SE2).transformTo (⟨1 / 2, 1 / 2, 1, 0⟩ : SE2).trans) := by
  refine Or.inl ⟨0, 0, by norm_num, by norm_num, ?_⟩
  norm_num [InOpenCell, SE2.transformTo, SE2.trans, SO2.rotateFromCosSin]

end Verif.Embodied
