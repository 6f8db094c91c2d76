import Verif.Kin.FK

/-!
# The axis-aligned joint classes of `torchkin/torchkin/joint.py` (C65)

`RevoluteJointX/Y/Z` and `PrismaticJointX/Y/Z` forward their arguments to a base class whose second
and third parameters are `axis_id` and `id`, in the order `id`, axis number.
-/

namespace Verif.Kin
open Verif.Geometry Matrix

/-- What a call of a constructor yields: a Python exception or the `_axis_id` and `_id` fields. -/
inductive AxisCtor where
  | typeError
  | valueError
  | ok (axisId : ℤ) (id : Option ℤ)
deriving DecidableEq

/-- `_RevoluteJointXYZImpl.__init__` (joint.py L265-281) and `_PrismaticJointXYZImpl.__init__`
(L407-423): `axis_id < 0` raises `TypeError` for `None`. -/
def xyzInit (axisId id : Option ℤ) : AxisCtor :=
  match axisId with
  | none => .typeError
  | some a => if a < 0 ∨ a ≥ 3 then .valueError else .ok a id

/-- `RevoluteJointX/Y/Z.__init__` (joint.py L299-338) and `PrismaticJointX/Y/Z.__init__`
(L443-482), for the axis number `k`, called with an optional `id`:
`super().__init__(name, id, k, ...)`. -/
def axisJoint (k : ℤ) (id : Option ℤ) : AxisCtor := xyzInit id (some k)

/-- `_RevoluteJointXYZImpl._rotation_impl` (joint.py L287-296) for a batch of one angle: assignments
to a zero matrix with `info = axis_info[axis_id]`. -/
noncomputable def xyzRotation (a : Fin 3) (q : ℝ) : M3 :=
  let i := a
  let j := a + 1
  let k := a + 2
  fun x y =>
    if x = j ∧ y = k then -Real.sin q
    else if x = k ∧ y = j then Real.sin q
    else if x = k ∧ y = k then Real.cos q
    else if x = j ∧ y = j then Real.cos q
    else if x = i ∧ y = i then 1
    else 0

/-- `_PrismaticJointXYZImpl._relative_pose_impl` (joint.py L434-440). -/
noncomputable def xyzSlide (a : Fin 3) (origin : SE3) (q : ℝ) : SE3 :=
  ⟨origin.R, fun i => q * origin.R i a + origin.t i⟩

/-- **C65.** Given its axis number, an axis-aligned joint moves like the general joint with that
unit axis. -/
theorem axis_joint_motion (q : ℝ) (origin : SE3) :
    xyzRotation 0 q = rotX q ∧ xyzRotation 1 q = rotY q ∧ xyzRotation 2 q = rotZ q ∧
    (∀ (a : Fin 3) (eps : ℝ), 0 < eps → eps ≤ |q| →
      xyzRotation a q = SO3.exp eps (q • Pi.single a 1)) ∧
    (∀ (a : Fin 3) (eps : ℝ),
      some (xyzSlide a origin q)
        = relativePose eps (.prismatic (Pi.single a 1)) origin (some q)) := by
  have h3 : ∀ a : Fin 3, ∀ eps : ℝ, 0 < eps → eps ≤ |q| →
      xyzRotation a q = SO3.exp eps (q • Pi.single a 1) := by
    intro a eps he hq
    have hd : dot3 (q • Pi.single a (1 : ℝ) : V3) (q • Pi.single a 1) = q ^ 2 := by
      fin_cases a <;> simp [dot3] <;> ring
    have hn : norm3 (q • Pi.single a (1 : ℝ) : V3) = |q| := by
      rw [norm3, hd, Real.sqrt_sq_eq_abs]
    have hq0 : q ≠ 0 := by
      rintro rfl; simp at hq; linarith
    have hlt : ¬ |q| < eps := not_lt.mpr hq
    have hs : Real.sin |q| / |q| = Real.sin q / q := by
      rcases abs_choice q with h | h <;> rw [h]
      rw [Real.sin_neg, neg_div_neg_eq]
    have hq2 : |q| ^ 2 = q ^ 2 := sq_abs q
    have hC : SO3.expC eps |q| = Real.cos q := by simp [SO3.expC, hlt, Real.cos_abs]
    have hK : SO3.expK eps |q| * (q * q) = 1 - Real.cos q := by
      rw [SO3.expK, if_neg hlt, hC, hq2]; field_simp
    have hS : SO3.expS eps |q| * q = Real.sin q := by
      rw [SO3.expS, if_neg hlt, hs]; field_simp
    unfold SO3.exp
    simp only [hn, hC]
    generalize SO3.expK eps |q| = k at *
    generalize SO3.expS eps |q| = s at *
    ext i j
    fin_cases a <;> fin_cases i <;> fin_cases j <;>
      simp [xyzRotation, SO3.rod, SO3.hat, outer3, hK, hS]
  refine ⟨?_, ?_, ?_, h3, ?_⟩
  · ext i j; fin_cases i <;> fin_cases j <;> simp [xyzRotation, rotX]
  · ext i j; fin_cases i <;> fin_cases j <;> simp [xyzRotation, rotY]
  · ext i j; fin_cases i <;> fin_cases j <;> simp [xyzRotation, rotZ]
  · intro a eps
    unfold xyzSlide relativePose
    congr 2
    funext i
    fin_cases a <;> simp [Matrix.mulVec, dotProduct, Fin.sum_univ_three] <;> ring

/-- **C65.** The constructors do not build the joint they name: without an id the call raises, with
an id outside 0, 1, 2 it raises, and otherwise the id becomes the axis and the axis number the id;
the result is right only when the id happens to be the axis number. -/
theorem axis_joint_wrong (k : ℤ) (id : Option ℤ) :
    axisJoint k none = .typeError ∧
    (∀ i, (i < 0 ∨ 3 ≤ i) → axisJoint k (some i) = .valueError) ∧
    (∀ i, 0 ≤ i → i < 3 → axisJoint k (some i) = .ok i (some k)) ∧
    (axisJoint k id = .ok k id ↔ id = some k ∧ 0 ≤ k ∧ k < 3) := by
  refine ⟨rfl, ?_, ?_, ?_⟩
  · intro i h
    have : i < 0 ∨ i ≥ 3 := h
    simp [axisJoint, xyzInit, this]
  · intro i h0 h3
    have : ¬ (i < 0 ∨ i ≥ 3) := by omega
    simp [axisJoint, xyzInit, this]
  · rcases id with _ | i
    · simp [axisJoint, xyzInit]
    · simp only [axisJoint, xyzInit]
      constructor
      · intro h
        split at h
        · cases h
        · rename_i hn
          injection h with h1 h2
          subst h1
          exact ⟨rfl, by omega, by omega⟩
      · rintro ⟨h, h0, h3⟩
        obtain rfl : i = k := Option.some_injective _ h
        rw [if_neg (by omega)]

example : axisJoint 2 (some 0) = .ok 0 (some 2) := by decide

end Verif.Kin
