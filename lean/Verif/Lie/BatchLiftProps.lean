import Verif.Lie.BatchLift
import Verif.Lie.BatchUnaryProps

/-!
# C122: `lift` and `project` on batches, forwards and backwards

At every index the result is that of the single vector or matrix, other last dimensions raise, and the backward pass of
each is its transpose for the inner product of tensors: since both are linear, this is the gradient.
-/

namespace Verif.Lie.Batch
open Verif.Geometry Matrix

theorem drop_one {G : List ℕ} {x : ℕ} {g : Tns} (h : g.shape = G ++ [x]) : g.shape.drop (g.ndim - 1) = [x] := by
  simp [Tns.ndim, h]

theorem inner_comm (s : List ℕ) (x y : Tns) : inner s x y = inner s y x := by
  unfold inner
  simp only [mul_comm]

/-- **C122 (`SO3.lift`).** -/
theorem so3Lift_spec {t : Tns} {A : List ℕ} (ht : t.shape = A ++ [3]) :
    ∃ r, so3LiftOp t = .ok r ∧ r.shape = A ++ [3, 3] ∧
      (∀ b, In b A → matOf 3 3 r b = SO3.hat (vecOf 3 t b)) ∧
      ∀ c, c.shape = A ++ [3, 3] → ∃ g, so3ProjectOp c = .ok g ∧ g.shape = t.shape ∧
        inner (A ++ [3]) g t = inner (A ++ [3, 3]) c r := by
  obtain ⟨s, v⟩ := liftLast_spec (entry := liftEntry) (cols := 3) ht
  unfold so3LiftOp
  rw [if_neg (by simp [drop_one ht])]
  refine ⟨_, rfl, s, fun b hb => matOf_hat fun i j => v b i j hb.length_eq, fun c hc => ?_⟩
  unfold so3ProjectOp
  rw [if_neg (by simp [drop_two hc])]
  refine ⟨_, rfl, by rw [(projectLast_shape hc).1, ht], ?_⟩
  rw [inner_comm, so3_project_adjoint ht hc, inner_comm]

/-- **C122 (`SO3.project`).** -/
theorem so3Project_spec {t : Tns} {A : List ℕ} (ht : t.shape = A ++ [3, 3]) :
    ∃ r, so3ProjectOp t = .ok r ∧ r.shape = A ++ [3] ∧
      (∀ b, In b A → vecOf 3 r b = SO3.project (matOf 3 3 t b)) ∧
      ∀ c, c.shape = A ++ [3] → ∃ g, so3LiftOp c = .ok g ∧ g.shape = t.shape ∧
        inner (A ++ [3, 3]) g t = inner (A ++ [3]) c r := by
  obtain ⟨s, v⟩ := projectLast_shape ht
  unfold so3ProjectOp
  rw [if_neg (by simp [drop_two ht])]
  refine ⟨_, rfl, s, fun b hb => v b hb.length_eq, fun c hc => ?_⟩
  unfold so3LiftOp
  rw [if_neg (by simp [drop_one hc])]
  exact ⟨_, rfl, by rw [(liftLast_spec hc).1, ht], (so3_project_adjoint hc ht).symm⟩

theorem se3projectLast_shape {t : Tns} {A : List ℕ} (h : t.shape = A ++ [3, 4]) :
    (projectLast se3ProjEntry 6 t).shape = A ++ [6] ∧ ∀ b, b.length = A.length →
      vecOf 6 (projectLast se3ProjEntry 6 t) b = SE3.project (poseOf t b) := by
  have hn : t.ndim - 2 = A.length := by simp [Tns.ndim, h]
  refine ⟨by simp [projectLast, hn, h], fun b hb => ?_⟩
  funext i
  simp only [vecOf, projectLast, hn, ← hb]
  rw [show (b ++ [i.val]).take b.length = b by simp, show (b ++ [i.val]).getD b.length 0 = i.val by simp]
  fin_cases i <;> simp [se3ProjEntry, projEntry, SE3.project, SE3.join, SO3.project, poseOf, matOf]

/-- **C122 (`SE3.lift`).** -/
theorem se3Lift_spec {t : Tns} {A : List ℕ} (ht : t.shape = A ++ [6]) :
    ∃ r, se3LiftOp t = .ok r ∧ r.shape = A ++ [3, 4] ∧
      (∀ b, In b A → poseOf r b = SE3.lift (vecOf 6 t b)) ∧
      ∀ c, c.shape = A ++ [3, 4] → ∃ g, se3ProjectOp c = .ok g ∧ g.shape = t.shape ∧
        inner (A ++ [6]) g t = inner (A ++ [3, 4]) c r := by
  obtain ⟨s, v⟩ := liftLast_spec (entry := se3LiftEntry) (cols := 4) ht
  unfold se3LiftOp
  rw [if_neg (by simp [drop_one ht])]
  refine ⟨_, rfl, s, fun b hb => ?_, fun c hc => ?_⟩
  · apply pose_ext
    · intro i j
      rw [v b i j hb.length_eq]
      fin_cases i <;> fin_cases j <;> simp [se3LiftEntry, liftEntry, SE3.lift, SO3.hat, SE3.ang, vecOf]
    · intro i
      rw [v b i 3 hb.length_eq]
      fin_cases i <;> simp [se3LiftEntry, SE3.lift, SE3.lin, vecOf]
  · unfold se3ProjectOp
    rw [if_neg (by simp [drop_two hc])]
    refine ⟨_, rfl, by rw [(se3projectLast_shape hc).1, ht], ?_⟩
    rw [inner_comm, se3_project_adjoint ht hc, inner_comm]

/-- **C122 (`SE3.project`).** -/
theorem se3Project_spec {t : Tns} {A : List ℕ} (ht : t.shape = A ++ [3, 4]) :
    ∃ r, se3ProjectOp t = .ok r ∧ r.shape = A ++ [6] ∧
      (∀ b, In b A → vecOf 6 r b = SE3.project (poseOf t b)) ∧
      ∀ c, c.shape = A ++ [6] → ∃ g, se3LiftOp c = .ok g ∧ g.shape = t.shape ∧
        inner (A ++ [3, 4]) g t = inner (A ++ [6]) c r := by
  obtain ⟨s, v⟩ := se3projectLast_shape ht
  unfold se3ProjectOp
  rw [if_neg (by simp [drop_two ht])]
  refine ⟨_, rfl, s, fun b hb => v b hb.length_eq, fun c hc => ?_⟩
  unfold se3LiftOp
  rw [if_neg (by simp [drop_one hc])]
  exact ⟨_, rfl, by rw [(liftLast_spec hc).1, ht], (se3_project_adjoint hc ht).symm⟩

/-- **C122 (other shapes).** -/
theorem lift_shape_error (t : Tns) :
    ((∀ A, t.shape ≠ A ++ [3]) → so3LiftOp t = .error .shape) ∧
    ((∀ A, t.shape ≠ A ++ [3, 3]) → so3ProjectOp t = .error .shape) ∧
    ((∀ A, t.shape ≠ A ++ [6]) → se3LiftOp t = .error .shape) ∧
    ((∀ A, t.shape ≠ A ++ [3, 4]) → se3ProjectOp t = .error .shape) := by
  have key : ∀ (k : ℕ) (l : List ℕ), (∀ A, t.shape ≠ A ++ l) → t.shape.drop k ≠ l := fun k l h e =>
    h (t.shape.take k) (by rw [← e, List.take_append_drop])
  refine ⟨fun h => ?_, fun h => ?_, fun h => ?_, fun h => ?_⟩
  · exact if_pos (key _ _ h)
  · exact if_pos (key _ _ h)
  · exact if_pos (key _ _ h)
  · exact if_pos (key _ _ h)

/-- A batch of two by five vectors. -/
example : (⟨[2, 5, 3], fun _ => 1⟩ : Tns).shape = [2, 5] ++ [3] := rfl

end Verif.Lie.Batch
