import Verif.Lie.BatchQuat
import Verif.Lie.BatchJacProps
import Verif.Geometry.BackwardProps

/-!
# C120: quaternions on batches

At every index the rotation and the Jacobian are those of the single quaternion (`Verif.Geometry`); asking for the
Jacobian does not change the rotation.
-/

namespace Verif.Lie.Batch
open Verif.Geometry Matrix

theorem norm4_eq (q : Tns) (b : List ℕ) : norm4 (fun c => q.val (b ++ [c])) = SO3.quatNorm (vecOf 4 q b) := by
  simp [norm4, SO3.quatNorm, vecOf, Finset.sum_range_succ]

theorem quatEntry_eq (u : ℕ → ℝ) (i j : Fin 3) : quatEntry u i j = SO3.quatMatrix (u 0) (u 1) (u 2) (u 3) i j := by
  fin_cases i <;> fin_cases j <;> simp [quatEntry, SO3.quatMatrix]

theorem jquatEntry_eq (v : Fin 4 → ℝ) (u : ℕ → ℝ) (h : ∀ c : Fin 4, u c = -2 * (v c / SO3.quatNorm v) / SO3.quatNorm v)
    (i : Fin 3) (j : Fin 4) : jquatEntry u i j = SO3.jquaternion v i j := by
  have h0 : u 0 = _ := h 0
  have h1 : u 1 = _ := h 1
  have h2 : u 2 = _ := h 2
  have h3 : u 3 = _ := h 3
  fin_cases i <;> fin_cases j <;> simp [jquatEntry, liftEntry, SO3.jquaternion, h0, h1, h2, h3]

theorem quatAt_append {q : Tns} {A : List ℕ} (h : q.shape = A ++ [4]) {b : List ℕ} (hb : b.length = A.length) (i j : ℕ) :
    quatAt q (b ++ [i, j]) = fun c => q.val (b ++ [c]) := by
  have : q.ndim - 1 = b.length := by simp [Tns.ndim, h, hb]
  funext c
  simp only [quatAt, this]
  simp

theorem quatToRot_ok {q : Tns} {A : List ℕ} (h : q.shape = A ++ [4]) :
    ∃ r, quatToRot q = .ok r ∧ r.shape = A ++ [3, 3] ∧
      ∀ b, b.length = A.length → matOf 3 3 r b = SO3.ofQuaternion (vecOf 4 q b) := by
  have hn : q.ndim - 1 = A.length := by simp [Tns.ndim, h]
  unfold quatToRot
  rw [if_neg (by rw [hn]; simp [h])]
  refine ⟨_, rfl, by simp [hn, h], fun b hb => ?_⟩
  ext i j
  simp only [matOf, Matrix.of_apply, hn, ← hb]
  have e := quatAt_append h hb i j
  rw [e]
  rw [show (b ++ [i.val, j.val]).getD b.length 0 = i.val by simp,
    show (b ++ [i.val, j.val]).getD (b.length + 1) 0 = j.val by simp]
  rw [quatEntry_eq]
  simp only [unit4, norm4_eq]
  rfl

theorem jquatToRot_ok {q : Tns} {A : List ℕ} (h : q.shape = A ++ [4]) (hA : A ≠ []) :
    ∃ j r, jquatToRot q = .ok (j, r) ∧ j.shape = A ++ [3, 4] ∧ quatToRot q = .ok r ∧
      ∀ b, b.length = A.length → matOf 3 4 j b = SO3.jquaternion (vecOf 4 q b) := by
  have hn : q.ndim - 1 = A.length := by simp [Tns.ndim, h]
  have h1 : q.ndim ≠ 1 := by
    have : A.length ≠ 0 := by simpa using hA
    omega
  unfold jquatToRot quatToRot
  simp only [if_neg h1]
  rw [if_neg (by rw [hn]; simp [h]), if_neg (by rw [hn]; simp [h])]
  refine ⟨_, _, rfl, by simp [hn, h], rfl, fun b hb => ?_⟩
  ext i j
  simp only [matOf, Matrix.of_apply, hn, ← hb]
  have e := quatAt_append h hb i j
  rw [e]
  rw [show (b ++ [i.val, j.val]).getD b.length 0 = i.val by simp,
    show (b ++ [i.val, j.val]).getD (b.length + 1) 0 = j.val by simp]
  apply jquatEntry_eq
  intro c
  simp only [unit4, norm4_eq]
  rfl

/-- **C120, `_partial`:** a batch of quaternions gives the batch of the rotations; with `jacobians=[]` also the batch of
the Jacobians, and the same rotations.  Missing: the Jacobian of a quaternion alone has one dimension too many
(`quaternion_single_wrong`). -/
theorem quaternionToRotation_partial {q : Tns} {A : List ℕ} (h : q.shape = A ++ [4]) :
    ∃ r, quaternionToRotation q false = .ok (r, []) ∧ r.shape = A ++ [3, 3] ∧
      (∀ b, b.length = A.length → matOf 3 3 r b = SO3.ofQuaternion (vecOf 4 q b)) ∧
      (A ≠ [] → ∃ j, quaternionToRotation q true = .ok (r, [j]) ∧ j.shape = A ++ [3, 4] ∧
        ∀ b, b.length = A.length → matOf 3 4 j b = SO3.jquaternion (vecOf 4 q b)) := by
  obtain ⟨r, hr, hs, hv⟩ := quatToRot_ok h
  refine ⟨r, by simp [quaternionToRotation, hr], hs, hv, fun hA => ?_⟩
  obtain ⟨j, r', hj, hjs, -, hjv⟩ := jquatToRot_ok h hA
  exact ⟨j, by simp [quaternionToRotation, hr, hj], hjs, hjv⟩

/-- A batch of two by five quaternions. -/
example : ([2, 5, 4] : List ℕ) = [2, 5] ++ [4] ∧ ([2, 5] : List ℕ) ≠ [] := by decide

/-- **C120 (defect).** The rotation of a quaternion alone has shape `(3, 3)`, with `jacobians=` too, but the Jacobian has
shape `(1, 3, 4)`; its entries are right. -/
theorem quaternion_single_wrong {q : Tns} (h : q.shape = [4]) :
    ∃ r j, quaternionToRotation q true = .ok (r, [j]) ∧ r.shape = [3, 3] ∧
      matOf 3 3 r [] = SO3.ofQuaternion (vecOf 4 q []) ∧ j.shape = [1, 3, 4] ∧
      matOf 3 4 j [0] = SO3.jquaternion (vecOf 4 q []) := by
  obtain ⟨r, hr, hs, hv⟩ := quatToRot_ok (A := []) h
  have h1 : q.ndim = 1 := by simp [Tns.ndim, h]
  have hu : (unsq0 q).shape = [1] ++ [4] := by simp [unsq0, h]
  obtain ⟨j, r', hj, hjs, -, hjv⟩ := jquatToRot_ok hu (by simp)
  have e : jquatToRot q = jquatToRot (unsq0 q) := by
    have h2 : (unsq0 q).ndim ≠ 1 := by simp [Tns.ndim, unsq0, h]
    unfold jquatToRot
    simp only [if_pos h1, if_neg h2]
  refine ⟨r, j, by simp [quaternionToRotation, hr, e, hj], hs, hv [] rfl, hjs, ?_⟩
  rw [hjv [0] rfl]
  rfl

/-- **C120.** Anything that has not four entries in the last dimension is rejected. -/
theorem quaternion_shape_error {q : Tns} {A : List ℕ} {n : ℕ} (h : q.shape = A ++ [n]) (hn : n ≠ 4) (J : Bool) :
    quaternionToRotation q J = .error .shape := by
  have key : ∀ (p : Tns) (B : List ℕ), p.shape = B ++ [n] → p.shape.drop (p.ndim - 1) ≠ [4] := by
    intro p B hp
    have : p.ndim - 1 = B.length := by simp [Tns.ndim, hp]
    rw [this]
    simp [hp, hn]
  have k1 := key q A h
  have k2 := key (unsq0 q) (1 :: A) (by simp [unsq0, h])
  unfold quaternionToRotation jquatToRot quatToRot
  by_cases h1 : q.ndim = 1
  · simp only [if_pos h1, if_pos k1, if_pos k2]
    cases J <;> rfl
  · simp only [if_neg h1, if_pos k1]
    cases J <;> rfl

/-! ### The backward pass -/

theorem projectLast_shape {t : Tns} {A : List ℕ} (h : t.shape = A ++ [3, 3]) :
    (projectLast projEntry 3 t).shape = A ++ [3] ∧ ∀ b, b.length = A.length →
      vecOf 3 (projectLast projEntry 3 t) b = SO3.project (matOf 3 3 t b) := by
  have hn : t.ndim - 2 = A.length := by simp [Tns.ndim, h]
  refine ⟨by simp [projectLast, hn, h], fun b hb => ?_⟩
  funext i
  simp only [vecOf, projectLast, hn, ← hb]
  rw [show (b ++ [i.val]).take b.length = b by simp, show (b ++ [i.val]).getD b.length 0 = i.val by simp]
  fin_cases i <;> simp [projEntry, SO3.project, matOf]

/-- The Jacobian function, single quaternions included: it differs in dimensions of size 1 in front. -/
theorem jquatToRot_any {q : Tns} {A : List ℕ} (h : q.shape = A ++ [4]) :
    ∃ j r B, jquatToRot q = .ok (j, r) ∧ j.shape = B ++ [3, 4] ∧ (B = A ∨ (A = [] ∧ B = [1])) ∧
      ∀ b, In b B → matOf 3 4 j b = SO3.jquaternion (vecOf 4 q (b.drop (B.length - A.length))) := by
  by_cases hA : A = []
  · subst hA
    have h1 : q.ndim = 1 := by simp [Tns.ndim, h]
    have hu : (unsq0 q).shape = [1] ++ [4] := by simp [unsq0, h]
    obtain ⟨j, r', hj, hjs, -, hjv⟩ := jquatToRot_ok hu (by simp)
    have e : jquatToRot q = jquatToRot (unsq0 q) := by
      have h2 : (unsq0 q).ndim ≠ 1 := by simp [Tns.ndim, unsq0, h]
      unfold jquatToRot
      simp only [if_pos h1, if_neg h2]
    refine ⟨j, r', [1], by rw [e, hj], hjs, Or.inr ⟨rfl, rfl⟩, fun b hb => ?_⟩
    have hbl := hb.length_eq
    rw [hjv b hbl]
    congr 1
    funext i
    simp only [vecOf, unsq0]
    congr 1
    match b, hbl with
    | [x], _ => simp
  · obtain ⟨j, r, hj, hjs, -, hjv⟩ := jquatToRot_ok h hA
    exact ⟨j, r, A, hj, hjs, Or.inl rfl, fun b hb => by rw [hjv b hb.length_eq]; simp⟩

/-- **C120 (gradient).** For an output gradient of the shape of the rotations, the gradient has the shape of the
quaternions, single ones included, and is at every index the gradient for the single quaternion
(`so3_quaternion_backward`). -/
theorem quatGrad_spec {q c : Tns} {A : List ℕ} (h : q.shape = A ++ [4]) (hc : c.shape = A ++ [3, 3]) :
    ∃ g, quatGrad q c = .ok g ∧ g.shape = q.shape ∧ ∀ b, In b A →
      vecOf 4 g b = SO3.quaternionBackward (vecOf 4 q b) (matOf 3 3 c b) := by
  obtain ⟨r, hr, hs, hv⟩ := quatToRot_ok h
  obtain ⟨j, r', B, hj, hjs, hB, hjv⟩ := jquatToRot_any h
  obtain ⟨r1, r2⟩ := mT_shape hs
  obtain ⟨j1, j2⟩ := mT_shape hjs
  obtain ⟨d, ed, sd, vd⟩ := (matmul_eq r1 hc).2.2 rfl A (bcast_self A)
  obtain ⟨p1, p2⟩ := projectLast_shape sd
  obtain ⟨u1, u2⟩ := unsq_shape p1
  have hBA : bcast B A = some B := by
    rcases hB with rfl | ⟨rfl, rfl⟩
    · exact bcast_self _
    · decide
  obtain ⟨g, eg, sg, vg⟩ := (matmul_eq j1 u1).2.2 rfl B hBA
  have hprod : B.prod = A.prod := by
    rcases hB with rfl | ⟨rfl, rfl⟩ <;> simp
  have hlen : g.ndim - 1 - q.shape.length = B.length - A.length := by
    simp only [Tns.ndim, sg, h, List.length_append, List.length_cons, List.length_nil]
    omega
  unfold quatGrad
  rw [hr, hj]
  dsimp only
  rw [ed]
  dsimp only
  rw [eg]
  dsimp only
  unfold viewCol
  rw [if_neg (by rw [sg, h]; simp [hprod]), hlen]
  refine ⟨_, rfl, rfl, fun b hb => ?_⟩
  have hbl := hb.length_eq
  have hin : In (List.replicate (B.length - A.length) 0 ++ b) B := by
    rcases hB with rfl | ⟨rfl, rfl⟩
    · simpa using hb
    · cases hb
      exact In.one (by decide)
  have hdrop : (List.replicate (B.length - A.length) 0 ++ b).drop (B.length - A.length) = b := by
    rw [List.drop_left' (by simp)]
  have hD : matOf 3 3 d b = (SO3.ofQuaternion (vecOf 4 q b))ᵀ * matOf 3 3 c b := by
    rw [← hv b hbl]
    ext i k
    simp only [matOf, Matrix.of_apply, Matrix.mul_apply, Matrix.transpose_apply]
    rw [vd b i k hbl, Finset.sum_range]
    apply Finset.sum_congr rfl
    intro l _
    rw [bidx_self hb, r2 _ _ _ hbl]
  unfold SO3.quaternionBackward
  rw [← hD, ← p2 b hbl, ← hdrop, ← hjv _ hin, hdrop]
  funext i
  simp only [vecOf, Matrix.mulVec, dotProduct, Matrix.transpose_apply, matOf, Matrix.of_apply]
  rw [show List.replicate (B.length - A.length) 0 ++ (b ++ [i.val]) ++ [0]
    = (List.replicate (B.length - A.length) 0 ++ b) ++ [i.val, 0] by simp]
  rw [vg _ i 0 hin.length_eq, Finset.sum_range]
  apply Finset.sum_congr rfl
  intro l _
  rw [bidx_self hin, j2 _ _ _ hin.length_eq, bidx_skip _ _ (by rw [hbl]), bidx_self hb, u2 _ _ _ hbl]

/-- One quaternion, and a batch of two by five. -/
example : ([4] : List ℕ) = [] ++ [4] ∧ In [1, 4] [2, 5] := ⟨rfl, In.two (by decide) (by decide)⟩

end Verif.Lie.Batch
