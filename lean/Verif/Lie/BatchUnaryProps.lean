import Verif.Lie.BatchUnary
import Verif.Lie.BatchQuatProps

/-!
# C121: `SE3.inverse` and `SE3.adjoint` on batches, forwards and backwards

At every index the result is that of the single pose, and the gradient that of the single pose (which
`Verif.Geometry.se3_backward` proves to be the gradient).
-/

namespace Verif.Lie.Batch
open Verif.Geometry Matrix

theorem pose_ext {r : Tns} {b : List ℕ} {p : SE3} (h1 : ∀ i j : Fin 3, r.val (b ++ [i.val, j.val]) = p.R i j)
    (h2 : ∀ i : Fin 3, r.val (b ++ [i.val, 3]) = p.t i) : poseOf r b = p := by
  apply SE3.ext
  · ext i j; exact h1 i j
  · ext i; exact h2 i

/-- **C121 (`SE3.inverse`).** -/
theorem se3Inverse_spec {g : Tns} {G : List ℕ} (hg : g.shape = G ++ [3, 4]) :
    ∃ r, se3InverseOp g = .ok r ∧ r.shape = G ++ [3, 4] ∧ ∀ b, In b G → poseOf r b = SE3.inverse (poseOf g b) := by
  obtain ⟨g1, g2⟩ := cols_shape 0 3 hg
  obtain ⟨g3, g4⟩ := cols_shape 3 1 hg
  obtain ⟨t1, t2⟩ := mT_shape g1
  obtain ⟨m, em, sm, vm⟩ := (matmul_eq (a := negT (mT (cols g 0 3))) t1 g3).2.2 rfl G (bcast_self G)
  obtain ⟨r, er, sr, vr⟩ := catLast_ok t1 sm
  unfold se3InverseOp
  rw [if_neg (by simp [drop_two hg])]
  dsimp only
  rw [em]
  refine ⟨r, er, sr, fun b hb => ?_⟩
  have hbl := hb.length_eq
  apply pose_ext
  · intro i j
    rw [vr b i j hbl, if_pos j.isLt, t2 _ _ _ hbl, g2 _ _ _ hbl]
    rfl
  · intro i
    rw [vr b i 3 hbl, if_neg (by omega), vm b i _ hbl]
    simp only [SE3.inverse, Matrix.mulVec, dotProduct, Matrix.neg_apply, Matrix.transpose_apply]
    rw [Finset.sum_range]
    apply Finset.sum_congr rfl
    intro l _
    rw [bidx_self hb, negT_shape.2, t2 _ _ _ hbl, g2 _ _ _ hbl, g4 _ _ _ hbl]
    simp [poseOf, matOf]

/-- A batch of two by five poses. -/
example : In [1, 4] [2, 5] := In.two (by decide) (by decide)

/-- **C121 (gradient of `SE3.inverse`).** -/
theorem se3InverseGrad_spec {g c : Tns} {G : List ℕ} (hg : g.shape = G ++ [3, 4]) (hc : c.shape = G ++ [3, 4]) :
    ∃ r, se3InverseGrad g c = .ok r ∧ r.shape = g.shape ∧ ∀ b, In b G →
      poseOf r b = SE3.inverseBackward (poseOf g b) (poseOf c b) := by
  obtain ⟨g1, g2⟩ := cols_shape 0 3 hg
  obtain ⟨g3, g4⟩ := cols_shape 3 1 hg
  obtain ⟨c1, c2⟩ := cols_shape 0 3 hc
  obtain ⟨c3, c4⟩ := cols_shape 3 1 hc
  obtain ⟨t1, t2⟩ := mT_shape c1
  obtain ⟨t3, t4⟩ := mT_shape c3
  obtain ⟨o, eo, so, vo⟩ := (matmul_eq g3 t3).2.2 rfl G (bcast_self G)
  obtain ⟨rot, er, sr, vr⟩ := ewise_same (f := (· - ·)) t1 so
  obtain ⟨m, em, sm, vm⟩ := (matmul_eq (a := negT (cols g 0 3)) g1 c3).2.2 rfl G (bcast_self G)
  obtain ⟨r, e, s, v⟩ := catLast_ok sr sm
  unfold se3InverseGrad
  rw [eo]
  dsimp only
  rw [er, em]
  refine ⟨r, e, by rw [s, hg], fun b hb => ?_⟩
  have hbl := hb.length_eq
  apply pose_ext
  · intro i j
    rw [v b i j hbl, if_pos j.isLt, vr _ (In.append hb (In.two i.isLt j.isLt)), t2 _ _ _ hbl, c2 _ _ _ hbl,
      vo b i j hbl, Finset.sum_range_one, bidx_self hb, g4 _ _ _ hbl, t4 _ _ _ hbl, c4 _ _ _ hbl]
    simp [SE3.inverseBackward, poseOf, matOf, outer3]
  · intro i
    rw [v b i 3 hbl, if_neg (by omega), vm b i _ hbl]
    simp only [SE3.inverseBackward, Matrix.mulVec, dotProduct, Matrix.neg_apply]
    rw [Finset.sum_range]
    apply Finset.sum_congr rfl
    intro l _
    rw [bidx_self hb, negT_shape.2, g2 _ _ _ hbl, c4 _ _ _ hbl]
    simp [poseOf, matOf]

theorem hat_translation {g : Tns} {G : List ℕ} (hg : g.shape = G ++ [3, 4]) :
    ∃ h, so3Hat (sq (cols g 3 1)) = .ok h ∧ h.shape = G ++ [3, 3] ∧
      ∀ b, b.length = G.length → matOf 3 3 h b = SO3.hat (poseOf g b).t := by
  obtain ⟨g3, g4⟩ := cols_shape 3 1 hg
  obtain ⟨q1, q2⟩ := sq_shape g3
  obtain ⟨h, eh, sh, vh⟩ := so3Hat_ok q1
  refine ⟨h, eh, sh, fun b hb => ?_⟩
  rw [matOf_hat (t := sq (cols g 3 1)) fun i j => vh b i j hb]
  congr 1
  funext i
  simp only [vecOf, poseOf, q2, g4 _ _ _ hb]

theorem matOf_mul {x y r : Tns} {G b : List ℕ} (hb : In b G)
    (v : ∀ p i j, p.length = G.length → r.val (p ++ [i, j])
      = ∑ q ∈ Finset.range 3, x.val (bidx G p ++ [i, q]) * y.val (bidx G p ++ [q, j])) :
    matOf 3 3 r b = matOf 3 3 x b * matOf 3 3 y b := by
  ext i j
  simp only [matOf, Matrix.of_apply, Matrix.mul_apply]
  rw [v b i j hb.length_eq, bidx_self hb, Finset.sum_range]

/-- **C121 (`SE3.adjoint`).** -/
theorem se3Adjoint_spec {g : Tns} {G : List ℕ} (hg : g.shape = G ++ [3, 4]) :
    ∃ r, se3AdjointOp g = .ok r ∧ r.shape = G ++ [6, 6] ∧ ∀ b, In b G → matOf 6 6 r b = SE3.adjoint (poseOf g b) := by
  have gn : g.shape.take (g.ndim - 2) = G := take_sub_two hg
  obtain ⟨g1, g2⟩ := cols_shape 0 3 hg
  obtain ⟨h, eh, sh, vh⟩ := hat_translation hg
  obtain ⟨m, em, sm, vm⟩ := (matmul_eq sh g1).2.2 rfl G (bcast_self G)
  obtain ⟨r1, e1, s1, v1⟩ := setBlock_ok (d := ⟨G ++ [6, 6], fun _ => 0⟩) (a := 0) (b := 0) rfl g1
  obtain ⟨r2, e2, s2, v2⟩ := setBlock_ok (a := 3) (b := 3) s1 g1
  obtain ⟨r3, e3, s3, v3⟩ := setBlock_ok (a := 0) (b := 3) s2 sm
  unfold se3AdjointOp
  rw [if_neg (by simp [drop_two hg])]
  simp only [gn]
  rw [e1]
  dsimp only
  rw [e2, eh]
  dsimp only
  rw [em]
  refine ⟨r3, e3, s3, fun b hb => ?_⟩
  have hbl := hb.length_eq
  have hR : ∀ i j : Fin 3, (cols g 0 3).val (b ++ [i.val, j.val]) = (poseOf g b).R i j := fun i j => by
    rw [g2 _ _ _ hbl]; rfl
  have hRm : matOf 3 3 (cols g 0 3) b = (poseOf g b).R := by ext i j; exact hR i j
  have hM : ∀ i j : Fin 3, m.val (b ++ [i.val, j.val]) = (SO3.hat (poseOf g b).t * (poseOf g b).R) i j := fun i j => by
    rw [← vh b hbl, ← hRm, ← matOf_mul hb vm]; rfl
  ext i j
  simp only [matOf, Matrix.of_apply]
  rw [v3 b i j hb, v2 b i j hb, v1 b i j hb]
  generalize hP : poseOf g b = P at hR hM
  generalize hMM : SO3.hat P.t * P.R = MM at hM
  unfold SE3.adjoint
  rw [hMM]
  have R00 := hR 0 0; have R01 := hR 0 1; have R02 := hR 0 2
  have R10 := hR 1 0; have R11 := hR 1 1; have R12 := hR 1 2
  have R20 := hR 2 0; have R21 := hR 2 1; have R22 := hR 2 2
  have M00 := hM 0 0; have M01 := hM 0 1; have M02 := hM 0 2
  have M10 := hM 1 0; have M11 := hM 1 1; have M12 := hM 1 2
  have M20 := hM 2 0; have M21 := hM 2 1; have M22 := hM 2 2
  simp only [Fin.val_zero, Fin.val_one, Fin.val_two] at R00 R01 R02 R10 R11 R12 R20 R21 R22 M00 M01 M02 M10 M11 M12 M20 M21 M22
  fin_cases i <;> fin_cases j <;> simp [SE3.block, R00, R01, R02, R10, R11, R12, R20, R21, R22, M00, M01, M02, M10, M11,
    M12, M20, M21, M22]

/-- **C121 (`SE3.jinverse`).** -/
theorem se3JInverse_spec {g : Tns} {G : List ℕ} (hg : g.shape = G ++ [3, 4]) :
    ∃ j r, se3JInverseOp g = .ok ([j], r) ∧ j.shape = G ++ [6, 6] ∧ r.shape = G ++ [3, 4] ∧ ∀ b, In b G →
      matOf 6 6 j b = -SE3.adjoint (poseOf g b) ∧ poseOf r b = SE3.inverse (poseOf g b) := by
  obtain ⟨a, ea, sa, va⟩ := se3Adjoint_spec hg
  obtain ⟨r, er, sr, vr⟩ := se3Inverse_spec hg
  refine ⟨negT a, r, by unfold se3JInverseOp; rw [ea, er], by rw [negT_shape.1, sa], sr, fun b hb => ⟨?_, vr b hb⟩⟩
  rw [← va b hb]
  ext i j
  simp [matOf, negT_shape.2]

/-- **C121 (gradient of `SE3.adjoint`).** `A`, `B`, `D` are the blocks `[:3, :3]`, `[:3, 3:]` and `[3:, 3:]` of the
output gradient. -/
theorem se3AdjointGrad_spec {g c : Tns} {G : List ℕ} (hg : g.shape = G ++ [3, 4]) (hc : c.shape = G ++ [6, 6]) :
    ∃ r, se3AdjointGrad g c = .ok r ∧ r.shape = g.shape ∧ ∀ b, In b G → ∀ A B D : M3,
      (∀ i j : Fin 3, c.val (b ++ [i.val, j.val]) = A i j ∧ c.val (b ++ [i.val, j.val + 3]) = B i j ∧
        c.val (b ++ [i.val + 3, j.val + 3]) = D i j) →
      poseOf r b = SE3.adjointBackward (poseOf g b) A B D := by
  obtain ⟨g1, g2⟩ := cols_shape 0 3 hg
  obtain ⟨t1, t2⟩ := mT_shape g1
  obtain ⟨a1, a2⟩ := cols_shape 0 3 hc
  obtain ⟨a3, a4⟩ := cols_shape 3 3 hc
  obtain ⟨x1, x2⟩ := rows_shape 0 3 a1
  obtain ⟨y1, y2⟩ := rows_shape 3 3 a3
  obtain ⟨z1, z2⟩ := rows_shape 0 3 a3
  obtain ⟨h, eh, sh, vh⟩ := hat_translation hg
  obtain ⟨s, es, ss, vs⟩ := ewise_same (f := (· + ·)) x1 y1
  obtain ⟨m, em, sm, vm⟩ := (matmul_eq sh z1).2.2 rfl G (bcast_self G)
  obtain ⟨p, ep, sp, vp⟩ := (matmul_eq z1 t1).2.2 rfl G (bcast_self G)
  obtain ⟨rot, er, sr, vr⟩ := ewise_same (f := (· - ·)) ss sm
  obtain ⟨p1, p2⟩ := projectLast_shape sp
  obtain ⟨u1, u2⟩ := unsq_shape p1
  obtain ⟨r, e, sR, v⟩ := catLast_ok sr u1
  unfold se3AdjointGrad
  dsimp only
  rw [es, eh]
  dsimp only
  rw [em, ep]
  dsimp only
  rw [er]
  refine ⟨r, e, by rw [sR, hg], fun b hb A B D hABD => ?_⟩
  have hbl := hb.length_eq
  have hB : matOf 3 3 (rows (cols c 3 3) 0 3) b = B := by
    ext i j
    simp only [matOf, Matrix.of_apply]
    rw [z2 _ _ _ hbl, a4 _ _ _ hbl]
    exact (hABD i j).2.1
  have hT : matOf 3 3 (mT (cols g 0 3)) b = (poseOf g b).Rᵀ := by
    ext i j
    simp only [matOf, Matrix.of_apply]
    rw [t2 _ _ _ hbl, g2 _ _ _ hbl]
    rfl
  have hm : matOf 3 3 m b = SO3.hat (poseOf g b).t * B := by rw [matOf_mul hb vm, vh b hbl, hB]
  have hp : matOf 3 3 p b = B * (poseOf g b).Rᵀ := by rw [matOf_mul hb vp, hT, hB]
  apply pose_ext
  · intro i j
    have hi := In.append hb (In.two i.isLt j.isLt)
    rw [v b i j hbl, if_pos j.isLt, vr _ hi, vs _ hi, x2 _ _ _ hbl, a2 _ _ _ hbl, y2 _ _ _ hbl, a4 _ _ _ hbl]
    simp only [SE3.adjointBackward, Matrix.sub_apply, Matrix.add_apply, Nat.add_zero]
    rw [(hABD i j).1, (hABD i j).2.2, ← hm]
    rfl
  · intro i
    rw [v b i 3 hbl, if_neg (by omega), u2 _ _ _ hbl]
    have := congrFun (p2 b hbl) i
    rw [hp] at this
    exact this

end Verif.Lie.Batch
