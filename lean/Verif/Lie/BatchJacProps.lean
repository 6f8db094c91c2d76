import Verif.Lie.BatchJac
import Verif.Lie.BatchSE3Props
import Verif.Geometry.SpatialJac

/-!
# C119: the Jacobians of `compose`, `transform` and `untransform` on batches

At every index of the broadcast batch shape the result and the Jacobians are those of the single elements, as
`Verif.Geometry` models them and proves them to be derivatives.
-/

namespace Verif.Lie.Batch
open Verif.Geometry Matrix

/-- The matrix at the index `b` of a batch of matrices. -/
def matOf (m n : ℕ) (t : Tns) (b : List ℕ) : Matrix (Fin m) (Fin n) ℝ := Matrix.of fun i j => t.val (b ++ [i.val, j.val])

/-- The vector at the index `b` of a batch of vectors. -/
def vecOf (n : ℕ) (t : Tns) (b : List ℕ) : Fin n → ℝ := fun i => t.val (b ++ [i.val])

/-- The pose at the index `b` of a batch of `SE3`. -/
def poseOf (t : Tns) (b : List ℕ) : SE3 := ⟨matOf 3 3 t b, fun i => t.val (b ++ [i.val, 3])⟩

theorem sum3 (f : ℕ → ℝ) : ∑ l ∈ Finset.range 3, f l = f 0 + f 1 + f 2 := by
  simp [Finset.sum_range_succ]

theorem matOf_hat {t r : Tns} {b : List ℕ} (h : ∀ i j, r.val (b ++ [i, j]) = liftEntry (fun c => t.val (b ++ [c])) i j) :
    matOf 3 3 r b = SO3.hat (vecOf 3 t b) := by
  ext i j
  simp only [matOf, Matrix.of_apply, h]
  fin_cases i <;> fin_cases j <;> simp [liftEntry, SO3.hat, vecOf]

theorem matOf_eyes {N b : List ℕ} (n : ℕ) (hb : b.length = N.length) : matOf n n (eyes N n) b = 1 := by
  ext i j
  simp only [matOf, Matrix.of_apply, eyes, ← hb, Matrix.one_apply]
  simp [Fin.ext_iff]

theorem bcast_self (N : List ℕ) : bcast N N = some N := by
  simp [bcast, bcastRev_self]

theorem take_sub_two {r : Tns} {N : List ℕ} {m n : ℕ} (h : r.shape = N ++ [m, n]) : r.shape.take (r.ndim - 2) = N := by
  simp [Tns.ndim, h]

theorem take_sub_one {r : Tns} {N : List ℕ} {m : ℕ} (h : r.shape = N ++ [m]) : r.shape.take (r.ndim - 1) = N := by
  simp [Tns.ndim, h]

/-! ### `compose` -/

/-- **C119 (`SO3.jcompose`).** -/
theorem so3JCompose_spec {g h : Tns} {G H : List ℕ} (hg : g.shape = G ++ [3, 3]) (hh : h.shape = H ++ [3, 3]) :
    (bcast G H = none → so3JCompose g h = .error .torch) ∧
    ∀ N, bcast G H = some N → ∃ j0 j1 r, so3JCompose g h = .ok ((j0, j1), r) ∧ so3Compose g h = .ok r ∧
      r.shape = N ++ [3, 3] ∧ j0.shape = N ++ [3, 3] ∧ j1.shape = N ++ [3, 3] ∧
      ∀ b, In b N →
        matOf 3 3 r b = matOf 3 3 g (bidx G b) * matOf 3 3 h (bidx H b) ∧
        (matOf 3 3 j0 b, matOf 3 3 j1 b) = SO3.jcompose (matOf 3 3 g (bidx G b)) (matOf 3 3 h (bidx H b)) := by
  have w := so3Compose_spec hg hh
  unfold so3JCompose
  constructor
  · intro hN
    rw [w.1 hN]
  · intro N hN
    obtain ⟨r, er, sr, vr⟩ := w.2 N hN
    obtain ⟨t1, t2⟩ := mT_shape hh
    obtain ⟨hGl, hHl⟩ := bcast_lengths hN
    obtain ⟨j0, e0, s0, v0⟩ := expandTo_mat t1 (by rw [bcast_comm]; exact bcast_right hN)
    rw [er]
    simp only [take_sub_two sr]
    rw [e0]
    refine ⟨j0, eyes N 3, r, rfl, rfl, sr, s0, rfl, fun b hb => ?_⟩
    have hbl := hb.length_eq
    have lH : (bidx H b).length = H.length := bidx_length (by omega)
    constructor
    · ext i j
      simp only [matOf, Matrix.of_apply, Matrix.mul_apply]
      rw [vr b i j hbl, Finset.sum_range]
    · unfold SO3.jcompose
      rw [matOf_eyes 3 hbl]
      congr 1
      ext i j
      simp only [matOf, Matrix.of_apply, Matrix.transpose_apply]
      rw [v0 b i j hb i.isLt j.isLt, t2 _ _ _ lH]

/-- A batch of 5 rotations with one rotation. -/
example : bcast [5] [] = some [5] ∧ In [4] [5] := ⟨by decide, In.one (by decide)⟩

/-- **C119 (`SE3.jcompose`).** -/
theorem se3JCompose_spec {g h : Tns} {G H : List ℕ} (hg : g.shape = G ++ [3, 4]) (hh : h.shape = H ++ [3, 4]) :
    (bcast G H = none → se3JCompose g h = .error .torch) ∧
    ∀ N, bcast G H = some N → ∃ j0 j1 r, se3JCompose g h = .ok ((j0, j1), r) ∧ se3Compose g h = .ok r ∧
      r.shape = N ++ [3, 4] ∧ j0.shape = N ++ [6, 6] ∧ j1.shape = N ++ [6, 6] ∧
      ∀ b, In b N →
        poseOf r b = SE3.compose (poseOf g (bidx G b)) (poseOf h (bidx H b)) ∧
        (matOf 6 6 j0 b, matOf 6 6 j1 b) = SE3.jcompose (poseOf g (bidx G b)) (poseOf h (bidx H b)) := by
  have w := se3Compose_spec hg hh
  unfold se3JCompose
  constructor
  · intro hN
    rw [w.1 hN]
  · intro N hN
    obtain ⟨r, er, sr, vr⟩ := w.2 N hN
    obtain ⟨t1, t2⟩ := se3Inverse_shape hh
    obtain ⟨a, ea, sa, va⟩ := se3Adjoint_ok t1
    obtain ⟨hGl, hHl⟩ := bcast_lengths hN
    obtain ⟨j0, e0, s0, v0⟩ := expandTo_mat sa (by rw [bcast_comm]; exact bcast_right hN)
    rw [er]
    simp only [take_sub_two sr]
    rw [ea]
    dsimp only
    rw [e0]
    refine ⟨j0, eyes N 6, r, rfl, rfl, sr, s0, rfl, fun b hb => ?_⟩
    have hbl := hb.length_eq
    have lH : (bidx H b).length = H.length := bidx_length (by omega)
    constructor
    · apply SE3.ext
      · ext i j
        simp only [SE3.compose, poseOf, matOf, Matrix.of_apply, Matrix.mul_apply]
        rw [(vr b i hb).1 j j.isLt, Finset.sum_range]
      · ext i
        simp only [SE3.compose, poseOf, matOf, Pi.add_apply, Matrix.mulVec, dotProduct, Matrix.of_apply]
        rw [(vr b i hb).2, Finset.sum_range]
    · unfold SE3.jcompose
      rw [matOf_eyes 6 hbl]
      congr 1
      ext i j
      simp only [matOf, Matrix.of_apply]
      rw [v0 b i j hb i.isLt j.isLt, va _ _ _ lH]
      simp only [adjointEntry, t2 _ _ _ lH]
      fin_cases i <;> fin_cases j <;>
        simp [SE3.adjoint, SE3.inverse, SE3.block, poseOf, matOf, liftEntry, SO3.hat, Matrix.mul_apply, Matrix.mulVec,
          dotProduct, Fin.sum_univ_three, Finset.sum_range_succ]

/-! ### `transform` -/

/-- **C119 (`SO3.jtransform`).** -/
theorem so3JTransform_spec {g t : Tns} {G T : List ℕ} (hg : g.shape = G ++ [3, 3]) (ht : t.shape = T ++ [3]) :
    (bcast G T = none → so3JTransform g t = .error .torch) ∧
    ∀ N, bcast G T = some N → ∃ jg jp r, so3JTransform g t = .ok ((jg, jp), r) ∧ so3Transform g t = .ok r ∧
      r.shape = N ++ [3] ∧ jg.shape = N ++ [3, 3] ∧ jp.shape = N ++ [3, 3] ∧
      ∀ b, In b N →
        vecOf 3 r b = SO3.transform (matOf 3 3 g (bidx G b)) (vecOf 3 t (bidx T b)) ∧
        (matOf 3 3 jg b, matOf 3 3 jp b) = SO3.jtransform (matOf 3 3 g (bidx G b)) (vecOf 3 t (bidx T b)) := by
  have w := so3Transform_spec hg ht
  unfold so3JTransform
  constructor
  · intro hN
    rw [w.1 hN]
  · intro N hN
    obtain ⟨r, er, sr, vr⟩ := w.2 N hN
    obtain ⟨hGl, hTl⟩ := bcast_lengths hN
    obtain ⟨h, eh, sh, vh⟩ := so3Hat_ok ht
    obtain ⟨m, em, sm, vm⟩ := (matmul_eq (a := negT g) hg sh).2.2 rfl N hN
    obtain ⟨jg, eg, sg, vg⟩ := expandTo_mat sm (bcast_self N)
    obtain ⟨jp, ep, sp, vp⟩ := expandTo_mat hg (bcast_idem hN)
    rw [er]
    simp only [take_sub_one sr]
    rw [eh]
    dsimp only
    rw [em]
    dsimp only
    rw [eg, ep]
    refine ⟨jg, jp, r, rfl, rfl, sr, sg, sp, fun b hb => ?_⟩
    have hbl := hb.length_eq
    have lT : (bidx T b).length = T.length := bidx_length (by omega)
    constructor
    · ext i
      simp only [SO3.transform, vecOf, matOf, Matrix.mulVec, dotProduct, Matrix.of_apply]
      rw [vr b i hbl, Finset.sum_range]
    · unfold SO3.jtransform
      refine Prod.ext ?_ ?_
      · show matOf 3 3 jg b = _
        rw [← matOf_hat (t := t) (r := h) fun i j => vh _ i j lT]
        ext i j
        simp only [matOf, Matrix.of_apply, Matrix.mul_apply, Matrix.neg_apply]
        rw [vg b i j hb i.isLt j.isLt, bidx_self hb, vm b i j hbl, Finset.sum_range]
        rfl
      · ext i j
        exact vp b i j hb i.isLt j.isLt

/-- **C119 (`SE3.jtransform`),** whatever `new_empty` finds in memory. -/
theorem se3JTransform_spec (junk : List ℕ → ℝ) {g t : Tns} {G T : List ℕ} (hg : g.shape = G ++ [3, 4])
    (ht : t.shape = T ++ [3]) :
    (bcast G T = none → se3JTransform junk g t = .error .torch) ∧
    ∀ N, bcast G T = some N → ∃ jg jp r, se3JTransform junk g t = .ok ((jg, jp), r) ∧ se3Transform g t = .ok r ∧
      r.shape = N ++ [3] ∧ jg.shape = N ++ [3, 6] ∧ jp.shape = N ++ [3, 3] ∧
      ∀ b, In b N →
        vecOf 3 r b = SE3.transform (poseOf g (bidx G b)) (vecOf 3 t (bidx T b)) ∧
        (matOf 3 6 jg b, matOf 3 3 jp b) = SE3.jtransform (poseOf g (bidx G b)) (vecOf 3 t (bidx T b)) := by
  have w := se3Transform_spec hg ht
  unfold se3JTransform
  constructor
  · intro hN
    rw [w.1 hN]
  · intro N hN
    obtain ⟨r, er, sr, vr⟩ := w.2 N hN
    obtain ⟨hGl, hTl⟩ := bcast_lengths hN
    obtain ⟨g1, g2⟩ := cols_shape 0 3 hg
    obtain ⟨h, eh, sh, vh⟩ := so3Hat_ok ht
    obtain ⟨k, ek, sk, vk⟩ := setCols_mat (d := ⟨N ++ [3, 6], junk⟩) (a := 0) rfl g1 (bcast_idem hN)
    obtain ⟨m, em, sm, vm⟩ := (matmul_eq (a := negT (cols g 0 3)) g1 sh).2.2 rfl N hN
    obtain ⟨l, el, sl, vl⟩ := setCols_mat (a := 3) sk sm (bcast_self N)
    obtain ⟨jg, eg, sg, vg⟩ := expandTo_mat sl (bcast_self N)
    obtain ⟨jp, ep, sp, vp⟩ := expandTo_mat g1 (bcast_idem hN)
    rw [er]
    simp only [take_sub_one sr]
    rw [ek, eh]
    dsimp only
    rw [em]
    dsimp only
    rw [el]
    dsimp only
    rw [eg, ep]
    refine ⟨jg, jp, r, rfl, rfl, sr, sg, sp, fun b hb => ?_⟩
    have hbl := hb.length_eq
    have lT : (bidx T b).length = T.length := bidx_length (by omega)
    have lG : (bidx G b).length = G.length := bidx_length (by omega)
    have neg : ∀ i j, (negT (cols g 0 3)).val (bidx G b ++ [i, j]) = -g.val (bidx G b ++ [i, j]) := fun i j => by
      rw [negT_shape.2, g2 _ _ _ lG]; rfl
    constructor
    · ext i
      simp only [SE3.transform, vecOf, poseOf, matOf, Matrix.mulVec, dotProduct, Matrix.of_apply, Pi.add_apply]
      rw [vr b i hb, Finset.sum_range, add_comm]
    · unfold SE3.jtransform
      refine Prod.ext ?_ ?_
      · show matOf 3 6 jg b = _
        rw [← matOf_hat (t := t) (r := h) fun i j => vh _ i j lT]
        ext i j
        simp only [matOf, Matrix.of_apply]
        rw [vg b i j hb i.isLt j.isLt, bidx_self hb, vl b i j hb i.isLt, bidx_self hb, vm b i _ hbl, vk b i j hb i.isLt,
          g2 _ _ _ lG]
        simp only [neg]
        fin_cases i <;> fin_cases j <;>
          simp [SE3.row, poseOf, matOf, Matrix.mul_apply, Fin.sum_univ_three, Finset.sum_range_succ]
      · ext i j
        show jp.val _ = _
        rw [vp b i j hb i.isLt j.isLt, g2 _ _ _ lG]
        rfl

/-! ### `untransform` -/

/-- **C119 (`SO3.juntransform`).** -/
theorem so3JUntransform_spec {g t : Tns} {G T : List ℕ} (hg : g.shape = G ++ [3, 3]) (ht : t.shape = T ++ [3]) :
    (bcast G T = none → so3JUntransform g t = .error .torch) ∧
    ∀ N, bcast G T = some N → ∃ jg jp r, so3JUntransform g t = .ok ((jg, jp), r) ∧ so3Untransform g t = .ok r ∧
      r.shape = N ++ [3] ∧ jg.shape = N ++ [3, 3] ∧ jp.shape = N ++ [3, 3] ∧
      ∀ b, In b N →
        vecOf 3 r b = SO3.untransform (matOf 3 3 g (bidx G b)) (vecOf 3 t (bidx T b)) ∧
        (matOf 3 3 jg b, matOf 3 3 jp b) = SO3.juntransform (matOf 3 3 g (bidx G b)) (vecOf 3 t (bidx T b)) := by
  have w := so3Untransform_spec hg ht
  unfold so3JUntransform
  constructor
  · intro hN
    rw [w.1 hN]
  · intro N hN
    obtain ⟨r, er, sr, vr⟩ := w.2 N hN
    obtain ⟨hGl, hTl⟩ := bcast_lengths hN
    obtain ⟨h, eh, sh, vh⟩ := so3Hat_ok sr
    obtain ⟨t1, t2⟩ := mT_shape hg
    obtain ⟨jg, eg, sg, vg⟩ := expandTo_mat sh (bcast_self N)
    obtain ⟨jp, ep, sp, vp⟩ := expandTo_mat t1 (bcast_idem hN)
    rw [er]
    simp only [take_sub_one sr]
    rw [eh]
    dsimp only
    rw [eg, ep]
    refine ⟨jg, jp, r, rfl, rfl, sr, sg, sp, fun b hb => ?_⟩
    have hbl := hb.length_eq
    have lG : (bidx G b).length = G.length := bidx_length (by omega)
    have hr : vecOf 3 r b = SO3.untransform (matOf 3 3 g (bidx G b)) (vecOf 3 t (bidx T b)) := by
      ext i
      simp only [SO3.untransform, vecOf, matOf, Matrix.mulVec, dotProduct, Matrix.of_apply, Matrix.transpose_apply]
      rw [vr b i hb, Finset.sum_range]
    refine ⟨hr, ?_⟩
    unfold SO3.juntransform
    refine Prod.ext ?_ ?_
    · show matOf 3 3 jg b = _
      rw [← hr, ← matOf_hat (t := r) (r := h) fun i j => vh _ i j hbl]
      ext i j
      simp only [matOf, Matrix.of_apply]
      rw [vg b i j hb i.isLt j.isLt, bidx_self hb]
    · ext i j
      show jp.val _ = _
      rw [vp b i j hb i.isLt j.isLt, t2 _ _ _ lG]
      rfl

/-- **C119 (`SE3.juntransform`).** -/
theorem se3JUntransform_spec {g t : Tns} {G T : List ℕ} (hg : g.shape = G ++ [3, 4]) (ht : t.shape = T ++ [3]) :
    (bcast G T = none → se3JUntransform g t = .error .torch) ∧
    ∀ N, bcast G T = some N → ∃ jg jp r, se3JUntransform g t = .ok ((jg, jp), r) ∧ se3Untransform g t = .ok r ∧
      r.shape = N ++ [3] ∧ jg.shape = N ++ [3, 6] ∧ jp.shape = N ++ [3, 3] ∧
      ∀ b, In b N →
        vecOf 3 r b = SE3.untransform (poseOf g (bidx G b)) (vecOf 3 t (bidx T b)) ∧
        (matOf 3 6 jg b, matOf 3 3 jp b) = SE3.juntransform (poseOf g (bidx G b)) (vecOf 3 t (bidx T b)) := by
  have w := se3Untransform_spec hg ht
  unfold se3JUntransform
  constructor
  · intro hN
    rw [w.1 hN]
  · intro N hN
    obtain ⟨r, er, sr, vr⟩ := w.2 N hN
    obtain ⟨hGl, hTl⟩ := bcast_lengths hN
    obtain ⟨g1, g2⟩ := cols_shape 0 3 hg
    obtain ⟨t1, t2⟩ := mT_shape g1
    obtain ⟨h, eh, sh, vh⟩ := so3Hat_ok sr
    obtain ⟨l, el, sl, vl⟩ := setCols_mat (d := minusEyes N) (a := 3) rfl sh (bcast_self N)
    obtain ⟨jg, eg, sg, vg⟩ := expandTo_mat sl (bcast_self N)
    obtain ⟨jp, ep, sp, vp⟩ := expandTo_mat t1 (bcast_idem hN)
    rw [er]
    simp only [take_sub_one sr]
    rw [eh]
    dsimp only
    rw [el]
    dsimp only
    rw [eg, ep]
    refine ⟨jg, jp, r, rfl, rfl, sr, sg, sp, fun b hb => ?_⟩
    have hbl := hb.length_eq
    have lG : (bidx G b).length = G.length := bidx_length (by omega)
    have hr : vecOf 3 r b = SE3.untransform (poseOf g (bidx G b)) (vecOf 3 t (bidx T b)) := by
      ext i
      simp only [SE3.untransform, vecOf, poseOf, matOf, Matrix.mulVec, dotProduct, Matrix.of_apply,
        Matrix.transpose_apply, Pi.sub_apply]
      rw [vr b i hb, Finset.sum_range]
    refine ⟨hr, ?_⟩
    unfold SE3.juntransform
    refine Prod.ext ?_ ?_
    · show matOf 3 6 jg b = _
      rw [← hr, ← matOf_hat (t := r) (r := h) fun i j => vh _ i j hbl]
      ext i j
      simp only [matOf, Matrix.of_apply]
      rw [vg b i j hb i.isLt j.isLt, bidx_self hb, vl b i j hb i.isLt, bidx_self hb]
      have hm : (minusEyes N).val (b ++ [i.val, j.val]) = if i.val = j.val then -1 else 0 := by
        simp only [minusEyes, ← hbl]
        simp
      rw [hm]
      fin_cases i <;> fin_cases j <;> simp [SE3.row, Matrix.neg_apply]
    · ext i j
      show jp.val _ = _
      rw [vp b i j hb i.isLt j.isLt, t2 _ _ _ lG, g2 _ _ _ lG]
      rfl

end Verif.Lie.Batch
