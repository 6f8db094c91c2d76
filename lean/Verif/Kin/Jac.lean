import Verif.Kin.FK

/-!
# Velocities of the links: lemmas for the kinematic Jacobians
-/

namespace Verif.Kin
open Verif.Geometry Matrix

/-! ## Specification -/

/-- `η` is the spatial velocity of the curve of poses at time 0: `x' = hat η x`. -/
def SpatialVel (x : ℝ → SE3) (η : Fin 6 → ℝ) : Prop :=
  MatDeriv (fun t => (x t).toMatrix) (SE3.hat η * (x 0).toMatrix)

/-- `ξ` is the body velocity of the curve of poses at time 0: `x' = x hat ξ`. -/
def BodyVel (x : ℝ → SE3) (ξ : Fin 6 → ℝ) : Prop :=
  MatDeriv (fun t => (x t).toMatrix) ((x 0).toMatrix * SE3.hat ξ)

/-- Below the threshold `eps`, `torchlie`'s rotation by a vector of length `n` is by the angle
`2 atan (n/2)`, which has this derivative; it differs from 1 by at most `eps²/4`. -/
noncomputable def gain (eps : ℝ) (j : UJoint) (q : ℝ) : ℝ :=
  if j.type ≠ "prismatic" ∧ norm3 (q • j.axis.getD 0) < eps then
    4 / (4 + norm3 (q • j.axis.getD 0) ^ 2) else 1

/-! ## Lemmas -/

namespace Build
variable {u : Urdf}

theorem toMatrix_compose (a b : SE3) : (a.compose b).toMatrix = a.toMatrix * b.toMatrix := by
  simp only [SE3.toMatrix, SE3.hom_mul, SE3.compose]
  simp

theorem toMatrix_const (a : SE3) : MatDeriv (fun _ => a.toMatrix) 0 := MatDeriv.const _

theorem hat_zero : SE3.hat 0 = 0 := by
  have := SE3.hat_smul 0 0
  simpa using this

/-- The rotation about an axis. -/
theorem exp_axis {eps : ℝ} (he : 0 < eps) (a : V3) (q : ℝ) :
    SO3.jexp eps (q • a) *ᵥ a
      = (if norm3 (q • a) < eps then 4 / (4 + norm3 (q • a) ^ 2) else 1) • a := by
  by_cases h0 : q • a = 0
  · have hn : norm3 (q • a) = 0 := SO3.norm3_eq_zero.mpr h0
    rw [h0, SO3.jexp_zero he, Matrix.one_mulVec, SO3.norm3_eq_zero.mpr rfl, if_pos he]
    norm_num
  have hdot : dot3 (q • a) (q • a) = norm3 (q • a) ^ 2 := (SO3.norm3_sq _).symm
  have hdot' : dot3 (q • a) (q • a) = q ^ 2 * dot3 a a := by
    simp only [dot3, Pi.smul_apply, smul_eq_mul]; ring
  have key : ∀ s k c : ℝ, SO3.jexpOf s k c (q • a) *ᵥ a
      = (s + c * dot3 (q • a) (q • a)) • a := by
    intro s k c
    rw [SE3.jexpOf_mulVec]
    ext i
    fin_cases i <;> simp [SE3.expT, dot3, cross3, Matrix.vecHead, Matrix.vecTail] <;> ring
  rw [SO3.jexp, key, hdot]
  by_cases h : norm3 (q • a) < eps
  · rw [if_pos h]
    congr 1
    simp only [SO3.expS, SO3.expC, SO3.expQ, if_pos h]
    have : (4 + norm3 (q • a) ^ 2) ≠ 0 := by positivity
    field_simp
    ring
  · rw [if_neg h]
    congr 1
    simp only [SO3.expS, SO3.expQ, if_neg h]
    have hpos : 0 < norm3 (q • a) := lt_of_lt_of_le he (not_lt.mp h)
    field_simp
    ring

/-- The body velocity of a moving joint. -/
theorem motion_vel {eps : ℝ} (he : 0 < eps) (j : UJoint) {k : Kind} (hk : j.kind = some k)
    (hf : j.isFixed = false) {q : ℝ → ℝ} {q' : ℝ} (hq : HasDerivAt q q' 0)
    (hn : j.type ≠ "prismatic" → norm3 (q 0 • j.axis.getD 0) ≠ eps) :
    BodyVel (fun t => jointMotion eps j (q t)) ((gain eps j (q 0) * q') • k.axis) := by
  have hft : j.type ≠ "fixed" := by simpa [UJoint.isFixed] using hf
  set a := j.axis.getD 0 with ha
  have hv : VecDeriv (fun t => q t • a) (q' • a) := fun i => by
    simpa using hq.mul_const (a i)
  rcases axis_eq j hk hf with ⟨hp, rfl⟩ | ⟨hp, rfl⟩
  · have e : ∀ t, jointMotion eps j (q t) = ⟨1, q t • a⟩ := by
      intro t; simp [jointMotion, hp, ha]
    have g : gain eps j (q 0) = 1 := by simp [gain, hp]
    unfold BodyVel
    simp only [e, SE3.toMatrix]
    have := SE3.hom_deriv (MatDeriv.const (1 : M3)) hv 1
    refine this.congr ?_
    rw [SE3.hat, SE3.hom_mul, g]
    have h1 : SE3.ang ((1 * q') • Kind.axis (.prismatic a)) = 0 := by
      ext i; fin_cases i <;> simp [SE3.ang, Kind.axis, SE3.join]
    have h2 : SE3.lin ((1 * q') • Kind.axis (.prismatic a)) = q' • a := by
      ext i; fin_cases i <;> simp [SE3.lin, Kind.axis, SE3.join]
    have h3 : SO3.hat 0 = 0 := by ext i j; fin_cases i <;> fin_cases j <;> simp [SO3.hat]
    rw [h1, h2, h3]
    simp
  · have e : ∀ t, jointMotion eps j (q t) = ⟨SO3.exp eps (q t • a), 0⟩ := by
      intro t; simp [jointMotion, hp, hft, ha]
    have g : gain eps j (q 0) = if norm3 (q 0 • a) < eps then 4 / (4 + norm3 (q 0 • a) ^ 2) else 1 := by
      simp [gain, hp, ha]
    unfold BodyVel
    simp only [e, SE3.toMatrix]
    have := SE3.hom_deriv (SO3.exp_curve he hv (hn hp)) (VecDeriv.const (0 : V3)) 1
    refine this.congr ?_
    rw [Matrix.mulVec_smul, exp_axis he, ← g, SE3.hat, SE3.hom_mul]
    have h1 : SE3.ang ((gain eps j (q 0) * q') • Kind.axis (.revolute a))
        = q' • gain eps j (q 0) • a := by
      ext i; fin_cases i <;> simp [SE3.ang, Kind.axis, SE3.join] <;> ring
    have h2 : SE3.lin ((gain eps j (q 0) * q') • Kind.axis (.revolute a)) = 0 := by
      ext i; fin_cases i <;> simp [SE3.lin, Kind.axis, SE3.join]
    rw [h1, h2]
    simp

theorem motion_valid {eps : ℝ} (he : 0 < eps) (j : UJoint) (q : ℝ) :
    SE3.Valid (jointMotion eps j q) := by
  have h1 : SO3.Valid 1 := ⟨by simp, by simp⟩
  unfold jointMotion
  split
  · exact h1
  · split
    · exact h1
    · exact SO3.exp_valid he _

section
variable {root : String} {r : Robot u} {d : String → ℕ}

/-- The ids in the cache of a link belong to the moving joints on its path. -/
theorem ancJ_mem (hinj : ∀ i j : u.J, (u.jnt i).child = (u.jnt j).child → i = j)
    {P : String → SE3} {mot : u.J → SE3} (hg : Good u root r) (hi : Inv d P mot r.heap)
    (hroot : ∀ l ∈ u.links, (∀ j : u.J, (u.jnt j).child ≠ l) ↔ l = root) :
    ∀ n, ∀ l ∈ u.links, d l ≤ n → ∀ c ∈ r.ancJ l, c < r.dof ∧ c < r.lid l ∧
      ∃ k : u.J, r.jid k = c ∧ (u.jnt k).isFixed = false ∧
        ((u.jnt k).child = l ∨ (u.jnt k).child ∈ r.anc l) := by
  intro n
  induction n with
  | zero =>
    intro l hl hd c hc
    rcases root_or_child hroot hl with rfl | ⟨j, rfl⟩
    · rw [hg.anc_root.2] at hc; simp at hc
    · have := hi.depth j; omega
  | succ n ih =>
    intro l hl hd c hc
    rcases root_or_child hroot hl with rfl | ⟨j, rfl⟩
    · rw [hg.anc_root.2] at hc; simp at hc
    · rw [(hg.anc_child j).2] at hc
      have hdj := hi.depth j
      have hchain : c ∈ r.ancJ (r.heap.parent j) → c < r.dof ∧ c < r.lid (u.jnt j).child ∧
          ∃ k : u.J, r.jid k = c ∧ (u.jnt k).isFixed = false ∧
            ((u.jnt k).child = (u.jnt j).child ∨ (u.jnt k).child ∈ r.anc (u.jnt j).child) := by
        intro hc
        obtain ⟨h1, h5, k, h2, h3, h4⟩ := ih _ (hi.links j) (by omega) c hc
        refine ⟨h1, h5.trans (lid_parent hinj hg j), k, h2, h3, Or.inr ?_⟩
        rw [(hg.anc_child j).1]
        rcases h4 with h4 | h4
        · rw [h4]; simp
        · exact List.mem_append_left _ h4
      by_cases hf : (u.jnt j).isFixed = true
      · rw [if_pos hf] at hc; exact hchain hc
      · rw [if_neg hf] at hc
        have hf' : (u.jnt j).isFixed = false := by simpa using hf
        rcases List.mem_append.mp hc with hc | hc
        · exact hchain hc
        · have hc := List.mem_singleton.mp hc
          subst hc
          exact ⟨(hg.dof_iff j).mpr hf', by rw [lid_child hinj hg]; omega, j, rfl, hf', Or.inl rfl⟩

theorem joints_jid (hg : Good u root r) (j : u.J) : r.joints[r.jid j]? = some j := by
  rw [Robot.jid, List.getElem?_eq_getElem (List.idxOf_lt_length_of_mem (hg.joints_mem j)),
    List.getElem_idxOf]

/-- The column of a joint. -/
noncomputable def colOf (r : Robot u) (P : String → SE3) (c : ℕ) : Fin 6 → ℝ :=
  match r.joints[c]? with
  | none => 0
  | some j => (P (u.jnt j).child).adjoint *ᵥ (((u.jnt j).kind).getD .fixed).axis

/-- The gain of a joint. -/
noncomputable def gainOf (eps : ℝ) (r : Robot u) (q : List ℝ) (c : ℕ) : ℝ :=
  match r.joints[c]? with
  | none => 1
  | some j => gain eps (u.jnt j) (q.getD c 0)

/-- The velocity of a link. -/
noncomputable def velOf (r : Robot u) (P : String → SE3) (w : ℕ → ℝ) (l : String) : Fin 6 → ℝ :=
  ∑ c ∈ Finset.range r.dof, w c • (if c ∈ r.ancJ l then colOf r P c else 0)

theorem velOf_child (hinj : ∀ i j : u.J, (u.jnt i).child = (u.jnt j).child → i = j)
    {P : String → SE3} {mot : u.J → SE3} (hg : Good u root r) (hi : Inv d P mot r.heap)
    (hroot : ∀ l ∈ u.links, (∀ j : u.J, (u.jnt j).child ≠ l) ↔ l = root) (w : ℕ → ℝ) (j : u.J) :
    velOf r P w (u.jnt j).child = velOf r P w (r.heap.parent j) +
      if (u.jnt j).isFixed then 0 else w (r.jid j) • colOf r P (r.jid j) := by
  unfold velOf
  rw [(hg.anc_child j).2]
  by_cases hf : (u.jnt j).isFixed = true
  · simp [hf]
  · have hf' : (u.jnt j).isFixed = false := by simpa using hf
    have hlt := (hg.dof_iff j).mpr hf'
    have hnot : r.jid j ∉ r.ancJ (r.heap.parent j) := by
      intro hc
      obtain ⟨-, h2, -⟩ := ancJ_mem hinj hg hi hroot _ _ (hi.links j) le_rfl _ hc
      have h3 := lid_parent hinj hg j
      rw [lid_child hinj hg] at h3
      omega
    rw [if_neg hf, if_neg hf]
    have e : w (r.jid j) • colOf r P (r.jid j)
        = ∑ c ∈ Finset.range r.dof, if c = r.jid j then w c • colOf r P c else 0 := by
      rw [Finset.sum_ite_eq' (Finset.range r.dof) (r.jid j) (fun c => w c • colOf r P c)]
      simp [hlt]
    rw [e, ← Finset.sum_add_distrib]
    refine Finset.sum_congr rfl fun c _ => ?_
    by_cases hc : c = r.jid j
    · subst hc; simp [hnot]
    · simp [hc]

/-- The velocities of all links. -/
theorem link_vel {eps : ℝ} (he : 0 < eps) (hw : u.WF) (hg : Good u root r)
    (hroot : ∀ l ∈ u.links, (∀ j : u.J, (u.jnt j).child ≠ l) ↔ l = root)
    {q : ℝ → List ℝ} {q' : ℕ → ℝ} {P : ℝ → String → SE3}
    (hP : ∀ t, P t root = SE3.one)
    (hi : ∀ t, Inv d (P t) (fun j => jointMotion eps (u.jnt j) ((q t).getD (r.jid j) 0)) r.heap)
    (hq : ∀ c, HasDerivAt (fun t => (q t).getD c 0) (q' c) 0)
    (hn : ∀ j : u.J, (u.jnt j).isFixed = false → (u.jnt j).type ≠ "prismatic" →
      norm3 ((q 0).getD (r.jid j) 0 • (u.jnt j).axis.getD 0) ≠ eps) :
    ∀ n, ∀ l ∈ u.links, d l ≤ n → (∀ t, SE3.Valid (P t l)) ∧
      SpatialVel (fun t => P t l) (velOf r (P 0) (fun c => gainOf eps r (q 0) c * q' c) l) := by
  have key : ∀ l ∈ u.links, (∀ j : u.J, (u.jnt j).child = l →
        (∀ t, SE3.Valid (P t (r.heap.parent j))) ∧
        SpatialVel (fun t => P t (r.heap.parent j))
          (velOf r (P 0) (fun c => gainOf eps r (q 0) c * q' c) (r.heap.parent j))) →
      (∀ t, SE3.Valid (P t l)) ∧
      SpatialVel (fun t => P t l) (velOf r (P 0) (fun c => gainOf eps r (q 0) c * q' c) l) := by
    intro l hl ih
    rcases root_or_child hroot hl with rfl | ⟨j, rfl⟩
    · have hv : velOf r (P 0) (fun c => gainOf eps r (q 0) c * q' c) l = 0 := by
        simp [velOf, hg.anc_root.2]
      refine ⟨fun t => by rw [hP]; exact ⟨by simp [SE3.one], by simp [SE3.one]⟩, ?_⟩
      unfold SpatialVel
      rw [hv, hat_zero, Matrix.zero_mul]
      simp only [hP]
      exact toMatrix_const _
    · obtain ⟨hv, hs⟩ := ih j rfl
      have hval : ∀ t, SE3.Valid (P t (u.jnt j).child) := by
        intro t
        rw [(hi t).pose j]
        exact (hv t).mul (((hi t).rot j).mul (motion_valid he (u.jnt j) _))
      refine ⟨hval, ?_⟩
      rw [velOf_child hw.child_inj hg (hi 0) hroot]
      have hX : ∀ t, (P t (u.jnt j).child).toMatrix
          = (P t (r.heap.parent j)).toMatrix * ((r.heap.origin j).toMatrix
            * (jointMotion eps (u.jnt j) ((q t).getD (r.jid j) 0)).toMatrix) := by
        intro t; rw [(hi t).pose j, toMatrix_compose, toMatrix_compose]
      unfold SpatialVel
      by_cases hf : (u.jnt j).isFixed = true
      · rw [if_pos hf, add_zero]
        have hm : ∀ t, jointMotion eps (u.jnt j) ((q t).getD (r.jid j) 0) = ⟨1, 0⟩ := by
          intro t; simp [jointMotion, (isFixed_iff _).mp hf]
        simp only [hX, hm]
        have := MatDeriv.mul_const hs
          ((r.heap.origin j).toMatrix * (⟨1, 0⟩ : SE3).toMatrix)
        exact this.congr (by rw [Matrix.mul_assoc])
      · have hf' : (u.jnt j).isFixed = false := by simpa using hf
        rw [if_neg hf]
        obtain ⟨k, hk⟩ := Option.ne_none_iff_exists'.mp (hw.supported j)
        have hm := motion_vel he (u.jnt j) hk hf' (hq (r.jid j)) (hn j hf')
        have hg' : gainOf eps r (q 0) (r.jid j)
            = gain eps (u.jnt j) ((q 0).getD (r.jid j) 0) := by
          simp [gainOf, joints_jid hg]
        have hc : colOf r (P 0) (r.jid j) = (P 0 (u.jnt j).child).adjoint *ᵥ k.axis := by
          simp [colOf, joints_jid hg, hk]
        have h1 := hs.mul (MatDeriv.const_mul (r.heap.origin j).toMatrix hm)
        have e : (fun t => (P t (u.jnt j).child).toMatrix)
            = fun t => (P t (r.heap.parent j)).toMatrix * ((r.heap.origin j).toMatrix
            * (jointMotion eps (u.jnt j) ((q t).getD (r.jid j) 0)).toMatrix) := funext hX
        rw [e]
        refine h1.congr ?_
        have hadj := SE3.adjoint_hat (hval 0) ((gain eps (u.jnt j) ((q 0).getD (r.jid j) 0)
          * q' (r.jid j)) • k.axis)
        rw [hg', hc, SE3.hat_add, Matrix.add_mul, ← Matrix.mulVec_smul, ← hadj, hX 0]
        simp only [Matrix.mul_assoc]
  intro n
  induction n with
  | zero =>
    intro l hl hd
    refine key l hl fun j hj => ?_
    have := (hi 0).depth j
    rw [hj] at this; omega
  | succ n ih =>
    intro l hl hd
    refine key l hl fun j hj => ih _ ((hi 0).links j) ?_
    have := (hi 0).depth j
    rw [hj] at this; omega

end
end Build
end Verif.Kin
