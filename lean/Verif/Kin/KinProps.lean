import Verif.Kin.KinJac
import Verif.Geometry.SpatialProps

/-!
# `torchkin`: forward kinematics and its Jacobians (C51, C64)

The specification is in `FK` (`jointFrame`, `jointMotion`, `PathPose`), `Jac` (`SpatialVel`,
`BodyVel`, `gain`) and `Build` (`Urdf.WF`).
-/

namespace Verif.Kin
open Verif.Geometry Matrix Build

/-- The coordinates of the joints: joint `j` reads entry `jid j` of the vector of angles. -/
noncomputable def coords {u : Urdf} (r : Robot u) (q : List ℝ) (j : u.J) : ℝ := q.getD (r.jid j) 0

/-- A legal file: a root, a revolute joint, a fixed joint below it and a prismatic joint below the
fixed one; the links and joints are listed bottom first. -/
def demo : Urdf where
  links := ["tool", "flange", "arm", "base"]
  joints := [
    ⟨"slide", "prismatic", "flange", "tool", none, some ![0, 1, 0]⟩,
    ⟨"mount", "fixed", "arm", "flange", some ⟨some ![1, 0, 0], none⟩, none⟩,
    ⟨"elbow", "revolute", "base", "arm", some ⟨none, some ![0, 0, 1]⟩, some ![0, 0, 1]⟩]

theorem demo_wf : demo.WF where
  links_nodup := by decide
  names_nodup := by decide
  child_inj := by
    intro i j h
    fin_cases i <;> fin_cases j <;> first | rfl | (exfalso; revert h; decide)
  parent_mem := by intro j; fin_cases j <;> decide
  child_mem := by intro j; fin_cases j <;> decide
  supported := by intro j; fin_cases j <;> simp [Urdf.jnt, demo, UJoint.kind]
  root := ⟨"base", by decide, by
    intro l hl
    have : l = "tool" ∨ l = "flange" ∨ l = "arm" ∨ l = "base" := by simpa [demo] using hl
    constructor
    · intro h
      rcases this with rfl | rfl | rfl | rfl
      · exact absurd rfl (h (0 : Fin 3))
      · exact absurd rfl (h (1 : Fin 3))
      · exact absurd rfl (h (2 : Fin 3))
      · rfl
    · rintro rfl j
      fin_cases j <;> decide⟩
  acyclic := ⟨fun l => if l = "tool" then 3 else if l = "flange" then 2 else if l = "arm" then 1
    else 0, by intro j; fin_cases j <;> decide⟩

/-- The path to a link determines its pose. -/
theorem path_pose_unique {u : Urdf} (hw : u.WF) {root : String} (hr : u.getRoot = some root)
    {eps : ℝ} {q : u.J → ℝ} {l : String} {T T' : SE3} (h : PathPose u eps root q l T)
    (h' : PathPose u eps root q l T') : T = T' := by
  obtain ⟨r, root', d, -, h2, hg, -⟩ := fromUrdf_good hw
  obtain rfl : root' = root := Option.some_injective _ (h2.symm.trans hr)
  have key : ∀ l T, PathPose u eps root' q l T → ∀ l' T', PathPose u eps root' q l' T' → l = l' →
      T = T' := by
    intro l T h
    induction h with
    | root =>
      intro l' T' h' e
      cases h' with
      | root => rfl
      | step j _ => exact absurd e.symm (hg.root_child j)
    | step j hp ih =>
      intro l' T' h' e
      cases h' with
      | root => exact absurd e (hg.root_child j)
      | step j' hp' =>
        obtain rfl := hw.child_inj j j' e
        rw [ih _ _ hp' rfl]
  exact key l T h l T' h' rfl

/-- The poses of all links for given coordinates. -/
theorem exists_path {u : Urdf} (hw : u.WF) {r : Robot u} {root : String} {d : String → ℕ}
    (hg : Good u root r)
    (hroot : ∀ l ∈ u.links, (∀ j : u.J, (u.jnt j).child ≠ l) ↔ l = root)
    (hinv : ∀ (P : String → SE3) (mot : u.J → SE3),
      (∀ j : u.J, (u.jnt j).isFixed → mot j = SE3.one) →
      (∀ j, P (u.jnt j).child
        = (P (u.jnt j).parent).compose ((getOrigin (u.jnt j).origin).compose (mot j))) →
      Inv d P mot r.heap) (eps : ℝ) (q : u.J → ℝ) :
    ∃ P : String → SE3, P root = SE3.one ∧ Inv d P (fun j => jointMotion eps (u.jnt j) (q j)) r.heap ∧
      ∀ l ∈ u.links, PathPose u eps root q l (P l) := by
  obtain ⟨dd, hd⟩ := hw.acyclic
  obtain ⟨P, hP, hc⟩ := exists_pose hw.child_inj hg.root_child hd
    (fun j => (jointFrame (u.jnt j)).compose (jointMotion eps (u.jnt j) (q j)))
  refine ⟨P, hP, hinv P _ ?_ fun j => by rw [hc j, getOrigin_eq], ?_⟩
  · intro j hj
    simp [jointMotion, (isFixed_iff _).mp hj, one_eq]
  · have key : ∀ n, ∀ l ∈ u.links, dd l ≤ n → PathPose u eps root q l (P l) := by
      intro n
      induction n with
      | zero =>
        intro l hl hn
        rcases root_or_child hroot hl with rfl | ⟨j, rfl⟩
        · rw [hP, one_eq]; exact .root
        · have := hd j; omega
      | succ n ih =>
        intro l hl hn
        rcases root_or_child hroot hl with rfl | ⟨j, rfl⟩
        · rw [hP, one_eq]; exact .root
        · have := hd j
          rw [hc j]
          exact .step j (ih _ (hw.parent_mem j) (by omega))
    exact fun l hl => key _ l hl le_rfl

/-- **C51.** Every legal URDF is accepted, its degrees of freedom are the non-fixed joints, each of
which reads its own entry of the vector of angles, and forward kinematics returns for every
requested link the composition of joint frames and motions along its path in the file. -/
theorem fk_path {u : Urdf} (hw : u.WF) :
    ∃ (r : Robot u) (root : String), fromUrdf u = some r ∧ u.getRoot = some root ∧
      r.dof = (u.joints.filter fun j => j.type ≠ "fixed").length ∧
      (∀ i j, r.jid i = r.jid j → i = j) ∧
      (∀ j, r.jid j < r.dof ↔ (u.jnt j).type ≠ "fixed") ∧
      ∀ (eps : ℝ) (q : List ℝ) (names : List String), q.length = r.dof →
        (∀ l ∈ names, l ∈ u.links) →
        ∃ poses, forwardKinematics r eps names q = some poses ∧
          List.Forall₂ (PathPose u eps root (coords r q)) names poses := by
  obtain ⟨r, root, d, h1, h2, hg, hroot, hdof, hinv⟩ := fromUrdf_good hw
  refine ⟨r, root, h1, h2, ?_, ?_, ?_, ?_⟩
  · rw [hdof]
    congr 1
    refine List.filter_congr fun j _ => ?_
    by_cases h : j.type = "fixed" <;> simp [UJoint.isFixed, h]
  · intro i j e
    have h := joints_jid hg i
    rw [e, joints_jid hg j] at h
    exact (Option.some_injective _ h).symm
  · intro j
    rw [hg.dof_iff j]; simp [UJoint.isFixed]
  · intro eps q names hq hn
    obtain ⟨P, hP, hi, hpath⟩ := exists_path hw hg hroot hinv eps (coords r q)
    refine ⟨names.map P, forwardKinematics_spec hw hg hroot hi hP hq hn, ?_⟩
    rw [List.forall₂_map_right_iff]
    exact List.forall₂_same.mpr fun l hl => hpath l (hn l hl)

example : ∃ r : Robot demo, fromUrdf demo = some r ∧ r.dof = 2 := by
  obtain ⟨r, -, h1, -, h2, -⟩ := fk_path demo_wf
  exact ⟨r, h1, by rw [h2]; decide⟩

/-- **C51.** A vector of the wrong length or an unknown link name raises. -/
theorem fk_rejects {u : Urdf} (r : Robot u) (eps : ℝ) (q : List ℝ) (names : List String)
    (h : q.length ≠ r.dof ∨ ∃ l ∈ names, l ∉ u.links) :
    forwardKinematics r eps names q = none ∧ spatialJacobian r eps names q = none ∧
      bodyJacobian r eps names q = none := by
  have hj : spatialJacobian r eps names q = none := by
    unfold spatialJacobian
    rcases h with h | ⟨l, hl, hn⟩
    · rcases linkIds r names with _ | ids
      · rfl
      · simp only [Option.bind_eq_bind, Option.bind_some]
        rcases (relatedIds r names).mapM fun id => r.links[id]? with _ | S
        · rfl
        · have : forwardKinematics r eps S q = none := by
            unfold forwardKinematics fkHelper
            rw [if_neg h]
            rcases linkIds r S with _ | ids <;> rfl
          simp only [Option.bind_some, this, Option.bind_none]
    · have : linkIds r names = none := by
        unfold linkIds
        rw [if_neg]
        intro hc
        exact hn (by simpa using List.all_eq_true.mp hc l hl)
      rw [this]; rfl
  refine ⟨?_, hj, by unfold bodyJacobian; rw [hj]; rfl⟩
  unfold forwardKinematics
  rcases h with h | ⟨l, hl, hn⟩
  · unfold fkHelper
    rw [if_neg h]
    rcases linkIds r names with _ | ids <;> rfl
  · have : linkIds r names = none := by
      unfold linkIds
      rw [if_neg]
      intro hc
      exact hn (by simpa using List.all_eq_true.mp hc l hl)
    rw [this]; rfl

/-! ## Jacobians -/

/-- A curve of angles that a robot accepts, its derivative at time 0, and no revolute joint exactly
at the threshold between the two branches of the exponential. -/
structure AngleCurve {u : Urdf} (r : Robot u) (eps : ℝ) (q : ℝ → List ℝ) (q' : ℕ → ℝ) : Prop where
  length : ∀ t, (q t).length = r.dof
  deriv : ∀ c, HasDerivAt (fun t => (q t).getD c 0) (q' c) 0
  away : ∀ j : u.J, (u.jnt j).type ≠ "fixed" → (u.jnt j).type ≠ "prismatic" →
    norm3 (coords r (q 0) j • (u.jnt j).axis.getD 0) ≠ eps

theorem gain_bounds {eps : ℝ} (j : UJoint) (q : ℝ) :
    1 - eps ^ 2 / 4 ≤ gain eps j q ∧ gain eps j q ≤ 1 := by
  unfold gain
  split
  · rename_i h
    have h0 := SO3.norm3_nonneg (q • j.axis.getD 0)
    have h1 : norm3 (q • j.axis.getD 0) ^ 2 ≤ eps ^ 2 := by
      have := h.2
      nlinarith
    set n := norm3 (q • j.axis.getD 0)
    have h4 : 0 < 4 + n ^ 2 := by positivity
    constructor
    · rw [le_div_iff₀ h4]
      nlinarith [sq_nonneg n, mul_nonneg (sq_nonneg n) (sq_nonneg n),
        mul_nonneg (sq_nonneg eps) (sq_nonneg n)]
    · rw [div_le_one h4]; nlinarith [sq_nonneg n]
  · constructor
    · nlinarith [sq_nonneg eps]
    · rfl

/-- The gain is exactly 1 for prismatic joints, for revolute joints away from zero, and at zero. -/
theorem gain_eq_one {eps : ℝ} (j : UJoint) (q : ℝ)
    (h : j.type = "prismatic" ∨ eps ≤ norm3 (q • j.axis.getD 0) ∨ q = 0) : gain eps j q = 1 := by
  unfold gain
  rcases h with h | h | h
  · simp [h]
  · rw [if_neg]; rintro ⟨-, h'⟩; linarith
  · subst h
    have : norm3 ((0 : ℝ) • j.axis.getD 0) = 0 := SO3.norm3_eq_zero.mpr (zero_smul _ _)
    rw [this]
    norm_num

theorem gain_lt_one {eps : ℝ} (j : UJoint) (q : ℝ) (hj : j.type ≠ "prismatic")
    (h : norm3 (q • j.axis.getD 0) < eps) (h0 : norm3 (q • j.axis.getD 0) ≠ 0) :
    gain eps j q < 1 := by
  unfold gain
  rw [if_pos ⟨hj, h⟩, div_lt_one (by positivity)]
  have := sq_pos_of_ne_zero h0 |>.le
  have h2 : 0 < norm3 (q • j.axis.getD 0) ^ 2 := lt_of_le_of_ne this (Ne.symm (pow_ne_zero 2 h0))
  linarith

namespace Build
variable {u : Urdf} {root : String} {r : Robot u} {d : String → ℕ}

/-- The sum over degrees of freedom as a sum over joints. -/
theorem velOf_joints (hw : u.WF) (hg : Good u root r) {P : String → SE3} {mot : u.J → SE3}
    (hi : Inv d P mot r.heap)
    (hroot : ∀ l ∈ u.links, (∀ j : u.J, (u.jnt j).child ≠ l) ↔ l = root) {eps : ℝ} (q : List ℝ)
    (q' : ℕ → ℝ) {l : String} (hl : l ∈ u.links) :
    velOf r P (fun c => gainOf eps r q c * q' c) l
      = ∑ j : u.J, (gain eps (u.jnt j) (coords r q j) * q' (r.jid j)) •
          (if r.jid j ∈ r.ancJ l then colOf r P (r.jid j) else 0) := by
  have hjinj : ∀ i j, r.jid i = r.jid j → i = j := by
    intro i j e
    have h := joints_jid hg i
    rw [e, joints_jid hg j] at h
    exact (Option.some_injective _ h).symm
  have hlt : ∀ j : u.J, r.jid j < r.joints.length :=
    fun j => List.idxOf_lt_length_of_mem (hg.joints_mem j)
  have h1 : velOf r P (fun c => gainOf eps r q c * q' c) l
      = ∑ c ∈ Finset.range r.joints.length, (gainOf eps r q c * q' c) •
          (if c ∈ r.ancJ l then colOf r P c else 0) := by
    unfold velOf
    refine Finset.sum_subset (Finset.range_subset_range.mpr hg.dof_le) ?_
    intro c _ hc
    have : c ∉ r.ancJ l := fun hm => hc (Finset.mem_range.mpr
      (ancJ_mem hw.child_inj hg hi hroot _ l hl le_rfl c hm).1)
    rw [if_neg this, smul_zero]
  rw [h1]
  symm
  refine Finset.sum_of_injOn r.jid (fun i _ j _ e => hjinj i j e)
    (fun j _ => Finset.mem_coe.mpr (Finset.mem_range.mpr (hlt j))) ?_ ?_
  · intro c hc hn
    exfalso
    have hc := Finset.mem_range.mp hc
    refine hn ⟨r.joints[c], by simp, ?_⟩
    exact hg.joints_nodup.idxOf_getElem c hc
  · intro j _
    have : gainOf eps r q (r.jid j) = gain eps (u.jnt j) (coords r q j) := by
      simp [gainOf, joints_jid hg, coords]
    rw [this]

theorem body_of_spatial {X : ℝ → SE3} {η : Fin 6 → ℝ} (hv : SE3.Valid (X 0))
    (h : SpatialVel X η) : BodyVel X ((X 0).inverse.adjoint *ᵥ η) := by
  unfold SpatialVel at h
  refine h.congr ?_
  have h1 := (se3_adjoint (X 0) (X 0) η hv hv).2.2.1
  have h2 := mul_eq_one_comm.mp h1
  rw [SE3.adjoint_hat hv, Matrix.mulVec_mulVec, h2, Matrix.one_mulVec]

theorem spatial_unique {X : ℝ → SE3} {η η' : Fin 6 → ℝ} (hv : SE3.Valid (X 0))
    (h : SpatialVel X η) (h' : SpatialVel X η') : η = η' := by
  have e : SE3.hat η * (X 0).toMatrix = SE3.hat η' * (X 0).toMatrix := by
    ext i j; exact (h i j).unique (h' i j)
  have L := SE3.lawful (eps := 1) one_pos 1 1
  have hai : (X 0).toMatrix * (X 0).inverse.toMatrix = 1 :=
    mul_eq_one_comm.mp (L.toMatrix_inverse (X 0) hv)
  have h2 := congrArg (fun M => M * (X 0).inverse.toMatrix) e
  simp only [Matrix.mul_assoc, hai, Matrix.mul_one] at h2
  exact SE3.hat_inj h2

/-- Everything the Jacobian theorems need. -/
theorem jac_core (hw : u.WF) : ∃ (r : Robot u) (root : String), fromUrdf u = some r ∧
    u.getRoot = some root ∧ ∀ (eps : ℝ), 0 < eps → ∀ (q : ℝ → List ℝ) (q' : ℕ → ℝ),
      AngleCurve r eps q q' → ∃ (P : ℝ → String → SE3) (J : String → ℕ → Fin 6 → ℝ),
        (∀ t, ∀ l ∈ u.links, PathPose u eps root (coords r (q t)) l (P t l)) ∧
        (∀ l ∈ u.links, SE3.Valid (P 0 l)) ∧
        (∀ l c, r.dof ≤ c → l ∈ u.links → J l c = 0) ∧
        (∀ (j : u.J) (k : Kind), (u.jnt j).isFixed = false → (u.jnt j).kind = some k →
          J (u.jnt j).child (r.jid j) = (P 0 (u.jnt j).child).adjoint *ᵥ k.axis) ∧
        (∀ l ∈ u.links, SpatialVel (fun t => P t l)
          (∑ j : u.J, (gain eps (u.jnt j) (coords r (q 0) j) * q' (r.jid j)) • J l (r.jid j))) ∧
        ∀ names : List String, (∀ l ∈ names, l ∈ u.links) →
          spatialJacobian r eps names (q 0) = some (names.map fun l => (J l, P 0 l)) ∧
          ∀ grads : List SE3, ∃ g, fkBackward r eps names (q 0) grads = some g ∧
            ∀ c, g c = ((names.zip grads).map fun x => vip (J x.1 c)
              (SE3.project ⟨x.2.R * (P 0 x.1).Rᵀ + outer3 x.2.t (P 0 x.1).t, x.2.t⟩)).sum := by
  obtain ⟨r, root, d, h1, h2, hg, hroot, hdof, hinv⟩ := fromUrdf_good hw
  refine ⟨r, root, h1, h2, fun eps he q q' hq => ?_⟩
  choose P hP hi hpath using fun t => exists_path hw hg hroot hinv eps (coords r (q t))
  have hv := link_vel he hw hg hroot hP hi hq.deriv
    (fun j hf hp => hq.away j (by simpa [UJoint.isFixed] using hf) hp)
  refine ⟨P, fun l c => if c ∈ r.ancJ l then colOf r (P 0) c else 0, hpath, ?_, ?_, ?_, ?_, ?_⟩
  · exact fun l hl => (hv _ l hl le_rfl).1 0
  · intro l c hc hl
    refine if_neg fun hm => ?_
    have := (ancJ_mem hw.child_inj hg (hi 0) hroot _ l hl le_rfl c hm).1
    omega
  · intro j k hf hk
    have : r.jid j ∈ r.ancJ (u.jnt j).child := by
      rw [(hg.anc_child j).2, hf]; simp
    simp only [if_pos this]
    simp [colOf, joints_jid hg, hk]
  · intro l hl
    have := (hv _ l hl le_rfl).2
    rwa [velOf_joints hw hg (hi 0) hroot (q 0) q' hl] at this
  · intro names hn
    exact ⟨spatialJacobian_spec hw hg hroot (hi 0) (hP 0) (hq.length 0) hn,
      fun grads => fkBackward_spec hw hg hroot (hi 0) (hP 0) (hq.length 0) hn grads⟩

end Build

/-- What the two Jacobian functions promise for a link: the pose, and the velocity of the link
along the curve as the combination of the columns; the columns of the joints are scaled by
`gain`, which is 1 except for revolute joints closer to zero than the small-angle threshold. -/
def JacobianOf {u : Urdf} (r : Robot u) (root : String) (eps : ℝ) (q : ℝ → List ℝ) (q' : ℕ → ℝ)
    (vel : (ℝ → SE3) → (Fin 6 → ℝ) → Prop) (l : String) (out : (ℕ → Fin 6 → ℝ) × SE3) : Prop :=
  PathPose u eps root (coords r (q 0)) l out.2 ∧
  ∀ X : ℝ → SE3, (∀ t, PathPose u eps root (coords r (q t)) l (X t)) →
    vel X (∑ j : u.J, (gain eps (u.jnt j) (coords r (q 0) j) * q' (r.jid j)) • out.1 (r.jid j))

/-- **C64.** Along every curve of angles, the spatial (body) velocity of every requested link is
the combination of the columns of its spatial (body) Jacobian with the joint velocities, up to the
factor `gain` for revolute joints below the small-angle threshold. -/
theorem fk_jacobians_partial {u : Urdf} (hw : u.WF) : ∃ (r : Robot u) (root : String),
    fromUrdf u = some r ∧ u.getRoot = some root ∧
    ∀ (eps : ℝ), 0 < eps → ∀ (q : ℝ → List ℝ) (q' : ℕ → ℝ), AngleCurve r eps q q' →
      ∀ names : List String, (∀ l ∈ names, l ∈ u.links) →
        (∃ js, spatialJacobian r eps names (q 0) = some js ∧
          List.Forall₂ (JacobianOf r root eps q q' SpatialVel) names js) ∧
        (∃ js, bodyJacobian r eps names (q 0) = some js ∧
          List.Forall₂ (JacobianOf r root eps q q' BodyVel) names js) := by
  obtain ⟨r, root, h1, h2, hc⟩ := jac_core hw
  refine ⟨r, root, h1, h2, fun eps he q q' hq names hn => ?_⟩
  obtain ⟨P, J, hpath, hval, -, hcol, hvel, hjac⟩ := hc eps he q q' hq
  have hX : ∀ l ∈ names, ∀ X : ℝ → SE3,
      (∀ t, PathPose u eps root (coords r (q t)) l (X t)) → X = fun t => P t l := by
    intro l hl X hX
    funext t
    exact path_pose_unique hw h2 (hX t) (hpath t l (hn l hl))
  constructor
  · refine ⟨_, (hjac names hn).1, ?_⟩
    rw [List.forall₂_map_right_iff]
    refine List.forall₂_same.mpr fun l hl => ⟨hpath 0 l (hn l hl), fun X hx => ?_⟩
    rw [hX l hl X hx]
    exact hvel l (hn l hl)
  · refine ⟨_, by unfold bodyJacobian; rw [(hjac names hn).1]; rfl, ?_⟩
    rw [List.forall₂_map_right_iff, List.forall₂_map_right_iff]
    refine List.forall₂_same.mpr fun l hl => ⟨hpath 0 l (hn l hl), fun X hx => ?_⟩
    rw [hX l hl X hx]
    have := body_of_spatial (hval l (hn l hl)) (hvel l (hn l hl))
    convert this using 1
    rw [Matrix.mulVec_sum]
    exact Finset.sum_congr rfl fun j _ => by rw [Matrix.mulVec_smul]

/-- **C64.** When every revolute joint is at zero or beyond the small-angle threshold, the Jacobians
are exact: the velocity of every requested link is the combination of the columns with the joint
velocities. -/
theorem fk_jacobians_exact {u : Urdf} (hw : u.WF) : ∃ (r : Robot u) (root : String),
    fromUrdf u = some r ∧ u.getRoot = some root ∧
    ∀ (eps : ℝ), 0 < eps → ∀ (q : ℝ → List ℝ) (q' : ℕ → ℝ), AngleCurve r eps q q' →
      (∀ j : u.J, (u.jnt j).type = "fixed" ∨ (u.jnt j).type = "prismatic" ∨
        coords r (q 0) j = 0 ∨ eps < norm3 (coords r (q 0) j • (u.jnt j).axis.getD 0)) →
      ∀ names : List String, (∀ l ∈ names, l ∈ u.links) →
        (∃ js, spatialJacobian r eps names (q 0) = some js ∧
          List.Forall₂ (fun l out => ∀ X : ℝ → SE3,
            (∀ t, PathPose u eps root (coords r (q t)) l (X t)) →
            SpatialVel X (∑ c ∈ Finset.range r.dof, q' c • out.1 c)) names js) ∧
        (∃ js, bodyJacobian r eps names (q 0) = some js ∧
          List.Forall₂ (fun l out => ∀ X : ℝ → SE3,
            (∀ t, PathPose u eps root (coords r (q t)) l (X t)) →
            BodyVel X (∑ c ∈ Finset.range r.dof, q' c • out.1 c)) names js) := by
  obtain ⟨r, root, h1, h2, hc⟩ := jac_core hw
  obtain ⟨r', _, h1', _, _, hinj, hfix, _⟩ := fk_path hw
  obtain rfl := Option.some_injective _ (h1.symm.trans h1')
  refine ⟨r, root, h1, h2, fun eps he q q' hq hz names hn => ?_⟩
  obtain ⟨P, J, hpath, hval, hJ0, -, hvel, hjac⟩ := hc eps he q q' hq
  have hsurj : ∀ c < r.dof, ∃ j : u.J, r.jid j = c := by
    obtain ⟨r'', root', d, h1', -, hg, -⟩ := fromUrdf_good hw
    obtain rfl := Option.some_injective _ (h1.symm.trans h1')
    intro c hc
    exact ⟨_, hg.joints_nodup.idxOf_getElem c (lt_of_lt_of_le hc hg.dof_le)⟩
  have hsum : ∀ l ∈ u.links, (∑ j : u.J,
        (gain eps (u.jnt j) (coords r (q 0) j) * q' (r.jid j)) • J l (r.jid j))
      = ∑ c ∈ Finset.range r.dof, q' c • J l c := by
    intro l hl
    have e : ∀ j : u.J, (gain eps (u.jnt j) (coords r (q 0) j) * q' (r.jid j)) • J l (r.jid j)
        = if r.jid j < r.dof then q' (r.jid j) • J l (r.jid j) else 0 := by
      intro j
      by_cases hd : r.jid j < r.dof
      · rw [if_pos hd, gain_eq_one, one_mul]
        rcases hz j with h | h | h | h
        · exact absurd h ((hfix j).mp hd)
        · exact Or.inl h
        · exact Or.inr (Or.inr h)
        · exact Or.inr (Or.inl h.le)
      · rw [if_neg hd, hJ0 l _ (not_lt.mp hd) hl, smul_zero]
    rw [Finset.sum_congr rfl fun j _ => e j, ← Finset.sum_filter]
    refine Finset.sum_of_injOn r.jid (fun i _ j _ e => hinj i j e) (fun j hj => ?_) ?_
      (fun j _ => rfl)
    · simpa using hj
    · intro c hc hn
      obtain ⟨j, rfl⟩ := hsurj c (Finset.mem_range.mp hc)
      exact absurd ⟨j, by simpa using hc, rfl⟩ hn
  have hX : ∀ l ∈ names, ∀ X : ℝ → SE3,
      (∀ t, PathPose u eps root (coords r (q t)) l (X t)) → X = fun t => P t l := by
    intro l hl X hX
    funext t
    exact path_pose_unique hw h2 (hX t) (hpath t l (hn l hl))
  constructor
  · refine ⟨_, (hjac names hn).1, ?_⟩
    rw [List.forall₂_map_right_iff]
    refine List.forall₂_same.mpr fun l hl X hx => ?_
    rw [hX l hl X hx, ← hsum l (hn l hl)]
    exact hvel l (hn l hl)
  · refine ⟨_, by unfold bodyJacobian; rw [(hjac names hn).1]; rfl, ?_⟩
    rw [List.forall₂_map_right_iff, List.forall₂_map_right_iff]
    refine List.forall₂_same.mpr fun l hl X hx => ?_
    rw [hX l hl X hx]
    have := body_of_spatial (hval l (hn l hl)) (hvel l (hn l hl))
    rw [hsum l (hn l hl)] at this
    convert this using 1
    rw [Matrix.mulVec_sum]
    exact Finset.sum_congr rfl fun j _ => by rw [Matrix.mulVec_smul]

/-- A curve of angles for `demo` that meets the hypotheses: both joints move, at distance from the
threshold. -/
example : ∃ r : Robot demo, fromUrdf demo = some r ∧
    AngleCurve r (1 / 100) (fun t => [1 + t, 1 + t]) (fun c => if c < 2 then 1 else 0) ∧
    ∀ j : demo.J, (demo.jnt j).type = "fixed" ∨ (demo.jnt j).type = "prismatic" ∨
      coords r [1 + 0, 1 + 0] j = 0 ∨
      1 / 100 < norm3 (coords r [1 + 0, 1 + 0] j • (demo.jnt j).axis.getD 0) := by
  obtain ⟨r, -, h1, -, h2, h3, h4, -⟩ := fk_path demo_wf
  have hd : r.dof = 2 := by rw [h2]; decide
  have hlt : r.jid (2 : Fin 3) < 2 := lt_of_lt_of_eq ((h4 _).mpr (by decide)) hd
  have hq : coords r [1 + 0, 1 + 0] (2 : Fin 3) = 1 := by
    unfold coords
    rcases (by omega : r.jid (2 : Fin 3) = 0 ∨ r.jid (2 : Fin 3) = 1) with h | h <;>
      · erw [h]; norm_num
  have hn : norm3 (coords r [1 + 0, 1 + 0] (2 : Fin 3) • (demo.jnt (2 : Fin 3)).axis.getD 0) = 1 := by
    rw [hq]; simp [demo, Urdf.jnt, norm3, dot3]
  refine ⟨r, h1, ⟨fun t => by simp [hd], ?_, ?_⟩, ?_⟩
  · intro c
    rcases c with _ | _ | c
    · simpa using (hasDerivAt_id (0 : ℝ)).const_add 1
    · simpa using (hasDerivAt_id (0 : ℝ)).const_add 1
    · simpa using hasDerivAt_const (0 : ℝ) (0 : ℝ)
  · intro j hf hp
    fin_cases j
    · exact absurd rfl hp
    · exact absurd rfl hf
    · refine ne_of_gt ?_
      refine lt_of_lt_of_eq ?_ hn.symm
      norm_num
  · intro j
    fin_cases j
    · exact Or.inr (Or.inl rfl)
    · exact Or.inl rfl
    · refine Or.inr (Or.inr (Or.inr ?_))
      refine lt_of_lt_of_eq ?_ hn.symm
      norm_num

/-- **C64.** Below the small-angle threshold the Jacobian is not the derivative: when a revolute
joint has a small non-zero angle, moving that joint alone does not move its child link with the
velocity in the joint's column. -/
theorem fk_jacobian_small_angle_wrong {u : Urdf} (hw : u.WF) : ∃ (r : Robot u) (root : String),
    fromUrdf u = some r ∧ u.getRoot = some root ∧
    ∀ (eps : ℝ), 0 < eps → ∀ (q : ℝ → List ℝ) (j : u.J),
      AngleCurve r eps q (Function.update 0 (r.jid j) 1) →
      (u.jnt j).type ≠ "fixed" → (u.jnt j).type ≠ "prismatic" →
      norm3 (coords r (q 0) j • (u.jnt j).axis.getD 0) < eps →
      norm3 (coords r (q 0) j • (u.jnt j).axis.getD 0) ≠ 0 →
      ∃ js, spatialJacobian r eps [(u.jnt j).child] (q 0) = some [js] ∧
        ∀ X : ℝ → SE3, (∀ t, PathPose u eps root (coords r (q t)) (u.jnt j).child (X t)) →
          ¬ SpatialVel X (js.1 (r.jid j)) := by
  obtain ⟨r, root, h1, h2, hc⟩ := jac_core hw
  obtain ⟨r', _, h1', _, _, hinj, _⟩ := fk_path hw
  obtain rfl := Option.some_injective _ (h1.symm.trans h1')
  refine ⟨r, root, h1, h2, fun eps he q j hq hfx hp hlt h0 => ?_⟩
  obtain ⟨P, J, hpath, hval, -, hcol, hvel, hjac⟩ := hc eps he q _ hq
  have hl := hw.child_mem j
  have hf : (u.jnt j).isFixed = false := by simpa [UJoint.isFixed] using hfx
  refine ⟨_, (hjac [(u.jnt j).child] (by simpa using hl)).1, fun X hX hs => ?_⟩
  have hXP : X = fun t => P t (u.jnt j).child :=
    funext fun t => path_pose_unique hw h2 (hX t) (hpath t _ hl)
  subst hXP
  have hne : J (u.jnt j).child (r.jid j) ≠ 0 := by
    obtain ⟨k, hk⟩ := Option.ne_none_iff_exists'.mp (hw.supported j)
    rw [hcol j k hf hk]
    intro e
    have hadj := (se3_adjoint (P 0 (u.jnt j).child) (P 0 (u.jnt j).child) 0 (hval _ hl)
      (hval _ hl)).2.2.1
    have e2 := congrArg (fun v => (P 0 (u.jnt j).child).inverse.adjoint *ᵥ v) e
    simp only [Matrix.mulVec_mulVec, hadj, Matrix.one_mulVec, Matrix.mulVec_zero] at e2
    rcases axis_eq _ hk hf with ⟨h, -⟩ | ⟨-, rfl⟩
    · exact hp h
    · have e3 : (u.jnt j).axis.getD 0 = 0 := by
        have := congrArg SE3.ang e2
        rw [Kind.axis, SE3.ang_join] at this
        rw [this]
        ext i; fin_cases i <;> simp [SE3.ang]
      exact h0 (by rw [e3]; exact SO3.norm3_eq_zero.mpr (smul_zero _))
  have := spatial_unique (hval _ hl) (hvel _ hl) hs
  rw [Finset.sum_eq_single j] at this
  · simp only [Function.update_self, mul_one] at this
    have hg := gain_lt_one (u.jnt j) (coords r (q 0) j) hp hlt h0
    have : (gain eps (u.jnt j) (coords r (q 0) j) - 1) • J (u.jnt j).child (r.jid j) = 0 := by
      rw [sub_smul, this, one_smul, sub_self]
    rcases smul_eq_zero.mp this with h | h
    · linarith
    · exact hne h
  · intro i _ hi
    rw [Function.update_of_ne (fun e => hi (hinj _ _ e))]
    simp
  · simp

/-- A curve that meets these hypotheses: the elbow of `demo` moves at angle 1/200, the slide does
not, with threshold 1/100. -/
example : ∃ r : Robot demo, fromUrdf demo = some r ∧ ∃ q : ℝ → List ℝ,
    AngleCurve r (1 / 100) q (Function.update 0 (r.jid (2 : Fin 3)) 1) ∧
    norm3 (coords r (q 0) (2 : Fin 3) • (demo.jnt (2 : Fin 3)).axis.getD 0) = 1 / 200 := by
  obtain ⟨r, -, h1, -, h2, h3, h4, -⟩ := fk_path demo_wf
  have hd : r.dof = 2 := by rw [h2]; decide
  have hlt : r.jid (2 : Fin 3) < 2 := lt_of_lt_of_eq ((h4 _).mpr (by decide)) hd
  let q : ℝ → List ℝ := fun t => [1 / 200 + if r.jid (2 : Fin 3) = 0 then t else 0,
    1 / 200 + if r.jid (2 : Fin 3) = 1 then t else 0]
  have hq : coords r (q 0) (2 : Fin 3) = 1 / 200 := by
    unfold coords
    rcases (by omega : r.jid (2 : Fin 3) = 0 ∨ r.jid (2 : Fin 3) = 1) with h | h <;>
      · simp only [q]; erw [h]; norm_num
  have hn : norm3 (coords r (q 0) (2 : Fin 3) • (demo.jnt (2 : Fin 3)).axis.getD 0) = 1 / 200 := by
    rw [hq]; simp [demo, Urdf.jnt, norm3, dot3]
  refine ⟨r, h1, q, ⟨fun t => by simp [hd, q], ?_, ?_⟩, hn⟩
  · intro c
    have hid := (hasDerivAt_id (0 : ℝ)).const_add (1 / 200)
    have hcst := hasDerivAt_const (0 : ℝ) (1 / 200 : ℝ)
    rcases (by omega : r.jid (2 : Fin 3) = 0 ∨ r.jid (2 : Fin 3) = 1) with h | h <;>
      rcases c with _ | _ | c <;> simp only [q] <;> erw [h] <;>
        first | simpa using hid | simpa using hcst | simpa using hasDerivAt_const (0 : ℝ) (0 : ℝ)
  · intro j hf hp
    fin_cases j
    · exact absurd rfl hp
    · exact absurd rfl hf
    · refine ne_of_lt ?_
      refine lt_of_eq_of_lt hn ?_
      norm_num

/-- **C64.** The backward pass of forward kinematics is the gradient of every linear functional of
the requested poses, up to the same factors. -/
theorem fk_backward_partial {u : Urdf} (hw : u.WF) : ∃ (r : Robot u) (root : String),
    fromUrdf u = some r ∧ u.getRoot = some root ∧
    ∀ (eps : ℝ), 0 < eps → ∀ (q : ℝ → List ℝ) (q' : ℕ → ℝ), AngleCurve r eps q q' →
      ∀ (names : List String) (grads : List SE3), (∀ l ∈ names, l ∈ u.links) →
        ∃ g, fkBackward r eps names (q 0) grads = some g ∧
          ∀ X : String → ℝ → SE3,
            (∀ l ∈ names, ∀ t, PathPose u eps root (coords r (q t)) l (X l t)) →
            HasDerivAt (fun t => ((names.zip grads).map fun x => sip x.2 (X x.1 t)).sum)
              (∑ j : u.J, gain eps (u.jnt j) (coords r (q 0) j) * q' (r.jid j) * g (r.jid j)) 0 := by
  obtain ⟨r, root, h1, h2, hc⟩ := jac_core hw
  refine ⟨r, root, h1, h2, fun eps he q q' hq names grads hn => ?_⟩
  obtain ⟨P, J, hpath, hval, -, hcol, hvel, hjac⟩ := hc eps he q q' hq
  obtain ⟨g, hg1, hg2⟩ := (hjac names hn).2 grads
  refine ⟨g, hg1, fun X hX => ?_⟩
  have hXP : ∀ l ∈ names, X l = fun t => P t l := fun l hl =>
    funext fun t => path_pose_unique hw h2 (hX l hl t) (hpath t l (hn l hl))
  -- the derivative for one requested link
  have hone : ∀ x ∈ names.zip grads, HasDerivAt (fun t => sip x.2 (X x.1 t))
      (∑ j : u.J, gain eps (u.jnt j) (coords r (q 0) j) * q' (r.jid j) *
        vip (J x.1 (r.jid j))
          (SE3.project ⟨x.2.R * (P 0 x.1).Rᵀ + outer3 x.2.t (P 0 x.1).t, x.2.t⟩)) 0 := by
    intro x hx
    have hm := (List.of_mem_zip hx).1
    rw [hXP _ hm]
    have hv := hvel x.1 (hn _ hm)
    set η := ∑ j : u.J, (gain eps (u.jnt j) (coords r (q 0) j) * q' (r.jid j)) • J x.1 (r.jid j)
      with hη
    have hd : SE3.Deriv (fun t => P t x.1)
        ⟨SO3.hat (SE3.ang η) * (P 0 x.1).R, SO3.hat (SE3.ang η) *ᵥ (P 0 x.1).t + SE3.lin η⟩ := by
      unfold SpatialVel at hv
      simp only [SE3.toMatrix, SE3.hat, SE3.hom_mul] at hv
      have := SE3.of_hom_deriv hv
      simpa [SE3.Deriv] using this
    have hsum := sip_deriv hd x.2
    refine hsum.congr_deriv ?_
    have e1 : sip x.2 ⟨SO3.hat (SE3.ang η) * (P 0 x.1).R,
          SO3.hat (SE3.ang η) *ᵥ (P 0 x.1).t + SE3.lin η⟩
        = vip η (SE3.project ⟨x.2.R * (P 0 x.1).Rᵀ + outer3 x.2.t (P 0 x.1).t, x.2.t⟩) := by
      simp [sip, ip, vip, SE3.project, SO3.hat, SO3.project, SE3.ang, SE3.lin, SE3.join, outer3,
        Matrix.mul_apply, dotProduct, Fin.sum_univ_three, Fin.sum_univ_six]
      ring
    rw [e1, hη]
    simp only [vip, Finset.sum_apply, Pi.smul_apply, smul_eq_mul, Finset.sum_mul, Finset.mul_sum]
    rw [Finset.sum_comm]
    exact Finset.sum_congr rfl fun j _ => Finset.sum_congr rfl fun i _ => by ring
  have hlist : ∀ L : List (String × SE3), (∀ x ∈ L, x ∈ names.zip grads) →
      HasDerivAt (fun t => (L.map fun x => sip x.2 (X x.1 t)).sum)
        (L.map fun x => ∑ j : u.J, gain eps (u.jnt j) (coords r (q 0) j) * q' (r.jid j) *
          vip (J x.1 (r.jid j))
            (SE3.project ⟨x.2.R * (P 0 x.1).Rᵀ + outer3 x.2.t (P 0 x.1).t, x.2.t⟩)).sum 0 := by
    intro L
    induction L with
    | nil => intro _; simpa using hasDerivAt_const (0 : ℝ) (0 : ℝ)
    | cons x L ih =>
      intro hL
      simp only [List.map_cons, List.sum_cons]
      exact (hone x (hL x (by simp))).fun_add (ih fun y hy => hL y (by simp [hy]))
  refine (hlist _ fun x hx => hx).congr_deriv ?_
  simp only [hg2]
  generalize names.zip grads = L
  induction L with
  | nil => simp
  | cons x L ih =>
    simp only [List.map_cons, List.sum_cons, mul_add, Finset.sum_add_distrib, ih]

end Verif.Kin
