import Verif.Kin.Build

/-!
# Forward kinematics: lemmas

The loop of `_forward_kinematics_helper` computes the poses of all the related links.
-/

namespace Verif.Kin
open Verif.Geometry Matrix

/-! ## Specification -/

/-- Elementary rotations. -/
noncomputable def rotX (a : ℝ) : M3 :=
  !![1, 0, 0; 0, Real.cos a, -Real.sin a; 0, Real.sin a, Real.cos a]
noncomputable def rotY (a : ℝ) : M3 :=
  !![Real.cos a, 0, Real.sin a; 0, 1, 0; -Real.sin a, 0, Real.cos a]
noncomputable def rotZ (a : ℝ) : M3 :=
  !![Real.cos a, -Real.sin a, 0; Real.sin a, Real.cos a, 0; 0, 0, 1]

/-- The pose of a joint frame in its parent link's frame, by the URDF convention: `xyz` and the
fixed-axis rotations roll, pitch, yaw, both zero by default. -/
noncomputable def jointFrame (j : UJoint) : SE3 :=
  let p := j.origin.getD ⟨none, none⟩
  let rpy : V3 := p.rpy.getD 0
  ⟨rotZ (rpy 2) * rotY (rpy 1) * rotX (rpy 0), p.xyz.getD 0⟩

/-- The motion of a joint with coordinate `q`: a rotation about the axis (with `torchlie`'s
exponential), a translation along it, or nothing. -/
noncomputable def jointMotion (eps : ℝ) (j : UJoint) (q : ℝ) : SE3 :=
  if j.type = "fixed" then ⟨1, 0⟩
  else if j.type = "prismatic" then ⟨1, q • j.axis.getD 0⟩
  else ⟨SO3.exp eps (q • j.axis.getD 0), 0⟩

/-- The pose of a link in the root's frame: along the path of joints from the root in the file,
compose the joint frames and motions. -/
inductive PathPose (u : Urdf) (eps : ℝ) (root : String) (q : u.J → ℝ) : String → SE3 → Prop
  | root : PathPose u eps root q root ⟨1, 0⟩
  | step (j : u.J) {T : SE3} : PathPose u eps root q (u.jnt j).parent T →
      PathPose u eps root q (u.jnt j).child
        (T.compose ((jointFrame (u.jnt j)).compose (jointMotion eps (u.jnt j) (q j))))

/-! ## Lemmas -/

theorem vec3_zero : (![0, 0, 0] : V3) = 0 := by ext i; fin_cases i <;> rfl

theorem one_eq : SE3.one = ⟨1, 0⟩ := by rw [SE3.one, vec3_zero]

theorem rpyRot_eq (v : V3) : rpyRot v = rotZ (v 2) * rotY (v 1) * rotX (v 0) := by
  ext i j
  fin_cases i <;> fin_cases j <;>
    simp [rpyRot, rotX, rotY, rotZ, Matrix.mul_apply, Fin.sum_univ_three] <;> ring

theorem rot_zero : rotZ 0 * rotY 0 * rotX 0 = 1 := by
  have hx : rotX 0 = 1 := by ext i j; fin_cases i <;> fin_cases j <;> simp [rotX]
  have hy : rotY 0 = 1 := by ext i j; fin_cases i <;> fin_cases j <;> simp [rotY]
  have hz : rotZ 0 = 1 := by ext i j; fin_cases i <;> fin_cases j <;> simp [rotZ]
  rw [hx, hy, hz]; simp

theorem getOrigin_eq (j : UJoint) : getOrigin j.origin = jointFrame j := by
  unfold jointFrame
  rcases j.origin with _ | ⟨xyz, rpy⟩
  · simp only [getOrigin, Option.getD_none, Pi.zero_apply, rot_zero]; exact one_eq
  · rcases xyz with _ | xyz <;> rcases rpy with _ | rpy <;>
      simp [getOrigin, rot_zero, rpyRot_eq, vec3_zero]

namespace Build
variable {u : Urdf}

theorem isFixed_iff (j : UJoint) : j.isFixed = true ↔ j.type = "fixed" := by
  simp [UJoint.isFixed]

/-- `relative_pose` composes the origin and the motion. -/
theorem relativePose_eq (eps : ℝ) (j : UJoint) {k : Kind} (hk : j.kind = some k) (origin : SE3)
    (q : ℝ) : relativePose eps k origin (if j.isFixed = false then some q else none)
      = some (origin.compose (jointMotion eps j q)) := by
  unfold UJoint.kind at hk
  by_cases h1 : j.type = "revolute" ∨ j.type = "continuous"
  · have hf : j.type ≠ "fixed" := by rcases h1 with h | h <;> rw [h] <;> decide
    have hp : j.type ≠ "prismatic" := by rcases h1 with h | h <;> rw [h] <;> decide
    rw [if_pos h1] at hk
    obtain ⟨a, ha, rfl⟩ := Option.map_eq_some_iff.mp hk
    simp [relativePose, UJoint.isFixed, hf, jointMotion, hp, ha, SE3.compose]
  · rw [if_neg h1] at hk
    by_cases h2 : j.type = "prismatic"
    · rw [if_pos h2] at hk
      obtain ⟨a, ha, rfl⟩ := Option.map_eq_some_iff.mp hk
      simp [relativePose, UJoint.isFixed, jointMotion, h2, ha, SE3.compose]
    · rw [if_neg h2] at hk
      by_cases h3 : j.type = "fixed"
      · rw [if_pos h3] at hk
        obtain rfl := Option.some_injective _ hk
        simp [relativePose, UJoint.isFixed, jointMotion, h3, SE3.compose]
      · rw [if_neg h3] at hk; cases hk

/-- `k.axis` for the two kinds of moving joints. -/
theorem axis_eq (j : UJoint) {k : Kind} (hk : j.kind = some k) (hf : j.isFixed = false) :
    (j.type = "prismatic" ∧ k = .prismatic (j.axis.getD 0)) ∨
    (j.type ≠ "prismatic" ∧ k = .revolute (j.axis.getD 0)) := by
  unfold UJoint.kind at hk
  by_cases h1 : j.type = "revolute" ∨ j.type = "continuous"
  · have hp : j.type ≠ "prismatic" := by rcases h1 with h | h <;> rw [h] <;> decide
    rw [if_pos h1] at hk
    obtain ⟨a, ha, rfl⟩ := Option.map_eq_some_iff.mp hk
    exact Or.inr ⟨hp, by simp [ha]⟩
  · rw [if_neg h1] at hk
    by_cases h2 : j.type = "prismatic"
    · rw [if_pos h2] at hk
      obtain ⟨a, ha, rfl⟩ := Option.map_eq_some_iff.mp hk
      exact Or.inl ⟨h2, by simp [ha]⟩
    · rw [if_neg h2] at hk
      simp [UJoint.isFixed] at hf
      rw [if_neg hf] at hk; cases hk

section
variable {root : String} {r : Robot u} {d : String → ℕ} {P : String → SE3} {mot : u.J → SE3}

/-- The links whose poses are needed: the requested ones and those above them. -/
def Related (r : Robot u) (names : List String) (l : String) : Prop :=
  l ∈ names ∨ ∃ l' ∈ names, l ∈ r.anc l'

theorem mem_relatedIds (names : List String) (id : ℕ) :
    id ∈ relatedIds r names ↔ ∃ l, Related r names l ∧ r.lid l = id := by
  simp only [relatedIds, Finset.mem_sort, List.mem_toFinset, List.mem_append, List.mem_flatMap,
    List.mem_map, Related]
  constructor
  · rintro (⟨l', h1, l, h2, h3⟩ | ⟨l, h1, h2⟩)
    · exact ⟨l, Or.inr ⟨l', h1, h2⟩, h3⟩
    · exact ⟨l, Or.inl h1, h2⟩
  · rintro ⟨l, h1 | ⟨l', h1, h2⟩, h3⟩
    · exact Or.inr ⟨l, h1, h3⟩
    · exact Or.inl ⟨l', h1, l, h2, h3⟩

theorem root_or_child (hroot : ∀ l ∈ u.links, (∀ j : u.J, (u.jnt j).child ≠ l) ↔ l = root)
    {l : String} (hl : l ∈ u.links) : l = root ∨ ∃ j : u.J, (u.jnt j).child = l := by
  by_cases h : ∀ j : u.J, (u.jnt j).child ≠ l
  · exact Or.inl ((hroot l hl).mp h)
  · push Not at h; exact Or.inr h

/-- Ancestors are links, and the set of ancestors is closed upwards. -/
theorem anc_closed (hg : Good u root r) (hi : Inv d P mot r.heap)
    (hroot : ∀ l ∈ u.links, (∀ j : u.J, (u.jnt j).child ≠ l) ↔ l = root) :
    ∀ n, ∀ l ∈ u.links, d l ≤ n → ∀ a ∈ r.anc l, a ∈ u.links ∧
      ∀ j : u.J, (u.jnt j).child = a → r.heap.parent j ∈ r.anc l := by
  intro n
  induction n with
  | zero =>
    intro l hl hd a ha
    rcases root_or_child hroot hl with rfl | ⟨j, rfl⟩
    · rw [hg.anc_root.1] at ha; simp at ha
    · have := hi.depth j; omega
  | succ n ih =>
    intro l hl hd a ha
    rcases root_or_child hroot hl with rfl | ⟨j, rfl⟩
    · rw [hg.anc_root.1] at ha; simp at ha
    · rw [(hg.anc_child j).1] at ha ⊢
      have hdj := hi.depth j
      rcases List.mem_append.mp ha with ha | ha
      · obtain ⟨h1, h2⟩ := ih _ (hi.links j) (by omega) a ha
        exact ⟨h1, fun k hk => List.mem_append_left _ (h2 k hk)⟩
      · have ha := List.mem_singleton.mp ha
        subst ha
        refine ⟨hi.links j, fun k hk => List.mem_append_left _ ?_⟩
        rw [← hk, (hg.anc_child k).1]; simp

theorem related_closed (hg : Good u root r) (hi : Inv d P mot r.heap)
    (hroot : ∀ l ∈ u.links, (∀ j : u.J, (u.jnt j).child ≠ l) ↔ l = root) {names : List String}
    (hn : ∀ l ∈ names, l ∈ u.links) {l : String} (hl : Related r names l) :
    l ∈ u.links ∧ ∀ j : u.J, (u.jnt j).child = l → Related r names (r.heap.parent j) := by
  rcases hl with hl | ⟨l', hl', hl⟩
  · refine ⟨hn l hl, fun j hj => Or.inr ⟨l, hl, ?_⟩⟩
    rw [← hj, (hg.anc_child j).1]; simp
  · obtain ⟨h1, h2⟩ := anc_closed hg hi hroot _ l' (hn l' hl') le_rfl l hl
    exact ⟨h1, fun j hj => Or.inr ⟨l', hl', h2 j hj⟩⟩

theorem mem_links (hg : Good u root r)
    (hroot : ∀ l ∈ u.links, (∀ j : u.J, (u.jnt j).child ≠ l) ↔ l = root) {l : String}
    (hl : l ∈ u.links) : l ∈ r.links := by
  rw [hg.links_eq]
  rcases root_or_child hroot hl with rfl | ⟨j, rfl⟩
  · simp
  · exact List.mem_cons_of_mem _ (List.mem_map.mpr ⟨j, hg.joints_mem j, rfl⟩)

theorem links_lid (hg : Good u root r)
    (hroot : ∀ l ∈ u.links, (∀ j : u.J, (u.jnt j).child ≠ l) ↔ l = root) {l : String}
    (hl : l ∈ u.links) : r.links[r.lid l]? = some l := by
  have := mem_links hg hroot hl
  rw [Robot.lid, List.getElem?_eq_getElem (List.idxOf_lt_length_of_mem this),
    List.getElem_idxOf]

theorem lid_inj (hg : Good u root r)
    (hroot : ∀ l ∈ u.links, (∀ j : u.J, (u.jnt j).child ≠ l) ↔ l = root) {l l' : String}
    (hl : l ∈ u.links) (hl' : l' ∈ u.links) (h : r.lid l = r.lid l') : l = l' := by
  have h1 := links_lid hg hroot hl
  rw [h, links_lid hg hroot hl'] at h1
  exact (Option.some_injective _ h1).symm

/-- The parent link has a smaller id. -/
theorem lid_parent (hinj : ∀ i j : u.J, (u.jnt i).child = (u.jnt j).child → i = j)
    (hg : Good u root r) (j : u.J) : r.lid (r.heap.parent j) < r.lid (u.jnt j).child := by
  rw [lid_child hinj hg]
  rcases hg.parent_or j with e | ⟨k, e, hk, -⟩
  · rw [e, lid_root hg]; omega
  · rw [← e, lid_child hinj hg]; omega

/-- Every related set contains the root, with id 0. -/
theorem related_root (hg : Good u root r) (hi : Inv d P mot r.heap)
    (hroot : ∀ l ∈ u.links, (∀ j : u.J, (u.jnt j).child ≠ l) ↔ l = root) {names : List String}
    (hn : ∀ l ∈ names, l ∈ u.links) :
    ∀ n l, d l ≤ n → Related r names l → Related r names root := by
  intro n
  induction n with
  | zero =>
    intro l hd hl
    obtain ⟨h1, h2⟩ := related_closed hg hi hroot hn hl
    rcases root_or_child hroot h1 with rfl | ⟨j, rfl⟩
    · exact hl
    · have := hi.depth j; omega
  | succ n ih =>
    intro l hd hl
    obtain ⟨h1, h2⟩ := related_closed hg hi hroot hn hl
    rcases root_or_child hroot h1 with rfl | ⟨j, rfl⟩
    · exact hl
    · have := hi.depth j
      exact ih _ (by omega) (h2 j rfl)

theorem relatedIds_sorted (names : List String) : (relatedIds r names).Pairwise (· < ·) :=
  Finset.sortedLT_sort _ |>.pairwise

/-- `relatedIds` starts with 0, unless it is empty. -/
theorem relatedIds_cons (hg : Good u root r) (hi : Inv d P mot r.heap)
    (hroot : ∀ l ∈ u.links, (∀ j : u.J, (u.jnt j).child ≠ l) ↔ l = root) {names : List String}
    (hn : ∀ l ∈ names, l ∈ u.links) :
    relatedIds r names = [] ∨ ∃ ids, relatedIds r names = 0 :: ids := by
  rcases h : relatedIds r names with _ | ⟨id, ids⟩
  · exact Or.inl rfl
  · right
    have hid : id ∈ relatedIds r names := by rw [h]; simp
    obtain ⟨l, hl, -⟩ := (mem_relatedIds names id).mp hid
    have h0 : 0 ∈ relatedIds r names :=
      (mem_relatedIds names 0).mpr ⟨root, related_root hg hi hroot hn _ l le_rfl hl, lid_root hg⟩
    have hs := relatedIds_sorted (r := r) names
    rw [h] at hs h0
    rcases List.mem_cons.mp h0 with e | e
    · exact ⟨ids, by rw [← e]⟩
    · have := (List.pairwise_cons.mp hs).1 0 e
      omega

/-- The loop of `_forward_kinematics_helper`. -/
theorem fk_loop {eps : ℝ} {q : List ℝ} (hw : u.WF) (hg : Good u root r)
    (hroot : ∀ l ∈ u.links, (∀ j : u.J, (u.jnt j).child ≠ l) ↔ l = root)
    (hi : Inv d P (fun j => jointMotion eps (u.jnt j) (q.getD (r.jid j) 0)) r.heap)
    (hq : q.length = r.dof) {names : List String} (hn : ∀ l ∈ names, l ∈ u.links) :
    ∀ (ids pre : List ℕ) (poses : ℕ → Option SE3), relatedIds r names = pre ++ ids → 0 ∈ pre →
      (∀ l, Related r names l → r.lid l ∈ pre → poses (r.lid l) = some (P l)) →
      ∃ poses', ids.foldlM (fkStep r eps q) poses = some poses' ∧
        ∀ l, Related r names l → poses' (r.lid l) = some (P l) := by
  intro ids
  induction ids with
  | nil =>
    intro pre poses hpre h0 hp
    refine ⟨poses, rfl, fun l hl => hp l hl ?_⟩
    have : r.lid l ∈ relatedIds r names := (mem_relatedIds names _).mpr ⟨l, hl, rfl⟩
    simpa [hpre] using this
  | cons id ids ih =>
    intro pre poses hpre h0 hp
    have hid : id ∈ relatedIds r names := by rw [hpre]; simp
    obtain ⟨l, hl, hlid⟩ := (mem_relatedIds names id).mp hid
    obtain ⟨hlm, hlp⟩ := related_closed hg hi hroot hn hl
    have hs := relatedIds_sorted (r := r) names
    rw [hpre] at hs
    have hlt0 : 0 < id := (List.pairwise_append.mp hs).2.2 0 h0 id (by simp)
    rcases root_or_child hroot hlm with rfl | ⟨j, rfl⟩
    · rw [lid_root hg] at hlid; omega
    have hpr := hlp j rfl
    have hpid : r.lid (r.heap.parent j) ∈ pre := by
      have h1 : r.lid (r.heap.parent j) ∈ relatedIds r names :=
        (mem_relatedIds names _).mpr ⟨_, hpr, rfl⟩
      have h2 := lid_parent hw.child_inj hg j
      rw [hpre] at h1
      rcases List.mem_append.mp h1 with h1 | h1
      · exact h1
      · exfalso
        rcases List.mem_cons.mp h1 with h1 | h1
        · omega
        · have h3 := (List.pairwise_cons.mp (List.pairwise_append.mp hs).2.1).1 _ h1
          omega
    have hprev := hp _ hpr hpid
    obtain ⟨k, hk⟩ := Option.ne_none_iff_exists'.mp (hw.supported j)
    have harg : (if r.jid j < r.dof then q[r.jid j]? else none)
        = if (u.jnt j).isFixed = false then some (q.getD (r.jid j) 0) else none := by
      by_cases hf : (u.jnt j).isFixed = false
      · have hlt := (hg.dof_iff j).mpr hf
        have hlt' : r.jid j < q.length := by omega
        rw [if_pos hlt, if_pos hf, List.getD_eq_getElem?_getD, List.getElem?_eq_getElem hlt']
        rfl
      · have hlt : ¬ r.jid j < r.dof := fun h' => hf ((hg.dof_iff j).mp h')
        rw [if_neg hlt, if_neg hf]
    have hstep : fkStep r eps q poses id
        = some (Function.update poses (r.lid (u.jnt j).child) (some (P (u.jnt j).child))) := by
      unfold fkStep
      rw [← hlid, links_lid hg hroot hlm]
      simp only [Option.bind_eq_bind, Option.bind_some, parentJoint_child hw.child_inj, hk, harg,
        relativePose_eq eps (u.jnt j) hk, hprev]
      rw [hi.pose j]
    rw [List.foldlM_cons, hstep]
    simp only [Option.bind_eq_bind, Option.bind_some]
    refine ih (pre ++ [id]) _ (by simpa using hpre) (by simp [h0]) ?_
    intro l' hl' hm
    by_cases e : r.lid l' = r.lid (u.jnt j).child
    · rw [e, Function.update_self,
        lid_inj hg hroot (related_closed hg hi hroot hn hl').1 hlm e]
    · rw [Function.update_of_ne e]
      refine hp l' hl' ?_
      rcases List.mem_append.mp hm with hm | hm
      · exact hm
      · rw [List.mem_singleton] at hm; omega

/-- `_forward_kinematics_helper` gives the poses of the related links. -/
theorem fkHelper_spec {eps : ℝ} {q : List ℝ} (hw : u.WF) (hg : Good u root r)
    (hroot : ∀ l ∈ u.links, (∀ j : u.J, (u.jnt j).child ≠ l) ↔ l = root)
    (hi : Inv d P (fun j => jointMotion eps (u.jnt j) (q.getD (r.jid j) 0)) r.heap)
    (hPr : P root = SE3.one) (hq : q.length = r.dof) {names : List String}
    (hn : ∀ l ∈ names, l ∈ u.links) :
    ∃ poses, fkHelper r eps names q = some poses ∧
      ∀ l, Related r names l → poses (r.lid l) = some (P l) := by
  unfold fkHelper
  rw [if_pos hq]
  rcases relatedIds_cons hg hi hroot hn with h | ⟨ids, h⟩
  · refine ⟨_, by rw [h]; rfl, fun l hl => ?_⟩
    have : r.lid l ∈ relatedIds r names := (mem_relatedIds names _).mpr ⟨l, hl, rfl⟩
    rw [h] at this; simp at this
  · rw [h]
    refine fk_loop hw hg hroot hi hq hn ids [0] _ h (by simp) ?_
    intro l hl hm
    have hm : r.lid l = 0 := by simpa using hm
    have : l = root := lid_inj hg hroot (related_closed hg hi hroot hn hl).1 hg.root_mem
      (hm.trans (lid_root hg).symm)
    subst this
    rw [hm]; simp [hPr]

theorem mapM_some {α β : Type} {f : α → Option β} {g : α → β} :
    ∀ {l : List α}, (∀ a ∈ l, f a = some (g a)) → l.mapM f = some (l.map g)
  | [], _ => rfl
  | a :: l, h => by
    rw [List.mapM_cons, h a (by simp), mapM_some (l := l) fun b hb => h b (by simp [hb])]
    rfl

theorem forwardKinematics_spec {eps : ℝ} {q : List ℝ} (hw : u.WF) (hg : Good u root r)
    (hroot : ∀ l ∈ u.links, (∀ j : u.J, (u.jnt j).child ≠ l) ↔ l = root)
    (hi : Inv d P (fun j => jointMotion eps (u.jnt j) (q.getD (r.jid j) 0)) r.heap)
    (hPr : P root = SE3.one) (hq : q.length = r.dof) {names : List String}
    (hn : ∀ l ∈ names, l ∈ u.links) :
    forwardKinematics r eps names q = some (names.map P) := by
  obtain ⟨poses, h1, h2⟩ := fkHelper_spec hw hg hroot hi hPr hq hn
  have hids : linkIds r names = some (names.map r.lid) := by
    unfold linkIds
    rw [if_pos]
    rw [List.all_eq_true]
    intro l hl
    simpa using hn l hl
  unfold forwardKinematics
  rw [hids, h1]
  simp only [Option.bind_eq_bind, Option.bind_some]
  rw [List.mapM_map]
  exact mapM_some fun l hl => h2 l (Or.inl hl)

end
end Build
end Verif.Kin
