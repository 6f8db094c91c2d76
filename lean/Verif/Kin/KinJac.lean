import Verif.Kin.Jac

/-!
# The Jacobian functions return the joint columns: lemmas
-/

namespace Verif.Kin
open Verif.Geometry Matrix

namespace Build
variable {u : Urdf} {root : String} {r : Robot u} {d : String → ℕ} {P : String → SE3}
  {mot : u.J → SE3}

/-- The loop of `_forward_kinematics_backward_helper`. -/
theorem jposes_spec (hw : u.WF) (hg : Good u root r)
    (hroot : ∀ l ∈ u.links, (∀ j : u.J, (u.jnt j).child ≠ l) ↔ l = root)
    (hi : Inv d P mot r.heap) {names : List String} (hn : ∀ l ∈ names, l ∈ u.links)
    {poses : ℕ → Option SE3} (hp : ∀ l, Related r names l → poses (r.lid l) = some (P l)) :
    ∀ (ids pre : List ℕ) (cols : ℕ → Fin 6 → ℝ), relatedIds r names = pre ++ ids → 0 ∈ pre →
      (∀ k : u.J, (u.jnt k).isFixed = false → r.lid (u.jnt k).child ∈ pre →
        cols (r.jid k) = colOf r P (r.jid k)) →
      ∃ cols', jposesLoop r poses ids cols = some cols' ∧
        ∀ k : u.J, (u.jnt k).isFixed = false → Related r names (u.jnt k).child →
          cols' (r.jid k) = colOf r P (r.jid k) := by
  intro ids
  induction ids with
  | nil =>
    intro pre cols hpre h0 hc
    refine ⟨cols, rfl, fun k hk hr => hc k hk ?_⟩
    have : r.lid (u.jnt k).child ∈ relatedIds r names := (mem_relatedIds names _).mpr ⟨_, hr, rfl⟩
    simpa [hpre] using this
  | cons id ids ih =>
    intro pre cols hpre h0 hc
    have hid : id ∈ relatedIds r names := by rw [hpre]; simp
    obtain ⟨l, hl, hlid⟩ := (mem_relatedIds names id).mp hid
    obtain ⟨hlm, hlp⟩ := related_closed hg hi hroot hn hl
    have hs := relatedIds_sorted (r := r) names
    rw [hpre] at hs
    have hlt0 : 0 < id := (List.pairwise_append.mp hs).2.2 0 h0 id (by simp)
    rcases root_or_child hroot hlm with rfl | ⟨j, rfl⟩
    · rw [lid_root hg] at hlid; omega
    unfold jposesLoop
    rw [← hlid, links_lid hg hroot hlm]
    simp only [Option.bind_eq_bind, Option.bind_some, parentJoint_child hw.child_inj]
    by_cases hf : r.jid j ≥ r.dof
    · rw [if_pos hf]
      refine ⟨cols, rfl, fun k hk hr => hc k hk ?_⟩
      have h1 : r.lid (u.jnt k).child ∈ relatedIds r names :=
        (mem_relatedIds names _).mpr ⟨_, hr, rfl⟩
      have h2 := (hg.dof_iff k).mpr hk
      have h3 := lid_child hw.child_inj hg k
      have h4 := lid_child hw.child_inj hg j
      rw [hpre] at h1
      rcases List.mem_append.mp h1 with h1 | h1
      · exact h1
      · exfalso
        rcases List.mem_cons.mp h1 with h1 | h1
        · omega
        · have h5 := (List.pairwise_cons.mp (List.pairwise_append.mp hs).2.1).1 _ h1
          omega
    · rw [if_neg hf]
      obtain ⟨k, hk⟩ := Option.ne_none_iff_exists'.mp (hw.supported j)
      simp only [hk, hp _ hl, Option.bind_some]
      refine ih (pre ++ [id]) _ (by simpa using hpre) (by simp [h0]) ?_
      intro k' hk' hm
      by_cases e : r.jid k' = r.jid j
      · rw [e, Function.update_self]
        simp [colOf, joints_jid hg, hk]
      · rw [Function.update_of_ne e]
        refine hc k' hk' ?_
        rcases List.mem_append.mp hm with hm | hm
        · exact hm
        · rw [List.mem_singleton] at hm
          have h3 := lid_child hw.child_inj hg k'
          have h4 := lid_child hw.child_inj hg j
          omega

theorem jposes_tail (hw : u.WF) (hg : Good u root r)
    (hroot : ∀ l ∈ u.links, (∀ j : u.J, (u.jnt j).child ≠ l) ↔ l = root)
    (hi : Inv d P mot r.heap) {names : List String} (hn : ∀ l ∈ names, l ∈ u.links)
    {poses : ℕ → Option SE3} (hp : ∀ l, Related r names l → poses (r.lid l) = some (P l)) :
    ∃ cols, jposesLoop r poses (relatedIds r names).tail (fun _ => 0) = some cols ∧
        ∀ l ∈ names, ∀ c ∈ r.ancJ l, cols c = colOf r P c := by
  have key : ∃ cols', jposesLoop r poses (relatedIds r names).tail (fun _ => 0) = some cols' ∧
        ∀ k : u.J, (u.jnt k).isFixed = false → Related r names (u.jnt k).child →
          cols' (r.jid k) = colOf r P (r.jid k) := by
    rcases relatedIds_cons hg hi hroot hn with h | ⟨ids, h⟩
    · refine ⟨fun _ => 0, by rw [h]; rfl, fun k hk hr => ?_⟩
      have : r.lid (u.jnt k).child ∈ relatedIds r names := (mem_relatedIds names _).mpr ⟨_, hr, rfl⟩
      rw [h] at this; simp at this
    · rw [h]
      refine jposes_spec hw hg hroot hi hn hp ids [0] _ h (by simp) ?_
      intro k _ hm
      have h3 := lid_child hw.child_inj hg k
      rw [List.mem_singleton] at hm
      omega
  obtain ⟨cols, h1, h2⟩ := key
  refine ⟨cols, h1, fun l hl c hc => ?_⟩
  obtain ⟨-, -, k, rfl, hk, hr⟩ := ancJ_mem hw.child_inj hg hi hroot _ l (hn l hl) le_rfl c hc
  refine h2 k hk ?_
  rcases hr with hr | hr
  · exact Or.inl (hr ▸ hl)
  · exact Or.inr ⟨l, hl, hr⟩

theorem linkIds_spec {names : List String} (hn : ∀ l ∈ names, l ∈ u.links) :
    linkIds r names = some (names.map r.lid) := by
  unfold linkIds
  rw [if_pos]
  rw [List.all_eq_true]
  intro l hl
  simpa using hn l hl

theorem lookup_zip {f : String → ℕ} {g : String → SE3} :
    ∀ {S : List String}, (∀ a ∈ S, ∀ b ∈ S, f a = f b → a = b) → ∀ {l : String}, l ∈ S →
      ((S.map f).zip (S.map g)).lookup (f l) = some (g l)
  | [], _, l, hl => by simp at hl
  | a :: S, hinj, l, hl => by
    simp only [List.map_cons, List.zip_cons_cons, List.lookup_cons]
    by_cases e : f l = f a
    · rw [hinj l hl a (by simp) e]; simp
    · have e' : (f l == f a) = false := by simpa using e
      rw [e']
      refine lookup_zip (fun x hx y hy => hinj x (by simp [hx]) y (by simp [hy])) ?_
      rcases List.mem_cons.mp hl with h | h
      · exact absurd (by rw [h]) e
      · exact h

/-- `forward_kinematics_spatial_jacobian` returns the columns and the poses. -/
theorem spatialJacobian_spec {eps : ℝ} {q : List ℝ} (hw : u.WF) (hg : Good u root r)
    (hroot : ∀ l ∈ u.links, (∀ j : u.J, (u.jnt j).child ≠ l) ↔ l = root)
    (hi : Inv d P (fun j => jointMotion eps (u.jnt j) (q.getD (r.jid j) 0)) r.heap)
    (hPr : P root = SE3.one) (hq : q.length = r.dof) {names : List String}
    (hn : ∀ l ∈ names, l ∈ u.links) :
    spatialJacobian r eps names q = some (names.map fun l =>
      (fun c => if c ∈ r.ancJ l then colOf r P c else 0, P l)) := by
  let S := (relatedIds r names).map fun id => (r.links[id]?).getD ""
  have hS : ∀ id ∈ relatedIds r names, ∃ l, Related r names l ∧ r.lid l = id ∧
      r.links[id]? = some l := by
    intro id hid
    obtain ⟨l, hl, rfl⟩ := (mem_relatedIds names id).mp hid
    exact ⟨l, hl, rfl, links_lid hg hroot (related_closed hg hi hroot hn hl).1⟩
  have hsel : ((relatedIds r names).mapM fun id => r.links[id]?) = some S := by
    refine mapM_some fun id hid => ?_
    obtain ⟨l, -, -, h⟩ := hS id hid
    rw [h]; rfl
  have hmap : relatedIds r names = S.map r.lid := by
    rw [List.map_map]
    conv_lhs => rw [← List.map_id (relatedIds r names)]
    refine List.map_congr_left fun id hid => ?_
    obtain ⟨l, -, h1, h2⟩ := hS id hid
    simp [h2, h1]
  have hSl : ∀ l ∈ S, Related r names l := by
    intro l hl
    obtain ⟨id, hid, rfl⟩ := List.mem_map.mp hl
    obtain ⟨l, h1, -, h2⟩ := hS id hid
    simpa [h2] using h1
  have hSm : ∀ l ∈ S, l ∈ u.links := fun l hl => (related_closed hg hi hroot hn (hSl l hl)).1
  have hmem : ∀ l, Related r names l → l ∈ S := by
    intro l hl
    refine List.mem_map.mpr ⟨r.lid l, (mem_relatedIds names _).mpr ⟨l, hl, rfl⟩, ?_⟩
    rw [links_lid hg hroot (related_closed hg hi hroot hn hl).1]; rfl
  have hout := forwardKinematics_spec hw hg hroot hi hPr hq hSm
  have hp : ∀ l, Related r names l →
      ((relatedIds r names).zip (S.map P)).lookup (r.lid l) = some (P l) := by
    intro l hl
    rw [hmap]
    exact lookup_zip (fun a ha b hb e => lid_inj hg hroot (hSm a ha) (hSm b hb) e) (hmem l hl)
  obtain ⟨cols, h1, h2⟩ := jposes_tail hw hg hroot hi hn
    (poses := fun id => ((relatedIds r names).zip (S.map P)).lookup id) hp
  unfold spatialJacobian
  rw [linkIds_spec hn]
  simp only [Option.bind_eq_bind, Option.bind_some, hsel, hout, h1]
  rw [List.mapM_map]
  refine mapM_some fun l hl => ?_
  simp only [Function.comp_apply, hp l (Or.inl hl), links_lid hg hroot (hn l hl), Option.bind_some]
  congr 2
  funext c
  by_cases hc : c ∈ r.ancJ l
  · rw [if_pos hc, if_pos hc, h2 l hl c hc]
  · rw [if_neg hc, if_neg hc]

theorem ancJ_of_jointIds {names : List String} {l : String} (hl : l ∈ names) {c : ℕ}
    (hc : c ∈ r.ancJ l) : c ∈ jointIds r names := by
  simp only [jointIds, Finset.mem_sort, List.mem_toFinset, List.mem_flatMap]
  exact ⟨l, hl, hc⟩

theorem vip_sum_right {n : ℕ} (a : Fin n → ℝ) (l : List (Fin n → ℝ)) :
    vip a l.sum = (l.map (vip a)).sum := by
  induction l with
  | nil => simp [vip]
  | cons b l ih =>
    rw [List.sum_cons, List.map_cons, List.sum_cons, ← ih]
    simp [vip, mul_add, Finset.sum_add_distrib]

/-- `ForwardKinematics.backward`. -/
theorem fkBackward_spec {eps : ℝ} {q : List ℝ} (hw : u.WF) (hg : Good u root r)
    (hroot : ∀ l ∈ u.links, (∀ j : u.J, (u.jnt j).child ≠ l) ↔ l = root)
    (hi : Inv d P (fun j => jointMotion eps (u.jnt j) (q.getD (r.jid j) 0)) r.heap)
    (hPr : P root = SE3.one) (hq : q.length = r.dof) {names : List String}
    (hn : ∀ l ∈ names, l ∈ u.links) (grads : List SE3) :
    ∃ g, fkBackward r eps names q grads = some g ∧ ∀ c, g c = ((names.zip grads).map fun x =>
      vip (if c ∈ r.ancJ x.1 then colOf r P c else 0)
        (SE3.project ⟨x.2.R * (P x.1).Rᵀ + outer3 x.2.t (P x.1).t, x.2.t⟩)).sum := by
  obtain ⟨poses, h1, h2⟩ := fkHelper_spec hw hg hroot hi hPr hq hn
  obtain ⟨cols, h3, h4⟩ := jposes_tail hw hg hroot hi hn h2
  have hrets : (names.map r.lid).mapM poses = some (names.map P) := by
    rw [List.mapM_map]
    exact mapM_some fun l hl => h2 l (Or.inl hl)
  have hls : ((names.map r.lid).mapM fun id => r.links[id]?) = some names := by
    rw [List.mapM_map]
    have : names = names.map id := by simp
    conv_rhs => rw [this]
    exact mapM_some fun l hl => links_lid hg hroot (hn l hl)
  unfold fkBackward
  rw [linkIds_spec hn, h1]
  simp only [Option.bind_eq_bind, Option.bind_some, hrets, h3, hls]
  refine ⟨_, rfl, fun c => ?_⟩
  have hzip : names.zip ((names.map P).zip grads)
      = (names.zip grads).map fun x => (x.1, (P x.1, x.2)) := by
    clear hls hrets h1 h2 h3 h4 hn
    induction names generalizing grads with
    | nil => rfl
    | cons l ls ih => rcases grads with _ | ⟨g, gs⟩ <;> simp [ih]
  have hmemz : ∀ x ∈ names.zip grads, x.1 ∈ names := fun x hx => (List.of_mem_zip hx).1
  by_cases hc : c ∈ jointIds r names
  · rw [if_pos hc, vip_sum_right, hzip, List.map_map, List.map_map]
    congr 1
    refine List.map_congr_left fun x hx => ?_
    simp only [Function.comp_apply]
    by_cases hc' : c ∈ r.ancJ x.1
    · rw [if_pos hc', if_pos hc', h4 _ (hmemz x hx) c hc']
    · rw [if_neg hc', if_neg hc']; simp [vip]
  · rw [if_neg hc]
    symm
    refine List.sum_eq_zero fun y hy => ?_
    obtain ⟨x, hx, rfl⟩ := List.mem_map.mp hy
    have hc' : c ∉ r.ancJ x.1 := fun h => hc (ancJ_of_jointIds (hmemz x hx) h)
    rw [if_neg hc']; simp [vip]

end Build
end Verif.Kin
